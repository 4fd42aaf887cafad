/-
C74: putting a node at an end of a network is the same as a pipeline of the two.
-/
import Verif.Opt.Combine
import Verif.Opt.Pure

namespace FF.Opt

variable {α : Type}

theorem ok_bind {β γ : Type} (b : β) (f : β → Res γ) : (Res.ok b).bind f = f b := rfl

theorem set_get {β : Type} {l : List β} {i : Nat} {x : β} (h : l[i]? = some x) : l.set i x = l := by
  apply List.ext_getElem?
  intro j
  rw [List.getElem?_set]
  split
  · rename_i hij; subst hij; rw [h]; simp [get_lt h]
  · rfl

/-! ### Dealing and interleaving under a map or a filter -/

theorem Split.lift {f : α → Option α} {zs : List (Option Nat × α)} {W : List (List α)}
    (h : Split zs W) : ∀ (ys : List α) (wss : List (List α)), zs = free ys →
      W = wss.map (List.filterMap f) → ∃ vs, Split (free vs) wss ∧ ys = vs.filterMap f := by
  induction h with
  | nil k =>
    intro ys wss h1 h2
    have : ys = [] := by cases ys with
      | nil => rfl
      | cons _ _ => simp [free] at h1
    subst this
    refine ⟨wss.flatten, shuffle_flatten wss, ?_⟩
    rw [List.filterMap_flatten, ← h2]
    simp
  | @cons r x zs W' i l hs hi hr ih =>
    intro ys wss h1 h2
    cases ys with
    | nil => simp [free] at h1
    | cons y ys =>
      simp only [free, List.map_cons, List.cons.injEq, Prod.mk.injEq] at h1
      obtain ⟨⟨h1a, h1b⟩, h1c⟩ := h1
      subst h1b
      have hil : i < W'.length := get_lt hi
      have hlen : wss.length = W'.length := by
        have := congrArg List.length h2
        simpa using this.symm
      have hw : ∃ w, wss[i]? = some w := ⟨_, List.getElem?_eq_getElem (by omega)⟩
      obtain ⟨w, hw⟩ := hw
      have hfw : w.filterMap f = x :: l := by
        have h3 := congrArg (fun L => L[i]?) h2
        simp only [List.getElem?_set_self hil, List.getElem?_map, hw, Option.map_some,
          Option.some.injEq] at h3
        exact h3.symm
      obtain ⟨pre, a, post, e1, e2, e3, e4⟩ := List.filterMap_eq_cons_iff.1 hfw
      have hW : W' = (wss.set i post).map (List.filterMap f) := by
        rw [List.map_set, e4, ← h2, List.set_set]
        exact (set_get hi).symm
      obtain ⟨vs, hv1, hv2⟩ := ih ys (wss.set i post) h1c hW
      have hp := hv1.push (i := i) (l := post)
        (List.getElem?_set_self (by omega)) (pre ++ [a])
      refine ⟨(pre ++ [a]) ++ vs, ?_, ?_⟩
      · rw [free_append]
        have : ((wss.set i post).set i (pre ++ [a] ++ post)) = wss := by
          rw [List.set_set]
          have : pre ++ [a] ++ post = w := by simp [e1]
          rw [this]
          exact set_get hw
        rw [this] at hp
        exact hp
      · have hpre : pre.filterMap f = [] := by
          rw [List.filterMap_eq_nil_iff]; exact e2
        simp [List.filterMap_append, hpre, e3, hv2]

theorem Split.flatMap {zs : List (Option Nat × α)} {W : List (List α)} (F : α → List α)
    (h : Split zs W) : ∀ (vs : List α), zs = free vs →
      Split (free (vs.flatMap F)) (W.map (List.flatMap F)) := by
  induction h with
  | nil k =>
    intro vs h1
    cases vs with
    | nil => simpa [free] using Split.nil k
    | cons _ _ => simp [free] at h1
  | @cons r x zs W' i l hs hi hr ih =>
    intro vs h1
    cases vs with
    | nil => simp [free] at h1
    | cons v vs =>
      simp only [free, List.map_cons, List.cons.injEq, Prod.mk.injEq] at h1
      obtain ⟨⟨h1a, h1b⟩, h1c⟩ := h1
      subst h1b
      have := (ih vs h1c).push (i := i) (l := l.flatMap F) (by simp [hi]) (F x)
      rw [List.flatMap_cons, free_append, List.map_set, List.flatMap_cons]
      exact this

theorem flatMap_toList (f : α → Option α) (xs : List α) :
    xs.flatMap (fun x => (f x).toList) = xs.filterMap f := by
  rw [List.filterMap_eq_flatMap_toList]

theorem Shuffle.lift (f : α → Option α) (wss : List (List α)) (ys : List α) :
    Shuffle (wss.map (List.filterMap f)) ys ↔ ∃ vs, Shuffle wss vs ∧ ys = vs.filterMap f := by
  constructor
  · intro h
    exact Split.lift h ys wss rfl rfl
  · rintro ⟨vs, h, rfl⟩
    have := Split.flatMap (fun x => (f x).toList) h vs rfl
    simpa only [flatMap_toList, Shuffle, show (List.flatMap fun x => (f x).toList) =
      List.filterMap f from funext fun l => flatMap_toList f l] using this

theorem Split.back {f : α → Option α} : ∀ (xs : List α) {W : List (List α)}, W ≠ [] →
    Split (free (xs.filterMap f)) W → ∃ zss, Split (free xs) zss ∧ W = zss.map (List.filterMap f)
  | [], W, _, h => by
    generalize hz : free (([] : List α).filterMap f) = zs at h
    cases h with
    | nil k => exact ⟨List.replicate k [], Split.nil k, by simp⟩
    | cons _ _ _ => simp [free] at hz
  | x :: xs, W, hW, h => by
    cases hf : f x with
    | none =>
      rw [List.filterMap_cons_none hf] at h
      obtain ⟨zss, h1, h2⟩ := Split.back xs hW h
      have hz : zss ≠ [] := by rintro rfl; simp at h2; exact hW h2
      obtain ⟨z, zss', rfl⟩ := List.exists_cons_of_ne_nil hz
      refine ⟨(x :: z) :: zss', ?_, ?_⟩
      · have := Split.cons (r := none) (x := x) (i := 0) h1 (by rfl) (Or.inl rfl)
        simpa [free] using this
      · rw [h2]; simp [List.filterMap_cons_none hf]
    | some y =>
      rw [List.filterMap_cons_some hf] at h
      generalize hz : free (y :: xs.filterMap f) = zs at h
      cases h with
      | nil k => simp [free] at hz
      | @cons r x' zs' W' i l hs hi hr =>
        simp only [free, List.map_cons, List.cons.injEq, Prod.mk.injEq] at hz
        obtain ⟨⟨_, hz2⟩, hz3⟩ := hz
        subst hz2
        have hW' : W' ≠ [] := by rintro rfl; simp at hi
        have hs' : Split (free (xs.filterMap f)) W' := by rw [free, hz3]; exact hs
        obtain ⟨zss, h1, h2⟩ := Split.back xs hW' hs'
        rw [h2, List.getElem?_map] at hi
        obtain ⟨z, hzi, hzl⟩ := Option.map_eq_some_iff.1 hi
        refine ⟨zss.set i (x :: z), Split.cons h1 hzi (Or.inl rfl), ?_⟩
        rw [List.map_set, h2, List.filterMap_cons_some hf, hzl]

/-! ### Nodes -/

theorem Node.Maps.beh {n : Node α} {f : α → Option α} (h : n.Maps f) (xs : List α) :
    vals (n.beh xs) = xs.filterMap f := by
  rw [← flatMap_toList]; exact beh_pure h xs

theorem moNode_run (e : Node α) (h xs : List α) :
    (moNode e).run h xs = free (vals (e.run h xs)) := by
  induction xs generalizing h with
  | nil => rfl
  | cons x xs ih =>
    simp only [Node.run, ih, vals_append, free_append]
    rfl

theorem moNode_beh (e : Node α) (xs : List α) : (moNode e).beh xs = free (vals (e.beh xs)) :=
  moNode_run e [] xs

theorem emits_comb (a b : Node α) (xs : List α) :
    (combNode a b).emits xs = b.emits (vals (a.beh xs)) := by
  unfold Node.emits
  rw [beh_comb]; rfl

/-! ### Emitters and collectors -/

theorem combEmit_ok {h : Hdr α} {node : Node α} (hok : EmitOk node h) :
    ∃ h', combEmit h node = .ok h' ∧ h'.coll = h.coll ∧ h'.ordered = h.ordered ∧
      ∀ xs, emitOut h'.emitter xs = emitOut h.emitter (vals (node.beh xs)) := by
  unfold combEmit
  cases he : h.emitter with
  | none =>
    rcases hok with hk | ⟨hm, hc⟩
    · rw [he] at hk; cases hk
    · refine ⟨{ h with emitter := some node }, by simp [Hdr.addEmit, hc], rfl, rfl, ?_⟩
      intro xs
      exact emitOut_std hm xs
  | some e =>
    refine ⟨{ h with emitter := some (combNode node (if e.mo then e else moNode e)) }, ?_, rfl,
      rfl, ?_⟩
    · have : (combNode node (if e.mo then e else moNode e)).mo = true := by
        simp only [combNode]
        split
        · assumption
        · rfl
      simp [Hdr.addEmit, this]
    · intro xs
      simp only [emitOut, emits_comb]
      by_cases hm : e.mo = true
      · simp [hm]
      · simp only [hm, Bool.false_eq_true, if_false, Node.emits, moNode_beh]
        simp [moNode]

theorem combEmit_same {h h' : Hdr α} {node : Node α} (hok : EmitOk node h)
    (hh : combEmit h node = .ok h') (ws : List (Sk α)) :
    Same (.farm h' ws) (.pipe [.leaf node, .farm h ws]) := by
  obtain ⟨h2, e1, e2, e3, e4⟩ := combEmit_ok hok
  rw [hh] at e1; cases e1
  intro xs ys
  simp only [sem, semPipe, e2, e3, e4]
  constructor
  · intro hs; exact ⟨_, rfl, _, hs, rfl⟩
  · rintro ⟨_, rfl, _, hs, rfl⟩; exact hs

theorem combColl_same {h : Hdr α} {node : Node α} (hok : (combColl h node).1 = true)
    (ws : List (Sk α)) : Same (.farm (combColl h node).2 ws) (.pipe [.farm h ws, .leaf node]) := by
  unfold combColl at hok ⊢
  cases hc : h.getColl with
  | none => rw [hc] at hok; cases hok
  | some c =>
    have hcc : h.coll = .node c := by
      unfold Hdr.getColl at hc
      split at hc
      · cases hc; assumption
      · cases hc
    have hor : (h.removeColl.addColl (some (combNode c node))).ordered = h.ordered := by
      simp only [Hdr.addColl, Hdr.removeColl]; split <;> rfl
    have hem : (h.removeColl.addColl (some (combNode c node))).emitter = h.emitter := by
      simp only [Hdr.addColl, Hdr.removeColl]; split <;> rfl
    have hco : (h.removeColl.addColl (some (combNode c node))).coll = .node (combNode c node) := rfl
    intro xs ys
    simp only [sem, semPipe, hor, hem, hco, hcc, collOut, beh_comb, Coll.gathers]
    constructor
    · rintro ⟨h0, vs, h1, h2⟩
      exact ⟨_, ⟨h0, vs, rfl, h2⟩, _, h1, rfl⟩
    · rintro ⟨_, ⟨h0, vs, rfl, h2⟩, _, h1, rfl⟩
      exact ⟨h0, vs, h1, h2⟩

/-! ### The node after a network -/

/-- `s'` is `s` followed by the map or filter `f`. -/
def Post (f : α → Option α) (s' s : Sk α) : Prop :=
  ∀ xs ys, sem s' xs ys ↔ ∃ zs, sem s xs zs ∧ ys = zs.filterMap f

theorem semEach_post {f : α → Option α} {ws' ws : List (Sk α)} (h : All2 (Post f) ws' ws)
    (a b : List (List α)) :
    semEach ws' a b ↔ ∃ m, semEach ws a m ∧ b = m.map (List.filterMap f) := by
  induction h generalizing a b with
  | nil =>
    cases a <;> cases b <;> simp [semEach]
    all_goals (try (intro m hm; cases m <;> simp_all [semEach]))
  | @cons w' w ws' ws h1 _ ih =>
    constructor
    · intro hs
      cases a with
      | nil => cases b <;> simp [semEach] at hs
      | cons x a =>
        cases b with
        | nil => simp [semEach] at hs
        | cons y b =>
          simp only [semEach] at hs
          obtain ⟨z, hz1, hz2⟩ := (h1 x y).1 hs.1
          obtain ⟨m, hm1, hm2⟩ := (ih a b).1 hs.2
          exact ⟨z :: m, by simp only [semEach]; exact ⟨hz1, hm1⟩, by simp [hz2, hm2]⟩
    · rintro ⟨m, hm, rfl⟩
      cases a with
      | nil => cases m <;> simp [semEach] at hm
      | cons x a =>
        cases m with
        | nil => simp [semEach] at hm
        | cons y m =>
          simp only [semEach, List.map_cons] at hm ⊢
          exact ⟨(h1 _ _).2 ⟨y, hm.1, rfl⟩, (ih _ _).2 ⟨m, hm.2, rfl⟩⟩

theorem semA2A_post {f : α → Option α} {r' r : List (Sk α)} (h : All2 (Post f) r' r)
    (l : List (Sk α)) (zs : List (Option Nat × α)) (ys : List α) :
    semWorkers [.a2a l r'] zs ys ↔ ∃ vs, semWorkers [.a2a l r] zs vs ∧ ys = vs.filterMap f := by
  simp only [semWorkers, h.length]
  constructor
  · rintro ⟨zss, os, rows, cs, wss, h1, h2, h3, h4, h5, h6, h7⟩
    obtain ⟨m, hm, rfl⟩ := (semEach_post h cs wss).1 h6
    obtain ⟨vs, hv, rfl⟩ := (Shuffle.lift f m ys).1 h7
    exact ⟨vs, ⟨zss, os, rows, cs, m, h1, h2, h3, h4, h5, hm, hv⟩, rfl⟩
  · rintro ⟨vs, ⟨zss, os, rows, cs, m, h1, h2, h3, h4, h5, hm, hv⟩, rfl⟩
    exact ⟨zss, os, rows, cs, _, h1, h2, h3, h4, h5, (semEach_post h cs _).2 ⟨m, hm, rfl⟩,
      (Shuffle.lift f m _).2 ⟨vs, hv, rfl⟩⟩

/-- What `combRight` gives: the network followed by `f`, of the same kind; when it is the only worker of a
farm, also for inputs that name first-set nodes. -/
structure RightRes (f : α → Option α) (s' s : Sk α) : Prop where
  kind : s'.kind = s.kind
  post : Post f s' s
  only : ∀ zs ys, semWorkers [s'] zs ys ↔ ∃ vs, semWorkers [s] zs vs ∧ ys = vs.filterMap f

theorem kind_a2a {s : Sk α} (h : s.kind = 3) : ∃ l r, s = .a2a l r := by
  cases s <;> simp [Sk.kind] at h
  exact ⟨_, _, rfl⟩

theorem semWorkers_post_gen {f : α → Option α} {ws' ws : List (Sk α)} (h : All2 (Post f) ws' ws)
    (h1 : ∀ l r, ws' ≠ [.a2a l r]) (h2 : ∀ l r, ws ≠ [.a2a l r])
    (zs : List (Option Nat × α)) (ys : List α) :
    semWorkers ws' zs ys ↔ ∃ vs, semWorkers ws zs vs ∧ ys = vs.filterMap f := by
  simp only [semWorkers_gen h1, semWorkers_gen h2]
  constructor
  · rintro ⟨zss, wss, e1, e2, e3⟩
    obtain ⟨m, hm, rfl⟩ := (semEach_post h zss wss).1 e2
    obtain ⟨vs, hv, rfl⟩ := (Shuffle.lift f m ys).1 e3
    exact ⟨vs, ⟨zss, m, e1, hm, hv⟩, rfl⟩
  · rintro ⟨vs, ⟨zss, m, e1, hm, hv⟩, rfl⟩
    exact ⟨zss, _, e1, (semEach_post h zss _).2 ⟨m, hm, rfl⟩, (Shuffle.lift f m _).2 ⟨vs, hv, rfl⟩⟩

theorem RightRes.of_post {f : α → Option α} {s' s : Sk α} (hk : s'.kind = s.kind)
    (hn : s.kind ≠ 3) (h : Post f s' s) : RightRes f s' s := by
  refine ⟨hk, h, ?_⟩
  apply semWorkers_post_gen (.cons h .nil)
  · intro l r he; simp only [List.cons.injEq] at he; rw [he.1] at hk; exact hn hk.symm
  · intro l r he; simp only [List.cons.injEq] at he; rw [he.1] at hn; exact hn rfl

theorem semWorkers_right {f : α → Option α} {ws' ws : List (Sk α)}
    (h : All2 (RightRes f) ws' ws) (zs : List (Option Nat × α)) (ys : List α) :
    semWorkers ws' zs ys ↔ ∃ vs, semWorkers ws zs vs ∧ ys = vs.filterMap f := by
  cases h with
  | nil => exact semWorkers_post_gen .nil (by simp) (by simp) zs ys
  | @cons w' w ws' ws h1 h2 =>
    cases h2 with
    | nil => exact h1.only zs ys
    | cons h3 h4 =>
      exact semWorkers_post_gen (.cons h1.post (.cons h3.post (h4.mono fun _ _ h => h.post)))
        (by simp) (by simp) zs ys

theorem overWorkers_ok {f : Sk α → Res (Bool × Sk α)} {w0 : Sk α} {ws : List (Sk α)}
    {P : Sk α → Sk α → Prop} (hk : ∀ w ∈ ws, w.kind = w0.kind)
    (h : ∀ w ∈ w0 :: ws, ∃ w', f w = .ok (true, w') ∧ P w' w) :
    ∃ ws', overWorkers f (w0 :: ws) = .ok (true, ws') ∧ All2 P ws' (w0 :: ws) := by
  obtain ⟨w0', e0, p0⟩ := h w0 (by simp)
  have : ∀ vs : List (Sk α), (∀ w ∈ vs, w ∈ ws) → ∃ vs',
      mapR (fun w => if w.kind = w0.kind then (f w).bind fun q => .ok q.2 else .ub) vs = .ok vs' ∧
      All2 P vs' vs := by
    intro vs
    induction vs with
    | nil => intro _; exact ⟨[], rfl, .nil⟩
    | cons v vs ih =>
      intro hv
      obtain ⟨vs', e1, e2⟩ := ih fun w hw => hv w (by simp [hw])
      have hvm : v ∈ ws := hv v (by simp)
      obtain ⟨v', e3, e4⟩ := h v (by simp [hvm])
      refine ⟨v' :: vs', ?_, .cons e4 e2⟩
      simp [mapR, hk v hvm, e3, ok_bind, e1]
  obtain ⟨ws', e1, e2⟩ := this ws fun _ h => h
  refine ⟨w0' :: ws', ?_, .cons p0 e2⟩
  simp [overWorkers, e0, ok_bind, e1]

theorem fuel_all {P : Nat → Sk α → Prop} : ∀ (ws : List (Sk α)),
    (∀ w ∈ ws, ∃ N, ∀ n, N ≤ n → P n w) → ∃ N, ∀ n, N ≤ n → ∀ w ∈ ws, P n w
  | [], _ => ⟨0, fun _ _ w hw => by cases hw⟩
  | w :: ws, h => by
    obtain ⟨N1, h1⟩ := h w (by simp)
    obtain ⟨N2, h2⟩ := fuel_all ws fun v hv => h v (by simp [hv])
    refine ⟨max N1 N2, fun n hn v hv => ?_⟩
    rcases List.mem_cons.1 hv with rfl | hv
    · exact h1 n (by omega)
    · exact h2 n (by omega) v hv

theorem leaf_post {node : Node α} {f : α → Option α} (hf : node.Maps f) (m : Node α) :
    Post f (.leaf (combNode m node)) (.leaf m) := by
  intro xs ys
  simp only [sem, beh_comb]
  rw [hf.beh]
  constructor
  · intro h; exact ⟨_, rfl, h⟩
  · rintro ⟨_, rfl, h⟩; exact h

theorem coll_hasColl {h : Hdr α} {c : Node α} (hc : h.getColl = some c) : h.hasColl = true := by
  unfold Hdr.getColl at hc
  split at hc
  · rename_i hh; simp [Hdr.hasColl, hh, Coll.gathers]
  · cases hc

theorem combColl_true {h : Hdr α} {c : Node α} (hc : h.getColl = some c) (node : Node α) :
    (combColl h node).1 = true := by
  simp [combColl, hc]

/-- Every end of the network gets the node or a copy of it. -/
theorem combRight_ok {node : Node α} {f : α → Option α} (hf : node.Maps f) {s : Sk α}
    (hs : CanRight s) : ∃ N, ∀ n, N ≤ n → ∃ s', combRight n node s = .ok (true, s') ∧
      RightRes f s' s := by
  induction hs with
  | leaf m =>
    refine ⟨1, fun n hn => ?_⟩
    obtain ⟨k, rfl⟩ : ∃ k, n = k + 1 := ⟨n - 1, by omega⟩
    exact ⟨_, rfl, .of_post rfl (by simp [Sk.kind]) (leaf_post hf m)⟩
  | @pipe ss a last hfl _ ih =>
    obtain ⟨N, ih⟩ := ih
    refine ⟨N + 1, fun n hn => ?_⟩
    obtain ⟨k, rfl⟩ : ∃ k, n = k + 1 := ⟨n - 1, by omega⟩
    obtain ⟨s', e1, e2⟩ := ih k (by omega)
    refine ⟨.pipe (a ++ [s']), ?_, .of_post rfl (by simp [Sk.kind]) ?_⟩
    · simp [combRight, hfl, e1, ok_bind]
    · intro xs ys
      simp only [sem]
      rw [semPipe_append]
      have h2 : ∀ zs, semPipe ss xs zs ↔ semPipe (a ++ [last]) xs zs := by
        intro zs; rw [← hfl]; exact (flat_sem ss xs zs).symm
      simp only [h2, semPipe_append, semPipe_single]
      constructor
      · rintro ⟨z, h3, h4⟩
        obtain ⟨y, h5, h6⟩ := (e2.post z ys).1 h4
        exact ⟨y, ⟨z, h3, h5⟩, h6⟩
      · rintro ⟨y, ⟨z, h3, h5⟩, h6⟩
        exact ⟨z, h3, (e2.post z ys).2 ⟨y, h5, h6⟩⟩
  | @coll h c ws hc =>
    refine ⟨1, fun n hn => ?_⟩
    obtain ⟨k, rfl⟩ : ∃ k, n = k + 1 := ⟨n - 1, by omega⟩
    refine ⟨.farm (combColl h node).2 ws, ?_, .of_post rfl (by simp [Sk.kind]) ?_⟩
    · simp [combRight, coll_hasColl hc, combColl_true hc]
    · intro xs ys
      rw [combColl_same (combColl_true hc node) ws xs ys]
      simp only [sem, semPipe]
      constructor
      · rintro ⟨z, h1, _, h2, rfl⟩; exact ⟨z, h1, by rw [h2, hf.beh]⟩
      · rintro ⟨z, h1, h2⟩; exact ⟨z, h1, _, by rw [hf.beh]; exact h2, rfl⟩
  | @workers h w0 ws hc hk _ ih =>
    obtain ⟨N, ih⟩ := fuel_all (P := fun n w => ∃ s', combRight n node w = .ok (true, s') ∧
      RightRes f s' w) (w0 :: ws) ih
    refine ⟨N + 1, fun n hn => ?_⟩
    obtain ⟨k, rfl⟩ : ∃ k, n = k + 1 := ⟨n - 1, by omega⟩
    obtain ⟨ws', e1, e2⟩ := overWorkers_ok hk (ih k (by omega))
    refine ⟨.farm h ws', ?_, .of_post rfl (by simp [Sk.kind]) ?_⟩
    · simp [combRight, hc, e1, ok_bind]
    · have ho : h.ordered = false := by simp [Hdr.hasColl] at hc; exact hc.1
      have hn : h.coll = .none := by
        simp only [Hdr.hasColl, ho, Bool.false_or] at hc
        cases hcc : h.coll <;> simp [hcc, Coll.gathers] at hc ⊢
      have hne : ws' ≠ [] := by
        intro he; have := e2.length; simp [he] at this
      intro xs ys
      simp only [sem, ho, hn, Coll.gathers, collOut, semWorkers_right e2]
      simp only [ne_eq, hne, not_false_eq_true, reduceCtorEq, true_and, Bool.false_eq_true,
        false_and, exists_false, true_or, false_or]
      constructor
      · rintro ⟨vs, rfl, z, h1, rfl⟩; exact ⟨z, ⟨z, rfl, h1⟩, rfl⟩
      · rintro ⟨_, ⟨z, rfl, h1⟩, rfl⟩; exact ⟨_, rfl, _, h1, rfl⟩
  | @a2a l r hne hk _ ih =>
    obtain ⟨w0, ws, rfl⟩ := List.exists_cons_of_ne_nil hne
    have fin : ∀ r', All2 (Post f) r' (w0 :: ws) → RightRes f (.a2a l r') (.a2a l (w0 :: ws)) := by
      intro r' hr
      refine ⟨rfl, ?_, semA2A_post hr l⟩
      intro xs ys
      have := semA2A_post hr l (free xs) ys
      simpa only [semWorkers, sem] using this
    rcases hk with hk | hk
    · refine ⟨1, fun n hn => ?_⟩
      obtain ⟨k, rfl⟩ : ∃ k, n = k + 1 := ⟨n - 1, by omega⟩
      have hw0 : w0.kind = 0 := hk w0 (by simp)
      obtain ⟨ws', e1, e2⟩ := overWorkers_ok (P := Post f)
        (f := fun w => (combSk w (.leaf node)).bind fun c => .ok (true, c)) (w0 := w0) (ws := ws)
        (fun w hw => by rw [hk w (by simp [hw]), hw0])
        (by
          intro w hw
          have hwk := hk w hw
          cases w with
          | leaf m => exact ⟨_, rfl, leaf_post hf m⟩
          | pipe _ => cases hwk
          | farm _ _ => cases hwk
          | a2a _ _ => cases hwk)
      refine ⟨.a2a l ws', ?_, fin ws' e2⟩
      simp [combRight, hw0, e1, ok_bind]
    · obtain ⟨N, ih⟩ := fuel_all (P := fun n w => ∃ s', combRight n node w = .ok (true, s') ∧
        RightRes f s' w) (w0 :: ws) ih
      refine ⟨N + 1, fun n hn => ?_⟩
      obtain ⟨k, rfl⟩ : ∃ k, n = k + 1 := ⟨n - 1, by omega⟩
      have hw0 : w0.kind = 1 := hk w0 (by simp)
      obtain ⟨ws', e1, e2⟩ := overWorkers_ok
        (fun w hw => by rw [hk w (by simp [hw]), hw0]) (ih k (by omega))
      refine ⟨.a2a l ws', ?_, fin ws' (e2.mono fun _ _ h => h.post)⟩
      simp [combRight, hw0, e1, ok_bind]


/-! ### The node before a network -/

/-- What one first-set worker may send, with destinations. -/
def Route (w : Sk α) (x : List α) (o : List (Option Nat × α)) : Prop := semRouted [w] [x] [o]

theorem semRouted_cons (w : Sk α) (ws : List (Sk α)) (x : List α) (xs : List (List α))
    (o : List (Option Nat × α)) (os : List (List (Option Nat × α))) :
    semRouted (w :: ws) (x :: xs) (o :: os) ↔ Route w x o ∧ semRouted ws xs os := by
  cases w <;> simp [Route, semRouted]

theorem semRouted_shape {w : Sk α} {ws : List (Sk α)} {a : List (List α)}
    {o : List (List (Option Nat × α))} (h : semRouted (w :: ws) a o) :
    ∃ x xs y ys, a = x :: xs ∧ o = y :: ys := by
  cases a with
  | nil => cases o <;> cases w <;> simp [semRouted] at h
  | cons x xs =>
    cases o with
    | nil => cases w <;> simp [semRouted] at h
    | cons y ys => exact ⟨x, xs, y, ys, rfl, rfl⟩

theorem semRouted_map {F : List α → List α} {l' l : List (Sk α)}
    (h : All2 (fun w' w => ∀ x o, Route w' x o → Route w (F x) o) l' l) {a : List (List α)}
    {o : List (List (Option Nat × α))} (hs : semRouted l' a o) : semRouted l (a.map F) o := by
  induction h generalizing a o with
  | nil => cases a <;> cases o <;> simp_all [semRouted]
  | cons h1 _ ih =>
    obtain ⟨x, xs, y, ys, rfl, rfl⟩ := semRouted_shape hs
    rw [semRouted_cons] at hs
    rw [List.map_cons, semRouted_cons]
    exact ⟨h1 _ _ hs.1, ih hs.2⟩

theorem semRouted_unmap {F : List α → List α} {l' l : List (Sk α)}
    (h : All2 (fun w' w => ∀ x o, Route w (F x) o → Route w' x o) l' l) {a : List (List α)}
    {o : List (List (Option Nat × α))} (hs : semRouted l (a.map F) o) : semRouted l' a o := by
  induction h generalizing a o with
  | nil => cases a <;> cases o <;> simp_all [semRouted]
  | cons h1 _ ih =>
    obtain ⟨x, xs, y, ys, e, rfl⟩ := semRouted_shape hs
    cases a with
    | nil => cases e
    | cons x a =>
      rw [List.map_cons, semRouted_cons] at hs
      rw [semRouted_cons]
      exact ⟨h1 _ _ hs.1, ih hs.2⟩

/-- What `combLeft` gives for a node without state: nothing new; if the node is a map or a filter, everything. -/
structure LeftRes (F : α → List α) (s' s : Sk α) : Prop where
  kind : s'.kind = s.kind
  sub : ∀ xs ys, sem s' xs ys → sem s (xs.flatMap F) ys
  back : ∀ f : α → Option α, F = (fun x => (f x).toList) →
    ∀ xs ys, sem s (xs.flatMap F) ys → sem s' xs ys
  rsub : ∀ x o, Route s' x o → Route s (x.flatMap F) o
  rback : ∀ f : α → Option α, F = (fun x => (f x).toList) →
    ∀ x o, Route s (x.flatMap F) o → Route s' x o

theorem route_gen {s : Sk α} (h : s.kind ≠ 0) (x : List α) (o : List (Option Nat × α)) :
    Route s x o ↔ ∃ y, sem s x y ∧ o = free y := by
  cases s with
  | leaf n => exact absurd rfl h
  | pipe _ => simp [Route, semRouted]
  | farm _ _ => simp [Route, semRouted]
  | a2a _ _ => simp [Route, semRouted]

theorem LeftRes.of_sem {F : α → List α} {s' s : Sk α} (hk : s'.kind = s.kind) (h0 : s.kind ≠ 0)
    (h1 : ∀ xs ys, sem s' xs ys → sem s (xs.flatMap F) ys)
    (h2 : ∀ f : α → Option α, F = (fun x => (f x).toList) →
      ∀ xs ys, sem s (xs.flatMap F) ys → sem s' xs ys) : LeftRes F s' s := by
  have h0' : s'.kind ≠ 0 := by rw [hk]; exact h0
  refine ⟨hk, h1, h2, ?_, ?_⟩
  · intro x o
    rw [route_gen h0, route_gen h0']
    rintro ⟨y, h3, h4⟩; exact ⟨y, h1 _ _ h3, h4⟩
  · intro f hf x o
    rw [route_gen h0, route_gen h0']
    rintro ⟨y, h3, h4⟩; exact ⟨y, h2 f hf _ _ h3, h4⟩

theorem leaf_left {node : Node α} {F : α → List α} (hf : node.Stateless F) (m : Node α) :
    LeftRes F (.leaf (combNode node m)) (.leaf m) := by
  have hb : ∀ xs, vals (node.beh xs) = xs.flatMap F := fun xs => beh_pure hf xs
  refine ⟨rfl, ?_, ?_, ?_, ?_⟩
  · intro xs ys h; simp only [sem, beh_comb, hb] at h ⊢; exact h
  · intro _ _ xs ys h; simp only [sem, beh_comb, hb] at h ⊢; exact h
  · intro x o h
    simp only [Route, semRouted, emits_comb, hb] at h ⊢
    exact h
  · intro _ _ x o h
    simp only [Route, semRouted, emits_comb, hb] at h ⊢
    exact h

theorem a2a_left {F : α → List α} {l' l : List (Sk α)} (hne : l ≠ [])
    (h : All2 (LeftRes F) l' l) (r : List (Sk α)) : LeftRes F (.a2a l' r) (.a2a l r) := by
  refine LeftRes.of_sem rfl (by simp [Sk.kind]) ?_ ?_
  · intro xs ys hs
    simp only [sem] at hs ⊢
    obtain ⟨zss, os, rows, cs, wss, h1, h2, h3⟩ := hs
    exact ⟨_, os, rows, cs, wss, Split.flatMap F h1 xs rfl,
      semRouted_map (F := List.flatMap F) (h.mono fun _ _ h => h.rsub) h2, h3⟩
  · intro f hf xs ys hs
    simp only [sem] at hs ⊢
    obtain ⟨Z, os, rows, cs, wss, h1, h2, h3⟩ := hs
    have hF : List.flatMap F = List.filterMap f := by
      funext l; rw [hf]; exact flatMap_toList f l
    have hZ : Z ≠ [] := by
      obtain ⟨w, ws, rfl⟩ := List.exists_cons_of_ne_nil hne
      obtain ⟨_, _, _, _, rfl, _⟩ := semRouted_shape h2
      simp
    rw [show xs.flatMap F = xs.filterMap f from congrFun hF xs] at h1
    obtain ⟨zss, h4, rfl⟩ := Split.back xs hZ h1
    rw [← hF] at h2
    exact ⟨zss, os, rows, cs, wss, h4,
      semRouted_unmap (h.mono fun _ _ h => h.rback f hf) h2, h3⟩

/-- Every beginning of the network gets the node or a copy of it. -/
theorem combLeft_ok {node : Node α} {F : α → List α} (hf : node.Stateless F) {s : Sk α}
    (hs : CanLeft node s) : ∃ N, ∀ n, N ≤ n → ∃ s', combLeft n node s = .ok (true, s') ∧
      LeftRes F s' s := by
  have hb : ∀ xs, vals (node.beh xs) = xs.flatMap F := fun xs => beh_pure hf xs
  induction hs with
  | leaf m =>
    refine ⟨1, fun n hn => ?_⟩
    obtain ⟨k, rfl⟩ : ∃ k, n = k + 1 := ⟨n - 1, by omega⟩
    exact ⟨_, rfl, leaf_left hf m⟩
  | @pipe ss rest first hfl _ ih =>
    obtain ⟨N, ih⟩ := ih
    refine ⟨N + 1, fun n hn => ?_⟩
    obtain ⟨k, rfl⟩ : ∃ k, n = k + 1 := ⟨n - 1, by omega⟩
    obtain ⟨s', e1, e2⟩ := ih k (by omega)
    refine ⟨.pipe (s' :: rest), ?_, .of_sem rfl (by simp [Sk.kind]) ?_ ?_⟩
    · simp [combLeft, hfl, e1, ok_bind]
    · intro xs ys h
      simp only [sem] at h ⊢
      rw [← flat_sem, hfl]
      simp only [semPipe] at h ⊢
      obtain ⟨z, h1, h2⟩ := h
      exact ⟨z, e2.sub _ _ h1, h2⟩
    · intro f hF xs ys h
      simp only [sem] at h ⊢
      rw [← flat_sem, hfl] at h
      simp only [semPipe] at h ⊢
      obtain ⟨z, h1, h2⟩ := h
      exact ⟨z, e2.back f hF _ _ h1, h2⟩
  | @farm h ws hok =>
    refine ⟨1, fun n hn => ?_⟩
    obtain ⟨k, rfl⟩ : ∃ k, n = k + 1 := ⟨n - 1, by omega⟩
    obtain ⟨h', e1, _⟩ := combEmit_ok hok
    have hsm := combEmit_same hok e1 ws
    refine ⟨.farm h' ws, by simp [combLeft, e1, ok_bind], .of_sem rfl (by simp [Sk.kind]) ?_ ?_⟩
    · intro xs ys hs
      have := (hsm xs ys).1 hs
      simp only [sem, semPipe, hb] at this ⊢
      obtain ⟨_, rfl, _, h3, rfl⟩ := this
      exact h3
    · intro _ _ xs ys hs
      apply (hsm xs ys).2
      simp only [sem, semPipe, hb] at hs ⊢
      exact ⟨_, rfl, _, hs, rfl⟩
  | @a2a l r hne hk _ ih =>
    obtain ⟨w0, ws, rfl⟩ := List.exists_cons_of_ne_nil hne
    rcases hk with hk | hk
    · refine ⟨1, fun n hn => ?_⟩
      obtain ⟨k, rfl⟩ : ∃ k, n = k + 1 := ⟨n - 1, by omega⟩
      have hw0 : w0.kind = 0 := hk w0 (by simp)
      obtain ⟨ws', e1, e2⟩ := overWorkers_ok (P := LeftRes F)
        (f := fun w => (combSk (.leaf node) w).bind fun c => .ok (true, c)) (w0 := w0) (ws := ws)
        (fun w hw => by rw [hk w (by simp [hw]), hw0])
        (by
          intro w hw
          have hwk := hk w hw
          cases w with
          | leaf m => exact ⟨_, rfl, leaf_left hf m⟩
          | pipe _ => cases hwk
          | farm _ _ => cases hwk
          | a2a _ _ => cases hwk)
      refine ⟨.a2a ws' r, ?_, a2a_left hne e2 r⟩
      simp [combLeft, hw0, e1, ok_bind]
    · obtain ⟨N, ih⟩ := fuel_all (P := fun n w => ∃ s', combLeft n node w = .ok (true, s') ∧
        LeftRes F s' w) (w0 :: ws) ih
      refine ⟨N + 1, fun n hn => ?_⟩
      obtain ⟨k, rfl⟩ : ∃ k, n = k + 1 := ⟨n - 1, by omega⟩
      have hw0 : w0.kind = 1 := hk w0 (by simp)
      obtain ⟨ws', e1, e2⟩ := overWorkers_ok
        (fun w hw => by rw [hk w (by simp [hw]), hw0]) (ih k (by omega))
      refine ⟨.a2a ws' r, ?_, a2a_left hne e2 r⟩
      simp [combLeft, hw0, e1, ok_bind]

/-! ### Failed calls -/

/-- Nothing has changed. -/
structure Kept (s' s : Sk α) : Prop where
  kind : s'.kind = s.kind
  same : Same s' s
  only : ∀ zs ys, semWorkers [s'] zs ys ↔ semWorkers [s] zs ys
  route : ∀ x o, Route s' x o ↔ Route s x o

theorem Kept.refl (s : Sk α) : Kept s s :=
  ⟨rfl, fun _ _ => Iff.rfl, fun _ _ => Iff.rfl, fun _ _ => Iff.rfl⟩

theorem semEach_head {w' w : Sk α} (h : Same w' w) (ws : List (Sk α)) (a b : List (List α)) :
    semEach (w' :: ws) a b ↔ semEach (w :: ws) a b := by
  cases a <;> cases b <;> simp [semEach, h _ _]

theorem Kept.of_same {s' s : Sk α} (hk : s'.kind = s.kind) (h0 : s.kind ≠ 0) (h3 : s.kind ≠ 3)
    (h : Same s' s) : Kept s' s := by
  refine ⟨hk, h, ?_, ?_⟩
  · intro zs ys
    have e1 : ∀ l r, [s'] ≠ [Sk.a2a l r] := by
      intro l r he; simp only [List.cons.injEq] at he; rw [he.1] at hk; exact h3 hk.symm
    have e2 : ∀ l r, [s] ≠ [Sk.a2a l r] := by
      intro l r he; simp only [List.cons.injEq] at he; rw [he.1] at h3; exact h3 rfl
    simp only [semWorkers_gen e1, semWorkers_gen e2, semEach_head h]
  · intro x o
    rw [route_gen h0, route_gen (by rw [hk]; exact h0)]
    simp only [h _ _]

theorem semWorkers_head {w' w : Sk α} (h : Kept w' w) (ws : List (Sk α))
    (zs : List (Option Nat × α)) (ys : List α) :
    semWorkers (w' :: ws) zs ys ↔ semWorkers (w :: ws) zs ys := by
  cases ws with
  | nil => exact h.only zs ys
  | cons v vs =>
    rw [semWorkers_gen (by simp), semWorkers_gen (by simp)]
    simp only [semEach_head h.same]

theorem overWorkers_false {f : Sk α → Res (Bool × Sk α)} {ws ws' : List (Sk α)}
    (h : overWorkers f ws = .ok (false, ws')) :
    ∃ w0 w0' t, ws = w0 :: t ∧ ws' = w0' :: t ∧ f w0 = .ok (false, w0') := by
  cases ws with
  | nil => cases h
  | cons w0 t =>
    simp only [overWorkers] at h
    obtain ⟨⟨b, w0'⟩, e1, e2⟩ := bind_ok h
    cases b with
    | true =>
      simp only [if_true] at e2
      obtain ⟨x, _, e3⟩ := bind_ok e2
      cases e3
    | false =>
      cases e2
      exact ⟨w0, w0', t, rfl, rfl, e1⟩

theorem overWorkers_comb_true {g : Sk α → Res (Sk α)} {ws ws' : List (Sk α)} {b : Bool}
    (h : overWorkers (fun w => (g w).bind fun c => .ok (true, c)) ws = .ok (b, ws')) : b = true := by
  cases b with
  | true => rfl
  | false =>
    obtain ⟨w0, w0', t, _, _, e⟩ := overWorkers_false h
    obtain ⟨x, _, e2⟩ := bind_ok e
    cases e2

theorem flat_kind : ∀ (ss : List (Sk α)), ∀ s ∈ flat ss, s.kind ≠ 1
  | [], s, h => by simp [flat] at h
  | t :: ss, s, h => by
    simp only [flat, List.mem_append] at h
    rcases h with h | h
    · exact flat1_kind t s h
    · exact flat_kind ss s h
where
  flat1_kind : ∀ (t : Sk α), ∀ s ∈ flat1 t, s.kind ≠ 1
  | .pipe ss, s, h => flat_kind ss s (by simpa [flat1] using h)
  | .leaf n, s, h => by simp [flat1] at h; subst h; simp [Sk.kind]
  | .farm _ _, s, h => by simp [flat1] at h; subst h; simp [Sk.kind]
  | .a2a _ _, s, h => by simp [flat1] at h; subst h; simp [Sk.kind]

theorem combRight_false {n : Nat} {node : Node α} {s s' : Sk α}
    (h : combRight n node s = .ok (false, s')) : Kept s' s := by
  induction n generalizing s s' with
  | zero => cases h
  | succ n ih =>
    cases s with
    | leaf m => cases h
    | pipe ss =>
      simp only [combRight] at h
      cases hl : (flat ss).getLast? with
      | none =>
        rw [hl] at h; cases h
        refine Kept.of_same rfl (by simp [Sk.kind]) (by simp [Sk.kind]) ?_
        intro xs ys
        simp only [sem, flat_sem]
      | some last =>
        rw [hl] at h
        obtain ⟨⟨b, last'⟩, e1, e2⟩ := bind_ok h
        cases e2
        have k := ih e1
        have hfl : flat ss = (flat ss).dropLast ++ [last] := by
          obtain ⟨ys, hys⟩ := List.getLast?_eq_some_iff.1 hl
          rw [hys]; simp
        refine Kept.of_same rfl (by simp [Sk.kind]) (by simp [Sk.kind]) ?_
        intro xs ys
        simp only [sem]
        rw [← flat_sem ss, hfl]
        simp only [List.dropLast_concat, semPipe_append, semPipe_single, k.same _ _]
    | farm hd ws =>
      simp only [combRight] at h
      by_cases hc : hd.hasColl = true
      · simp only [hc, if_true] at h
        injection h with h
        simp only [Prod.mk.injEq] at h
        obtain ⟨h1, rfl⟩ := h
        have : (combColl hd node).2 = hd := by
          unfold combColl at h1 ⊢
          split at h1
          · rfl
          · cases h1
        rw [this]; exact Kept.refl _
      · simp only [hc, Bool.false_eq_true, if_false] at h
        obtain ⟨⟨b, ws'⟩, e1, e2⟩ := bind_ok h
        cases e2
        obtain ⟨w0, w0', t, rfl, rfl, e3⟩ := overWorkers_false e1
        have k := ih e3
        simp only [Hdr.hasColl, Bool.or_eq_true, not_or, Bool.not_eq_true] at hc
        refine Kept.of_same rfl (by simp [Sk.kind]) (by simp [Sk.kind]) ?_
        intro xs ys
        simp only [sem, hc.1, hc.2, semWorkers_head k]
        simp
    | a2a l r =>
      simp only [combRight] at h
      split at h
      · obtain ⟨⟨b, r'⟩, e1, e2⟩ := bind_ok h
        cases e2
        obtain ⟨w0, w0', t, rfl, rfl, e3⟩ := overWorkers_false e1
        have k := ih e3
        have hw : ∀ zs ys, semWorkers [.a2a l (w0' :: t)] zs ys ↔
            semWorkers [.a2a l (w0 :: t)] zs ys := by
          intro zs ys
          simp only [semWorkers, semEach_head k.same, List.length_cons]
        have hsm : Same (.a2a l (w0' :: t)) (.a2a l (w0 :: t)) := by
          intro xs ys
          have := hw (free xs) ys
          simpa only [semWorkers, sem] using this
        refine ⟨rfl, hsm, hw, ?_⟩
        intro x o
        rw [route_gen (by simp [Sk.kind]), route_gen (by simp [Sk.kind])]
        simp only [hsm _ _]
      · obtain ⟨⟨b, r'⟩, e1, e2⟩ := bind_ok h
        have := overWorkers_comb_true e1
        subst this
        cases e2

theorem combLeft_false {n : Nat} {node : Node α} {s s' : Sk α}
    (h : combLeft n node s = .ok (false, s')) : Kept s' s := by
  induction n generalizing s s' with
  | zero => cases h
  | succ n ih =>
    cases s with
    | leaf m => cases h
    | pipe ss =>
      simp only [combLeft] at h
      cases hl : flat ss with
      | nil =>
        rw [hl] at h; cases h
        refine Kept.of_same rfl (by simp [Sk.kind]) (by simp [Sk.kind]) ?_
        intro xs ys
        simp only [sem]
        rw [← flat_sem ss, hl]
      | cons first rest =>
        rw [hl] at h
        obtain ⟨⟨b, first'⟩, e1, e2⟩ := bind_ok h
        cases e2
        have k := ih e1
        refine Kept.of_same rfl (by simp [Sk.kind]) (by simp [Sk.kind]) ?_
        intro xs ys
        simp only [sem]
        rw [← flat_sem ss, hl]
        simp only [semPipe, k.same _ _]
    | farm hd ws =>
      simp only [combLeft] at h
      obtain ⟨_, _, e2⟩ := bind_ok h
      cases e2
    | a2a l r =>
      simp only [combLeft] at h
      split at h
      · obtain ⟨⟨b, l'⟩, e1, e2⟩ := bind_ok h
        cases e2
        obtain ⟨w0, w0', t, rfl, rfl, e3⟩ := overWorkers_false e1
        have k := ih e3
        have hr : ∀ a o, semRouted (w0' :: t) a o ↔ semRouted (w0 :: t) a o := by
          intro a o
          constructor
          · intro hs
            obtain ⟨x, xs, y, ys, rfl, rfl⟩ := semRouted_shape hs
            rw [semRouted_cons] at hs ⊢
            exact ⟨(k.route _ _).1 hs.1, hs.2⟩
          · intro hs
            obtain ⟨x, xs, y, ys, rfl, rfl⟩ := semRouted_shape hs
            rw [semRouted_cons] at hs ⊢
            exact ⟨(k.route _ _).2 hs.1, hs.2⟩
        have hw : ∀ zs ys, semWorkers [.a2a (w0' :: t) r] zs ys ↔
            semWorkers [.a2a (w0 :: t) r] zs ys := by
          intro zs ys
          simp only [semWorkers, hr]
        have hsm : Same (.a2a (w0' :: t) r) (.a2a (w0 :: t) r) := by
          intro xs ys
          simp only [sem, hr]
        refine ⟨rfl, hsm, hw, ?_⟩
        intro x o
        rw [route_gen (by simp [Sk.kind]), route_gen (by simp [Sk.kind])]
        simp only [hsm _ _]
      · obtain ⟨⟨b, l'⟩, e1, e2⟩ := bind_ok h
        have := overWorkers_comb_true e1
        subst this
        cases e2

/-! ### Nodes with state -/

theorem combRight_one {node : Node α} {s : Sk α} (hs : OneEnd s) :
    ∃ N, ∀ n, N ≤ n → ∃ s', combRight n node s = .ok (true, s') ∧
      Same s' (.pipe [s, .leaf node]) := by
  induction hs with
  | leaf m =>
    refine ⟨1, fun n hn => ?_⟩
    obtain ⟨k, rfl⟩ : ∃ k, n = k + 1 := ⟨n - 1, by omega⟩
    refine ⟨_, rfl, ?_⟩
    intro xs ys
    simp only [sem, semPipe, beh_comb]
    constructor
    · intro h; exact ⟨_, rfl, _, h, rfl⟩
    · rintro ⟨_, rfl, _, h, rfl⟩; exact h
  | @pipe ss a last hfl _ ih =>
    obtain ⟨N, ih⟩ := ih
    refine ⟨N + 1, fun n hn => ?_⟩
    obtain ⟨k, rfl⟩ : ∃ k, n = k + 1 := ⟨n - 1, by omega⟩
    obtain ⟨s', e1, e2⟩ := ih k (by omega)
    refine ⟨.pipe (a ++ [s']), by simp [combRight, hfl, e1, ok_bind], ?_⟩
    intro xs ys
    simp only [sem, semPipe, semPipe_append, semPipe_single]
    have h2 : ∀ zs, semPipe ss xs zs ↔ semPipe (a ++ [last]) xs zs := by
      intro zs; rw [← hfl]; exact (flat_sem ss xs zs).symm
    simp only [h2, semPipe_append, semPipe_single]
    constructor
    · rintro ⟨z, h3, h4⟩
      have h5 := (e2 z ys).1 h4
      simp only [sem, semPipe] at h5
      obtain ⟨y, h6, _, h7, rfl⟩ := h5
      exact ⟨y, ⟨z, h3, h6⟩, h7⟩
    · rintro ⟨y, ⟨z, h3, h6⟩, h7⟩
      refine ⟨z, h3, (e2 z ys).2 ?_⟩
      simp only [sem, semPipe]
      exact ⟨y, h6, _, h7, rfl⟩
  | @coll h c ws hc =>
    refine ⟨1, fun n hn => ?_⟩
    obtain ⟨k, rfl⟩ : ∃ k, n = k + 1 := ⟨n - 1, by omega⟩
    exact ⟨.farm (combColl h node).2 ws, by simp [combRight, coll_hasColl hc, combColl_true hc],
      combColl_same (combColl_true hc node) ws⟩

theorem combLeft_one {node : Node α} {s : Sk α} (hs : OneStart node s) :
    ∃ N, ∀ n, N ≤ n → ∃ s', combLeft n node s = .ok (true, s') ∧
      Same s' (.pipe [.leaf node, s]) := by
  induction hs with
  | leaf m =>
    refine ⟨1, fun n hn => ?_⟩
    obtain ⟨k, rfl⟩ : ∃ k, n = k + 1 := ⟨n - 1, by omega⟩
    refine ⟨_, rfl, ?_⟩
    intro xs ys
    simp only [sem, semPipe, beh_comb]
    constructor
    · intro h; exact ⟨_, rfl, _, h, rfl⟩
    · rintro ⟨_, rfl, _, h, rfl⟩; exact h
  | @pipe ss rest first hfl _ ih =>
    obtain ⟨N, ih⟩ := ih
    refine ⟨N + 1, fun n hn => ?_⟩
    obtain ⟨k, rfl⟩ : ∃ k, n = k + 1 := ⟨n - 1, by omega⟩
    obtain ⟨s', e1, e2⟩ := ih k (by omega)
    refine ⟨.pipe (s' :: rest), by simp [combLeft, hfl, e1, ok_bind], ?_⟩
    intro xs ys
    simp only [sem, semPipe]
    have h2 : ∀ zs, semPipe ss (vals (node.beh xs)) zs ↔
        semPipe (first :: rest) (vals (node.beh xs)) zs := by
      intro zs; rw [← hfl]; exact (flat_sem ss _ zs).symm
    constructor
    · rintro ⟨z, h3, h4⟩
      have h5 := (e2 xs z).1 h3
      simp only [sem, semPipe] at h5
      obtain ⟨_, rfl, _, h6, rfl⟩ := h5
      refine ⟨_, rfl, ys, (h2 ys).2 ?_, rfl⟩
      simp only [semPipe]
      exact ⟨_, h6, h4⟩
    · rintro ⟨_, rfl, _, h6, rfl⟩
      have h7 := (h2 _).1 h6
      simp only [semPipe] at h7
      obtain ⟨z, h8, h9⟩ := h7
      refine ⟨z, (e2 xs z).2 ?_, h9⟩
      simp only [sem, semPipe]
      exact ⟨_, rfl, _, h8, rfl⟩
  | @farm h ws hok =>
    refine ⟨1, fun n hn => ?_⟩
    obtain ⟨k, rfl⟩ : ∃ k, n = k + 1 := ⟨n - 1, by omega⟩
    obtain ⟨h', e1, _⟩ := combEmit_ok hok
    exact ⟨.farm h' ws, by simp [combLeft, e1, ok_bind], combEmit_same hok e1 ws⟩

end FF.Opt
