/-
C75: what the functions that combine two blocks into a pipeline compute.
-/
import Verif.Opt.Farms
import Verif.Opt.CombineC
import Verif.Opt.PureOpt

namespace FF.Opt

variable {α : Type}

theorem Refines.refl (s : Sk α) : Refines s s := fun _ _ h => h

theorem sem_unord {h : Hdr α} (ho : h.ordered = false) (ws : List (Sk α)) (xs ys : List α) :
    sem (.farm h ws) xs ys ↔ ws ≠ [] ∧ ∃ vs, ys = collOut h.coll vs ∧
      semWorkers ws (emitOut h.emitter xs) vs := by
  simp only [sem, ho]
  constructor
  · rintro ⟨h0, vs, h1, h2⟩
    rcases h2 with ⟨_, h, _⟩ | ⟨_, h2⟩
    · cases h
    · exact ⟨h0, vs, h1, h2⟩
  · rintro ⟨h0, vs, h1, h2⟩
    exact ⟨h0, vs, h1, Or.inr ⟨Or.inl (by trivial), h2⟩⟩

theorem sem_emit {h h' : Hdr α} (hc : h'.coll = h.coll) (ho : h'.ordered = h.ordered)
    {xs xs' : List α} (he : emitOut h'.emitter xs' = emitOut h.emitter xs) (ws : List (Sk α))
    (ys : List α) : sem (.farm h' ws) xs' ys ↔ sem (.farm h ws) xs ys := by
  simp only [sem, hc, ho, he]

/-- An emitter that is a composition of `c` and of what sends as `e` does: the farm does after `c`. -/
theorem sem_emit_comb {h h' : Hdr α} (hc : h'.coll = h.coll) (ho : h'.ordered = h.ordered)
    {c : Node α} (he : ∀ xs, emitOut h'.emitter xs = emitOut h.emitter (vals (c.beh xs)))
    (ws : List (Sk α)) (xs ys : List α) :
    sem (.farm h' ws) xs ys ↔ sem (.farm h ws) (vals (c.beh xs)) ys :=
  sem_emit hc ho (he xs) ws ys

theorem removeColl_emitter (h : Hdr α) : h.removeColl.emitter = h.emitter := by
  unfold Hdr.removeColl; split <;> rfl

theorem removeColl_ordered (h : Hdr α) : h.removeColl.ordered = h.ordered := by
  unfold Hdr.removeColl; split <;> rfl

theorem removeColl_coll {h : Hdr α} (ho : h.ordered = false) : h.removeColl.coll = .none := by
  simp [Hdr.removeColl, ho]

theorem sem_removed {h : Hdr α} (ho : h.ordered = false) (ws : List (Sk α)) (xs ys : List α) :
    sem (.farm h.removeColl ws) xs ys ↔ ws ≠ [] ∧ semWorkers ws (emitOut h.emitter xs) ys := by
  rw [sem_unord (by rw [removeColl_ordered]; exact ho), removeColl_emitter, removeColl_coll ho]
  simp [collOut]

theorem sem_withColl {h : Hdr α} (ho : h.ordered = false) (c : Coll α) (ws : List (Sk α))
    (xs ys : List α) : sem (.farm { h with coll := c } ws) xs ys ↔
      ∃ vs, sem (.farm h.removeColl ws) xs vs ∧ ys = collOut c vs := by
  rw [sem_unord (h := { h with coll := c }) ho]
  constructor
  · rintro ⟨h0, vs, h1, h2⟩
    exact ⟨vs, (sem_removed ho ws xs vs).2 ⟨h0, h2⟩, h1⟩
  · rintro ⟨vs, h1, h2⟩
    obtain ⟨h0, h1⟩ := (sem_removed ho ws xs vs).1 h1
    exact ⟨h0, vs, h2, h1⟩

theorem changeEmit_ok {h h' : Hdr α} {e : Option (Node α)} (hh : h.changeEmit e = .ok h') :
    h' = { h with emitter := e } := by
  cases e with
  | none => cases hh; rfl
  | some e =>
    have := addEmit_ok hh
    rw [this]

theorem pipe2 (a b : Sk α) (xs ys : List α) :
    sem (.pipe [a, b]) xs ys ↔ ∃ zs, sem a xs zs ∧ sem b zs ys := by
  simp only [sem, semPipe]
  constructor
  · rintro ⟨zs, h1, _, h2, rfl⟩; exact ⟨zs, h1, h2⟩
  · rintro ⟨zs, h1, h2⟩; exact ⟨zs, h1, _, h2, rfl⟩

theorem pipe1 (a : Sk α) (xs ys : List α) : sem (.pipe [a]) xs ys ↔ sem a xs ys := by
  simp only [sem, semPipe]
  constructor
  · rintro ⟨_, h, rfl⟩; exact h
  · intro h; exact ⟨_, h, rfl⟩

/-! ### The new farm -/

theorem newHdr_ok {h1 h2 h : Hdr α} (hh : newHdr h1 h2 = .ok h) :
    h.emitter = h1.emitter ∧ h.ordered = false ∧ (∀ vs, collOut h.coll vs = collOut h2.coll vs) ∧
      ∀ c, collPure h2.coll c → collPure h.coll c := by
  obtain ⟨h3, h4, hh⟩ := bind_ok hh
  cases hh
  obtain ⟨e1, e2, e3⟩ := newEmit_ok h4 rfl
  have hem : ∀ h : Hdr α, (if h1.ondemand = 0 then h else h.setOndemand h1.ondemand).emitter =
      h.emitter := by
    intro h; split <;> rfl
  have hco : ∀ h : Hdr α, (if h1.ondemand = 0 then h else h.setOndemand h1.ondemand).coll =
      h.coll := by
    intro h; split <;> rfl
  have hor : ∀ h : Hdr α, (if h1.ondemand = 0 then h else h.setOndemand h1.ondemand).ordered =
      h.ordered := by
    intro h; split <;> rfl
  have ac : ∀ (c : Option (Node α)), (h3.addColl c).emitter = h3.emitter ∧
      (h3.addColl c).ordered = h3.ordered := by
    intro c; cases c <;> exact ⟨rfl, rfl⟩
  refine ⟨?_, ?_, ?_, ?_⟩
  · rw [hem, ← e1]; split
    · exact (ac _).1
    · rfl
  · rw [hor]
    have : h3.ordered = false := e3
    split
    · rw [(ac _).2, this]
    · exact this
  all_goals
    rw [hco]
    cases hx : h2.coll with
    | none =>
      have hg : h2.getColl = none := by unfold Hdr.getColl; rw [hx]
      rw [hg]
      split
      · simp [Hdr.addColl, collOut, collPure]
      · rw [e2]; simp [collOut, collPure]
    | dflt =>
      have hg : h2.getColl = none := by unfold Hdr.getColl; rw [hx]
      rw [hg]
      split
      · simp [Hdr.addColl, collOut, collPure]
      · rw [e2]; simp [collOut, collPure]
    | node n =>
      have hg : h2.getColl = some n := by unfold Hdr.getColl; rw [hx]
      have hh : h2.hasColl = true := by unfold Hdr.hasColl; rw [hx]; simp [Coll.gathers]
      rw [hg, hh]
      simp [Hdr.addColl]

/-! ### `combine_nodes_in_pipeline` -/

theorem emitOut_pass (n : Node α) (xs : List α) :
    (combNode n passNode).emits xs = free (vals (n.beh xs)) := by
  rw [emits_comb]
  have : ∀ (h l : List α), (passNode : Node α).run h l = free l := by
    intro h l
    induction l generalizing h with
    | nil => rfl
    | cons x l ih => rw [Node.run, ih]; simp [passNode, free]
  simp [Node.emits, passNode, Node.beh]
  exact this [] _

theorem seqFarm_emit {n : Node α} {h h' : Hdr α} (hh : seqFarm n h = .ok h') :
    h'.coll = h.coll ∧ h'.ordered = h.ordered ∧
      (h.emitter = none → h'.emitter = some n) ∧
      ((h.emitter.isSome = true ∨ n.mo = false) →
        ∀ xs, emitOut h'.emitter xs = emitOut h.emitter (vals (n.beh xs))) := by
  unfold seqFarm at hh
  cases he : h.emitter with
  | none =>
    rw [he] at hh
    have := addEmit_ok hh
    subst this
    refine ⟨rfl, rfl, fun _ => rfl, ?_⟩
    rintro (hk | hm)
    · cases hk
    · exact fun xs => emitOut_std hm xs
  | some e =>
    rw [he] at hh
    have := changeEmit_ok hh
    subst this
    refine ⟨rfl, rfl, fun hk => (by cases hk), fun _ xs => ?_⟩
    simp only [emitOut, emits_comb]
    by_cases hm : e.mo = true
    · simp [hm]
    · by_cases hi : e.mi = true
      · simp only [hm, hi, Bool.false_eq_true, if_false, if_true, emitOut_pass]
        simp [Node.emits, hm]
      · simp only [hm, hi, Bool.false_eq_true, if_false, Node.emits, moNode_beh]
        simp [moNode]

theorem node_of_getColl {h : Hdr α} {c : Node α} (hc : h.getColl = some c) : h.coll = .node c := by
  unfold Hdr.getColl at hc
  split at hc
  · cases hc; assumption
  · cases hc

theorem removed_same {h : Hdr α} (ho : h.ordered = false) (hc : h.getColl = none) (ws : List (Sk α)) :
    Same (.farm h.removeColl ws) (.farm h ws) := by
  intro xs ys
  rw [sem_removed ho, sem_unord ho]
  simp [collOut_null hc]

/-- No ordered farm comes first, and no pipeline is combined with a farm. -/
def Fits (s1 s2 : Sk α) : Prop :=
  (s1.kind = 1 → s2.kind ≠ 2) ∧ (s1.kind = 2 → s2.kind ≠ 1) ∧
    ∀ h ws, s1 = .farm h ws → h.ordered = false

/-- A multi-output node that becomes the emitter of a farm: it names the workers, which it does not as a stage. -/
def Names (s1 s2 : Sk α) : Prop :=
  ∃ n h ws, s1 = .leaf n ∧ s2 = .farm h ws ∧ n.mo = true ∧ h.emitter = none

theorem combineNodes_same
    {ofarm : Hdr α → List (Sk α) → Hdr α → List (Sk α) → Res (Option (List (Sk α)))}
    {s1 s2 : Sk α} {ss : List (Sk α)} (hf : Fits s1 s2) (hn : ¬ Names s1 s2)
    (h : combineNodes ofarm s1 s2 = .ok (some ss)) : Same (.pipe ss) (.pipe [s1, s2]) := by
  obtain ⟨f1, f2, f3⟩ := hf
  match s1, s2, h with
  | .a2a _ _, s, h => cases s <;> simp [combineNodes] at h
  | .leaf a, .a2a _ _, h => simp [combineNodes] at h
  | .pipe _, .a2a _ _, h => simp [combineNodes] at h
  | .farm _ _, .a2a _ _, h => simp [combineNodes] at h
  | .leaf a, .leaf b, h => simp only [combineNodes, Res.ok.injEq, Option.some.injEq] at h; subst h; exact fun _ _ => Iff.rfl
  | .leaf a, .pipe b, h => simp only [combineNodes, Res.ok.injEq, Option.some.injEq] at h; subst h; exact fun _ _ => Iff.rfl
  | .pipe a, .leaf b, h => simp only [combineNodes, Res.ok.injEq, Option.some.injEq] at h; subst h; exact fun _ _ => Iff.rfl
  | .pipe a, .pipe b, h => simp only [combineNodes, Res.ok.injEq, Option.some.injEq] at h; subst h; exact fun _ _ => Iff.rfl
  | .pipe a, .farm h2 ws2, h => exact absurd rfl (f1 rfl)
  | .farm h1 ws1, .pipe b, h => exact absurd rfl (f2 rfl)
  | .leaf n, .farm h2 ws2, h =>
    simp only [combineNodes] at h
    obtain ⟨h', e1, e2⟩ := bind_ok h
    cases e2
    obtain ⟨g1, g2, -, g4⟩ := seqFarm_emit e1
    have hk : h2.emitter.isSome = true ∨ n.mo = false := by
      by_cases hm : n.mo = false
      · exact Or.inr hm
      · refine Or.inl ?_
        cases hx : h2.emitter with
        | some _ => rfl
        | none => exact absurd ⟨n, h2, ws2, rfl, rfl, by simpa using hm, hx⟩ hn
    intro xs ys
    rw [pipe1, pipe2, sem_emit_comb g1 g2 (g4 hk)]
    simp only [sem]
    constructor
    · intro hs; exact ⟨_, rfl, hs⟩
    · rintro ⟨_, rfl, hs⟩; exact hs
  | .farm h1 ws1, .leaf n, h =>
    have ho := f3 h1 ws1 rfl
    simp only [combineNodes, ho, Bool.false_eq_true, if_false] at h
    cases hc : h1.getColl with
    | none =>
      simp only [hc, Res.ok.injEq, Option.some.injEq] at h
      subst h
      intro xs ys
      rw [pipe1, pipe2, show h1.addColl (some n) = { h1 with coll := .node n } from rfl,
        sem_withColl ho]
      simp only [removed_same ho hc ws1 xs, collOut, sem.eq_1]
    | some c =>
      simp only [hc, Res.ok.injEq, Option.some.injEq] at h
      subst h
      have := combColl_same (h := h1) (node := n) (by simp [combColl, hc]) ws1
      simp only [combColl, hc] at this
      intro xs ys
      rw [pipe1]
      exact this xs ys
  | .farm h1 ws1, .farm h2 ws2, h =>
    have ho := f3 h1 ws1 rfl
    simp only [combineNodes, ho, Bool.false_eq_true, if_false] at h
    cases hc : h1.getColl with
    | none =>
      simp only [hc, Res.ok.injEq, Option.some.injEq] at h
      subst h
      intro xs ys
      rw [pipe2, pipe2]
      simp only [removed_same ho hc ws1 xs]
    | some c =>
      cases he : h2.emitter with
      | none => simp [hc, he] at h
      | some e =>
        simp only [hc, he] at h
        obtain ⟨h2', e1, e2⟩ := bind_ok h
        cases e2
        have := changeEmit_ok e1
        subst this
        have hcc := node_of_getColl hc
        have h1e : h1 = { h1 with coll := .node c } := by rw [← hcc]
        intro xs ys
        rw [pipe2, pipe2]
        conv => rhs; rw [h1e]
        simp only [sem_withColl ho, collOut]
        have hs : ∀ vs, sem (.farm { h2 with emitter := some (combNode c e) } ws2) vs ys ↔
            sem (.farm h2 ws2) (vals (c.beh vs)) ys := by
          intro vs
          refine sem_emit_comb (h := h2) (h' := { h2 with emitter := some (combNode c e) }) rfl rfl
            (c := c) ?_ ws2 vs ys
          intro xs
          simp [emitOut, he, emits_comb]
        simp only [hs]
        constructor
        · rintro ⟨zs, a, b⟩; exact ⟨_, ⟨zs, a, rfl⟩, b⟩
        · rintro ⟨_, ⟨zs, a, rfl⟩, b⟩; exact ⟨zs, a, b⟩

/-! ### `combine_farms` -/

theorem asked_sem {h1 : Hdr α} (ho : h1.ordered = false) (ws1 : List (Sk α)) (n1 : Option (Node α))
    (h2 : Hdr α) (ws2 : List (Sk α)) (n2 : Option (Node α)) (xs ys : List α) :
    sem (asked h1 ws1 n1 h2 ws2 n2) xs ys ↔ ∃ vs, sem (.farm h1.removeColl ws1) xs vs ∧
      sem (.farm { h2 with emitter := n2 } ws2) (collOut (collOf n1) vs) ys := by
  rw [asked, pipe2]
  simp only [sem_withColl ho]
  constructor
  · rintro ⟨_, ⟨vs, a, rfl⟩, b⟩; exact ⟨vs, a, b⟩
  · rintro ⟨vs, a, b⟩; exact ⟨_, ⟨vs, a, rfl⟩, b⟩

theorem empty_refines (s : Sk α) : Refines emptyFarm s := by
  intro xs ys h
  simp [emptyFarm, sem] at h

theorem farmsNF_cases {h1 h2 : Hdr α} {ws1 ws2 : List (Sk α)} {f : Sk α}
    (h : farmsNF h1 ws1 h2 ws2 = .ok f) : f = emptyFarm ∨
      ∃ h' ws, newHdr h1 h2 = .ok h' ∧ combRow ws1 ws2 = .ok ws ∧ ws1.length = ws2.length ∧
        f = .farm { h' with ordered := h1.ordered } ws := by
  unfold farmsNF at h
  split at h
  · cases h; exact Or.inl rfl
  · rename_i hl
    split at h
    · cases h; exact Or.inl rfl
    · split at h
      · cases h; exact Or.inl rfl
      · split at h
        · split at h
          · cases h; exact Or.inl rfl
          · split at h
            · cases h; exact Or.inl rfl
            · obtain ⟨h', e1, e2⟩ := bind_ok h
              obtain ⟨ws, e3, e4⟩ := bind_ok e2
              cases e4
              exact Or.inr ⟨h', ws, e1, e3, by simpa using hl, rfl⟩
        · cases h

theorem farmsNF_refines {h1 h2 : Hdr α} {ws1 ws2 : List (Sk α)} {f : Sk α}
    (ho1 : h1.ordered = false) (ho2 : h2.ordered = false) (h : farmsNF h1 ws1 h2 ws2 = .ok f) :
    Refines f (asked h1 ws1 none h2 ws2 none) := by
  rcases farmsNF_cases h with rfl | ⟨h', ws, e1, e2, hl, rfl⟩
  · exact empty_refines _
  obtain ⟨g1, g2, g3, -⟩ := newHdr_ok e1
  intro xs ys hs
  rw [sem_unord (by exact ho1)] at hs
  obtain ⟨hne, vs, hy, hw⟩ := hs
  obtain ⟨mid, m1, m2⟩ := combRow_sem e2 hl.symm hw
  have hw1 : ws1 ≠ [] := by
    rintro rfl; apply hne; exact List.length_eq_zero_iff.1 (by rw [combRow_length e2]; rfl)
  have hw2 : ws2 ≠ [] := by
    rintro rfl; apply hw1; exact List.length_eq_zero_iff.1 (by rw [hl]; rfl)
  rw [asked_sem ho1]
  refine ⟨mid, (sem_removed ho1 _ _ _).2 ⟨hw1, ?_⟩, ?_⟩
  · rw [← g1]; exact m1
  · rw [sem_unord (h := { h2 with emitter := none }) ho2]
    exact ⟨hw2, vs, by rw [hy]; exact g3 vs, m2⟩

theorem merged_same {h1 h2 : Hdr α} (ho : h1.ordered = false) {n : Node α} {n2 e : Option (Node α)}
    (he : ∀ xs, emitOut e xs = emitOut n2 (vals (n.beh xs))) (ws1 ws2 : List (Sk α)) :
    Same (.pipe [.farm h1.removeColl ws1, .farm { h2 with emitter := e } ws2])
      (asked h1 ws1 (some n) h2 ws2 n2) := by
  intro xs ys
  rw [asked_sem ho, pipe2]
  have hs : ∀ vs, sem (.farm { h2 with emitter := e } ws2) vs ys ↔
      sem (.farm { h2 with emitter := n2 } ws2) (vals (n.beh vs)) ys := fun vs =>
    sem_emit_comb (h := { h2 with emitter := n2 }) (h' := { h2 with emitter := e }) rfl rfl he ws2 vs ys
  simp only [hs]
  rfl

theorem emit_forget {h : Hdr α} {n : Node α} {ws : List (Sk α)} {xs ys : List α}
    (hs : sem (.farm { h with emitter := some n } ws) xs ys) :
    sem (.farm { h with emitter := none } ws) (vals (n.beh xs)) ys := by
  simp only [sem, emitOut] at hs ⊢
  obtain ⟨h0, vs, h1, h2⟩ := hs
  refine ⟨h0, vs, h1, ?_⟩
  rw [← vals_emits]
  rcases h2 with ⟨ns, e1, e2, e3, e4⟩ | ⟨e1, e2⟩
  · exact Or.inl ⟨ns, e1, e2, e3, e4.forget⟩
  · exact Or.inr ⟨e1, semWorkers_forget e2⟩

theorem combEmitter (n1 n2 : Node α) (xs : List α) :
    emitOut (some (combNode n1 (if n2.mo then n2 else moNode n2))) xs =
      emitOut (some n2) (vals (n1.beh xs)) := by
  simp only [emitOut, emits_comb]
  by_cases hm : n2.mo = true
  · simp [hm]
  · simp only [hm, Bool.false_eq_true, if_false, Node.emits, moNode_beh]
    simp [moNode]

/-! ### Stateless nodes -/

theorem moNode_pure {n : Node α} {f : α → List α} (h : n.Pure f) : (moNode n).Pure f := by
  intro hs x
  simp only [moNode, vals_free]
  exact h hs x

theorem passNode_pure : (passNode : Node α).Pure ret := fun _ _ => rfl

theorem mapR_comb_pure {ws ws' : List (Sk α)} {g : Sk α → Res (Sk α)} {f F : α → List α}
    (hg : ∀ w w', g w = .ok w' → Pure w f → Pure w' F) (h : mapR g ws = .ok ws')
    (hp : PureAll ws f) : PureAll ws' F := by
  induction ws generalizing ws' with
  | nil => cases h; simp [PureAll]
  | cons w ws ih =>
    obtain ⟨c, e1, e2⟩ := bind_ok h
    obtain ⟨cs, e3, e4⟩ := bind_ok e2
    cases e4
    simp only [PureAll] at hp ⊢
    exact ⟨hg _ _ e1 hp.1, ih e3 hp.2⟩

theorem afterEach_pure {n : Node α} {ws ws' : List (Sk α)} (h : afterEach n ws = .ok ws')
    {f g : α → List α} (hf : PureAll ws f) (hg : n.Pure g) : PureAll ws' (kc f g) := by
  refine mapR_comb_pure ?_ h hf
  intro w w' e hw
  cases w with
  | leaf a =>
    simp only [combSk, Res.ok.injEq] at e
    subst e
    simp only [Pure] at hw ⊢
    refine comb_pure hw ?_
    split
    · exact hg
    · exact moNode_pure hg
  | pipe _ => cases e
  | farm _ _ => cases e
  | a2a _ _ => cases e

theorem beforeEach_pure {n : Node α} {ws ws' : List (Sk α)} (h : beforeEach n ws = .ok ws')
    {f g : α → List α} (hf : n.Pure f) (hg : PureAll ws g) : PureAll ws' (kc f g) := by
  refine mapR_comb_pure ?_ h hg
  intro w w' e hw
  cases w with
  | leaf a =>
    simp only [combSk, Res.ok.injEq] at e
    subst e
    simp only [Pure] at hw ⊢
    refine comb_pure ?_ hw
    split
    · exact hf
    · exact hf
  | pipe _ => cases e
  | farm _ _ => cases e
  | a2a _ _ => cases e

theorem askedPure {h1 : Hdr α} {ws1 : List (Sk α)} {n1 : Option (Node α)}
    {h2 : Hdr α} {ws2 : List (Sk α)} {n2 : Option (Node α)} {F : α → List α}
    (h : Pure (asked h1 ws1 n1 h2 ws2 n2) F) : ∃ e f c1 e2 g c, emitPure h1.emitter e ∧
      PureAll ws1 f ∧ emitPure n1 c1 ∧ emitPure n2 e2 ∧ PureAll ws2 g ∧ collPure h2.coll c ∧
      F = kc e (kc f (kc c1 (kc e2 (kc g c)))) := by
  simp only [asked, Pure, PurePipe] at h
  obtain ⟨_, _, ⟨e, f, c1, p1, p2, p3, rfl⟩, ⟨_, _, ⟨e2, g, c, p4, p5, p6, rfl⟩, rfl, rfl⟩, rfl⟩ := h
  refine ⟨e, f, c1, e2, g, c, p1, p2, ?_, p4, p5, p6, ?_⟩
  · cases n1 <;> exact p3
  · simp only [kc_assoc, kc_ret]

theorem a2aFarm_pure {h1 h2 h : Hdr α} (hh : newHdr h1 h2 = .ok h) {l r : List (Sk α)}
    {e f g c : α → List α} (p1 : emitPure h1.emitter e) (p2 : PureAll l f) (p3 : PureAll r g)
    (p4 : collPure h2.coll c) : PurePipe [.farm h [.a2a l r]] (kc e (kc f (kc g c))) := by
  obtain ⟨g1, g2, g3, g4⟩ := newHdr_ok hh
  rw [purePipe_single]
  simp only [Pure, PureAll, and_true]
  exact ⟨e, kc f g, c, by rw [g1]; exact p1, ⟨f, g, p2, p3, rfl⟩, g4 c p4, by simp only [kc_assoc]⟩

theorem farms2_pure {h1 h2 : Hdr α} (ho : h1.ordered = false) {n : Option (Node α)} {ws1 ws2 : List (Sk α)}
    {e f k g c : α → List α} (p1 : emitPure h1.emitter e) (p2 : PureAll ws1 f) (p3 : emitPure n k)
    (p4 : PureAll ws2 g) (p5 : collPure h2.coll c) :
    PurePipe [.farm h1.removeColl ws1, .farm { h2 with emitter := n } ws2]
      (kc e (kc f (kc k (kc g c)))) := by
  simp only [PurePipe, Pure]
  refine ⟨kc e f, kc k (kc g c), ⟨e, f, ret, ?_, p2, ?_, by rw [kc_ret]⟩,
    ⟨_, ret, ⟨k, g, c, p3, p4, p5, rfl⟩, rfl, by rw [kc_ret]⟩, by simp only [kc_assoc]⟩
  · rw [removeColl_emitter]; exact p1
  · rw [removeColl_coll ho]; rfl

theorem empty_pure (F : α → List α) : PurePipe [emptyFarm] F := by
  rw [purePipe_single]
  simp only [emptyFarm, Pure, PureAll]
  exact ⟨ret, F, ret, rfl, trivial, rfl, by rw [kc_ret, ret_kc]⟩

theorem farmsA2A_pure {h1 h2 : Hdr α} {ws1 ws2 : List (Sk α)} {s : Sk α}
    (h : farmsA2A h1 ws1 h2 ws2 = .ok s) {e f g c : α → List α} (p1 : emitPure h1.emitter e)
    (p2 : PureAll ws1 f) (p3 : PureAll ws2 g) (p4 : collPure h2.coll c) :
    PurePipe [s] (kc e (kc f (kc g c))) := by
  unfold farmsA2A at h
  split at h
  · cases h; exact empty_pure _
  · obtain ⟨h', e1, e2⟩ := bind_ok h
    cases e2
    exact a2aFarm_pure e1 p1 p2 p3 p4

theorem combineFarms_pure
    {ofarm : Hdr α → List (Sk α) → Hdr α → List (Sk α) → Res (Option (List (Sk α)))}
    {h1 h2 : Hdr α} {ws1 ws2 : List (Sk α)} {n1 n2 : Option (Node α)} {m : Bool} {ss : List (Sk α)}
    (ho1 : h1.ordered = false) (ho2 : h2.ordered = false)
    (hx : m = true → n1 = none → n2 = none)
    (h : combineFarms ofarm h1 ws1 n1 h2 ws2 n2 m = .ok (some ss)) {F : α → List α}
    (hp : Pure (asked h1 ws1 n1 h2 ws2 n2) F) : PurePipe ss F := by
  obtain ⟨e, f, c1, e2, g, c, p1, p2, p3, p4, p5, p6, rfl⟩ := askedPure hp
  have q1 : emitPure h1.removeColl.emitter e := by rw [removeColl_emitter]; exact p1
  unfold combineFarms at h
  simp only [ho1, ho2, Bool.or_self, Bool.false_eq_true, if_false] at h
  cases m with
  | true =>
    simp only [if_true] at h
    cases n1 with
    | none =>
      have := hx rfl rfl
      subst this
      cases p3; cases p4
      rw [ret_kc, ret_kc]
      simp only at h
      split at h
      · obtain ⟨s, a1, a2⟩ := bind_ok h
        cases a2
        rcases farmsNF_cases a1 with rfl | ⟨h', ws, b1, b2, b3, rfl⟩
        · exact empty_pure _
        · obtain ⟨g1, g2, g3, g4⟩ := newHdr_ok b1
          rw [purePipe_single]
          simp only [Pure]
          exact ⟨e, kc f g, c, by rw [g1]; exact p1, combRow_pure b2 b3.symm p2 p5, g4 c p6,
            by simp only [kc_assoc]⟩
      · obtain ⟨h2', a1, a2⟩ := bind_ok h
        obtain ⟨s, a3, a4⟩ := bind_ok a2
        cases a4
        have := changeEmit_ok a1
        subst this
        exact farmsA2A_pure a3 q1 p2 p5 p6
    | some a =>
      cases n2 with
      | none =>
        cases p4
        simp only at h
        obtain ⟨h2', a1, a2⟩ := bind_ok h
        cases a2
        have := changeEmit_ok a1
        subst this
        rw [ret_kc]
        refine farms2_pure ho1 p1 p2 ?_ p5 p6
        split
        · have := comb_pure (a := a) (b := passNode) (show a.Pure c1 from p3) passNode_pure
          rw [kc_ret] at this
          exact this
        · exact p3
      | some b =>
        simp only at h
        split at h
        · cases h
        · split at h
          · cases h
          · obtain ⟨h2', a1, a2⟩ := bind_ok h
            cases a2
            have := changeEmit_ok a1
            subst this
            rw [← kc_assoc c1]
            refine farms2_pure ho1 p1 p2 ?_ p5 p6
            refine comb_pure (show a.Pure c1 from p3) ?_
            split
            · exact p4
            · exact moNode_pure p4
  | false =>
    simp only [Bool.false_eq_true, if_false] at h
    cases n1 with
    | none =>
      cases p3
      rw [ret_kc]
      cases n2 with
      | none =>
        cases p4
        rw [ret_kc]
        simp only at h
        obtain ⟨h2', a1, a2⟩ := bind_ok h
        obtain ⟨s, a3, a4⟩ := bind_ok a2
        cases a4
        have := changeEmit_ok a1
        subst this
        exact farmsA2A_pure a3 q1 p2 p5 p6
      | some b =>
        simp only at h
        obtain ⟨s, a1, a2⟩ := bind_ok h
        cases a2
        obtain ⟨h', b1, b2⟩ := bind_ok a1
        obtain ⟨l, b3, b4⟩ := bind_ok b2
        cases b4
        have := a2aFarm_pure b1 p1 (afterEach_pure b3 p2 (show b.Pure e2 from p4)) p5 p6
        simpa only [kc_assoc] using this
    | some a =>
      cases n2 with
      | none =>
        cases p4
        rw [ret_kc]
        simp only at h
        obtain ⟨h', b1, b2⟩ := bind_ok h
        obtain ⟨l, b3, b4⟩ := bind_ok b2
        cases b4
        have := a2aFarm_pure b1 p1 (afterEach_pure b3 p2 (show a.Pure c1 from p3)) p5 p6
        simpa only [kc_assoc] using this
      | some b =>
        simp only at h
        split at h
        · cases h
        · split at h
          · cases h
          · obtain ⟨h', b1, b2⟩ := bind_ok h
            obtain ⟨l, b3, b4⟩ := bind_ok b2
            obtain ⟨r, b5, b6⟩ := bind_ok b4
            cases b6
            have := a2aFarm_pure b1 p1 (afterEach_pure b3 p2 (show a.Pure c1 from p3))
              (beforeEach_pure b5 (show b.Pure e2 from p4) p5) p6
            simpa only [kc_assoc] using this

end FF.Opt
