/-
`optimize_static` refines (C60): without `introduce_a2a`, whatever the optimised network does the
original network could have done.
-/
import Verif.Opt.Lemmas

namespace FF.Opt

variable {α : Type}

/-! ### Workers -/

/-- Result of `onPipe`. -/
def RefP (s' s : Sk α) : Prop :=
  s' = s ∨ ∃ a b, s' = .pipe a ∧ s = .pipe b ∧ PRef a b

theorem RefP.refines {s' s : Sk α} (h : RefP s' s) : Refines s' s := by
  rcases h with h | ⟨a, b, h1, h2, h3⟩
  · subst h; exact fun _ _ h => h
  · subst h1; subst h2
    intro xs ys h
    simp only [sem] at h ⊢
    exact h3 _ _ h

/-- Result of `onWorker`. -/
def RefW (s' s : Sk α) : Prop :=
  RefP s' s ∨ (∃ h' w' h w, s' = .farm h' w' ∧ s = .farm h w ∧ Refines s' s) ∨
    (∃ l' r' l r, s' = .a2a l' r' ∧ s = .a2a l r ∧ All2 RefP l' l ∧ All2 RefP r' r)

theorem semRouted_mono {l' l : List (Sk α)} (h : All2 RefP l' l) {a : List (List α)}
    {o : List (List (Option Nat × α))} (hs : semRouted l' a o) : semRouted l a o := by
  induction h generalizing a o with
  | nil => exact hs
  | cons h1 h2 ih =>
    cases a with
    | nil => cases o <;> simp [semRouted] at hs
    | cons x a =>
      cases o with
      | nil => simp [semRouted] at hs
      | cons y o =>
        rcases h1 with h1 | ⟨p, q, h1, h3, h4⟩
        · subst h1
          rename_i s _ _
          cases s with
          | leaf n =>
            simp only [semRouted] at hs ⊢
            exact ⟨hs.1, ih hs.2⟩
          | pipe _ =>
            simp only [semRouted] at hs ⊢
            exact ⟨hs.1, ih hs.2⟩
          | farm _ _ =>
            simp only [semRouted] at hs ⊢
            exact ⟨hs.1, ih hs.2⟩
          | a2a _ _ =>
            simp only [semRouted] at hs ⊢
            exact ⟨hs.1, ih hs.2⟩
        · subst h1; subst h3
          simp only [semRouted, sem] at hs ⊢
          obtain ⟨⟨z, hz, hy⟩, hr⟩ := hs
          exact ⟨⟨z, h4 _ _ hz, hy⟩, ih hr⟩

theorem RefP.all {a b : List (Sk α)} (h : All2 RefP a b) : All2 (fun x y => Refines x y) a b :=
  h.mono fun _ _ h => h.refines

theorem RefW.refines {s' s : Sk α} (h : RefW s' s) : Refines s' s := by
  rcases h with h | ⟨_, _, _, _, _, _, h⟩ | ⟨l', r', l, r, h1, h2, h3, h4⟩
  · exact h.refines
  · exact h
  · subst h1; subst h2
    intro xs ys h
    simp only [sem] at h ⊢
    obtain ⟨zss, os, rows, cs, wss, e1, e2, e3, e4, e5, e6, e7⟩ := h
    refine ⟨zss, os, rows, cs, wss, e1, semRouted_mono h3 e2, ?_, ?_, e5,
      semEach_mono (RefP.all h4) e6, e7⟩
    · rw [← h4.length]; exact e3
    · rw [← h4.length]; exact e4

/-- Replacement of the workers of a farm. -/
structure WRef (ws' ws : List (Sk α)) : Prop where
  std : stdNodes ws' = stdNodes ws
  len : ws'.length = ws.length
  beh : ∀ zs ys, semWorkers ws' zs ys → semWorkers ws zs ys

theorem WRef.refl (ws : List (Sk α)) : WRef ws ws := ⟨rfl, rfl, fun _ _ h => h⟩

theorem WRef.trans {a b c : List (Sk α)} (h1 : WRef a b) (h2 : WRef b c) : WRef a c :=
  ⟨h1.std.trans h2.std, h1.len.trans h2.len, fun _ _ h => h2.beh _ _ (h1.beh _ _ h)⟩

theorem WRef.farm {ws' ws : List (Sk α)} (h : WRef ws' ws) (hd : Hdr α) :
    Refines (.farm hd ws') (.farm hd ws) := by
  intro xs ys hs
  simp only [sem] at hs ⊢
  obtain ⟨h0, vs, h1, h2⟩ := hs
  refine ⟨?_, vs, h1, ?_⟩
  · intro e; apply h0
    have := h.len
    rw [e] at this
    exact List.length_eq_zero_iff.1 this
  · rcases h2 with ⟨ns, e1, e2, e3, e4⟩ | ⟨e1, e2⟩
    · exact Or.inl ⟨ns, e1, e2, h.std ▸ e3, e4⟩
    · refine Or.inr ⟨?_, h.beh _ _ e2⟩
      rw [← h.std]; exact e1

theorem stdNodes_RefW {ws' ws : List (Sk α)} (h : All2 RefW ws' ws) :
    stdNodes ws' = stdNodes ws := by
  induction h with
  | nil => rfl
  | cons h1 _ ih =>
    rcases h1 with (h1 | ⟨p, q, h1, h2, _⟩) | ⟨_, _, _, _, h1, h2, _⟩ |
      ⟨_, _, _, _, h1, h2, _, _⟩
    · subst h1
      rename_i s _ _ _
      cases s <;> simp only [stdNodes, ih]
    · subst h1; subst h2; rfl
    · subst h1; subst h2; rfl
    · subst h1; subst h2; rfl

theorem RefW.all {ws' ws : List (Sk α)} (h : All2 RefW ws' ws) : WRef ws' ws := by
  refine ⟨stdNodes_RefW h, h.length, ?_⟩
  intro zs ys hs
  by_cases hw : ∃ l r, ws = [.a2a l r]
  · obtain ⟨l, r, hw⟩ := hw
    subst hw
    cases h with
    | cons h1 h2 =>
      cases h2
      rcases h1 with (h1 | ⟨p, q, _, h2, _⟩) | ⟨_, _, _, _, _, h2, _⟩ |
        ⟨l', r', l, r, h1, h2, h3, h4⟩
      · subst h1; exact hs
      · cases h2
      · cases h2
      · subst h1
        cases h2
        simp only [semWorkers] at hs ⊢
        obtain ⟨zss, os, rows, cs, wss, e1, e2, e3, e4, e5, e6, e7⟩ := hs
        refine ⟨zss, os, rows, cs, wss, e1, semRouted_mono h3 e2, ?_, ?_, e5,
          semEach_mono (RefP.all h4) e6, e7⟩
        · rw [← h4.length]; exact e3
        · rw [← h4.length]; exact e4
  · have hw' : ∀ l r, ws ≠ [.a2a l r] := fun l r e => hw ⟨l, r, e⟩
    have hw'' : ∀ l r, ws' ≠ [.a2a l r] := by
      intro l r e
      subst e
      cases h with
      | cons h1 h2 =>
        cases h2
        rcases h1 with (h1 | ⟨p, q, h1, _, _⟩) | ⟨_, _, _, _, h1, _, _⟩ |
          ⟨l', r', l, r, h1, h2, h3, h4⟩
        · exact hw' _ _ (by rw [← h1])
        · cases h1
        · cases h1
        · exact hw' _ _ (by rw [h2])
    rw [semWorkers_gen hw''] at hs
    rw [semWorkers_gen hw']
    obtain ⟨zss, wss, e1, e2, e3⟩ := hs
    exact ⟨zss, wss, e1, semEach_mono (h.mono fun _ _ h => h.refines) e2, e3⟩

theorem onPipe_ok {f : List (Sk α) → Res (List (Sk α))}
    (hf : ∀ a b, f a = .ok b → PRef b a) {s s' : Sk α} (h : onPipe f s = .ok s') :
    RefP s' s := by
  cases s with
  | pipe ss =>
    obtain ⟨b, h1, h2⟩ := bind_ok h
    cases h2
    exact Or.inr ⟨b, ss, rfl, rfl, hf _ _ h1⟩
  | leaf n => cases h; exact Or.inl rfl
  | farm _ _ => cases h; exact Or.inl rfl
  | a2a _ _ => cases h; exact Or.inl rfl

theorem mapR_onPipe {f : List (Sk α) → Res (List (Sk α))}
    (hf : ∀ a b, f a = .ok b → PRef b a) {l l' : List (Sk α)}
    (h : mapR (onPipe f) l = .ok l') : All2 RefP l' l :=
  (mapR_ok h).mono fun _ _ h => onPipe_ok hf h

theorem onInner_ok {f : List (Sk α) → Res (List (Sk α))}
    (hf : ∀ a b, f a = .ok b → PRef b a) {s s' : Sk α} (h : onInner f s = .ok s') :
    Refines s' s := by
  cases s with
  | pipe ss => cases h; exact fun _ _ h => h
  | leaf n => cases h; exact fun _ _ h => h
  | farm hd ws =>
    obtain ⟨w', h1, h2⟩ := bind_ok h
    cases h2
    exact (RefW.all ((mapR_onPipe hf h1).mono fun _ _ h => Or.inl h)).farm hd
  | a2a l r =>
    obtain ⟨l', h1, h2⟩ := bind_ok h
    obtain ⟨r', h3, h4⟩ := bind_ok h2
    cases h4
    exact RefW.refines (Or.inr (Or.inr ⟨_, _, _, _, rfl, rfl, mapR_onPipe hf h1,
      mapR_onPipe hf h3⟩))

theorem onFarm_ok {g : List (Sk α) → Res (List (Sk α))}
    (hg : ∀ a b, g a = .ok b → WRef b a) {s s' : Sk α} (h : onFarm g s = .ok s') :
    Refines s' s := by
  cases s with
  | pipe ss => cases h; exact fun _ _ h => h
  | leaf n => cases h; exact fun _ _ h => h
  | farm hd ws =>
    obtain ⟨w', h1, h2⟩ := bind_ok h
    cases h2
    exact (hg _ _ h1).farm hd
  | a2a l r => cases h; exact fun _ _ h => h

/-- Removing the default collector of an unordered farm. -/
theorem removeColl_refines {h : Hdr α} (ho : h.ordered = false) (hc : h.getColl = none)
    (ws : List (Sk α)) : Refines (.farm h.removeColl ws) (.farm h ws) := by
  intro xs ys hs
  simp only [sem, Hdr.removeColl, ho] at hs ⊢
  obtain ⟨h0, vs, h1, h2⟩ := hs
  refine ⟨h0, vs, ?_, ?_⟩
  · have : collOut h.coll vs = vs := by
      unfold Hdr.getColl at hc
      cases hcc : h.coll with
      | none => rfl
      | dflt => rfl
      | node n => rw [hcc] at hc; cases hc
    rw [this]; exact h1
  · rcases h2 with ⟨ns, e1, e2, e3, e4⟩ | ⟨_, e2⟩
    · simp [Coll.gathers] at e2
    · exact Or.inr ⟨Or.inl trivial, e2⟩

theorem onWorker_ok {f g : List (Sk α) → Res (List (Sk α))}
    (hf : ∀ a b, f a = .ok b → PRef b a) (hg : ∀ a b, g a = .ok b → WRef b a)
    {s s' : Sk α} (h : onWorker f g s = .ok s') : RefW s' s := by
  cases s with
  | pipe ss =>
    obtain ⟨b, h1, h2⟩ := bind_ok h
    cases h2
    exact Or.inl (Or.inr ⟨b, ss, rfl, rfl, hf _ _ h1⟩)
  | leaf n => cases h; exact Or.inl (Or.inl rfl)
  | a2a l r =>
    obtain ⟨l', h1, h2⟩ := bind_ok h
    obtain ⟨r', h3, h4⟩ := bind_ok h2
    cases h4
    exact Or.inr (Or.inr ⟨_, _, _, _, rfl, rfl, mapR_onPipe hf h1, mapR_onPipe hf h3⟩)
  | farm hd ws =>
    simp only [onWorker] at h
    cases ho : hd.ordered with
    | true =>
      rw [ho] at h
      cases h
      exact Or.inl (Or.inl rfl)
    | false =>
      simp only [ho, Bool.false_eq_true, if_false] at h
      obtain ⟨w', h1, h2⟩ := bind_ok h
      cases h2
      refine Or.inr (Or.inl ⟨_, _, _, _, rfl, rfl, ?_⟩)
      intro xs ys hs
      refine (hg _ _ h1).farm hd _ _ ?_
      split at hs
      · rename_i hc
        exact removeColl_refines ho (by simpa using hc) _ _ _ hs
      · exact hs

/-! ### Positions -/

theorem split1 {β : Type} {ss : List β} {f : Nat} {s : β} (h : ss[f]? = some s) :
    ss = ss.take f ++ s :: ss.drop (f + 1) := by
  have hlt : f < ss.length := by
    rcases Nat.lt_or_ge f ss.length with h' | h'
    · exact h'
    · rw [List.getElem?_eq_none h'] at h; cases h
  have hs : ss[f] = s := by
    rw [List.getElem?_eq_getElem hlt] at h
    exact Option.some.inj h
  conv => lhs; rw [← List.take_append_drop f ss, List.drop_eq_getElem_cons hlt, hs]

theorem split2 {β : Type} {ss : List β} {f : Nat} {s t : β} (h : ss[f]? = some s)
    (h' : ss[f + 1]? = some t) : ss = ss.take f ++ s :: t :: ss.drop (f + 2) := by
  have hd : ss.drop (f + 1) = t :: ss.drop (f + 2) := by
    have hlt : f + 1 < ss.length := by
      rcases Nat.lt_or_ge (f + 1) ss.length with h' | h''
      · exact h'
      · rw [List.getElem?_eq_none h''] at h'; cases h'
    rw [List.drop_eq_getElem_cons hlt]
    rw [List.getElem?_eq_getElem hlt] at h'
    rw [Option.some.inj h']
  conv => lhs; rw [split1 h, hd]

theorem findFrom_some {p : Sk α → Bool} {ss : List (Sk α)} {st i : Nat}
    (h : findFrom p ss st = some i) : st ≤ i ∧ ∃ s, ss[i]? = some s ∧ p s = true := by
  unfold findFrom at h
  obtain ⟨j, h1, h2⟩ := Option.map_eq_some_iff.1 h
  subst h2
  refine ⟨Nat.le_add_left _ _, ?_⟩
  obtain ⟨hj, h2, _⟩ := List.findIdx?_eq_some_iff_getElem.1 h1
  have hlt : st + j < ss.length := by
    simp at hj; omega
  refine ⟨ss[st + j], ?_, ?_⟩
  · rw [Nat.add_comm j st]; exact List.getElem?_eq_getElem hlt
  · simpa using h2

theorem pref_at {ss : List (Sk α)} {f : Nat} {s : Sk α} {a : List (Sk α)}
    (h : ss[f]? = some s) (ha : PRef a [s]) : PRef (ss.take f ++ a ++ ss.drop (f + 1)) ss := by
  conv => rhs; rw [split1 h]
  simpa using ha.middle (ss.take f) (ss.drop (f + 1))

theorem pref_at2 {ss : List (Sk α)} {f : Nat} {s t : Sk α} {a : List (Sk α)}
    (h : ss[f]? = some s) (h' : ss[f + 1]? = some t) (ha : PRef a [s, t]) :
    PRef (ss.take f ++ a ++ ss.drop (f + 2)) ss := by
  conv => rhs; rw [split2 h h']
  simpa using ha.middle (ss.take f) (ss.drop (f + 2))

/-! ### Ordered processing is one of the ways of dealing -/

theorem get_lt {β : Type} {l : List β} {i : Nat} {x : β} (h : l[i]? = some x) : i < l.length := by
  rcases Nat.lt_or_ge i l.length with h' | h'
  · exact h'
  · rw [List.getElem?_eq_none h'] at h; cases h

theorem OrdRun.deal {ns : List (Node α)} {hs : List (List α)} {zs : List (Option Nat × α)}
    {vs : List α} (h : OrdRun ns hs zs vs) (hl : hs.length = ns.length) :
    ∃ zss wss : List (List α), Split zs zss ∧ Split (free vs) wss ∧ zss.length = ns.length ∧
      wss.length = ns.length ∧ ∀ (i : Nat) (n : Node α) (h z w : List α), ns[i]? = some n → hs[i]? = some h →
        zss[i]? = some z → wss[i]? = some w → w = vals (n.run h z) := by
  induction h with
  | nil =>
    refine ⟨List.replicate ns.length [], List.replicate ns.length [], Split.nil _, Split.nil _,
      by simp, by simp, ?_⟩
    intro i n h z w _ _ h3 h4
    have e1 := List.mem_of_getElem? h3
    have e2 := List.mem_of_getElem? h4
    rw [List.eq_of_mem_replicate e1, List.eq_of_mem_replicate e2]
    rfl
  | cons h1 h2 h3 h4 ih =>
    rename_i hs r x zs ys i n h
    obtain ⟨zss, wss, e1, e2, e3, e4, e5⟩ := ih (by simpa using hl)
    have hi : i < ns.length := get_lt h1
    have hz : zss[i]? = some zss[i] := List.getElem?_eq_getElem (by omega)
    have hw : wss[i]? = some wss[i] := List.getElem?_eq_getElem (by omega)
    refine ⟨zss.set i (x :: zss[i]), wss.set i (vals (n.out h x) ++ wss[i]),
      Split.cons e1 hz h3, ?_, by simpa using e3, by simpa using e4, ?_⟩
    · rw [free_append]; exact e2.push hw _
    · intro j n' h' z w g1 g2 g3 g4
      by_cases hij : j = i
      · subst hij
        rw [h1] at g1
        rw [h2] at g2
        cases g1
        cases g2
        rw [List.getElem?_set_self (by omega)] at g3 g4
        cases g3
        cases g4
        have := e5 j n (h ++ [x]) zss[j] wss[j] h1
          (by rw [List.getElem?_set_self (by omega)]) hz hw
        rw [this]
        simp [Node.run, vals_append]
      · rw [List.getElem?_set_ne (Ne.symm hij)] at g3 g4
        exact e5 j n' h' z w g1 (by rw [List.getElem?_set_ne (Ne.symm hij)]; exact g2) g3 g4

theorem stdNodes_leaf {ws : List (Sk α)} {ns : List (Node α)} (h : stdNodes ws = some ns) :
    ws = ns.map Sk.leaf := by
  induction ws generalizing ns with
  | nil => cases h; rfl
  | cons s ws ih =>
    cases s with
    | leaf n =>
      simp only [stdNodes] at h
      split at h
      · cases h
      · obtain ⟨m, h1, h2⟩ := Option.map_eq_some_iff.1 h
        rw [← h2, ih h1]; rfl
    | pipe _ => cases h
    | farm _ _ => cases h
    | a2a _ _ => cases h

theorem semEach_leaves {ns : List (Node α)} {a b : List (List α)} (ha : a.length = ns.length)
    (hb : b.length = ns.length)
    (h : ∀ (i : Nat) (n : Node α) (z w : List α), ns[i]? = some n → a[i]? = some z → b[i]? = some w → w = vals (n.beh z)) :
    semEach (ns.map Sk.leaf) a b := by
  induction ns generalizing a b with
  | nil =>
    cases a with
    | nil => cases b with
      | nil => simp [semEach]
      | cons _ _ => simp at hb
    | cons _ _ => simp at ha
  | cons n ns ih =>
    cases a with
    | nil => simp at ha
    | cons x a =>
      cases b with
      | nil => simp at hb
      | cons y b =>
        simp only [List.map_cons, semEach, sem]
        refine ⟨h 0 n x y rfl rfl rfl, ih (by simpa using ha) (by simpa using hb) ?_⟩
        intro i n' z w g1 g2 g3
        exact h (i + 1) n' z w (by simpa using g1) (by simpa using g2) (by simpa using g3)

theorem leaves_ne_a2a (ns : List (Node α)) (l r : List (Sk α)) : ns.map Sk.leaf ≠ [.a2a l r] := by
  intro h
  cases ns with
  | nil => cases h
  | cons n ns =>
    simp at h

theorem OrdRun.semWorkers {ws : List (Sk α)} {ns : List (Node α)} {zs : List (Option Nat × α)}
    {vs : List α} (hs : stdNodes ws = some ns) (h : OrdRun ns (ns.map fun _ => []) zs vs) :
    semWorkers ws zs vs := by
  rw [stdNodes_leaf hs, semWorkers_gen (leaves_ne_a2a ns)]
  obtain ⟨zss, wss, e1, e2, e3, e4, e5⟩ := h.deal (by simp)
  refine ⟨zss, wss, e1, semEach_leaves e3 e4 ?_, e2⟩
  intro i n z w g1 g2 g3
  exact e5 i n [] z w g1 (by simp [g1]) g2 g3

/-! ### `remove_collector` -/

theorem collOut_null {h : Hdr α} (hc : h.getColl = none) (vs : List α) :
    collOut h.coll vs = vs := by
  unfold Hdr.getColl at hc
  cases hcc : h.coll with
  | none => rfl
  | dflt => rfl
  | node n => rw [hcc] at hc; cases hc

/-- The stage after an ordered farm becomes its collector. -/
theorem addColl_pref {h : Hdr α} (ho : h.ordered = true) (hc : h.getColl = none) (m : Node α)
    (ws : List (Sk α)) : PRef [.farm (h.addColl (some m)) ws] [.farm h ws, .leaf m] := by
  intro xs ys hs
  simp only [semPipe, sem, Hdr.addColl, ho, Coll.gathers] at hs ⊢
  obtain ⟨z, ⟨h0, vs, h1, h2⟩, h3⟩ := hs
  subst h3
  rcases h2 with ⟨ns, _, _, e3, e4⟩ | ⟨e1, _⟩
  · refine ⟨vs, ⟨h0, vs, (collOut_null hc vs).symm, ?_⟩, _, h1, rfl⟩
    cases hcc : h.coll with
    | none => exact Or.inr ⟨Or.inr ⟨rfl, by rw [e3]; rfl⟩, e4.semWorkers e3⟩
    | dflt => exact Or.inl ⟨ns, trivial, rfl, e3, e4⟩
    | node n => exact Or.inl ⟨ns, trivial, rfl, e3, e4⟩
  · simp at e1

theorem Sk.nullColl_farm {h : Hdr α} {ws : List (Sk α)} (hn : (Sk.farm h ws).nullColl = true) :
    h.getColl = none := by
  simpa [Sk.nullColl] using hn

theorem leaf_mi_refines (m : Node α) :
    Refines (.leaf (if m.mi then m else miNode m)) (.leaf m) := by
  intro xs ys h
  simp only [sem] at h ⊢
  split at h
  · exact h
  · rw [beh_mi] at h; exact h

theorem rmRound_pref {ss ss' : List (Sk α)} {f : Nat} (h : rmRound ss f = .ok ss')
    (hn : ∃ s, ss[f]? = some s ∧ s.nullColl = true) : PRef ss' ss := by
  obtain ⟨s, hf, hn⟩ := hn
  unfold rmRound at h
  cases s with
  | leaf n => cases hn
  | pipe _ => cases hn
  | a2a _ _ => cases hn
  | farm hd ws =>
    have hc := Sk.nullColl_farm hn
    rw [hf] at h
    simp only at h
    cases hx : ss[f + 1]? with
    | none =>
      rw [hx] at h
      simp only at h
      split at h
      · rename_i hh
        cases h
        have ho : hd.ordered = false := by
          simp at hh; exact hh.1
        have := pref_at (a := [.farm hd.removeColl ws]) hf
          (All2.pref (.cons (removeColl_refines ho hc ws) .nil))
        simpa using this
      · cases h; exact PRef.refl _
    | some nx =>
      rw [hx] at h
      simp only at h
      split at h
      · split at h
        · rename_i ho
          cases nx with
          | leaf m =>
            cases h
            have := pref_at2 hf hx (addColl_pref ho hc m ws)
            simpa using this
          | pipe _ => cases h
          | farm _ _ => cases h; exact PRef.refl _
          | a2a _ _ => cases h; exact PRef.refl _
        · rename_i ho
          have ho : hd.ordered = false := by simpa using ho
          cases nx with
          | leaf m =>
            cases h
            have := pref_at2 (a := [.farm hd.removeColl ws, .leaf (if m.mi then m else miNode m)])
              hf hx (All2.pref (.cons (removeColl_refines ho hc ws)
                (.cons (leaf_mi_refines m) .nil)))
            simpa using this
          | pipe _ => cases h
          | farm _ _ =>
            cases h
            have := pref_at (a := [.farm hd.removeColl ws]) hf
              (All2.pref (.cons (removeColl_refines ho hc ws) .nil))
            simpa using this
          | a2a _ _ => cases h; exact PRef.refl _
      · cases h; exact PRef.refl _

theorem rmLoop_pref {n : Nat} {ss ss' : List (Sk α)} {next : Nat}
    (h : rmLoop n ss next = .ok ss') : PRef ss' ss := by
  induction n generalizing ss next with
  | zero => cases h
  | succ n ih =>
    unfold rmLoop at h
    cases hf : findFrom Sk.nullColl ss next with
    | none => rw [hf] at h; cases h; exact PRef.refl _
    | some f =>
      rw [hf] at h
      obtain ⟨s1, h1, h2⟩ := bind_ok h
      exact (ih h2).trans (rmRound_pref h1 (findFrom_some hf).2)

/-! ### `merge_with_emitter` -/

theorem addEmit_ok {h h' : Hdr α} {e : Node α} (hh : h.addEmit e = .ok h') :
    h' = { h with emitter := some e } := by
  unfold Hdr.addEmit at hh
  split at hh
  · cases hh
  · cases hh; rfl

theorem emitOut_std {m : Node α} (hm : m.mo = false) (xs : List α) :
    emitOut (some m) xs = emitOut none (vals (m.beh xs)) := by
  simp [emitOut, Node.emits, hm]

/-- A standard stage before a farm without emitter becomes its emitter. -/
theorem addEmit_pref {h : Hdr α} {m : Node α} (hm : m.mo = false) (he : h.emitter = none)
    (ws : List (Sk α)) : PRef [.farm { h with emitter := some m } ws] [.leaf m, .farm h ws] := by
  intro xs ys hs
  simp only [semPipe, sem] at hs ⊢
  obtain ⟨z, h1, h3⟩ := hs
  refine ⟨_, rfl, z, ?_, h3⟩
  rw [emitOut_std hm] at h1
  rw [he]
  exact h1

theorem removeNode_pref {hp : Hdr α} {c : Node α} (hc : hp.getColl = some c)
    (wp : List (Sk α)) : PRef [.farm hp.removeColl wp, .leaf c] [.farm hp wp] := by
  have hcc : hp.coll = .node c := by
    unfold Hdr.getColl at hc
    cases hx : hp.coll with
    | none => rw [hx] at hc; cases hc
    | dflt => rw [hx] at hc; cases hc
    | node n => rw [hx] at hc; cases hc; rfl
  intro xs ys hs
  simp only [semPipe, sem] at hs ⊢
  obtain ⟨z, ⟨h0, vs, h1, h2⟩, y, h3, h4⟩ := hs
  subst h4
  refine ⟨ys, ⟨h0, vs, ?_, ?_⟩, rfl⟩
  · rw [hcc]
    have : z = vs := by
      rw [h1]; unfold Hdr.removeColl; split <;> rfl
    rw [h3, this]; rfl
  · rw [hcc]
    unfold Hdr.removeColl at h2
    cases ho : hp.ordered with
    | true =>
      simp only [ho, if_true, Coll.gathers] at h2
      rcases h2 with ⟨ns, _, _, e3, e4⟩ | ⟨e1, _⟩
      · exact Or.inl ⟨ns, rfl, rfl, e3, e4⟩
      · simp at e1
    | false =>
      simp only [ho, Bool.false_eq_true, if_false, Coll.gathers] at h2
      rcases h2 with ⟨ns, e1, _, e3, e4⟩ | ⟨_, e2⟩
      · cases e1
      · exact Or.inr ⟨Or.inl rfl, e2⟩

theorem Sk.nullEmit_farm {h : Hdr α} {ws : List (Sk α)} (hn : (Sk.farm h ws).nullEmit = true) :
    h.emitter = none := by
  simpa [Sk.nullEmit] using hn

theorem mergeEmit_pref {ss ss' : List (Sk α)} (h : mergeEmit ss = .ok ss') : PRef ss' ss := by
  unfold mergeEmit at h
  cases hf : findFrom Sk.nullEmit ss 0 with
  | none => rw [hf] at h; cases h; exact PRef.refl _
  | some k =>
    rw [hf] at h
    cases k with
    | zero => cases h; exact PRef.refl _
    | succ f =>
      obtain ⟨_, s, hs, hn⟩ := findFrom_some hf
      simp only at h
      rw [hs] at h
      cases hp : ss[f]? with
      | none => rw [hp] at h; cases s <;> cases h
      | some prev =>
        rw [hp] at h
        cases s with
        | leaf n => cases hn
        | pipe _ => cases hn
        | a2a _ _ => cases hn
        | farm hd ws =>
          have he := Sk.nullEmit_farm hn
          simp only at h
          split at h
          · cases h; exact PRef.refl _
          · rename_i hmo
            cases prev with
            | pipe _ => cases h
            | a2a _ _ => cases h
            | leaf m =>
              simp only [Sk.isMO, Bool.not_eq_true] at hmo
              simp only at h
              split at h
              · cases h
              · obtain ⟨h', h1, h2⟩ := bind_ok h
                cases h2
                rw [addEmit_ok h1]
                have := pref_at2 hp hs (addEmit_pref hmo he ws)
                simpa using this
            | farm hq wq =>
              simp only [Sk.isMO, Bool.not_eq_true] at hmo
              simp only at h
              split at h
              · cases hc : hq.getColl with
                | none => rw [hc] at h; cases h
                | some c =>
                  rw [hc] at h
                  simp only at h
                  split at h
                  · cases h
                  · obtain ⟨h', h1, h2⟩ := bind_ok h
                    cases h2
                    rw [addEmit_ok h1]
                    have hcmo : c.mo = false := by
                      unfold Hdr.getColl at hc
                      unfold Hdr.isMO at hmo
                      cases hx : hq.coll with
                      | none => rw [hx] at hc; cases hc
                      | dflt => rw [hx] at hc; cases hc
                      | node n => rw [hx] at hc hmo; cases hc; exact hmo
                    have e1 : PRef [.farm hq.removeColl wq, .farm { hd with emitter := some c } ws]
                        [.farm hq.removeColl wq, .leaf c, .farm hd ws] :=
                      (PRef.refl [.farm hq.removeColl wq]).append (addEmit_pref hcmo he ws)
                    have e2 : PRef [.farm hq.removeColl wq, .leaf c, .farm hd ws]
                        [.farm hq wq, .farm hd ws] :=
                      (removeNode_pref hc wq).append (PRef.refl [.farm hd ws])
                    have := pref_at2 hp hs (e1.trans e2)
                    simpa using this
              · cases h; exact PRef.refl _

end FF.Opt
