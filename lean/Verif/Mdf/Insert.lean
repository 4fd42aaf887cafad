import Verif.Mdf.Core
/-! # Inserting a task preserves the invariant of the dependency table -/
namespace FF.Mdf
open FF.Farm (sumN)

theorem md_tk (c : Core) (i : Nat) (f : Rec → Rec) (k : Nat) :
    (c.md i f).tk k = if k = i then (c.tk i).map f else c.tk k := rfl

theorem ecount_some {c : Core} {i : Nat} {r : Rec} (h : c.tk i = some r) (j : Nat) :
    ecount c i j = if r.st = .done then 0 else r.ubl.count j := by unfold ecount; rw [h]

theorem ecount_none {c : Core} {i : Nat} (h : c.tk i = none) (j : Nat) : ecount c i j = 0 := by unfold ecount; rw [h]

theorem ecount_congr {c c' : Core} {i : Nat} (h : c'.tk i = c.tk i) (j : Nat) : ecount c' i j = ecount c i j := by
  unfold ecount; rw [h]

structure Full (c : Core) (act : Nat) (ps : List Param) : Prop where
  b : Base c
  a : Addr c
  o : Ord c
  t : Act c act ps

/-- `c'` differs from `c` only by more entries in the lists of unblocked tasks (and in the counters of
dependencies) -/
structure Grow (c c' : Core) : Prop where
  ad : c'.ad = c.ad
  par : c'.par = c.par
  fin : c'.fin = c.fin
  next : c'.next = c.next
  row : ∀ k r, c.tk k = some r → ∃ r', c'.tk k = some r' ∧ r'.st = r.st ∧ r'.nout = r.nout ∧ r'.dummy = r.dummy ∧
    r'.dtag = r.dtag ∧ ∀ x, x ∈ r.ubl → x ∈ r'.ubl
  none : ∀ k, c.tk k = none → c'.tk k = none

theorem Grow.refl (c : Core) : Grow c c :=
  ⟨rfl, rfl, rfl, rfl, fun _ r h => ⟨r, h, rfl, rfl, rfl, rfl, fun _ h => h⟩, fun _ h => h⟩

theorem Grow.trans {a b c : Core} (h : Grow a b) (g : Grow b c) : Grow a c := by
  refine ⟨by rw [g.ad, h.ad], by rw [g.par, h.par], by rw [g.fin, h.fin], by rw [g.next, h.next], ?_, ?_⟩
  · intro k r hk
    obtain ⟨r1, e1, e2, e3, e4, e5, e6⟩ := h.row k r hk
    obtain ⟨r2, f1, f2, f3, f4, f5, f6⟩ := g.row k r1 e1
    exact ⟨r2, f1, by rw [f2, e2], by rw [f3, e3], by rw [f4, e4], by rw [f5, e5], fun x hx => f6 x (e6 x hx)⟩
  · intro k hk; exact g.none k (h.none k hk)

theorem Grow.edge {c c' : Core} (g : Grow c c') {i j : Nat} (h : Edge c i j) : Edge c' i j := by
  obtain ⟨r, h1, h2, h3⟩ := h
  obtain ⟨r1, e1, e2, e3, e4, e5, e6⟩ := g.row i r h1
  exact ⟨r1, e1, by rw [e2]; exact h2, e6 j h3⟩

theorem Grow.path {c c' : Core} (g : Grow c c') {i j : Nat} (h : Path c i j) : Path c' i j :=
  path_mono (fun _ _ => g.edge) h

/-- a row of `c'` comes from a row of `c` -/
theorem Grow.back {c c' : Core} (g : Grow c c') {k : Nat} {r' : Rec} (h : c'.tk k = some r') :
    ∃ r, c.tk k = some r ∧ r'.st = r.st ∧ r'.nout = r.nout ∧ r'.dummy = r.dummy ∧
    r'.dtag = r.dtag ∧ ∀ x, x ∈ r.ubl → x ∈ r'.ubl := by
  cases hk : c.tk k with
  | none => rw [g.none k hk] at h; cases h
  | some r =>
    obtain ⟨r1, e1, e2⟩ := g.row k r hk
    rw [e1] at h; cases h
    exact ⟨r, rfl, e2⟩

theorem Grow.same_outs {c c' : Core} (g : Grow c c') {k : Nat} {r r' : Rec} (h : r'.dummy = r.dummy) (h2 : r'.dtag = r.dtag) :
    outs c' k r' = outs c k r := by unfold outs; rw [h, h2, g.par]

theorem Grow.addr {c c' : Core} (g : Grow c c') (h : Addr c) : Addr c' := by
  constructor
  · rw [g.ad]; exact h.zero
  · intro d hd
    rw [g.ad] at hd ⊢
    obtain ⟨r, h1, h2⟩ := h.tab d hd
    obtain ⟨r1, e1, e2, e3, e4, e5, e6⟩ := g.row _ r h1
    exact ⟨r1, e1, by rw [g.same_outs e4 e5]; exact h2⟩
  · intro i p d; rw [g.ad, g.par]; exact h.wr i p d
  · intro i p d hp hr
    rw [g.par] at hp
    rw [g.ad, g.par]
    obtain ⟨h1, h2⟩ := h.rd i p d hp hr
    refine ⟨h1, ?_⟩
    cases h2 with
    | inr h2 => exact Or.inr h2
    | inl h2 =>
      obtain ⟨r, h2, h3⟩ := h2
      obtain ⟨r1, e1, e2, e3, e4, e5, e6⟩ := g.row _ r h2
      exact Or.inl ⟨r1, e1, e6 i h3⟩
  · intro t r' hr
    obtain ⟨r, h1, e2, e3, e4, e5, e6⟩ := g.back hr
    rw [e3, g.same_outs e4 e5, g.ad]; exact h.nout t r h1
  · intro t r' hr
    obtain ⟨r, h1, e2, e3, e4, e5, e6⟩ := g.back hr
    rw [g.same_outs e4 e5]; exact h.nod t r h1

theorem Grow.ord {c c' : Core} (g : Grow c c') (h : Ord c) : Ord c' := by
  intro i j p q hp hq hij hc hf
  rw [g.par] at hp hq
  rw [g.fin] at hf
  exact g.path (h i j p q hp hq hij hc hf)

/-! ### one more dependency -/

theorem link_grow {c : Core} {act i : Nat} : Grow c (c.link act i) := by
  refine ⟨rfl, rfl, rfl, rfl, ?_, ?_⟩
  · intro k r hk
    unfold Core.link
    rw [md_tk, md_tk, md_tk]
    by_cases h1 : k = act
    · subst h1
      by_cases h2 : k = i
      · subst h2
        simp only [if_true, hk, Option.map_some]
        exact ⟨_, rfl, rfl, rfl, rfl, rfl, fun x hx => List.mem_append_left _ hx⟩
      · simp only [if_true, if_neg h2, hk, Option.map_some]
        exact ⟨_, rfl, rfl, rfl, rfl, rfl, fun x hx => hx⟩
    · simp only [if_neg h1]
      by_cases h2 : k = i
      · subst h2
        simp only [if_true, hk, Option.map_some]
        exact ⟨_, rfl, rfl, rfl, rfl, rfl, fun x hx => List.mem_append_left _ hx⟩
      · simp only [if_neg h2, hk]
        exact ⟨_, rfl, rfl, rfl, rfl, rfl, fun x hx => hx⟩
  · intro k hk
    unfold Core.link
    rw [md_tk, md_tk, md_tk]
    by_cases h1 : k = act
    · subst h1
      by_cases h2 : k = i
      · subst h2; simp only [if_true, hk, Option.map_none]
      · simp only [if_true, if_neg h2, hk, Option.map_none]
    · simp only [if_neg h1]
      by_cases h2 : k = i
      · subst h2; simp only [if_true, hk, Option.map_none]
      · simp only [if_neg h2, hk]

theorem link_tk {c : Core} {act i : Nat} {ra ri : Rec} (hne : i ≠ act) (ha : c.tk act = some ra)
    (hi : c.tk i = some ri) (k : Nat) : (c.link act i).tk k =
      if k = act then some { ra with rdep := ra.rdep + 1 }
      else if k = i then some { ri with ubl := ri.ubl ++ [act] } else c.tk k := by
  unfold Core.link
  rw [md_tk, md_tk, md_tk]
  by_cases h1 : k = act
  · subst h1
    simp only [if_true, if_neg (Ne.symm hne), ha, Option.map_some]
  · simp only [if_neg h1]
    by_cases h2 : k = i
    · subst h2; simp only [if_true, hi, Option.map_some]
    · simp only [if_neg h2]

theorem link_edge {c : Core} {act i : Nat} {ra ri : Rec} (hne : i ≠ act) (ha : c.tk act = some ra)
    (hi : c.tk i = some ri) (hl : ri.st ≠ .done) : Edge (c.link act i) i act := by
  refine ⟨{ ri with ubl := ri.ubl ++ [act] }, ?_, hl, by simp⟩
  rw [link_tk hne ha hi, if_neg hne, if_pos rfl]

theorem link_base {c : Core} {act i : Nat} {ps : List Param} (hb : Base c) (ht : Act c act ps) {ri : Rec} (hlt : i < act)
    (hi : c.tk i = some ri) (hl : ri.st ≠ .done) : Base (c.link act i) ∧ Act (c.link act i) act ps := by
  have g : Grow c (c.link act i) := link_grow
  obtain ⟨ra, ha, hst, hub, hdm⟩ := ht.row
  have hne : i ≠ act := by omega
  have htk := link_tk hne ha hi
  obtain ⟨c', hc⟩ : ∃ c', c' = c.link act i := ⟨_, rfl⟩
  rw [← hc] at htk g ⊢
  have hself : act ∉ ra.ubl := by rw [hub]; simp
  have hcnt : ∀ k j, j ≠ act → ecount c' k j = ecount c k j := by
    intro k j hj
    by_cases h1 : k = act
    · subst h1
      rw [ecount_some ha, ecount_some (by rw [htk k, if_pos rfl])]
    · by_cases h2 : k = i
      · subst h2
        rw [ecount_some hi, ecount_some (by rw [htk k, if_neg h1, if_pos rfl])]
        simp only [List.count_append, List.count_singleton, beq_iff_eq, if_neg (Ne.symm hj), Nat.add_zero]
      · exact ecount_congr (by rw [htk k, if_neg h1, if_neg h2]) j
  have hcnt2 : ∀ k, k ≠ i → ecount c' k act = ecount c k act := by
    intro k h2
    by_cases h1 : k = act
    · subst h1
      rw [ecount_some ha, ecount_some (by rw [htk k, if_pos rfl])]
    · exact ecount_congr (by rw [htk k, if_neg h1, if_neg h2]) act
  have hcnt3 : ecount c' i act = ecount c i act + 1 := by
    rw [ecount_some hi, ecount_some (by rw [htk i, if_neg hne, if_pos rfl])]
    simp only [hl, if_false, List.count_append, List.count_singleton, beq_self_eq_true, if_true]
  have hs1 : ∀ j, j ≠ act → esum c' j = esum c j := by
    intro j hj
    unfold esum
    rw [g.next]
    exact Farm.sumN_congr fun k _ => hcnt k j hj
  have hs2 : esum c' act = esum c act + 1 := by
    unfold esum
    rw [g.next]
    have := Parfor.sumN_change (f := fun k => ecount c' k act) (g := fun k => ecount c k act)
      (hb.idt i ri hi).2 (fun k _ hk => hcnt2 k hk)
    simp only [hcnt3] at this
    omega
  refine ⟨?_, ?_⟩
  · constructor
    · rw [g.next]; exact hb.pos
    · intro k r hk
      obtain ⟨r0, h0, _⟩ := g.back hk
      rw [g.next]; exact hb.idt k r0 h0
    · intro k p hp; rw [g.par] at hp; rw [g.next]; exact hb.idp k p hp
    · intro k hk; rw [g.fin] at hk; rw [g.next]; exact hb.idf k hk
    · intro k r hk
      obtain ⟨r0, h0, _, _, h3, _⟩ := g.back hk
      rw [g.par, h3]; exact hb.real k r0 h0
    · intro k r hk hd
      obtain ⟨r0, h0, h1, _, h3, _⟩ := g.back hk
      rw [h1]; rw [h3] at hd; exact hb.dum k r0 h0 hd
    · intro k p hp hf
      rw [g.par] at hp; rw [g.fin] at hf
      obtain ⟨r, h1, h2⟩ := hb.live k p hp hf
      obtain ⟨r1, e1, e2, _⟩ := g.row k r h1
      exact ⟨r1, e1, by rw [e2]; exact h2⟩
    · intro k r hk hd
      obtain ⟨r0, h0, h1, _⟩ := g.back hk
      rw [g.fin]; rw [h1] at hd; exact hb.dead k r0 h0 hd
    · intro j r hk hd
      by_cases h1 : j = act
      · subst h1
        rw [htk j, if_pos rfl, Option.some.injEq] at hk
        subst hk
        have := hb.rdep j ra ha (by rw [hst]; decide)
        rw [hs2]; dsimp only; push_cast; omega
      · rw [hs1 j h1]
        by_cases h2 : j = i
        · subst h2
          rw [htk j, if_neg h1, if_pos rfl, Option.some.injEq] at hk
          subst hk
          exact hb.rdep j ri hi hl
        · rw [htk j, if_neg h1, if_neg h2] at hk
          exact hb.rdep j r hk hd
    · intro k r j hk hd hj
      have hold : (∃ r0, c.tk k = some r0 ∧ r0.st ≠ .done ∧ j ∈ r0.ubl) ∨ (k = i ∧ j = act) := by
        by_cases h1 : k = act
        · subst h1
          rw [htk k, if_pos rfl, Option.some.injEq] at hk
          subst hk
          exact Or.inl ⟨ra, ha, hd, hj⟩
        · by_cases h2 : k = i
          · subst h2
            rw [htk k, if_neg h1, if_pos rfl, Option.some.injEq] at hk
            subst hk
            simp only [List.mem_append, List.mem_singleton] at hj
            cases hj with
            | inl hj => exact Or.inl ⟨ri, hi, hd, hj⟩
            | inr hj => exact Or.inr ⟨rfl, hj⟩
          · rw [htk k, if_neg h1, if_neg h2] at hk
            exact Or.inl ⟨r, hk, hd, hj⟩
      cases hold with
      | inl h =>
        obtain ⟨r0, h1, h2, h3⟩ := h
        obtain ⟨h4, r', h5, h6⟩ := hb.edge k r0 j h1 h2 h3
        obtain ⟨r1, e1, e2, _⟩ := g.row j r' h5
        exact ⟨h4, r1, e1, by rw [e2]; exact h6⟩
      | inr h =>
        obtain ⟨rfl, rfl⟩ := h
        exact ⟨hlt, { ra with rdep := ra.rdep + 1 }, by rw [htk j, if_pos rfl], by dsimp only; rw [hst]; decide⟩
    · intro j r hk hd
      by_cases h1 : j = act
      · subst h1
        rw [htk j, if_pos rfl, Option.some.injEq] at hk
        subst hk
        dsimp only at hd
        rw [hst] at hd; cases hd
      · by_cases h2 : j = i
        · subst h2
          rw [htk j, if_neg h1, if_pos rfl, Option.some.injEq] at hk
          subst hk
          exact hb.rdy j ri hi hd
        · rw [htk j, if_neg h1, if_neg h2] at hk
          exact hb.rdy j r hk hd
  · constructor
    · exact ⟨{ ra with rdep := ra.rdep + 1 }, by rw [htk act, if_pos rfl], hst, hub, hdm⟩
    · rw [g.par]; exact ht.par
    · rw [g.par]; exact ht.top
    · intro k r hk hr hs
      rw [htk k, if_neg hk] at hr
      by_cases h2 : k = i
      · subst h2
        rw [if_pos rfl, Option.some.injEq] at hr
        subst hr
        exact ht.wait k ri hk hi hs
      · rw [if_neg h2] at hr
        exact ht.wait k r hk hr hs

/-- a task that is not completed has been submitted before -/
theorem live_lt {c : Core} {act i : Nat} {ps : List Param} (hb : Base c) (ht : Act c act ps) {ri : Rec}
    (hne : i ≠ act) (hi : c.tk i = some ri) (hl : ri.st ≠ .done) : i < act := by
  have h1 : ri.dummy = false := by
    cases h : ri.dummy with
    | false => rfl
    | true => exact absurd (hb.dum i ri hi h) hl
  obtain ⟨p, hp⟩ := (hb.real i ri hi).1 h1
  have := ht.top i p hp
  omega

theorem war_fold (act : Nat) (ps : List Param) (l : List Nat) : ∀ (c : Core), Base c → Act c act ps →
    Base (l.foldl (Core.war act) c) ∧ Act (l.foldl (Core.war act) c) act ps ∧ Grow c (l.foldl (Core.war act) c) ∧
    (∀ x r, x ∈ l → x ≠ act → c.tk x = some r → r.st ≠ .done → Edge (l.foldl (Core.war act) c) x act) := by
  induction l with
  | nil => intro c hb ht; exact ⟨hb, ht, Grow.refl c, fun x r hx => by cases hx⟩
  | cons y l ih =>
    intro c hb ht
    simp only [List.foldl_cons]
    have step : Base (c.war act y) ∧ Act (c.war act y) act ps ∧ Grow c (c.war act y) ∧
        (∀ r, y ≠ act → c.tk y = some r → r.st ≠ .done → Edge (c.war act y) y act) := by
      unfold Core.war
      cases hy : c.tk y with
      | none => exact ⟨hb, ht, Grow.refl c, fun r _ h => by cases h⟩
      | some r =>
        dsimp only
        by_cases hc : y ≠ act ∧ r.st ≠ .done
        · rw [if_pos hc]
          obtain ⟨h1, h2⟩ := link_base hb ht (live_lt hb ht hc.1 hy hc.2) hy hc.2
          obtain ⟨ra, ha, _⟩ := ht.row
          exact ⟨h1, h2, link_grow, fun r _ _ _ => link_edge hc.1 ha hy hc.2⟩
        · rw [if_neg hc]
          refine ⟨hb, ht, Grow.refl c, fun r' h1 h2 h3 => ?_⟩
          cases h2
          exact absurd ⟨h1, h3⟩ hc
    obtain ⟨b1, t1, g1, e1⟩ := step
    obtain ⟨b2, t2, g2, e2⟩ := ih _ b1 t1
    refine ⟨b2, t2, g1.trans g2, ?_⟩
    intro x r hx hxa hr hd
    by_cases hxy : x = y
    · subst hxy; exact g2.edge (e1 r hxa hr hd)
    · cases hx with
      | head => exact absurd rfl hxy
      | tail _ hx =>
        obtain ⟨r1, f1, f2, _⟩ := g1.row x r hr
        exact e2 x r1 hx hxa f1 (by rw [f2]; exact hd)

/-! ### changes that keep the dependencies -/

theorem sumN_ext {f : Nat → Nat} {n m : Nat} (h : n ≤ m) (h0 : ∀ k, n ≤ k → k < m → f k = 0) : sumN f m = sumN f n := by
  induction m with
  | zero => have : n = 0 := by omega
            rw [this]
  | succ m ih =>
    by_cases hn : n = m + 1
    · rw [hn]
    · simp only [sumN]
      rw [ih (by omega) (fun k h1 h2 => h0 k h1 (by omega)), h0 m (by omega) (by omega)]; omega

structure Keep (c c' : Core) : Prop where
  next : c.next ≤ c'.next
  fin : c'.fin = c.fin
  par : ∀ k, (∃ p, c'.par k = some p) ↔ (∃ p, c.par k = some p)
  back : ∀ k r', c'.tk k = some r' →
    (∃ r, c.tk k = some r ∧ r'.st = r.st ∧ r'.dummy = r.dummy ∧ (r.st ≠ .done → r'.rdep = r.rdep ∧ r'.ubl = r.ubl)) ∨
    (r'.st = .done ∧ r'.dummy = true ∧ c.next ≤ k ∧ k < c'.next)
  fwd : ∀ k r, c.tk k = some r → r.st ≠ .done →
    ∃ r', c'.tk k = some r' ∧ r'.st = r.st ∧ r'.rdep = r.rdep ∧ r'.ubl = r.ubl

theorem Keep.ecount {c c' : Core} (g : Keep c c') (k j : Nat) : ecount c' k j = ecount c k j := by
  cases h : c.tk k with
  | some r =>
    by_cases hd : r.st = .done
    · rw [ecount_some h, if_pos hd]
      cases h' : c'.tk k with
      | none => rw [ecount_none h']
      | some r' =>
        rw [ecount_some h']
        cases g.back k r' h' with
        | inl g =>
          obtain ⟨r0, e0, e1, _⟩ := g
          rw [h] at e0; cases e0
          rw [e1, if_pos hd]
        | inr g => rw [if_pos g.1]
    · obtain ⟨r', e1, e2, _, e3⟩ := g.fwd k r h hd
      rw [ecount_some h, ecount_some e1, e2, e3]
  | none =>
    rw [ecount_none h]
    cases h' : c'.tk k with
    | none => rw [ecount_none h']
    | some r' =>
      rw [ecount_some h']
      cases g.back k r' h' with
      | inl g =>
        obtain ⟨r0, e0, _⟩ := g
        rw [h] at e0; cases e0
      | inr g => rw [if_pos g.1]

theorem Keep.esum {c c' : Core} (g : Keep c c') (hb : Base c) (j : Nat) : esum c' j = esum c j := by
  unfold Mdf.esum
  rw [sumN_ext g.next ?_]
  · exact Farm.sumN_congr fun k _ => g.ecount k j
  · intro k h1 _
    rw [g.ecount]
    cases h : c.tk k with
    | none => exact ecount_none h j
    | some r => have := hb.idt k r h; omega

theorem Keep.edge {c c' : Core} (g : Keep c c') {i j : Nat} : Edge c' i j ↔ Edge c i j := by
  constructor
  · rintro ⟨r', h1, h2, h3⟩
    cases g.back i r' h1 with
    | inl g =>
      obtain ⟨r0, e0, e1, _, e2⟩ := g
      have hd : r0.st ≠ .done := by rw [← e1]; exact h2
      exact ⟨r0, e0, hd, by rw [← (e2 hd).2]; exact h3⟩
    | inr g => exact absurd g.1 h2
  · rintro ⟨r, h1, h2, h3⟩
    obtain ⟨r', e1, e2, _, e3⟩ := g.fwd i r h1 h2
    exact ⟨r', e1, by rw [e2]; exact h2, by rw [e3]; exact h3⟩

theorem Keep.path {c c' : Core} (g : Keep c c') {i j : Nat} (h : Path c i j) : Path c' i j :=
  path_mono (fun _ _ => g.edge.2) h

theorem Keep.base {c c' : Core} (g : Keep c c') (hb : Base c) : Base c' := by
  constructor
  · have := hb.pos; have := g.next; omega
  · intro k r hk
    have := g.next
    have := hb.pos
    cases g.back k r hk with
    | inl g => obtain ⟨r0, e0, _⟩ := g; have := hb.idt k r0 e0; omega
    | inr g => omega
  · intro k p hp
    obtain ⟨p', hp'⟩ := (g.par k).1 ⟨p, hp⟩
    have := g.next
    have := hb.idp k p' hp'
    omega
  · intro k hk
    rw [g.fin] at hk
    have := g.next
    have := hb.idf k hk
    omega
  · intro k r hk
    rw [g.par]
    cases g.back k r hk with
    | inl g => obtain ⟨r0, e0, _, e1, _⟩ := g; rw [e1]; exact hb.real k r0 e0
    | inr g =>
      rw [g.2.1]
      constructor
      · intro h; cases h
      · rintro ⟨p, hp⟩; have := hb.idp k p hp; omega
  · intro k r hk hd
    cases g.back k r hk with
    | inl g => obtain ⟨r0, e0, e2, e1, _⟩ := g; rw [e1] at hd; rw [e2]; exact hb.dum k r0 e0 hd
    | inr g => exact g.1
  · intro k p hp hf
    rw [g.fin] at hf
    obtain ⟨p', hp'⟩ := (g.par k).1 ⟨p, hp⟩
    obtain ⟨r, h1, h2⟩ := hb.live k p' hp' hf
    obtain ⟨r', e1, e2, _⟩ := g.fwd k r h1 h2
    exact ⟨r', e1, by rw [e2]; exact h2⟩
  · intro k r hk hd
    rw [g.fin]
    cases g.back k r hk with
    | inl g => obtain ⟨r0, e0, e2, e1, _⟩ := g; rw [e2] at hd; exact hb.dead k r0 e0 hd
    | inr g => exact absurd g.1 hd
  · intro k r hk hd
    rw [g.esum hb]
    cases g.back k r hk with
    | inl g => obtain ⟨r0, e0, e2, e1, e3⟩ := g; rw [e2] at hd; rw [(e3 hd).1]; exact hb.rdep k r0 e0 hd
    | inr g => exact absurd g.1 hd
  · intro k r j hk hd hj
    obtain ⟨r0, h1, h2, h3⟩ := g.edge.1 ⟨r, hk, hd, hj⟩
    obtain ⟨h4, r1, h5, h6⟩ := hb.edge k r0 j h1 h2 h3
    obtain ⟨r', e1, e2, _⟩ := g.fwd j r1 h5 h6
    exact ⟨h4, r', e1, by rw [e2]; exact h6⟩
  · intro k r hk hd
    cases g.back k r hk with
    | inl g =>
      obtain ⟨r0, e0, e2, e1, e3⟩ := g
      rw [e2] at hd
      rw [(e3 (by rw [hd]; decide)).1]; exact hb.rdy k r0 e0 hd
    | inr g => rw [g.1] at hd; cases hd

theorem Keep.act {c c' : Core} (g : Keep c c') {act : Nat} {ps ps' : List Param} (ht : Act c act ps)
    (hp : c'.par act = some ps') : Act c' act ps' := by
  obtain ⟨r, h1, h2, h3, h4⟩ := ht.row
  refine ⟨?_, hp, ?_, ?_⟩
  · obtain ⟨r', e1, e2, _, e3⟩ := g.fwd act r h1 (by rw [h2]; decide)
    refine ⟨r', e1, by rw [e2, h2], by rw [e3, h3], ?_⟩
    cases g.back act r' e1 with
    | inl g => obtain ⟨r0, f0, _, f1, _⟩ := g; rw [h1] at f0; cases f0; rw [f1, h4]
    | inr g => rw [e2, h2] at g; cases g.1
  · intro i p hp
    obtain ⟨p', hp'⟩ := (g.par i).1 ⟨p, hp⟩
    exact ht.top i p' hp'
  · intro i r hi hr hs
    cases g.back i r hr with
    | inl g =>
      obtain ⟨r0, f0, f1, _, f2⟩ := g
      rw [f1] at hs
      rw [(f2 (by rw [hs]; decide)).1]
      exact ht.wait i r0 hi f0 hs
    | inr g => rw [g.1] at hs; cases hs

/-! ### conflicts with the new parameter -/

theorem conf_append {q ps : List Param} {p : Param} (h : Conf q (ps ++ [p])) : Conf q ps ∨ Conf q [p] := by
  obtain ⟨d, h⟩ := h
  unfold reads writes at h
  simp only [List.mem_append] at h
  unfold Conf reads writes
  rcases h with ⟨h1, (h2 | h2) | (h2 | h2)⟩ | ⟨h1, h2 | h2⟩
  · exact Or.inl ⟨d, Or.inl ⟨h1, Or.inl h2⟩⟩
  · exact Or.inr ⟨d, Or.inl ⟨h1, Or.inl h2⟩⟩
  · exact Or.inl ⟨d, Or.inl ⟨h1, Or.inr h2⟩⟩
  · exact Or.inr ⟨d, Or.inl ⟨h1, Or.inr h2⟩⟩
  · exact Or.inl ⟨d, Or.inr ⟨h1, h2⟩⟩
  · exact Or.inr ⟨d, Or.inr ⟨h1, h2⟩⟩

/-- the order is kept if the conflicts of the new parameter are covered -/
theorem keep_ord {c c' : Core} (g : Keep c c') {act : Nat} {ps : List Param} {p : Param} (ho : Ord c)
    (ht : Act c act ps) (hp : ∀ k, c'.par k = if k = act then some (ps ++ [p]) else c.par k)
    (hc : ∀ i q, i < act → c.par i = some q → c.fin i = false → Conf q [p] → Path c i act) : Ord c' := by
  intro i j pi pj hi hj hij hcf hf
  rw [g.fin] at hf
  have hja : j ≤ act := by
    rw [hp] at hj
    by_cases h : j = act
    · omega
    · rw [if_neg h] at hj; exact ht.top j pj hj
  have hia : i ≠ act := by omega
  rw [hp, if_neg hia] at hi
  rw [hp] at hj
  by_cases h : j = act
  · subst h
    rw [if_pos rfl, Option.some.injEq] at hj
    subst hj
    cases conf_append hcf with
    | inl h => exact g.path (ho i j pi ps hi ht.par hij h hf)
    | inr h => exact g.path (hc i pi hij hi hf h)
  · rw [if_neg h] at hj
    exact g.path (ho i j pi pj hi hj hij hcf hf)

theorem outTags_append (ps : List Param) (p : Param) :
    outTags (ps ++ [p]) = outTags ps ++ (if p.dir = .out then [p.tag] else []) := by
  unfold outTags
  rw [List.filter_append, List.map_append]
  congr 1
  by_cases h : p.dir = .out
  · simp [h]
  · simp [h]

theorem mem_outTags {ps : List Param} {d : Nat} : d ∈ outTags ps ↔ writes ps d := by
  unfold outTags writes
  simp only [List.mem_map, List.mem_filter, decide_eq_true_eq]
  constructor
  · rintro ⟨⟨t, k⟩, ⟨h1, h2⟩, h3⟩
    dsimp only at h2 h3; subst h2 h3; exact h1
  · intro h; exact ⟨_, ⟨h, rfl⟩, rfl⟩

/-- if a task is the current writer of a tag, the tag is among its outputs -/
theorem ad_act {c : Core} {act d : Nat} {ps : List Param} (ha : Addr c) (ht : Act c act ps) (h : c.ad d = act) (h0 : act ≠ 0) :
    writes ps d := by
  obtain ⟨r, h1, h2⟩ := ha.tab d (by omega)
  obtain ⟨r', h3, _, _, h4⟩ := ht.row
  rw [h] at h1 h2
  rw [h1] at h3; cases h3
  unfold outs at h2
  rw [h4, ht.par] at h2
  exact mem_outTags.1 h2

theorem look_some {c : Core} {d : Nat} {r : Rec} (h : c.look d = some r) : c.ad d ≠ 0 ∧ c.tk (c.ad d) = some r := by
  unfold Core.look at h
  split at h
  · cases h
  · exact ⟨by assumption, h⟩

theorem look_none {c : Core} {d : Nat} (ha : Addr c) (h : c.look d = none) : c.ad d = 0 := by
  unfold Core.look at h
  by_cases h0 : c.ad d = 0
  · exact h0
  · rw [if_neg h0] at h
    obtain ⟨r, h1, _⟩ := ha.tab d h0
    rw [h1] at h; cases h

theorem Act.pos {c : Core} {act : Nat} {ps : List Param} (hb : Base c) (ht : Act c act ps) : 1 ≤ act ∧ act < c.next := by
  obtain ⟨r, h, _⟩ := ht.row
  exact hb.idt act r h

theorem seen_keep {c : Core} {act : Nat} {ps : List Param} (ht : Act c act ps) (p : Param) : Keep c (c.seen act p) := by
  refine ⟨Nat.le_refl _, rfl, ?_, ?_, ?_⟩
  · intro k
    by_cases h : k = act
    · subst h; simp only [Core.seen, if_true, ht.par]; simp
    · simp only [Core.seen, if_neg h]
  · intro k r h; exact Or.inl ⟨r, h, rfl, rfl, fun _ => ⟨rfl, rfl⟩⟩
  · intro k r h _; exact ⟨r, h, rfl, rfl, rfl⟩

theorem seen_par {c : Core} {act : Nat} {ps : List Param} (ht : Act c act ps) (p : Param) (k : Nat) :
    (c.seen act p).par k = if k = act then some (ps ++ [p]) else c.par k := by
  unfold Core.seen
  dsimp only
  rw [ht.par]; rfl

/-- INPUT or VALUE: the outputs of the task do not change -/
theorem seen_outs {c : Core} {act : Nat} {ps : List Param} (ht : Act c act ps) {p : Param} (hp : p.dir ≠ .out) (k : Nat)
    (r : Rec) : outs (c.seen act p) k r = outs c k r := by
  unfold outs
  rw [seen_par ht]
  by_cases h : k = act
  · subst h
    rw [if_pos rfl, ht.par, Option.getD_some, Option.getD_some, outTags_append, if_neg hp, List.append_nil]
  · rw [if_neg h]

theorem writes_append {ps : List Param} {p : Param} (hp : p.dir ≠ .out) (d : Nat) : writes (ps ++ [p]) d ↔ writes ps d := by
  unfold writes
  rw [List.mem_append, List.mem_singleton]
  constructor
  · rintro (h | h)
    · exact h
    · rw [← h] at hp; exact absurd rfl hp
  · exact Or.inl

/-- INPUT or VALUE -/
theorem seen_full {c : Core} {act : Nat} {ps : List Param} {p : Param} (h : Full c act ps) (hp : p.dir ≠ .out)
    (hr : p.dir = .inp → c.ad p.tag ≠ 0 ∧ ∃ r, c.tk (c.ad p.tag) = some r ∧ act ∈ r.ubl)
    (hc : ∀ i q, i < act → c.par i = some q → c.fin i = false → Conf q [p] → Path c i act) :
    Full (c.seen act p) act (ps ++ [p]) := by
  have g := seen_keep h.t p
  have hpar := seen_par h.t p
  refine ⟨g.base h.b, ?_, keep_ord g h.o h.t hpar hc, g.act h.t (by rw [hpar, if_pos rfl])⟩
  have hwq : ∀ k q d, c.par k = some q → writes q d → ∃ q', (c.seen act p).par k = some q' ∧ writes q' d := by
    intro k q d hk hw
    rw [hpar]
    by_cases hka : k = act
    · subst hka
      rw [h.t.par] at hk; cases hk
      exact ⟨_, by rw [if_pos rfl], (writes_append hp d).2 hw⟩
    · exact ⟨q, by rw [if_neg hka]; exact hk, hw⟩
  constructor
  · exact h.a.zero
  · intro d hd
    obtain ⟨r, h1, h2⟩ := h.a.tab d hd
    exact ⟨r, h1, by rw [seen_outs h.t hp]; exact h2⟩
  · intro i q d hi hw
    have : ∃ q0, c.par i = some q0 ∧ writes q0 d := by
      rw [hpar] at hi
      by_cases hka : i = act
      · subst hka
        rw [if_pos rfl] at hi; cases hi
        exact ⟨ps, h.t.par, (writes_append hp d).1 hw⟩
      · rw [if_neg hka] at hi; exact ⟨q, hi, hw⟩
    obtain ⟨q0, h1, h2⟩ := this
    obtain ⟨h3, h4, q1, h5, h6⟩ := h.a.wr i q0 d h1 h2
    exact ⟨h3, h4, hwq _ q1 d h5 h6⟩
  · intro i q d hi hw
    have : (∃ q0, c.par i = some q0 ∧ reads q0 d) ∨ (i = act ∧ p.dir = .inp ∧ d = p.tag) := by
      rw [hpar] at hi
      by_cases hka : i = act
      · subst hka
        rw [if_pos rfl] at hi; cases hi
        unfold reads at hw
        rw [List.mem_append, List.mem_singleton] at hw
        cases hw with
        | inl hw => exact Or.inl ⟨ps, h.t.par, hw⟩
        | inr hw => rw [← hw]; exact Or.inr ⟨rfl, rfl, rfl⟩
      · rw [if_neg hka] at hi; exact Or.inl ⟨q, hi, hw⟩
    cases this with
    | inl hold =>
      obtain ⟨q0, h1, h2⟩ := hold
      obtain ⟨h3, h4⟩ := h.a.rd i q0 d h1 h2
      refine ⟨h3, ?_⟩
      cases h4 with
      | inl h4 => exact Or.inl h4
      | inr h4 => obtain ⟨h4, q1, h5, h6⟩ := h4; exact Or.inr ⟨h4, hwq _ q1 d h5 h6⟩
    | inr hnew =>
      obtain ⟨rfl, h1, rfl⟩ := hnew
      obtain ⟨h2, h3⟩ := hr h1
      exact ⟨h2, Or.inl h3⟩
  · intro t r ht; rw [seen_outs h.t hp]; exact h.a.nout t r ht
  · intro t r ht; rw [seen_outs h.t hp]; exact h.a.nod t r ht

end FF.Mdf
