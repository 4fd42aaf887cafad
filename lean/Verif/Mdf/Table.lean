import Verif.Mdf.Insert
/-! # Inserting and completing tasks preserves the invariant of the dependency table -/
namespace FF.Mdf
open FF.Farm (sumN)

/-! ### INPUT -/

/-- a task that must wait for an unfinished writer of `d` waits for the current one -/
theorem writer_path {c : Core} {act d i : Nat} {ps q : List Param} (h : Full c act ps) (hne : c.ad d ≠ act)
    (hi : c.par i = some q) (hw : writes q d) (hf : c.fin i = false) :
    (∃ r, c.tk (c.ad d) = some r ∧ r.st ≠ .done) ∧ (i = c.ad d ∨ Path c i (c.ad d)) ∧ c.ad d < act := by
  obtain ⟨h1, h2, q1, h3, h4⟩ := h.a.wr i q d hi hw
  have hlt : c.ad d < act := by have := h.t.top _ q1 h3; omega
  by_cases he : i = c.ad d
  · refine ⟨?_, Or.inl he, hlt⟩
    rw [← he]; exact h.b.live i q hi hf
  · have hp := h.o i (c.ad d) q q1 hi h3 (by omega) ⟨d, Or.inl ⟨hw, Or.inr h4⟩⟩ hf
    obtain ⟨r, e1, e2, _⟩ := path_live h.b hp
    exact ⟨⟨r, e1, by rw [e2]; decide⟩, Or.inr hp, hlt⟩

theorem note_keep {c : Core} {act t : Nat} {r : Rec} (ht : c.tk t = some r) (hd : r.st = .done) : Keep c (c.note act t) := by
  refine ⟨Nat.le_refl _, rfl, fun _ => Iff.rfl, ?_, ?_⟩
  · intro k r' hk
    unfold Core.note at hk
    rw [md_tk] at hk
    by_cases h : k = t
    · subst h
      rw [if_pos rfl, ht, Option.map_some, Option.some.injEq] at hk
      subst hk
      exact Or.inl ⟨r, ht, rfl, rfl, fun h => absurd hd h⟩
    · rw [if_neg h] at hk
      exact Or.inl ⟨r', hk, rfl, rfl, fun _ => ⟨rfl, rfl⟩⟩
  · intro k r' hk hl
    have h : k ≠ t := by rintro rfl; rw [ht] at hk; cases hk; exact hl hd
    exact ⟨r', by unfold Core.note; rw [md_tk, if_neg h]; exact hk, rfl, rfl, rfl⟩

theorem note_grow {c : Core} {act t : Nat} : Grow c (c.note act t) := by
  refine ⟨rfl, rfl, rfl, rfl, ?_, ?_⟩
  · intro k r hk
    unfold Core.note
    rw [md_tk]
    by_cases h : k = t
    · subst h
      rw [if_pos rfl, hk, Option.map_some]
      exact ⟨_, rfl, rfl, rfl, rfl, rfl, fun x hx => List.mem_append_left _ hx⟩
    · rw [if_neg h]
      exact ⟨_, hk, rfl, rfl, rfl, rfl, fun x hx => hx⟩
  · intro k hk
    unfold Core.note
    rw [md_tk]
    by_cases h : k = t
    · subst h; rw [if_pos rfl, hk]; rfl
    · rw [if_neg h]; exact hk

theorem inp_known {c : Core} {act d : Nat} {ps : List Param} {r : Rec} (h : Full c act ps) (hnw : ¬ writes ps d)
    (hl : c.look d = some r) :
    Full ((if r.st ≠ .done then c.link act (c.ad d) else c.note act (c.ad d)).seen act ⟨d, .inp⟩) act
      (ps ++ [⟨d, .inp⟩]) := by
  obtain ⟨h0, hr⟩ := look_some hl
  have hpos := h.t.pos h.b
  have hne : c.ad d ≠ act := fun e => hnw (ad_act h.a h.t e (by omega))
  obtain ⟨ra, ha, _⟩ := h.t.row
  have hconf : ∀ q, Conf q [⟨d, .inp⟩] → writes q d := by
    rintro q ⟨d', hc⟩
    unfold reads writes at hc
    simp only [List.mem_singleton, Param.mk.injEq, and_true, reduceCtorEq, and_false, or_false] at hc
    obtain ⟨h1, rfl⟩ := hc
    exact h1
  by_cases hd : r.st = .done
  · rw [if_neg (by simpa using hd)]
    have g : Grow c (c.note act (c.ad d)) := note_grow
    have k : Keep c (c.note act (c.ad d)) := note_keep hr hd
    have hF : Full (c.note act (c.ad d)) act ps := ⟨k.base h.b, g.addr h.a, g.ord h.o, k.act h.t h.t.par⟩
    refine seen_full hF (by simp) ?_ ?_
    · intro _
      refine ⟨h0, { r with ubl := r.ubl ++ [act] }, ?_, by simp⟩
      show (c.md (c.ad d) _).tk (c.ad d) = _
      rw [md_tk, if_pos rfl, hr]; rfl
    · intro i q hi hq hf hc
      obtain ⟨⟨r', e1, e2⟩, _⟩ := writer_path h hne hq (hconf q hc) hf
      rw [hr] at e1; cases e1; exact absurd hd e2
  · rw [if_pos (by simpa using hd)]
    have hlt := live_lt h.b h.t hne hr hd
    obtain ⟨b, t⟩ := link_base h.b h.t hlt hr hd
    have g : Grow c (c.link act (c.ad d)) := link_grow
    have hF : Full (c.link act (c.ad d)) act ps := ⟨b, g.addr h.a, g.ord h.o, t⟩
    have he := link_edge hne ha hr hd
    refine seen_full hF (by simp) ?_ ?_
    · intro _
      refine ⟨h0, ?_⟩
      obtain ⟨r', e1, _, e2⟩ := he
      exact ⟨r', e1, e2⟩
    · intro i q hi hq hf hc
      obtain ⟨_, h1, _⟩ := writer_path h hne hq (hconf q hc) hf
      cases h1 with
      | inl h1 => rw [h1]; exact Relation.TransGen.single he
      | inr h1 => exact Relation.TransGen.tail (g.path h1) he

theorem dummy_tk {c : Core} {act d : Nat} (k : Nat) : (c.dummy act d).tk k =
    if k = c.next then some ⟨.done, 0, [act], 1, true, d⟩ else c.tk k := by
  unfold Core.dummy Core.insAd
  dsimp only
  by_cases h : d = 0 ∨ c.ad d ≠ 0
  · rw [if_pos h]
  · rw [if_neg h]

theorem dummy_ad {c : Core} {act d : Nat} (h0 : d ≠ 0) (ha : c.ad d = 0) (k : Nat) : (c.dummy act d).ad k =
    if k = d then c.next else c.ad k := by
  unfold Core.dummy Core.insAd
  dsimp only
  rw [if_neg (by rintro (h | h); exact h0 h; exact h ha)]

theorem dummy_rest {c : Core} {act d : Nat} : (c.dummy act d).par = c.par ∧ (c.dummy act d).fin = c.fin ∧
    (c.dummy act d).next = c.next + 1 := by
  unfold Core.dummy Core.insAd
  dsimp only
  split <;> exact ⟨rfl, rfl, rfl⟩

theorem inp_new {c : Core} {act d : Nat} {ps : List Param} (h : Full c act ps) (h0 : d ≠ 0) (hl : c.look d = none) :
    Full ((c.dummy act d).seen act ⟨d, .inp⟩) act (ps ++ [⟨d, .inp⟩]) := by
  have had := look_none h.a hl
  have hpos := h.t.pos h.b
  have htk := dummy_tk (c := c) (act := act) (d := d)
  have hadk := dummy_ad (act := act) h0 had
  obtain ⟨hpar, hfin, hnext⟩ := dummy_rest (c := c) (act := act) (d := d)
  obtain ⟨c1, hc1⟩ : ∃ c1, c1 = c.dummy act d := ⟨_, rfl⟩
  rw [← hc1] at htk hadk hpar hfin hnext ⊢
  have hnone : ∀ r, c.tk c.next = some r → False := fun r hr => by have := h.b.idt _ r hr; omega
  have k : Keep c c1 := by
    refine ⟨by omega, hfin, fun k => by rw [hpar], ?_, ?_⟩
    · intro k r hk
      rw [htk] at hk
      by_cases e : k = c.next
      · rw [if_pos e, Option.some.injEq] at hk
        subst hk
        exact Or.inr ⟨rfl, rfl, by omega, by omega⟩
      · rw [if_neg e] at hk
        exact Or.inl ⟨r, hk, rfl, rfl, fun _ => ⟨rfl, rfl⟩⟩
    · intro k r hk _
      have e : k ≠ c.next := by rintro rfl; exact hnone r hk
      exact ⟨r, by rw [htk, if_neg e]; exact hk, rfl, rfl, rfl⟩
  have hnoacc : ∀ i q, c.par i = some q → ¬ writes q d ∧ ¬ reads q d := fun i q hq =>
    ⟨fun hw => (h.a.wr i q d hq hw).1 had, fun hw => (h.a.rd i q d hq hw).1 had⟩
  have adne : ∀ d', d' ≠ d → c1.ad d' = c.ad d' := fun d' e => by rw [hadk, if_neg e]
  have ad_lt : ∀ d', c.ad d' ≠ 0 → c.ad d' ≠ c.next := fun d' e e2 => by
    obtain ⟨r, h1, _⟩ := h.a.tab d' e
    rw [e2] at h1; exact hnone r h1
  have hA : Addr c1 := by
    constructor
    · rw [adne 0 (Ne.symm h0)]; exact h.a.zero
    · intro d' hd
      by_cases e : d' = d
      · subst e
        rw [hadk, if_pos rfl, htk, if_pos rfl]
        exact ⟨_, rfl, by unfold outs; simp⟩
      · rw [adne d' e] at hd ⊢
        obtain ⟨r, h1, h2⟩ := h.a.tab d' hd
        rw [htk, if_neg (ad_lt d' hd)]
        exact ⟨r, h1, by unfold outs; rw [hpar]; exact h2⟩
    · intro i q d' hq hw
      rw [hpar] at hq ⊢
      have e : d' ≠ d := by rintro rfl; exact (hnoacc i q hq).1 hw
      rw [adne d' e]
      exact h.a.wr i q d' hq hw
    · intro i q d' hq hw
      rw [hpar] at hq ⊢
      have e : d' ≠ d := by rintro rfl; exact (hnoacc i q hq).2 hw
      rw [adne d' e]
      obtain ⟨h1, h2⟩ := h.a.rd i q d' hq hw
      rw [htk, if_neg (ad_lt d' h1)]
      exact ⟨h1, h2⟩
    · intro t r ht
      rw [htk] at ht
      by_cases e : t = c.next
      · rw [if_pos e, Option.some.injEq] at ht
        subst ht
        unfold outs
        simp [hadk, e]
      · rw [if_neg e] at ht
        rw [h.a.nout t r ht]
        unfold outs
        rw [hpar]
        congr 1
        apply List.countP_congr
        intro x hx
        simp only [decide_eq_true_eq]
        by_cases ex : x = d
        · subst ex
          rw [hadk, if_pos rfl, had]
          constructor
          · intro h2; have := h.b.idt t r ht; omega
          · intro h2; exact absurd h2.symm e
        · rw [adne x ex]
    · intro t r ht
      rw [htk] at ht
      by_cases e : t = c.next
      · rw [if_pos e, Option.some.injEq] at ht
        subst ht
        unfold outs; simp
      · rw [if_neg e] at ht
        have := h.a.nod t r ht
        unfold outs at this ⊢
        rw [hpar]; exact this
  have hF : Full c1 act ps := by
    refine ⟨k.base h.b, hA, ?_, k.act h.t (by rw [hpar]; exact h.t.par)⟩
    intro i j p q hp hq hij hc hf
    rw [hpar] at hp hq; rw [hfin] at hf
    exact k.path (h.o i j p q hp hq hij hc hf)
  refine seen_full hF (by simp) ?_ ?_
  · intro _
    rw [hadk, if_pos rfl, htk, if_pos rfl]
    exact ⟨by omega, _, rfl, by simp⟩
  · intro i q hi hq hf hc
    rw [hpar] at hq
    obtain ⟨d', hc⟩ := hc
    unfold reads writes at hc
    simp only [List.mem_singleton, Param.mk.injEq, and_true, reduceCtorEq, and_false, or_false] at hc
    obtain ⟨h1, rfl⟩ := hc
    exact absurd h1 (hnoacc i q hq).1

/-! ### OUTPUT -/

theorem countP_except {l : List Nat} {P : Nat → Prop} [DecidablePred P] {d : Nat} (hn : l.Nodup) (hd : d ∈ l) (hP : P d) :
    l.countP (fun x => P x) = l.countP (fun x => P x ∧ x ≠ d) + 1 := by
  induction l with
  | nil => cases hd
  | cons y l ih =>
    rw [List.nodup_cons] at hn
    simp only [List.countP_cons]
    by_cases hy : y = d
    · subst hy
      have : l.countP (fun x => decide (P x)) = l.countP (fun x => decide (P x ∧ x ≠ y)) := by
        apply List.countP_congr
        intro x hx
        simp only [decide_eq_true_eq]
        constructor
        · intro h; exact ⟨h, fun e => hn.1 (e ▸ hx)⟩
        · exact fun h => h.1
      rw [this]
      simp [hP]
    · have hd' : d ∈ l := by
        cases hd with
        | head => exact absurd rfl hy
        | tail _ h => exact h
      rw [ih hn.2 hd']
      simp only [ne_eq, hy, not_false_eq_true, and_true]
      omega

/-- the row of the previous writer: one output less, removed if it is completed and has no more outputs -/
def less : Option Rec → Option Rec
  | some r => if r.st = .done ∧ r.nout - 1 = 0 then none else some { r with nout := r.nout - 1 }
  | none => none

theorem lessOut_tk (c : Core) (t k : Nat) : (c.lessOut t).tk k = if k = t then less (c.tk k) else c.tk k := by
  unfold Core.lessOut
  dsimp only
  rw [md_tk, if_pos rfl]
  cases ht : c.tk t with
  | none =>
    dsimp only [Option.map_none]
    rw [md_tk]
    by_cases h : k = t
    · subst h; rw [if_pos rfl, if_pos rfl, ht]; rfl
    · rw [if_neg h, if_neg h]
  | some r =>
    dsimp only [Option.map_some]
    by_cases hd : r.st = .done ∧ r.nout - 1 = 0
    · rw [if_pos hd]
      dsimp only
      by_cases h : k = t
      · subst h; rw [if_pos rfl, if_pos rfl, ht]; unfold less; dsimp only; rw [if_pos hd]
      · rw [if_neg h, if_neg h, md_tk, if_neg h]
    · rw [if_neg hd, md_tk]
      by_cases h : k = t
      · subst h; rw [if_pos rfl, if_pos rfl, ht]; unfold less; dsimp only; rw [if_neg hd]; rfl
      · rw [if_neg h, if_neg h]

theorem lessOut_rest (c : Core) (t : Nat) : (c.lessOut t).ad = c.ad ∧ (c.lessOut t).par = c.par ∧
    (c.lessOut t).fin = c.fin ∧ (c.lessOut t).next = c.next := by
  unfold Core.lessOut
  dsimp only
  split
  · split <;> exact ⟨rfl, rfl, rfl, rfl⟩
  · exact ⟨rfl, rfl, rfl, rfl⟩

theorem setWriter_desc (c : Core) (act d : Nat) (h0 : d ≠ 0) :
    (∀ k, (c.setWriter act d).tk k = if k = act then (c.tk act).map (fun r => { r with nout := r.nout + 1 }) else c.tk k) ∧
    (∀ k, (c.setWriter act d).ad k = if k = d then act else c.ad k) ∧ (c.setWriter act d).par = c.par ∧
    (c.setWriter act d).fin = c.fin ∧ (c.setWriter act d).next = c.next := by
  unfold Core.setWriter Core.insAd Core.md
  dsimp only
  by_cases h : c.ad d = 0
  · simp only [ne_eq, h, not_true_eq_false, if_false, h0, or_self]
    simp
  · simp only [ne_eq, h, not_false_eq_true, if_true, h0, not_true_eq_false, or_self, if_false]
    refine ⟨by simp, fun k => ?_, by simp, by simp, by simp⟩
    by_cases e : k = d
    · rw [if_pos e, if_pos e]
    · rw [if_neg e, if_neg e, if_neg e]

theorem out_final {c c' : Core} {act d : Nat} {ps : List Param} {ra : Rec} (h : Full c act ps) (h0 : d ≠ 0)
    (hnw : ¬ writes ps d) (hra : c.tk act = some ra)
    (hpath : ∀ i q, i < act → c.par i = some q → c.fin i = false → writes q d ∨ reads q d → Path c i act)
    (htk : ∀ k, c'.tk k = if k = act then some { ra with nout := ra.nout + 1 }
      else if k = c.ad d then less (c.tk k) else c.tk k)
    (had : ∀ k, c'.ad k = if k = d then act else c.ad k)
    (hpar : ∀ k, c'.par k = if k = act then some (ps ++ [⟨d, .out⟩]) else c.par k)
    (hfin : c'.fin = c.fin) (hnext : c'.next = c.next) : Full c' act (ps ++ [⟨d, .out⟩]) := by
  have hpos := h.t.pos h.b
  have hne : c.ad d ≠ act := fun e => hnw (ad_act h.a h.t e (by omega))
  have hdum : ra.dummy = false := by obtain ⟨r, e1, _, _, e2⟩ := h.t.row; rw [hra] at e1; cases e1; exact e2
  have k : Keep c c' := by
    refine ⟨by omega, hfin, ?_, ?_, ?_⟩
    · intro k
      rw [hpar]
      by_cases e : k = act
      · subst e; rw [if_pos rfl, h.t.par]; simp
      · rw [if_neg e]
    · intro k r hk
      rw [htk] at hk
      refine Or.inl ?_
      by_cases e : k = act
      · rw [if_pos e, Option.some.injEq] at hk
        subst hk e
        exact ⟨ra, hra, rfl, rfl, fun _ => ⟨rfl, rfl⟩⟩
      · rw [if_neg e] at hk
        by_cases e2 : k = c.ad d
        · rw [if_pos e2] at hk
          cases hck : c.tk k with
          | none => rw [hck] at hk; cases hk
          | some r0 =>
            rw [hck] at hk
            unfold less at hk
            dsimp only at hk
            split at hk
            · cases hk
            · cases hk
              exact ⟨r0, rfl, rfl, rfl, fun _ => ⟨rfl, rfl⟩⟩
        · rw [if_neg e2] at hk
          exact ⟨r, hk, rfl, rfl, fun _ => ⟨rfl, rfl⟩⟩
    · intro k r hk hd
      rw [htk]
      by_cases e : k = act
      · subst e
        rw [hra] at hk; cases hk
        rw [if_pos rfl]
        exact ⟨_, rfl, rfl, rfl, rfl⟩
      · rw [if_neg e]
        by_cases e2 : k = c.ad d
        · rw [if_pos e2, hk]
          unfold less
          dsimp only
          rw [if_neg (fun x => hd x.1)]
          exact ⟨_, rfl, rfl, rfl, rfl⟩
        · rw [if_neg e2]
          exact ⟨r, hk, rfl, rfl, rfl⟩
  have adne : ∀ d', d' ≠ d → c'.ad d' = c.ad d' := fun d' e => by rw [had, if_neg e]
  have hw5 : ∀ t q d', c.par t = some q → writes q d' → ∃ q', c'.par t = some q' ∧ writes q' d' := by
    intro t q d' hq hw
    rw [hpar]
    by_cases e : t = act
    · subst e
      rw [h.t.par] at hq; cases hq
      exact ⟨_, by rw [if_pos rfl], List.mem_append_left _ hw⟩
    · exact ⟨q, by rw [if_neg e]; exact hq, hw⟩
  have houts : ∀ t r, t ≠ act → outs c' t r = outs c t r := by
    intro t r e; unfold outs; rw [hpar, if_neg e]
  have houtsA : ∀ r, r.dummy = false → outs c' act r = outTags ps ++ [d] := by
    intro r hr
    unfold outs
    rw [hr, hpar, if_pos rfl, Option.getD_some, outTags_append]
    simp
  have houtsA0 : outs c act ra = outTags ps := by
    unfold outs; rw [hdum, h.t.par]; simp
  -- rows of current writers of other tags survive
  have hrow : ∀ d' r, d' ≠ d → c.ad d' ≠ 0 → c.tk (c.ad d') = some r → d' ∈ outs c (c.ad d') r →
      ∃ r', c'.tk (c.ad d') = some r' ∧ r'.ubl = r.ubl ∧ r'.dummy = r.dummy ∧ r'.dtag = r.dtag := by
    intro d' r e hz hr hm
    rw [htk]
    by_cases e1 : c.ad d' = act
    · rw [if_pos e1]
      rw [e1, hra] at hr; cases hr
      exact ⟨_, rfl, rfl, rfl, rfl⟩
    · rw [if_neg e1]
      by_cases e2 : c.ad d' = c.ad d
      · rw [if_pos e2, hr]
        unfold less
        dsimp only
        obtain ⟨rt, h1, h2⟩ := h.a.tab d (by rw [← e2]; exact hz)
        rw [← e2] at h1 h2
        rw [hr] at h1; cases h1
        have hn := h.a.nout _ r hr
        have h3 := countP_except (P := fun x => c.ad x = c.ad d') (h.a.nod _ r hr) h2 e2.symm
        have h4 : 0 < (outs c (c.ad d') r).countP (fun x => decide (c.ad x = c.ad d' ∧ x ≠ d)) :=
          List.countP_pos_iff.2 ⟨d', hm, by simp [e]⟩
        rw [if_neg (by rintro ⟨_, h5⟩; omega)]
        exact ⟨_, rfl, rfl, rfl, rfl⟩
      · rw [if_neg e2]
        exact ⟨r, hr, rfl, rfl, rfl⟩
  refine ⟨k.base h.b, ?_, ?_, k.act h.t (by rw [hpar, if_pos rfl])⟩
  · constructor
    · rw [adne 0 (Ne.symm h0)]; exact h.a.zero
    · intro d' hd'
      by_cases e : d' = d
      · subst e
        rw [had, if_pos rfl, htk, if_pos rfl]
        exact ⟨_, rfl, by rw [houtsA { ra with nout := ra.nout + 1 } hdum]; simp⟩
      · rw [adne d' e] at hd' ⊢
        obtain ⟨r, h1, h2⟩ := h.a.tab d' hd'
        obtain ⟨r', e1, _, e3, e4⟩ := hrow d' r e hd' h1 h2
        refine ⟨r', e1, ?_⟩
        by_cases e5 : c.ad d' = act
        · rw [e5] at h1 h2 e1 ⊢
          rw [hra] at h1; cases h1
          rw [houtsA _ (by rw [e3]; exact hdum)]
          rw [houtsA0] at h2
          exact List.mem_append_left _ h2
        · rw [houts _ _ e5]
          unfold outs at h2 ⊢
          rw [e3, e4]; exact h2
    · intro i q d' hq hw
      by_cases e : d' = d
      · subst e
        rw [had, if_pos rfl]
        refine ⟨by omega, ?_, _, by rw [hpar, if_pos rfl], ?_⟩
        · rw [hpar] at hq
          by_cases e : i = act
          · omega
          · rw [if_neg e] at hq; exact h.t.top i q hq
        · unfold writes; simp
      · rw [adne d' e]
        have : ∃ q0, c.par i = some q0 ∧ writes q0 d' := by
          rw [hpar] at hq
          by_cases hka : i = act
          · subst hka
            rw [if_pos rfl] at hq; cases hq
            unfold writes at hw
            simp only [List.mem_append, List.mem_singleton, Param.mk.injEq, and_true] at hw
            exact ⟨ps, h.t.par, hw.resolve_right e⟩
          · rw [if_neg hka] at hq; exact ⟨q, hq, hw⟩
        obtain ⟨q0, h1, h2⟩ := this
        obtain ⟨h3, h4, q1, h5, h6⟩ := h.a.wr i q0 d' h1 h2
        exact ⟨h3, h4, hw5 _ q1 d' h5 h6⟩
    · intro i q d' hq hw
      by_cases e : d' = d
      · subst e
        rw [had, if_pos rfl]
        refine ⟨by omega, Or.inr ⟨?_, _, by rw [hpar, if_pos rfl], ?_⟩⟩
        · rw [hpar] at hq
          by_cases e : i = act
          · omega
          · rw [if_neg e] at hq; exact h.t.top i q hq
        · unfold writes; simp
      · rw [adne d' e]
        have : ∃ q0, c.par i = some q0 ∧ reads q0 d' := by
          rw [hpar] at hq
          by_cases hka : i = act
          · subst hka
            rw [if_pos rfl] at hq; cases hq
            unfold reads at hw
            simp only [List.mem_append, List.mem_singleton, Param.mk.injEq, reduceCtorEq, and_false, or_false] at hw
            exact ⟨ps, h.t.par, hw⟩
          · rw [if_neg hka] at hq; exact ⟨q, hq, hw⟩
        obtain ⟨q0, h1, h2⟩ := this
        obtain ⟨h3, h4⟩ := h.a.rd i q0 d' h1 h2
        refine ⟨h3, ?_⟩
        cases h4 with
        | inl h4 =>
          obtain ⟨r, h4, h5⟩ := h4
          obtain ⟨rt, h6, h7⟩ := h.a.tab d' h3
          rw [h4] at h6; cases h6
          obtain ⟨r', e1, e2, _⟩ := hrow d' r e h3 h4 h7
          exact Or.inl ⟨r', e1, by rw [e2]; exact h5⟩
        | inr h4 => obtain ⟨h4, q1, h5, h6⟩ := h4; exact Or.inr ⟨h4, hw5 _ q1 d' h5 h6⟩
    · intro t r ht
      rw [htk] at ht
      by_cases e : t = act
      · subst e
        rw [if_pos rfl, Option.some.injEq] at ht
        subst ht
        rw [houtsA { ra with nout := ra.nout + 1 } hdum]
        have hn := h.a.nout t ra hra
        rw [houtsA0] at hn
        rw [List.countP_append]
        have e1 : (outTags ps).countP (fun x => decide (c'.ad x = t)) = (outTags ps).countP (fun x => decide (c.ad x = t)) := by
          apply List.countP_congr
          intro x hx
          have : x ≠ d := by rintro rfl; exact hnw (mem_outTags.1 hx)
          rw [adne x this]
        rw [e1]
        have e2 : [d].countP (fun x => decide (c'.ad x = t)) = 1 := by simp [had]
        rw [e2]
        dsimp only
        rw [hn]; push_cast; rfl
      · rw [if_neg e] at ht
        rw [houts t r e]
        by_cases e2 : t = c.ad d
        · rw [if_pos e2] at ht
          cases hct : c.tk t with
          | none => rw [hct] at ht; cases ht
          | some r0 =>
            rw [hct] at ht
            unfold less at ht
            dsimp only at ht
            split at ht
            · cases ht
            · cases ht
              obtain ⟨rt, h1, h2⟩ := h.a.tab d (by have := h.b.idt t r0 hct; omega)
              rw [← e2] at h1 h2
              rw [hct] at h1; cases h1
              have h3 := countP_except (P := fun x => c.ad x = t) (h.a.nod _ r0 hct) h2 e2.symm
              have hn := h.a.nout t r0 hct
              have e3 : (outs c t r0).countP (fun x => decide (c'.ad x = t)) =
                  (outs c t r0).countP (fun x => decide (c.ad x = t ∧ x ≠ d)) := by
                apply List.countP_congr
                intro x hx
                simp only [decide_eq_true_eq]
                rw [had]
                by_cases ex : x = d
                · rw [if_pos ex]
                  exact ⟨fun h => absurd h.symm e, fun h => absurd ex h.2⟩
                · rw [if_neg ex]
                  exact ⟨fun h => ⟨h, ex⟩, fun h => h.1⟩
              have e4 : outs c t { r0 with nout := r0.nout - 1 } = outs c t r0 := rfl
              rw [e4, e3]
              dsimp only
              omega
        · rw [if_neg e2] at ht
          rw [h.a.nout t r ht]
          congr 1
          apply List.countP_congr
          intro x hx
          simp only [decide_eq_true_eq]
          rw [had]
          by_cases ex : x = d
          · rw [if_pos ex, ex]
            exact ⟨fun h => absurd h.symm e2, fun h => absurd h.symm e⟩
          · rw [if_neg ex]
    · intro t r ht
      rw [htk] at ht
      by_cases e : t = act
      · subst e
        rw [if_pos rfl, Option.some.injEq] at ht
        subst ht
        rw [houtsA { ra with nout := ra.nout + 1 } hdum]
        have hn := h.a.nod t ra hra
        rw [houtsA0] at hn
        rw [List.nodup_append]
        refine ⟨hn, by simp, ?_⟩
        intro a ha b hb
        rw [List.mem_singleton] at hb
        rintro rfl
        subst hb
        exact hnw (mem_outTags.1 ha)
      · rw [if_neg e] at ht
        rw [houts t r e]
        by_cases e2 : t = c.ad d
        · rw [if_pos e2] at ht
          cases hct : c.tk t with
          | none => rw [hct] at ht; cases ht
          | some r0 =>
            rw [hct] at ht
            unfold less at ht
            dsimp only at ht
            split at ht
            · cases ht
            · cases ht; exact h.a.nod t r0 hct
        · rw [if_neg e2] at ht
          exact h.a.nod t r ht
  · refine keep_ord k h.o h.t hpar ?_
    intro i q hi hq hf hc
    refine hpath i q hi hq hf ?_
    obtain ⟨d', hc⟩ := hc
    unfold reads writes at hc ⊢
    simp only [List.mem_singleton, Param.mk.injEq, and_true, reduceCtorEq, and_false, false_or] at hc
    rcases hc with ⟨h1, rfl⟩ | ⟨h1, rfl⟩
    · exact Or.inl h1
    · exact Or.inr h1

/-- the dependencies of a task that writes `d` -/
theorem out_deps {c : Core} {act d : Nat} {ps : List Param} {r : Rec} (h : Full c act ps) (hne : c.ad d ≠ act)
    (hr : c.tk (c.ad d) = some r) :
    ∃ c2, c2 = (if r.ubl ≠ [] then r.ubl.foldl (Core.war act) c else if r.st ≠ .done then c.link act (c.ad d) else c) ∧
      Full c2 act ps ∧ Grow c c2 ∧ ((r.st ≠ .done → Path c2 (c.ad d) act) ∧
        ∀ x rx, x ∈ r.ubl → x ≠ act → c.tk x = some rx → rx.st ≠ .done → Path c2 x act) := by
  refine ⟨_, rfl, ?_⟩
  by_cases hu : r.ubl = []
  · rw [if_neg (by simpa using hu)]
    by_cases hd : r.st = .done
    · rw [if_neg (by simpa using hd)]
      refine ⟨h, Grow.refl c, fun x => absurd hd x, ?_⟩
      intro x rx hx; rw [hu] at hx; cases hx
    · rw [if_pos (by simpa using hd)]
      obtain ⟨b, t⟩ := link_base h.b h.t (live_lt h.b h.t hne hr hd) hr hd
      have g : Grow c (c.link act (c.ad d)) := link_grow
      obtain ⟨ra, ha, _⟩ := h.t.row
      refine ⟨⟨b, g.addr h.a, g.ord h.o, t⟩, g, ?_, ?_⟩
      · intro _; exact Relation.TransGen.single (link_edge hne ha hr hd)
      · intro x rx hx; rw [hu] at hx; cases hx
  · rw [if_pos (by simpa using hu)]
    obtain ⟨b, t, g, e⟩ := war_fold act ps r.ubl c h.b h.t
    refine ⟨⟨b, g.addr h.a, g.ord h.o, t⟩, g, ?_, ?_⟩
    · intro hd
      obtain ⟨x, hx⟩ := List.exists_mem_of_ne_nil _ hu
      have he : Edge c (c.ad d) x := ⟨r, hr, hd, hx⟩
      by_cases hxa : x = act
      · subst hxa; exact Relation.TransGen.single (g.edge he)
      · obtain ⟨rx, h1, h2, _⟩ := edge_live h.b he
        exact Relation.TransGen.tail (Relation.TransGen.single (g.edge he)) (e x rx hx hxa h1 (by rw [h2]; decide))
    · intro x rx hx hxa h1 h2
      exact Relation.TransGen.single (e x rx hx hxa h1 h2)

theorem out_known {c : Core} {act d : Nat} {ps : List Param} {r : Rec} (h : Full c act ps) (h0 : d ≠ 0)
    (hnw : ¬ writes ps d) (hl : c.look d = some r) :
    Full (((c.waw act (c.ad d) r).setWriter act d).seen act ⟨d, .out⟩) act (ps ++ [⟨d, .out⟩]) := by
  obtain ⟨hz, hr⟩ := look_some hl
  have hpos := h.t.pos h.b
  have hne : c.ad d ≠ act := fun e => hnw (ad_act h.a h.t e (by omega))
  obtain ⟨c2, hc2, h2, g, hp1, hp2⟩ := out_deps h hne hr
  have hpath : ∀ i q, i < act → c2.par i = some q → c2.fin i = false → writes q d ∨ reads q d → Path c2 i act := by
    intro i q hi hq hf hw
    rw [g.par] at hq; rw [g.fin] at hf
    have hwr : ∀ q', c.par (c.ad d) = some q' → writes q' d → i ≤ c.ad d → (∀ q', writes q' d → Conf q q') →
        Path c2 i act := by
      intro q' hq' hw' hle hcf
      by_cases e : i = c.ad d
      · obtain ⟨ri, e1, e2⟩ := h.b.live i q hq hf
        rw [e, hr] at e1; cases e1
        rw [e]; exact hp1 e2
      · have hp := h.o i _ q q' hq hq' (by omega) (hcf q' hw') hf
        obtain ⟨rt, e1, e2, _⟩ := path_live h.b hp
        rw [hr] at e1; cases e1
        exact Relation.TransGen.trans (g.path hp) (hp1 (by rw [e2]; decide))
    cases hw with
    | inl hw =>
      obtain ⟨_, hle, q', hq', hw'⟩ := h.a.wr i q d hq hw
      exact hwr q' hq' hw' hle (fun q' hw' => ⟨d, Or.inl ⟨hw, Or.inr hw'⟩⟩)
    | inr hw =>
      obtain ⟨_, h3⟩ := h.a.rd i q d hq hw
      cases h3 with
      | inl h3 =>
        obtain ⟨rt, e1, e2⟩ := h3
        rw [hr] at e1; cases e1
        obtain ⟨ri, e3, e4⟩ := h.b.live i q hq hf
        exact hp2 i ri e2 (by omega) e3 e4
      | inr h3 =>
        obtain ⟨hle, q', hq', hw'⟩ := h3
        exact hwr q' hq' hw' hle (fun q' hw' => ⟨d, Or.inr ⟨hw, hw'⟩⟩)
  obtain ⟨ra, hra, _⟩ := h2.t.row
  have e : c.waw act (c.ad d) r = c2.lessOut (c2.ad d) := by unfold Core.waw; rw [hc2, ← hc2, g.ad]
  rw [e]
  obtain ⟨s1, s2, s3, s4, s5⟩ := setWriter_desc (c2.lessOut (c2.ad d)) act d h0
  obtain ⟨l2, l3, l4, l5⟩ := lessOut_rest c2 (c2.ad d)
  have hne2 : c2.ad d ≠ act := by rw [g.ad]; exact hne
  refine out_final h2 h0 hnw hra hpath ?_ ?_ ?_ ?_ ?_
  · intro k
    show ((c2.lessOut (c2.ad d)).setWriter act d).tk k = _
    rw [s1 k]
    by_cases ek : k = act
    · rw [if_pos ek, if_pos ek, lessOut_tk, if_neg (Ne.symm hne2), hra]; rfl
    · rw [if_neg ek, if_neg ek, lessOut_tk]
  · intro k
    show ((c2.lessOut (c2.ad d)).setWriter act d).ad k = _
    rw [s2 k, l2]
  · intro k
    unfold Core.seen
    dsimp only
    rw [s3, l3, h2.t.par]; rfl
  · show ((c2.lessOut (c2.ad d)).setWriter act d).fin = _
    rw [s4, l4]
  · show ((c2.lessOut (c2.ad d)).setWriter act d).next = _
    rw [s5, l5]

theorem out_new {c : Core} {act d : Nat} {ps : List Param} (h : Full c act ps) (h0 : d ≠ 0)
    (hnw : ¬ writes ps d) (hl : c.look d = none) :
    Full ((c.setWriter act d).seen act ⟨d, .out⟩) act (ps ++ [⟨d, .out⟩]) := by
  have had := look_none h.a hl
  obtain ⟨ra, hra, _⟩ := h.t.row
  have hpos := h.t.pos h.b
  obtain ⟨s1, s2, s3, s4, s5⟩ := setWriter_desc c act d h0
  have hn0 : c.tk 0 = none := by
    cases e : c.tk 0 with
    | none => rfl
    | some r => have := h.b.idt 0 r e; omega
  refine out_final h h0 hnw hra ?_ ?_ ?_ ?_ ?_ ?_
  · intro i q hi hq hf hw
    cases hw with
    | inl hw => exact absurd had (h.a.wr i q d hq hw).1
    | inr hw => exact absurd had (h.a.rd i q d hq hw).1
  · intro k
    show (c.setWriter act d).tk k = _
    rw [s1 k]
    by_cases ek : k = act
    · rw [if_pos ek, if_pos ek, hra]; rfl
    · rw [if_neg ek, if_neg ek, had]
      by_cases e0 : k = 0
      · rw [if_pos e0, e0, hn0]; rfl
      · rw [if_neg e0]
  · intro k; exact s2 k
  · intro k
    unfold Core.seen
    dsimp only
    rw [s3, h.t.par]; rfl
  · exact s4
  · exact s5

/-! ### the whole task -/

theorem param_full {c : Core} {act : Nat} {ps : List Param} {p : Param} (h : Full c act ps) (hw : WF (ps ++ [p])) :
    Full (c.param act p) act (ps ++ [p]) := by
  obtain ⟨d, dir⟩ := p
  have h0 : d ≠ 0 := hw.1 ⟨d, dir⟩ (by simp)
  have hnw : dir ≠ .val → ¬ writes ps d := by
    intro hv hwr
    have := List.pairwise_append.1 hw.2
    exact this.2.2 _ hwr ⟨d, dir⟩ (by simp) rfl hv rfl
  unfold Core.param Core.depend
  cases dir with
  | inp =>
    dsimp only
    cases hl : c.look d with
    | none => exact inp_new h h0 hl
    | some r => exact inp_known h (hnw (by decide)) hl
  | out =>
    dsimp only
    cases hl : c.look d with
    | none => exact out_new h h0 (hnw (by decide)) hl
    | some r => exact out_known h h0 (hnw (by decide)) hl
  | val =>
    dsimp only
    refine seen_full h (by simp) (by simp) ?_
    intro i q hi hq hf hc
    obtain ⟨d', hc⟩ := hc
    unfold reads writes at hc
    simp at hc

theorem WF.init {ps qs : List Param} (h : WF (ps ++ qs)) : WF ps :=
  ⟨fun p hp => h.1 p (List.mem_append_left _ hp), (List.pairwise_append.1 h.2).1⟩

theorem params_full {act : Nat} (qs : List Param) : ∀ {c : Core} {ps : List Param}, Full c act ps → WF (ps ++ qs) →
    Full (qs.foldl (Core.param act) c) act (ps ++ qs) := by
  induction qs with
  | nil => intro c ps h _; simpa using h
  | cons q qs ih =>
    intro c ps h hw
    have e : ps ++ q :: qs = (ps ++ [q]) ++ qs := by simp
    rw [e] at hw ⊢
    exact ih (param_full h hw.init) hw

/-- the table between two operations of the scheduler -/
structure Good (c : Core) : Prop where
  b : Base c
  a : Addr c
  o : Ord c
  wait : ∀ i r, c.tk i = some r → r.st = .notReady → 1 ≤ r.rdep

theorem good_init : Good Core.init := by
  refine ⟨?_, ?_, ?_, ?_⟩
  · constructor <;> intros <;> simp_all [Core.init]
  · constructor <;> intros <;> simp_all [Core.init]
  · intro i j p q h; cases h
  · intro i r h; cases h

theorem create_full {c : Core} (h : Good c) : Full c.create c.next [] := by
  have htk : ∀ k, c.create.tk k = if k = c.next then some ⟨.notReady, 0, [], 0, false, 0⟩ else c.tk k := fun _ => rfl
  have hpar : ∀ k, c.create.par k = if k = c.next then some [] else c.par k := fun _ => rfl
  have hnone : ∀ r, c.tk c.next ≠ some r := fun r hr => by have := h.b.idt _ r hr; omega
  have hold : ∀ k r, c.tk k = some r → c.create.tk k = some r := fun k r hk => by
    rw [htk, if_neg (by rintro rfl; exact hnone r hk)]; exact hk
  have hpold : ∀ k p, c.par k = some p → c.create.par k = some p := fun k p hk => by
    rw [hpar, if_neg (by rintro rfl; have := h.b.idp _ p hk; omega)]; exact hk
  have hadlt : ∀ d, c.ad d ≠ 0 → c.ad d ≠ c.next := fun d hd e => by
    obtain ⟨r, h1, _⟩ := h.a.tab d hd
    rw [e] at h1; exact hnone r h1
  have hecold : ∀ k j, k ≠ c.next → ecount c.create k j = ecount c k j := fun k j hk => by
    apply ecount_congr; rw [htk, if_neg hk]
  have hecnew : ∀ j, ecount c.create c.next j = 0 := fun j => by
    rw [ecount_some (by rw [htk, if_pos rfl])]; simp
  have hesum : ∀ j, esum c.create j = esum c j := fun j => by
    unfold esum
    show sumN _ (c.next + 1) = _
    simp only [sumN, hecnew, Nat.add_zero]
    exact Farm.sumN_congr fun k hk => hecold k j (by omega)
  have hezero : esum c c.next = 0 := by
    unfold esum
    apply Parfor.sumN_zero
    intro k hk
    cases hr : c.tk k with
    | none => exact ecount_none hr _
    | some r =>
      rw [ecount_some hr]
      split
      · rfl
      · rename_i hd
        apply List.count_eq_zero.2
        intro hm
        obtain ⟨_, r', h1, _⟩ := h.b.edge k r _ hr hd hm
        exact hnone r' h1
  have hedge : ∀ i j, Edge c i j → Edge c.create i j := fun i j ⟨r, h1, h2⟩ => ⟨r, hold i r h1, h2⟩
  refine ⟨?_, ?_, ?_, ?_⟩
  · constructor
    · show 1 ≤ c.next + 1; omega
    · intro k r hk
      show 1 ≤ k ∧ k < c.next + 1
      have := h.b.pos
      by_cases e : k = c.next
      · omega
      · rw [htk, if_neg e] at hk; have := h.b.idt k r hk; omega
    · intro k p hk
      show 1 ≤ k ∧ k < c.next + 1
      have := h.b.pos
      by_cases e : k = c.next
      · omega
      · rw [hpar, if_neg e] at hk; have := h.b.idp k p hk; omega
    · intro k hk
      show k < c.next + 1
      have := h.b.idf k hk; omega
    · intro k r hk
      rw [htk] at hk; rw [hpar]
      by_cases e : k = c.next
      · rw [if_pos e, Option.some.injEq] at hk
        rw [if_pos e, ← hk]; simp
      · rw [if_neg e] at hk ⊢; exact h.b.real k r hk
    · intro k r hk hd
      rw [htk] at hk
      by_cases e : k = c.next
      · rw [if_pos e, Option.some.injEq] at hk
        rw [← hk] at hd; cases hd
      · rw [if_neg e] at hk; exact h.b.dum k r hk hd
    · intro k p hk hf
      rw [hpar] at hk; rw [htk]
      by_cases e : k = c.next
      · rw [if_pos e]; exact ⟨_, rfl, by decide⟩
      · rw [if_neg e] at hk ⊢; exact h.b.live k p hk hf
    · intro k r hk hd
      show c.fin k = false
      rw [htk] at hk
      by_cases e : k = c.next
      · cases hf : c.fin k with
        | false => rfl
        | true => have := h.b.idf k hf; omega
      · rw [if_neg e] at hk; exact h.b.dead k r hk hd
    · intro k r hk hd
      rw [hesum]
      rw [htk] at hk
      by_cases e : k = c.next
      · rw [if_pos e, Option.some.injEq] at hk
        rw [← hk, e, hezero]; rfl
      · rw [if_neg e] at hk; exact h.b.rdep k r hk hd
    · intro k r j hk hd hj
      rw [htk] at hk
      by_cases e : k = c.next
      · rw [if_pos e, Option.some.injEq] at hk
        rw [← hk] at hj; cases hj
      · rw [if_neg e] at hk
        obtain ⟨h1, r', h2, h3⟩ := h.b.edge k r j hk hd hj
        exact ⟨h1, r', hold j r' h2, h3⟩
    · intro k r hk hd
      rw [htk] at hk
      by_cases e : k = c.next
      · rw [if_pos e, Option.some.injEq] at hk
        rw [← hk] at hd; cases hd
      · rw [if_neg e] at hk; exact h.b.rdy k r hk hd
  · have hw : ∀ i p d, c.create.par i = some p → writes p d → c.par i = some p := by
      intro i p d hi hw
      rw [hpar] at hi
      by_cases e : i = c.next
      · rw [if_pos e] at hi; cases hi; cases hw
      · rw [if_neg e] at hi; exact hi
    have hr : ∀ i p d, c.create.par i = some p → reads p d → c.par i = some p := by
      intro i p d hi hw
      rw [hpar] at hi
      by_cases e : i = c.next
      · rw [if_pos e] at hi; cases hi; cases hw
      · rw [if_neg e] at hi; exact hi
    have ho : ∀ k r, k ≠ c.next → outs c.create k r = outs c k r := by
      intro k r e; unfold outs; rw [hpar, if_neg e]
    constructor
    · exact h.a.zero
    · intro d hd
      obtain ⟨r, h1, h2⟩ := h.a.tab d hd
      exact ⟨r, hold _ r h1, by rw [ho (c.create.ad d) r (hadlt d hd)]; exact h2⟩
    · intro i p d hi hwr
      obtain ⟨h1, h2, q, h3, h4⟩ := h.a.wr i p d (hw i p d hi hwr) hwr
      exact ⟨h1, h2, q, hpold _ q h3, h4⟩
    · intro i p d hi hwr
      obtain ⟨h1, h2⟩ := h.a.rd i p d (hr i p d hi hwr) hwr
      refine ⟨h1, ?_⟩
      cases h2 with
      | inl h2 => obtain ⟨r, h2, h3⟩ := h2; exact Or.inl ⟨r, hold _ r h2, h3⟩
      | inr h2 => obtain ⟨h2, q, h3, h4⟩ := h2; exact Or.inr ⟨h2, q, hpold _ q h3, h4⟩
    · intro t r ht
      rw [htk] at ht
      by_cases e : t = c.next
      · rw [if_pos e, Option.some.injEq] at ht
        rw [← ht]
        unfold outs
        rw [hpar, if_pos e]
        rfl
      · rw [if_neg e] at ht
        rw [ho t r e]; exact h.a.nout t r ht
    · intro t r ht
      rw [htk] at ht
      by_cases e : t = c.next
      · rw [if_pos e, Option.some.injEq] at ht
        rw [← ht]
        unfold outs
        rw [hpar, if_pos e]
        simp [outTags]
      · rw [if_neg e] at ht
        rw [ho t r e]; exact h.a.nod t r ht
  · intro i j p q hp hq hij hc hf
    have hj : j ≠ c.next := by
      rintro rfl
      rw [hpar, if_pos rfl] at hq; cases hq
      obtain ⟨d, hc⟩ := hc
      unfold reads writes at hc
      simp at hc
    rw [hpar, if_neg hj] at hq
    have := h.b.idp j q hq
    rw [hpar, if_neg (by omega)] at hp
    exact path_mono hedge (h.o i j p q hp hq hij hc hf)
  · refine ⟨⟨_, by rw [htk, if_pos rfl], rfl, rfl, rfl⟩, by rw [hpar, if_pos rfl], ?_, ?_⟩
    · intro i p hp
      rw [hpar] at hp
      by_cases e : i = c.next
      · omega
      · rw [if_neg e] at hp; have := h.b.idp i p hp; omega
    · intro i r hi hr hs
      rw [htk, if_neg hi] at hr
      exact h.wait i r hr hs

theorem mark_good {c : Core} {act : Nat} {ps : List Param} (h : Full c act ps) : Good (c.mark act) := by
  obtain ⟨ra, hra, hst, hub, hdm⟩ := h.t.row
  obtain ⟨ra', hra'⟩ : ∃ r, r = (if ra.rdep = 0 then { ra with st := St.ready } else ra) := ⟨_, rfl⟩
  have htk : ∀ k, (c.mark act).tk k = if k = act then some ra' else c.tk k := by
    intro k
    unfold Core.mark
    rw [md_tk, hra, hra']
    by_cases e : k = act
    · rw [if_pos e, if_pos e]; rfl
    · rw [if_neg e, if_neg e]
  have p1 : ra'.ubl = [] ∧ ra'.rdep = ra.rdep ∧ ra'.nout = ra.nout ∧ ra'.dummy = ra.dummy ∧ ra'.dtag = ra.dtag ∧
      ra'.st ≠ .done ∧ (ra'.st = .ready ↔ ra.rdep = 0) := by
    rw [hra']
    by_cases e : ra.rdep = 0
    · rw [if_pos e]; exact ⟨hub, rfl, rfl, rfl, rfl, by simp, by simp [e]⟩
    · rw [if_neg e]; exact ⟨hub, rfl, rfl, rfl, rfl, by rw [hst]; decide, by rw [hst]; simp [e]⟩
  obtain ⟨p1, p2, p3, p4, p5, p6, p7⟩ := p1
  have hback : ∀ k r, (c.mark act).tk k = some r → ∃ r0, c.tk k = some r0 ∧ r.ubl = r0.ubl ∧ r.rdep = r0.rdep ∧
      r.nout = r0.nout ∧ r.dummy = r0.dummy ∧ r.dtag = r0.dtag ∧ (r.st = .done ↔ r0.st = .done) := by
    intro k r hk
    rw [htk] at hk
    by_cases e : k = act
    · subst e
      rw [if_pos rfl, Option.some.injEq] at hk
      subst hk
      exact ⟨ra, hra, by rw [p1, hub], p2, p3, p4, p5, ⟨fun x => absurd x p6, fun x => by rw [hst] at x; cases x⟩⟩
    · rw [if_neg e] at hk
      exact ⟨r, hk, rfl, rfl, rfl, rfl, rfl, Iff.rfl⟩
  have hfwd : ∀ k r0, c.tk k = some r0 → ∃ r, (c.mark act).tk k = some r ∧ r.ubl = r0.ubl ∧ r.dummy = r0.dummy ∧
      r.dtag = r0.dtag ∧ (r.st = .done ↔ r0.st = .done) := by
    intro k r hk
    rw [htk]
    by_cases e : k = act
    · subst e
      rw [hra] at hk; cases hk
      rw [if_pos rfl]
      exact ⟨ra', rfl, by rw [p1, hub], p4, p5, ⟨fun x => absurd x p6, fun x => by rw [hst] at x; cases x⟩⟩
    · rw [if_neg e]
      exact ⟨r, hk, rfl, rfl, rfl, Iff.rfl⟩
  have hec : ∀ k j, ecount (c.mark act) k j = ecount c k j := by
    intro k j
    cases hk : c.tk k with
    | none =>
      rw [ecount_none hk, ecount_none]
      rw [htk, if_neg (by rintro rfl; rw [hra] at hk; cases hk)]; exact hk
    | some r0 =>
      obtain ⟨r, e1, e2, _, _, e3⟩ := hfwd k r0 hk
      rw [ecount_some hk, ecount_some e1, e2]
      by_cases hd : r0.st = .done
      · rw [if_pos hd, if_pos (e3.2 hd)]
      · rw [if_neg hd, if_neg (fun x => hd (e3.1 x))]
  have hes : ∀ j, esum (c.mark act) j = esum c j := fun j => Farm.sumN_congr fun k _ => hec k j
  have hedge : ∀ i j, Edge c i j → Edge (c.mark act) i j := by
    rintro i j ⟨r0, h1, h2, h3⟩
    obtain ⟨r, e1, e2, _, _, e3⟩ := hfwd i r0 h1
    exact ⟨r, e1, fun x => h2 (e3.1 x), by rw [e2]; exact h3⟩
  have ho : ∀ k r r0, r.dummy = r0.dummy → r.dtag = r0.dtag → outs (c.mark act) k r = outs c k r0 := by
    intro k r r0 e1 e2; unfold outs; rw [e1, e2]; rfl
  refine ⟨?_, ?_, ?_, ?_⟩
  · constructor
    · exact h.b.pos
    · intro k r hk; obtain ⟨r0, e0, _⟩ := hback k r hk; exact h.b.idt k r0 e0
    · exact h.b.idp
    · exact h.b.idf
    · intro k r hk; obtain ⟨r0, e0, _, _, _, e1, _⟩ := hback k r hk; rw [e1]; exact h.b.real k r0 e0
    · intro k r hk hd
      obtain ⟨r0, e0, _, _, _, e1, _, e2⟩ := hback k r hk
      rw [e1] at hd; exact e2.2 (h.b.dum k r0 e0 hd)
    · intro k p hp hf
      obtain ⟨r0, h1, h2⟩ := h.b.live k p hp hf
      obtain ⟨r, e1, _, _, _, e3⟩ := hfwd k r0 h1
      exact ⟨r, e1, fun x => h2 (e3.1 x)⟩
    · intro k r hk hd
      obtain ⟨r0, e0, _, _, _, e1, _, e2⟩ := hback k r hk
      exact h.b.dead k r0 e0 (fun x => hd (e2.2 x))
    · intro k r hk hd
      obtain ⟨r0, e0, _, e1, _, _, _, e2⟩ := hback k r hk
      rw [hes, e1]
      exact h.b.rdep k r0 e0 (fun x => hd (e2.2 x))
    · intro k r j hk hd hj
      obtain ⟨r0, e0, e3, e1, _, _, _, e2⟩ := hback k r hk
      rw [e3] at hj
      obtain ⟨h1, r', h2, h3⟩ := h.b.edge k r0 j e0 (fun x => hd (e2.2 x)) hj
      obtain ⟨r1, f1, _, _, _, f3⟩ := hfwd j r' h2
      exact ⟨h1, r1, f1, fun x => h3 (f3.1 x)⟩
    · intro k r hk hd
      rw [htk] at hk
      by_cases e : k = act
      · rw [if_pos e, Option.some.injEq] at hk
        subst hk
        rw [p2]; exact p7.1 hd
      · rw [if_neg e] at hk; exact h.b.rdy k r hk hd
  · constructor
    · exact h.a.zero
    · intro d hd
      obtain ⟨r, h1, h2⟩ := h.a.tab d hd
      obtain ⟨r1, f1, _, f2, f3, _⟩ := hfwd _ r h1
      exact ⟨r1, f1, by rw [ho _ r1 r f2 f3]; exact h2⟩
    · exact h.a.wr
    · intro i p d hp hr
      obtain ⟨h1, h2⟩ := h.a.rd i p d hp hr
      refine ⟨h1, ?_⟩
      cases h2 with
      | inr h2 => exact Or.inr h2
      | inl h2 =>
        obtain ⟨r, h2, h3⟩ := h2
        obtain ⟨r1, f1, f2, _⟩ := hfwd _ r h2
        exact Or.inl ⟨r1, f1, by rw [f2]; exact h3⟩
    · intro t r ht
      obtain ⟨r0, e0, _, _, e3, e4, e5, _⟩ := hback t r ht
      rw [e3, ho t r r0 e4 e5]; exact h.a.nout t r0 e0
    · intro t r ht
      obtain ⟨r0, e0, _, _, e3, e4, e5, _⟩ := hback t r ht
      rw [ho t r r0 e4 e5]; exact h.a.nod t r0 e0
  · intro i j p q hp hq hij hc hf
    exact path_mono hedge (h.o i j p q hp hq hij hc hf)
  · intro i r hi hs
    rw [htk] at hi
    by_cases e : i = act
    · rw [if_pos e, Option.some.injEq] at hi
      subst hi
      have h1 := h.b.rdep act ra hra (by rw [hst]; decide)
      have h2 : ra.rdep ≠ 0 := fun x => by rw [p7.2 x] at hs; cases hs
      rw [p2]; omega
    · rw [if_neg e] at hi; exact h.t.wait i r e hi hs

/-- `insertTask` keeps the invariant of the table -/
theorem insert_good {c : Core} (h : Good c) {ps : List Param} (hw : WF ps) : Good (c.insert ps) := by
  have := params_full ps (create_full h) (by simpa using hw)
  exact mark_good this

end FF.Mdf
