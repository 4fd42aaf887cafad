import Verif.Mdf.Table
/-! # Completing a task preserves the invariant of the dependency table -/
namespace FF.Mdf
open FF.Farm (sumN)

/-- the row of `k` after the completion of a task with list `l` -/
def decRow (l : List Nat) (k : Nat) (r : Rec) : Rec :=
  if k ∈ l then { r with rdep := r.rdep - l.count k, st := if r.rdep - l.count k = 0 then .ready else r.st } else r

theorem dec_fold (l : List Nat) : ∀ (c : Core) (rd : List Nat),
    (∀ j, j ∈ l → ∃ r, c.tk j = some r ∧ r.st = .notReady ∧ (l.count j : Int) ≤ r.rdep) →
    ∃ c' rd', l.foldl Core.dec (some (c, rd)) = some (c', rd ++ rd') ∧ (∀ k, c'.tk k = (c.tk k).map (decRow l k)) ∧
      c'.ad = c.ad ∧ c'.par = c.par ∧ c'.fin = c.fin ∧ c'.next = c.next ∧ rd'.Nodup ∧
      ∀ k, k ∈ rd' ↔ k ∈ l ∧ ∃ r, c.tk k = some r ∧ r.rdep = l.count k := by
  induction l with
  | nil =>
    intro c rd _
    refine ⟨c, [], by simp, ?_, rfl, rfl, rfl, rfl, by simp, by simp⟩
    intro k
    have : decRow [] k = id := by funext r; simp [decRow]
    rw [this]; simp
  | cons y l ih =>
    intro c rd h
    obtain ⟨r, hr, hst, hle⟩ := h y (by simp)
    have hcy : (y :: l).count y = l.count y + 1 := by simp
    rw [hcy] at hle
    push_cast at hle
    simp only [List.foldl_cons]
    by_cases h0 : r.rdep - 1 = 0
    · have hz : l.count y = 0 := by omega
      have hyl : y ∉ l := List.count_eq_zero.1 hz
      have hstep : Core.dec (some (c, rd)) y =
          some (c.md y fun r => { r with rdep := r.rdep - 1, st := .ready }, rd ++ [y]) := by
        unfold Core.dec
        dsimp only
        rw [hr]
        dsimp only
        rw [if_pos ⟨h0, hst⟩]
      rw [hstep]
      have hother : ∀ k, k ≠ y → (c.md y fun r => { r with rdep := r.rdep - 1, st := .ready }).tk k = c.tk k := by
        intro k hk; rw [md_tk, if_neg hk]
      have hcount : ∀ k, k ≠ y → (y :: l).count k = l.count k := by
        intro k hk
        rw [List.count_cons]
        simp [Ne.symm hk]
      obtain ⟨c', rd', e1, e2, e3, e4, e5, e6, e7, e8⟩ := ih (c.md y fun r => { r with rdep := r.rdep - 1, st := .ready })
        (rd ++ [y]) (by
          intro j hj
          have hjy : j ≠ y := by rintro rfl; exact hyl hj
          obtain ⟨rj, f1, f2, f3⟩ := h j (by simp [hj])
          rw [hcount j hjy] at f3
          exact ⟨rj, by rw [hother j hjy]; exact f1, f2, f3⟩)
      refine ⟨c', y :: rd', by rw [e1]; simp, ?_, e3, e4, e5, e6, ?_, ?_⟩
      · intro k
        rw [e2]
        by_cases hk : k = y
        · subst hk
          rw [md_tk, if_pos rfl, hr, Option.map_some, Option.map_some, Option.map_some, Option.some.injEq]
          unfold decRow
          rw [if_neg hyl, if_pos (by simp), hcy, hz]
          simp [h0]
        · rw [hother k hk]
          congr 1
          funext r
          unfold decRow
          rw [hcount k hk]
          simp [hk]
      · rw [List.nodup_cons]
        exact ⟨fun hm => hyl ((e8 y).1 hm).1, e7⟩
      · intro k
        by_cases hk : k = y
        · subst hk
          simp only [List.mem_cons, true_or, true_and, true_iff]
          exact ⟨r, hr, by rw [hcy]; push_cast; omega⟩
        · simp only [List.mem_cons, hk, false_or]
          rw [e8, hother k hk, hcount k hk]
    · have hstep : Core.dec (some (c, rd)) y = some (c.md y fun r => { r with rdep := r.rdep - 1 }, rd) := by
        unfold Core.dec
        dsimp only
        rw [hr]
        dsimp only
        rw [if_neg (fun x => h0 x.1)]
      rw [hstep]
      have hother : ∀ k, k ≠ y → (c.md y fun r => { r with rdep := r.rdep - 1 }).tk k = c.tk k := by
        intro k hk; rw [md_tk, if_neg hk]
      have hown : (c.md y fun r => { r with rdep := r.rdep - 1 }).tk y = some { r with rdep := r.rdep - 1 } := by
        rw [md_tk, if_pos rfl, hr]; rfl
      have hcount : ∀ k, k ≠ y → (y :: l).count k = l.count k := by
        intro k hk
        rw [List.count_cons]
        simp [Ne.symm hk]
      obtain ⟨c', rd', e1, e2, e3, e4, e5, e6, e7, e8⟩ := ih (c.md y fun r => { r with rdep := r.rdep - 1 }) rd (by
          intro j hj
          by_cases hjy : j = y
          · subst hjy
            exact ⟨_, hown, hst, by dsimp only; omega⟩
          · obtain ⟨rj, f1, f2, f3⟩ := h j (by simp [hj])
            rw [hcount j hjy] at f3
            exact ⟨rj, by rw [hother j hjy]; exact f1, f2, f3⟩)
      refine ⟨c', rd', e1, ?_, e3, e4, e5, e6, e7, ?_⟩
      · intro k
        rw [e2]
        by_cases hk : k = y
        · subst hk
          rw [hown, hr, Option.map_some, Option.map_some, Option.some.injEq]
          unfold decRow
          rw [if_pos (List.mem_cons_self), hcy]
          by_cases hm : k ∈ l
          · rw [if_pos hm]
            push_cast
            have : r.rdep - 1 - (l.count k : Int) = r.rdep - ((l.count k : Int) + 1) := by omega
            rw [this]
          · have hz : l.count k = 0 := List.count_eq_zero.2 hm
            rw [if_neg hm, hz]
            simp [h0]
        · rw [hother k hk]
          congr 1
          funext r
          unfold decRow
          rw [hcount k hk]
          simp [hk]
      · intro k
        rw [e8]
        by_cases hk : k = y
        · subst hk
          rw [hcy]
          simp only [List.mem_cons, true_or, true_and]
          constructor
          · rintro ⟨_, r', f1, f2⟩
            rw [hown] at f1; cases f1
            refine ⟨r, hr, ?_⟩
            dsimp only at f2
            push_cast; omega
          · rintro ⟨r', f1, f2⟩
            rw [hr] at f1; cases f1
            push_cast at f2
            have : 0 < l.count k := by omega
            exact ⟨List.count_pos_iff.1 this, _, hown, by dsimp only; omega⟩
        · rw [hother k hk, hcount k hk]
          simp only [List.mem_cons, hk, false_or]

/-- the task is ready or running -/
def Rdy (c : Core) (k : Nat) : Prop := ∃ r, c.tk k = some r ∧ r.st = .ready

theorem retire_desc (c : Core) (t : Nat) (rt : Rec) (h : c.tk t = some rt) :
    (∀ k, (c.retire t).tk k = if k = t then (if rt.nout = 0 then none else some { rt with st := .done }) else c.tk k) ∧
    (c.retire t).ad = c.ad ∧ (c.retire t).par = c.par ∧ (c.retire t).next = c.next ∧
    (∀ k, (c.retire t).fin k = if k = t then true else c.fin k) := by
  unfold Core.retire
  dsimp only
  rw [md_tk, if_pos rfl, h]
  dsimp only [Option.map_some]
  by_cases h0 : rt.nout = 0
  · rw [if_pos h0]
    refine ⟨fun k => ?_, rfl, rfl, rfl, fun k => rfl⟩
    dsimp only
    by_cases e : k = t
    · rw [if_pos e, if_pos e, if_pos h0]
    · rw [if_neg e, if_neg e, md_tk, if_neg e]
  · rw [if_neg h0]
    refine ⟨fun k => ?_, rfl, rfl, rfl, fun k => rfl⟩
    dsimp only
    rw [md_tk]
    by_cases e : k = t
    · rw [if_pos e, if_pos e, if_neg h0, h]; rfl
    · rw [if_neg e, if_neg e]

theorem handle_desc {c : Core} (h : Good c) {t : Nat} {rt : Rec} (ht : c.tk t = some rt) (hs : rt.st = .ready) :
    ∃ c' rd, c.handle t = some (c', rd) ∧
      (∀ k, c'.tk k = if k = t then (if rt.nout = 0 then none else some { rt with st := .done })
        else (c.tk k).map (decRow rt.ubl k)) ∧
      c'.ad = c.ad ∧ c'.par = c.par ∧ c'.next = c.next ∧ (∀ k, c'.fin k = if k = t then true else c.fin k) ∧
      rd.Nodup ∧ ∀ k, k ∈ rd ↔ k ∈ rt.ubl ∧ ∃ r, c.tk k = some r ∧ r.rdep = rt.ubl.count k := by
  have hd : rt.st ≠ .done := by rw [hs]; decide
  obtain ⟨c1, rd, e1, e2, e3, e4, e5, e6, e7, e8⟩ := dec_fold rt.ubl c [] (by
    intro j hj
    obtain ⟨r, h1, h2, _⟩ := edge_live h.b ⟨rt, ht, hd, hj⟩
    refine ⟨r, h1, h2, ?_⟩
    rw [h.b.rdep j r h1 (by rw [h2]; decide)]
    have hle : ecount c t j ≤ esum c j := Parfor.sumN_ge (f := fun i => ecount c i j) (h.b.idt t rt ht).2
    rw [ecount_some ht, if_neg hd] at hle
    omega)
  have hself : t ∉ rt.ubl := fun hm => by have := (h.b.edge t rt t ht hd hm).1; omega
  have h1t : c1.tk t = some rt := by rw [e2, ht]; simp [decRow, hself]
  obtain ⟨f1, f2, f3, f4, f5⟩ := retire_desc c1 t rt h1t
  refine ⟨c1.retire t, rd, ?_, ?_, by rw [f2, e3], by rw [f3, e4], by rw [f4, e6], fun k => by rw [f5, e5], e7, e8⟩
  · unfold Core.handle
    rw [ht]
    dsimp only
    rw [e1]; rfl
  · intro k; rw [f1, e2]

theorem handle_good {c : Core} (h : Good c) {t : Nat} {rt : Rec} (ht : c.tk t = some rt) (hs : rt.st = .ready) :
    ∃ c' rd, c.handle t = some (c', rd) ∧ Good c' ∧ c'.par = c.par ∧ c'.next = c.next ∧
      (∀ k, c'.fin k = if k = t then true else c.fin k) ∧ rd.Nodup ∧
      (∀ k, k ∈ rd → ¬ Rdy c k ∧ Rdy c' k) ∧ (∀ k, Rdy c' k ↔ (k ≠ t ∧ Rdy c k) ∨ k ∈ rd) := by
  have hd : rt.st ≠ .done := by rw [hs]; decide
  obtain ⟨c', rd, e1, e2, e3, e4, e5, e6, e7, e8⟩ := handle_desc h ht hs
  have hself : t ∉ rt.ubl := fun hm => by have := (h.b.edge t rt t ht hd hm).1; omega
  have hub : ∀ j, j ∈ rt.ubl → ∃ r, c.tk j = some r ∧ r.st = .notReady ∧ 1 ≤ r.rdep := fun j hj =>
    edge_live h.b ⟨rt, ht, hd, hj⟩
  have hback : ∀ k r, k ≠ t → c'.tk k = some r → ∃ r0, c.tk k = some r0 ∧ r = decRow rt.ubl k r0 := by
    intro k r hk hr
    rw [e2, if_neg hk] at hr
    cases hc : c.tk k with
    | none => rw [hc] at hr; cases hr
    | some r0 => rw [hc] at hr; cases hr; exact ⟨r0, rfl, rfl⟩
  have hfwd : ∀ k r, k ≠ t → c.tk k = some r → c'.tk k = some (decRow rt.ubl k r) := by
    intro k r hk hr; rw [e2, if_neg hk, hr]; rfl
  have hrow : ∀ k r, c.tk k = some r → (decRow rt.ubl k r).ubl = r.ubl ∧ (decRow rt.ubl k r).nout = r.nout ∧
      (decRow rt.ubl k r).dummy = r.dummy ∧ (decRow rt.ubl k r).dtag = r.dtag ∧
      (decRow rt.ubl k r).rdep = r.rdep - rt.ubl.count k ∧ ((decRow rt.ubl k r).st = .done ↔ r.st = .done) := by
    intro k r hr
    unfold decRow
    by_cases hm : k ∈ rt.ubl
    · rw [if_pos hm]
      refine ⟨rfl, rfl, rfl, rfl, rfl, ?_⟩
      obtain ⟨r1, h1, h2, _⟩ := hub k hm
      rw [hr] at h1; cases h1
      dsimp only
      split
      · simp [h2]
      · exact Iff.rfl
    · rw [if_neg hm]
      refine ⟨rfl, rfl, rfl, rfl, ?_, Iff.rfl⟩
      rw [List.count_eq_zero.2 hm]; simp
  have htd : ∀ r, c'.tk t = some r → r = { rt with st := .done } := by
    intro r hr
    rw [e2, if_pos rfl] at hr
    split at hr
    · cases hr
    · cases hr; rfl
  have hec : ∀ k j, k ≠ t → ecount c' k j = ecount c k j := by
    intro k j hk
    cases hc : c.tk k with
    | none => rw [ecount_none hc, ecount_none]; rw [e2, if_neg hk, hc]; rfl
    | some r =>
      obtain ⟨f1, _, _, _, _, f6⟩ := hrow k r hc
      rw [ecount_some hc, ecount_some (hfwd k r hk hc), f1]
      by_cases hd : r.st = .done
      · rw [if_pos hd, if_pos (f6.2 hd)]
      · rw [if_neg hd, if_neg (fun x => hd (f6.1 x))]
  have hect : ∀ j, ecount c' t j = 0 := by
    intro j
    cases hc : c'.tk t with
    | none => exact ecount_none hc j
    | some r => rw [ecount_some hc, htd r hc, if_pos rfl]
  have hes : ∀ j, esum c' j + rt.ubl.count j = esum c j := by
    intro j
    unfold esum
    rw [e5]
    have := Parfor.sumN_change (f := fun k => ecount c' k j) (g := fun k => ecount c k j)
      (h.b.idt t rt ht).2 (fun k _ hk => hec k j hk)
    simp only [hect, ecount_some ht, if_neg hd] at this
    omega
  have hedge : ∀ i j, i ≠ t → Edge c i j → Edge c' i j := by
    rintro i j hi ⟨r0, h1, h2, h3⟩
    obtain ⟨f1, _, _, _, _, f6⟩ := hrow i r0 h1
    exact ⟨_, hfwd i r0 hi h1, fun x => h2 (f6.1 x), by rw [f1]; exact h3⟩
  have hnoin : ∀ i, ¬ Edge c i t := by
    intro i he
    obtain ⟨r, h1, h2, _⟩ := edge_live h.b he
    rw [ht] at h1; cases h1; rw [hs] at h2; cases h2
  have hpath : ∀ i j, i ≠ t → Path c i j → Path c' i j := by
    intro i j hi hp
    induction hp with
    | single he => exact Relation.TransGen.single (hedge i _ hi he)
    | @tail b d hp he ih =>
      have hb : b ≠ t := by
        rintro rfl
        cases hp with
        | single he => exact hnoin _ he
        | tail _ he => exact hnoin _ he
      exact Relation.TransGen.tail ih (hedge b _ hb he)
  have ho : ∀ k r r0, r.dummy = r0.dummy → r.dtag = r0.dtag → outs c' k r = outs c k r0 := by
    intro k r r0 f1 f2; unfold outs; rw [f1, f2, e4]
  have hreal : ∀ k r, c.tk k = some r → r.st ≠ .done → c.fin k = false := h.b.dead
  -- a current writer is never removed
  have hnrm : ∀ d, c.ad d ≠ 0 → ∀ r, c.tk (c.ad d) = some r → d ∈ outs c (c.ad d) r →
      ∃ r', c'.tk (c.ad d) = some r' ∧ r'.ubl = r.ubl ∧ r'.dummy = r.dummy ∧ r'.dtag = r.dtag := by
    intro d hd r hr hm
    by_cases e : c.ad d = t
    · rw [e, ht] at hr; cases hr
      have hn := h.a.nout t rt ht
      have : 0 < (outs c t rt).countP (fun x => decide (c.ad x = t)) :=
        List.countP_pos_iff.2 ⟨d, by rw [← e]; rw [e]; rw [e] at hm; exact hm, by simp [e]⟩
      rw [e2, if_pos e, if_neg (by omega)]
      exact ⟨_, rfl, rfl, rfl, rfl⟩
    · obtain ⟨f1, _, f3, f4, _, _⟩ := hrow _ r hr
      exact ⟨_, hfwd _ r e hr, f1, f3, f4⟩
  have hstk : ∀ k r, c.tk k = some r →
      ((decRow rt.ubl k r).st = .ready ↔ (r.st = .ready ∨ (k ∈ rt.ubl ∧ r.rdep = rt.ubl.count k))) := by
    intro k r hr
    unfold decRow
    by_cases hm : k ∈ rt.ubl
    · rw [if_pos hm]
      obtain ⟨r1, h1, h2, _⟩ := hub k hm
      rw [hr] at h1; cases h1
      dsimp only
      split
      · rename_i hz
        exact ⟨fun _ => Or.inr ⟨hm, by omega⟩, fun _ => rfl⟩
      · rename_i hz
        constructor
        · exact Or.inl
        · rintro (x | x)
          · exact x
          · exact absurd (by omega) hz
    · rw [if_neg hm]
      exact ⟨Or.inl, fun x => x.elim id (fun y => absurd y.1 hm)⟩
  have hrdy : ∀ k, Rdy c' k ↔ (k ≠ t ∧ Rdy c k) ∨ k ∈ rd := by
    intro k
    rw [e8]
    constructor
    · rintro ⟨r, h1, h2⟩
      by_cases e : k = t
      · subst e; rw [htd r h1] at h2; cases h2
      · obtain ⟨r0, h3, rfl⟩ := hback k r e h1
        cases (hstk k r0 h3).1 h2 with
        | inl x => exact Or.inl ⟨e, r0, h3, x⟩
        | inr x => exact Or.inr ⟨x.1, r0, h3, x.2⟩
    · rintro (⟨e, r0, h3, h4⟩ | ⟨hm, r0, h3, h4⟩)
      · exact ⟨_, hfwd k r0 e h3, (hstk k r0 h3).2 (Or.inl h4)⟩
      · have e : k ≠ t := by rintro rfl; exact hself hm
        exact ⟨_, hfwd k r0 e h3, (hstk k r0 h3).2 (Or.inr ⟨hm, h4⟩)⟩
  refine ⟨c', rd, e1, ?_, e4, e5, e6, e7, ?_, hrdy⟩
  · refine ⟨?_, ?_, ?_, ?_⟩
    · constructor
      · rw [e5]; exact h.b.pos
      · intro k r hk
        rw [e5]
        by_cases e : k = t
        · subst e; exact h.b.idt k rt ht
        · obtain ⟨r0, h1, _⟩ := hback k r e hk; exact h.b.idt k r0 h1
      · rw [e4, e5]; exact h.b.idp
      · intro k hk
        rw [e5]
        rw [e6] at hk
        by_cases e : k = t
        · subst e; exact (h.b.idt k rt ht).2
        · rw [if_neg e] at hk; exact h.b.idf k hk
      · intro k r hk
        rw [e4]
        by_cases e : k = t
        · subst e; rw [htd r hk]; exact h.b.real k rt ht
        · obtain ⟨r0, h1, rfl⟩ := hback k r e hk
          rw [(hrow k r0 h1).2.2.1]; exact h.b.real k r0 h1
      · intro k r hk hdm
        by_cases e : k = t
        · subst e; rw [htd r hk]
        · obtain ⟨r0, h1, rfl⟩ := hback k r e hk
          rw [(hrow k r0 h1).2.2.1] at hdm
          exact (hrow k r0 h1).2.2.2.2.2.2 (h.b.dum k r0 h1 hdm)
      · intro k p hp hf
        rw [e4] at hp; rw [e6] at hf
        by_cases e : k = t
        · rw [if_pos e] at hf; cases hf
        · rw [if_neg e] at hf
          obtain ⟨r, h1, h2⟩ := h.b.live k p hp hf
          exact ⟨_, hfwd k r e h1, fun x => h2 ((hrow k r h1).2.2.2.2.2.1 x)⟩
      · intro k r hk hd'
        rw [e6]
        by_cases e : k = t
        · subst e; rw [htd r hk] at hd'; exact absurd rfl hd'
        · rw [if_neg e]
          obtain ⟨r0, h1, rfl⟩ := hback k r e hk
          exact h.b.dead k r0 h1 (fun x => hd' ((hrow k r0 h1).2.2.2.2.2.2 x))
      · intro k r hk hd'
        by_cases e : k = t
        · subst e; rw [htd r hk] at hd'; exact absurd rfl hd'
        · obtain ⟨r0, h1, rfl⟩ := hback k r e hk
          rw [(hrow k r0 h1).2.2.2.2.1, h.b.rdep k r0 h1 (fun x => hd' ((hrow k r0 h1).2.2.2.2.2.2 x)), ← hes k]
          push_cast; omega
      · intro k r j hk hd' hj
        by_cases e : k = t
        · subst e; rw [htd r hk] at hd'; exact absurd rfl hd'
        · obtain ⟨r0, h1, rfl⟩ := hback k r e hk
          rw [(hrow k r0 h1).1] at hj
          have hd0 : r0.st ≠ .done := fun x => hd' ((hrow k r0 h1).2.2.2.2.2.2 x)
          obtain ⟨h2, r', h3, h4⟩ := h.b.edge k r0 j h1 hd0 hj
          have hjt : j ≠ t := by rintro rfl; exact hnoin k ⟨r0, h1, hd0, hj⟩
          exact ⟨h2, _, hfwd j r' hjt h3, fun x => h4 ((hrow j r' h3).2.2.2.2.2.1 x)⟩
      · intro k r hk hd'
        by_cases e : k = t
        · subst e; rw [htd r hk] at hd'; cases hd'
        · obtain ⟨r0, h1, rfl⟩ := hback k r e hk
          rw [(hrow k r0 h1).2.2.2.2.1]
          cases (hstk k r0 h1).1 hd' with
          | inl x =>
            have := h.b.rdy k r0 h1 x
            have hm : k ∉ rt.ubl := fun hm => by
              obtain ⟨r1, f1, f2, _⟩ := hub k hm
              rw [h1] at f1; cases f1; rw [x] at f2; cases f2
            rw [List.count_eq_zero.2 hm]; simpa using this
          | inr x => omega
    · constructor
      · rw [e3]; exact h.a.zero
      · intro d hd
        rw [e3] at hd ⊢
        obtain ⟨r, h1, h2⟩ := h.a.tab d hd
        obtain ⟨r', f1, _, f2, f3⟩ := hnrm d hd r h1 h2
        exact ⟨r', f1, by rw [ho _ r' r f2 f3]; exact h2⟩
      · rw [e3, e4]; exact h.a.wr
      · intro i p d hp hr
        rw [e4] at hp
        rw [e3, e4]
        obtain ⟨h1, h2⟩ := h.a.rd i p d hp hr
        refine ⟨h1, ?_⟩
        cases h2 with
        | inr h2 => exact Or.inr h2
        | inl h2 =>
          obtain ⟨r, h2, h3⟩ := h2
          obtain ⟨r0, h4, h5⟩ := h.a.tab d h1
          rw [h2] at h4; cases h4
          obtain ⟨r', f1, f2, _⟩ := hnrm d h1 r h2 h5
          exact Or.inl ⟨r', f1, by rw [f2]; exact h3⟩
      · intro k r hk
        rw [e3]
        by_cases e : k = t
        · subst e; rw [htd r hk]; rw [ho k { rt with st := .done } rt rfl rfl]; exact h.a.nout k rt ht
        · obtain ⟨r0, h1, rfl⟩ := hback k r e hk
          rw [(hrow k r0 h1).2.1, ho k _ r0 (hrow k r0 h1).2.2.1 (hrow k r0 h1).2.2.2.1]
          exact h.a.nout k r0 h1
      · intro k r hk
        by_cases e : k = t
        · subst e; rw [htd r hk]; rw [ho k { rt with st := .done } rt rfl rfl]; exact h.a.nod k rt ht
        · obtain ⟨r0, h1, rfl⟩ := hback k r e hk
          rw [ho k _ r0 (hrow k r0 h1).2.2.1 (hrow k r0 h1).2.2.2.1]
          exact h.a.nod k r0 h1
    · intro i j p q hp hq hij hc hf
      rw [e4] at hp hq
      rw [e6] at hf
      have hi : i ≠ t := by rintro rfl; rw [if_pos rfl] at hf; cases hf
      rw [if_neg hi] at hf
      exact hpath i j hi (h.o i j p q hp hq hij hc hf)
    · intro k r hk hst
      by_cases e : k = t
      · subst e; rw [htd r hk] at hst; cases hst
      · obtain ⟨r0, h1, rfl⟩ := hback k r e hk
        have hnd : r0.st ≠ .done := fun x => by rw [(hrow k r0 h1).2.2.2.2.2.2 x] at hst; cases hst
        have hz : (decRow rt.ubl k r0).rdep ≠ 0 := by
          intro hz
          have : (decRow rt.ubl k r0).st = .ready := by
            refine (hstk k r0 h1).2 ?_
            rw [(hrow k r0 h1).2.2.2.2.1] at hz
            by_cases hm : k ∈ rt.ubl
            · exact Or.inr ⟨hm, by omega⟩
            · rw [List.count_eq_zero.2 hm] at hz
              cases h3 : r0.st with
              | ready => exact Or.inl rfl
              | done => exact absurd h3 hnd
              | notReady => have := h.wait k r0 h1 h3; simp at hz; omega
          rw [this] at hst; cases hst
        rw [(hrow k r0 h1).2.2.2.2.1] at hz ⊢
        have h4 := h.b.rdep k r0 h1 hnd
        have h5 := hes k
        omega
  · intro k hk
    refine ⟨?_, (hrdy k).2 (Or.inr hk)⟩
    rintro ⟨r, h1, h2⟩
    obtain ⟨hm, _⟩ := (e8 k).1 hk
    obtain ⟨r1, f1, f2, _⟩ := hub k hm
    rw [h1] at f1; cases f1; rw [h2] at f2; cases f2

end FF.Mdf
