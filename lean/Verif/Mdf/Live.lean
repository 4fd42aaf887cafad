import Verif.Mdf.Run
/-! # The run of a macro data flow program does not get stuck (C35) -/
namespace FF.Mdf
open FF.Farm (sumN)
open FF.Node (upd)

/-! ## Legal orders -/

theorem counts_start (l : List Ev) (k j : Nat) : counts (l ++ [.start k]) j =
    (l.count (.start j) + (if k = j then 1 else 0), l.count (.op j), l.count (.fin j)) := by
  rw [counts_append]; simp

theorem counts_op (l : List Ev) (k j : Nat) : counts (l ++ [.op k]) j =
    (l.count (.start j), l.count (.op j) + (if k = j then 1 else 0), l.count (.fin j)) := by
  rw [counts_append]; simp

theorem counts_fin (l : List Ev) (k j : Nat) : counts (l ++ [.fin k]) j =
    (l.count (.start j), l.count (.op j), l.count (.fin j) + (if k = j then 1 else 0)) := by
  rw [counts_append]; simp

/-- the possible stages of a task -/
theorem legal_stage {P : List (List Param)} {len : Nat → Nat} {l : List Ev} (h : Legal P len l) (j : Nat) :
    counts l j = (0, 0, 0) ∨ (∃ i, i ≤ len j ∧ counts l j = (1, i, 0)) ∨ counts l j = (1, len j, 1) := by
  induction h with
  | nil => exact Or.inl rfl
  | start h hk h0 hc ih =>
    rename_i l k
    rw [counts_start]
    by_cases e : k = j
    · subst e
      unfold counts at h0
      simp only [Prod.mk.injEq] at h0
      rw [h0.1, h0.2.1, h0.2.2, if_pos rfl]
      exact Or.inr (Or.inl ⟨0, Nat.zero_le _, rfl⟩)
    · rw [if_neg e, Nat.add_zero]; exact ih
  | op h hk h0 hn ih =>
    rename_i l k n
    rw [counts_op]
    by_cases e : k = j
    · subst e
      unfold counts at h0
      simp only [Prod.mk.injEq] at h0
      rw [h0.1, h0.2.1, h0.2.2, if_pos rfl]
      exact Or.inr (Or.inl ⟨n + 1, hn, rfl⟩)
    · rw [if_neg e, Nat.add_zero]; exact ih
  | fin h hk h0 ih =>
    rename_i l k
    rw [counts_fin]
    by_cases e : k = j
    · subst e
      unfold counts at h0
      simp only [Prod.mk.injEq] at h0
      rw [h0.1, h0.2.1, h0.2.2, if_pos rfl]
      exact Or.inr (Or.inr rfl)
    · rw [if_neg e, Nat.add_zero]; exact ih

/-- only tasks of the program have events -/
theorem legal_range {P : List (List Param)} {len : Nat → Nat} {l : List Ev} (h : Legal P len l) {j : Nat}
    (hj : P.length ≤ j) : counts l j = (0, 0, 0) := by
  induction h with
  | nil => rfl
  | start h hk h0 hc ih =>
    rename_i l k
    rw [counts_start, if_neg (by omega), Nat.add_zero]; exact ih
  | op h hk h0 hn ih =>
    rename_i l k n
    rw [counts_op, if_neg (by omega), Nat.add_zero]; exact ih
  | fin h hk h0 ih =>
    rename_i l k
    rw [counts_fin, if_neg (by omega), Nat.add_zero]; exact ih

def evs (l : List Ev) (k : Nat) : Nat := l.count (.start k) + l.count (.op k) + l.count (.fin k)

/-- all events of a program -/
def total (P : List (List Param)) (len : Nat → Nat) : Nat := sumN (fun k => len k + 2) P.length

theorem legal_length {P : List (List Param)} {len : Nat → Nat} {l : List Ev} (h : Legal P len l) :
    l.length = sumN (evs l) P.length := by
  have one : ∀ (l : List Ev) (e : Ev) (k : Nat), k < P.length → (∀ j, evs (l ++ [e]) j = evs l j + if k = j then 1 else 0) →
      l.length = sumN (evs l) P.length → (l ++ [e]).length = sumN (evs (l ++ [e])) P.length := by
    intro l e k hk he ih
    have := Parfor.sumN_change (f := evs (l ++ [e])) (g := evs l) hk (fun j _ hj => by rw [he, if_neg (Ne.symm hj)]; rfl)
    rw [he k, if_pos rfl] at this
    rw [List.length_append, List.length_singleton]
    omega
  induction h with
  | nil => rw [Parfor.sumN_zero]; rfl; intro i _; rfl
  | start h hk h0 hc ih =>
    rename_i l k
    refine one l _ k hk ?_ ih
    intro j; unfold evs
    by_cases e : k = j <;> simp [e] <;> omega
  | op h hk h0 hn ih =>
    rename_i l k n
    refine one l _ k hk ?_ ih
    intro j; unfold evs
    by_cases e : k = j <;> simp [e] <;> omega
  | fin h hk h0 ih =>
    rename_i l k
    refine one l _ k hk ?_ ih
    intro j; unfold evs
    by_cases e : k = j <;> simp [e] <;> omega

theorem legal_total {P : List (List Param)} {len : Nat → Nat} {l : List Ev} (h : Legal P len l) : l.length ≤ total P len := by
  rw [legal_length h]
  apply Parfor.sumN_le
  intro k _
  have := legal_stage h k
  unfold counts at this
  simp only [Prod.mk.injEq] at this
  unfold evs
  rcases this with h | ⟨i, h0, h⟩ | h <;> omega

/-! ## Measure -/

def meas (G : Cfg) (P : List (List Param)) (s : S) : Nat :=
  (total P G.len - s.log.length) + 4 * s.todo.length + (if s.endSent then 0 else 4) + 3 * s.inq.length +
    (s.numb - s.compl) + (if s.inact then 0 else 1)

def Step.isNull : Step → Bool
  | .null => true
  | _ => false

theorem sched_same {G : Cfg} {o : List Nat → Nat} {th : Nat} (hth : th ≤ 1) {s : S} (h : Qi G s (Rdy s.c)) :
    Moved s (s.schedule G o th) := (schedule_ok hth h).2.1

theorem insert_fields {G : Cfg} {s : S} (ps : List Param) :
    (s.insert G ps).log = s.log ∧ (s.insert G ps).todo = s.todo ∧ (s.insert G ps).endSent = s.endSent ∧
    (s.insert G ps).inq = s.inq ∧ (s.insert G ps).numb = s.numb + 1 ∧ (s.insert G ps).compl = s.compl := by
  unfold S.insert
  dsimp only
  split <;> exact ⟨rfl, rfl, rfl, rfl, rfl, rfl⟩

/-- every action but a null call makes the work to do less; a null call does that or changes nothing -/
theorem meas_step {G : Cfg} {P : List (List Param)} (hwf : ∀ ps ∈ P, WF ps) {s s' : S} {a : Step} (h : Inv G P s)
    (hs : step G s a = some s') : meas G P s' < meas G P s ∨ (a.isNull = true ∧ s' = s) := by
  have hi := inv_step hwf h hs
  have hlog := legal_total hi.z.leg
  have hcl := compl_le h.z
  cases a with
  | submit =>
    left
    simp only [step] at hs
    split at hs
    · cases hs
    · rename_i p ps ht
      split at hs
      · simp only [Option.some.injEq] at hs
        subst hs
        unfold meas
        simp only [ht, List.length_cons, List.length_append, List.length_nil]
        omega
      · cases hs
  | submitEnd =>
    left
    simp only [step] at hs
    split at hs
    · rename_i hc
      simp only [Option.some.injEq] at hs
      subst hs
      unfold meas
      simp only [hc.2.1, List.length_append, List.length_singleton, if_true]
      simp
      omega
    · cases hs
  | input o =>
    left
    simp only [step] at hs
    split at hs
    · rename_i hc
      split at hs
      · cases hs
      · rename_i ps rest hq
        simp only [Option.some.injEq] at hs
        obtain ⟨h1, h2, h3, h4⟩ := inv_insert hwf h hq
        have hm := sched_same (o := o) (th := 0) (by omega) h2
        obtain ⟨i1, i2, i3, i4, i5, i6⟩ := insert_fields (G := G) (s := { s with inq := rest }) ps
        have hfield : s'.log = s.log ∧ s'.todo = s.todo ∧ s'.endSent = s.endSent ∧ s'.inq = rest ∧ s'.numb = s.numb + 1 ∧
            s'.compl = s.compl := by
          subst hs
          unfold S.task
          dsimp only
          split
          · exact ⟨hm.log.trans i1, hm.todo.trans i2, hm.endSent.trans i3, hm.inq.trans i4, hm.numb.trans i5, hm.compl.trans i6⟩
          · exact ⟨hm.log.trans i1, hm.todo.trans i2, hm.endSent.trans i3, hm.inq.trans i4, hm.numb.trans i5, hm.compl.trans i6⟩
        obtain ⟨f1, f2, f3, f4, f5, f6⟩ := hfield
        unfold meas
        rw [f1, f2, f3, f4, f5, f6, hq, hc.2]
        simp only [List.length_cons, if_true]
        split <;> split <;> omega
      · rename_i rest hq
        simp only [Option.some.injEq] at hs
        subst hs
        unfold meas S.theEnd
        simp only [hq, List.length_cons, hc.2, if_true]
        simp
        split <;> omega
    · cases hs
  | null =>
    simp only [step] at hs
    split at hs
    · rename_i hc
      split at hs
      · left
        simp only [Option.some.injEq] at hs
        subst hs
        unfold meas
        simp only [hc.2, if_true]
        simp
      · right
        simp only [Option.some.injEq] at hs
        exact ⟨rfl, hs.symm⟩
    · cases hs
  | recv w o =>
    left
    simp only [step] at hs
    split at hs
    · rename_i hc
      split at hs
      · cases hs
      · rename_i t rest hb
        simp only [Option.some.injEq] at hs
        have hfield : s'.log = s.log ∧ s'.todo = s.todo ∧ s'.endSent = s.endSent ∧ s'.inq = s.inq ∧ s'.numb = s.numb ∧
            s'.compl = s.compl + 1 ∧ s'.inact = s.inact := (recv_main h hc.1 hc.2 hb hs).2
        obtain ⟨f1, f2, f3, f4, f5, f6, f7⟩ := hfield
        have hcl' := compl_le hi.z
        rw [f5, f6] at hcl'
        unfold meas
        rw [f1, f2, f3, f4, f5, f6, f7]
        omega
    · cases hs
  | start w =>
    left
    simp only [step] at hs
    split at hs
    · split at hs
      · simp only [Option.some.injEq] at hs
        subst hs
        unfold meas
        simp only [List.length_append, List.length_singleton] at hlog ⊢
        omega
      · cases hs
    · cases hs
  | op w =>
    left
    simp only [step] at hs
    split at hs
    · split at hs
      · cases hs
      · split at hs
        · simp only [Option.some.injEq] at hs
          subst hs
          unfold meas
          simp only [List.length_append, List.length_singleton] at hlog ⊢
          omega
        · cases hs
    · cases hs
  | stop w =>
    left
    simp only [step] at hs
    split at hs
    · split at hs
      · cases hs
      · split at hs
        · simp only [Option.some.injEq] at hs
          subst hs
          unfold meas
          simp only [List.length_append, List.length_singleton] at hlog ⊢
          omega
        · cases hs
    · cases hs

end FF.Mdf
