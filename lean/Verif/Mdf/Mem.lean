import Verif.Mdf.Thm
/-!
# The memory computed by a macro data flow program (C34)

The tasks work on a memory with one cell for every tag; the cells of different tags do not overlap (in
FastFlow the tag is the address of the data).  A task performs `len k` operations one after the other; each
may read and write the memory and the local variables of the task.  The operations of different tasks are
interleaved as the run of the model (`step`) interleaves them.
-/
namespace FF.Mdf
open FF.Node (upd)

/-- The tasks of a program: initial local variables, and the operations. -/
structure Tasks (V L : Type) where
  ini : Nat → L
  opr : Nat → Nat → (Nat → V) × L → (Nat → V) × L

/-- Specification: every operation of task `k` changes only parameters that the task gives as OUTPUT, and
its result depends only on the parameters that the task gives as INPUT or OUTPUT, and on the local
variables. -/
structure Tasks.Honest {V L : Type} (T : Tasks V L) (P : List (List Param)) : Prop where
  frame : ∀ k p i M x d, P[k]? = some p → ¬ writes p d → (T.opr k i (M, x)).1 d = M d
  local_ : ∀ k p i M M' x, P[k]? = some p → (∀ d, reads p d ∨ writes p d → M d = M' d) →
    (∀ d, writes p d → (T.opr k i (M, x)).1 d = (T.opr k i (M', x)).1 d) ∧ (T.opr k i (M, x)).2 = (T.opr k i (M', x)).2

/-- memory, local variables and program counters -/
structure World (V L : Type) where
  mem : Nat → V
  loc : Nat → L
  pc : Nat → Nat

variable {V L : Type}

/-- effect of one event -/
def Tasks.event (T : Tasks V L) (w : World V L) : Ev → World V L
  | .start k => { w with loc := upd w.loc k (T.ini k), pc := upd w.pc k 0 }
  | .op k => ⟨(T.opr k (w.pc k) (w.mem, w.loc k)).1, upd w.loc k (T.opr k (w.pc k) (w.mem, w.loc k)).2, upd w.pc k (w.pc k + 1)⟩
  | .fin _ => w

/-- Specification: the memory after a sequence of events -/
def Tasks.run (T : Tasks V L) (w : World V L) (l : List Ev) : World V L := l.foldl T.event w

/-- Specification: the operations of task `k`, one after the other -/
def Tasks.task (T : Tasks V L) (k : Nat) : Nat → (Nat → V) → (Nat → V) × L
  | 0, M => (M, T.ini k)
  | i + 1, M => T.opr k i (T.task k i M)

/-- Specification: the first `n` tasks, one after the other in submission order -/
def Tasks.seq (T : Tasks V L) (len : Nat → Nat) (M : Nat → V) : Nat → Nat → V
  | 0 => M
  | n + 1 => (T.task n (len n) (T.seq len M n)).1

theorem task_frame {T : Tasks V L} {P : List (List Param)} (hT : T.Honest P) {k d : Nat} {p : List Param} (hp : P[k]? = some p)
    (hd : ¬ writes p d) (i : Nat) (M : Nat → V) : (T.task k i M).1 d = M d := by
  induction i with
  | zero => rfl
  | succ i ih =>
    rw [← ih]
    exact hT.frame k p i (T.task k i M).1 (T.task k i M).2 d hp hd

/-- tasks that do not write a cell leave it alone -/
theorem seq_frame {T : Tasks V L} {P : List (List Param)} (hT : T.Honest P) (len : Nat → Nat) (M : Nat → V) {d a b : Nat}
    (hab : a ≤ b) (hb : b ≤ P.length) (h : ∀ j p, a ≤ j → j < b → P[j]? = some p → ¬ writes p d) :
    T.seq len M b d = T.seq len M a d := by
  induction b with
  | zero => have : a = 0 := by omega
            subst this; rfl
  | succ b ih =>
    by_cases e : a = b + 1
    · subst e; rfl
    · have hp : P[b]? = some P[b] := List.getElem?_eq_getElem (by omega)
      rw [← ih (by omega) (by omega) (fun j p h1 h2 => h j p h1 (by omega))]
      exact task_frame hT hp (h b _ (by omega) (by omega) hp) _ _

/-- a task, or the end of the program (number `P.length`), accesses `d` -/
def Acc (P : List (List Param)) (k d : Nat) : Prop := k = P.length ∨ ∃ p, P[k]? = some p ∧ (reads p d ∨ writes p d)

/-- what is in memory after a part of a run -/
structure MInv (T : Tasks V L) (P : List (List Param)) (len : Nat → Nat) (M : Nat → V) (l : List Ev) (w : World V L) : Prop where
  idle : ∀ k d, Acc P k d → l.count (.start k) = 0 →
    (∀ j p, j < k → P[j]? = some p → writes p d → l.count (.fin j) = 1) → w.mem d = T.seq len M k d
  busy : ∀ k p, P[k]? = some p → ∀ i, counts l k = (1, i, 0) → w.pc k = i ∧ w.loc k = (T.task k i (T.seq len M k)).2 ∧
    ∀ d, reads p d ∨ writes p d → w.mem d = (T.task k i (T.seq len M k)).1 d

/-- a started task: the earlier tasks in conflict have ended -/
theorem started_after {P : List (List Param)} {len : Nat → Nat} {l : List Ev} (h : Legal P len l) {k j : Nat} {p q : List Param}
    (hkj : k < j) (hp : P[k]? = some p) (hq : P[j]? = some q) (hc : Conf p q) (hs : l.count (.start j) ≠ 0) :
    l.count (.fin k) ≠ 0 := by
  have hm : Ev.start j ∈ l := List.count_pos_iff.1 (by omega)
  obtain ⟨a, b, e⟩ := List.append_of_mem hm
  have := legal_order h hkj hp hq hc (pre := a) ⟨b, by rw [e]; simp⟩
  have : Ev.fin k ∈ l := by rw [e]; exact List.mem_append_left _ this
  have := List.count_pos_iff.2 this
  omega

theorem minv {T : Tasks V L} {P : List (List Param)} (hT : T.Honest P) {len : Nat → Nat} {l : List Ev} (h : Legal P len l)
    (w : World V L) : MInv T P len w.mem l (T.run w l) := by
  have hacc : ∀ k p d, P[k]? = some p → Acc P k d → reads p d ∨ writes p d := by
    intro k p d hp ha
    rcases ha with e | ⟨q, hq, hd⟩
    · subst e; rw [List.getElem?_eq_none (Nat.le_refl _)] at hp; cases hp
    · rw [hp] at hq; cases hq; exact hd
  induction h with
  | nil =>
    refine ⟨?_, ?_⟩
    · intro k d ha _ hj
      have hk : k ≤ P.length := by
        rcases ha with e | ⟨q, hq, _⟩
        · omega
        · have := (List.getElem?_eq_some_iff.1 hq).1; omega
      show w.mem d = _
      rw [seq_frame hT len w.mem (Nat.zero_le k) hk]
      · rfl
      · intro j p _ h2 hp hw
        have := hj j p h2 hp hw
        simp at this
    · intro k p _ i hc
      simp [counts] at hc
  | start h hk h0 hcf ih =>
    rename_i l k
    have hrun : T.run w (l ++ [.start k]) = T.event (T.run w l) (.start k) := by unfold Tasks.run; rw [List.foldl_append]; rfl
    rw [hrun]
    refine ⟨?_, ?_⟩
    · intro k' d ha hs hf
      show (T.run w l).mem d = _
      refine ih.idle k' d ha ?_ ?_
      · simp only [List.count_append] at hs; omega
      · intro j p h1 h2 h3
        have := hf j p h1 h2 h3
        simpa using this
    · intro k' p hp i hc
      rw [counts_start] at hc
      unfold Tasks.event
      dsimp only
      by_cases e : k = k'
      · subst e
        unfold counts at h0
        simp only [Prod.mk.injEq] at h0 hc
        have hi : i = 0 := by omega
        subst hi
        refine ⟨by simp only [upd, if_true], by simp only [upd, if_true]; rfl, ?_⟩
        intro d hd
        show (T.run w l).mem d = T.seq len w.mem k d
        refine ih.idle k d (Or.inr ⟨p, hp, hd⟩) h0.1 ?_
        intro j q h1 h2 h3
        have hm := hcf j q p h1 h2 hp ⟨d, Or.inl ⟨h3, hd⟩⟩
        have h4 := legal_stage h j
        unfold counts at h4
        simp only [Prod.mk.injEq] at h4
        have h5 := List.count_pos_iff.2 hm
        rcases h4 with h4 | ⟨_, _, h4⟩ | h4 <;> omega
      · rw [if_neg e, Nat.add_zero] at hc
        simp only [upd, if_neg (Ne.symm e)]
        exact ih.busy k' p hp i hc
  | op h hk h0 hn ih =>
    rename_i l k n
    have hrun : T.run w (l ++ [.op k]) = T.event (T.run w l) (.op k) := by unfold Tasks.run; rw [List.foldl_append]; rfl
    have hpk : P[k]? = some P[k] := List.getElem?_eq_getElem hk
    obtain ⟨b1, b2, b3⟩ := ih.busy k _ hpk n h0
    obtain ⟨l1, l2⟩ := hT.local_ k _ n (T.run w l).mem (T.task k n (T.seq len w.mem k)).1 ((T.run w l).loc k) hpk b3
    have hfr := hT.frame k P[k] n (T.run w l).mem ((T.run w l).loc k)
    have h0' := h0
    unfold counts at h0'
    simp only [Prod.mk.injEq] at h0'
    rw [hrun]
    unfold Tasks.event
    dsimp only
    rw [b1]
    refine ⟨?_, ?_⟩
    · intro k' d ha hs hf
      dsimp only
      have hs' : l.count (.start k') = 0 := by simp only [List.count_append] at hs; omega
      have hf' : ∀ j p, j < k' → P[j]? = some p → writes p d → l.count (.fin j) = 1 := by
        intro j p h1 h2 h3
        have := hf j p h1 h2 h3
        simpa using this
      by_cases hw : writes P[k] d
      · exfalso
        rcases Nat.lt_trichotomy k k' with hl | hl | hl
        · have := hf' k _ hl hpk hw; omega
        · subst hl; omega
        · rcases ha with e | ⟨q, hq, hd⟩
          · omega
          · have hcf : Conf q P[k] := by
              rcases hd with hd | hd
              · exact ⟨d, Or.inr ⟨hd, hw⟩⟩
              · exact ⟨d, Or.inl ⟨hd, Or.inr hw⟩⟩
            have h1 := started_after h hl hq hpk hcf (by omega)
            have h4 := legal_stage h k'
            unfold counts at h4
            simp only [Prod.mk.injEq] at h4
            rcases h4 with h4 | ⟨_, _, h4⟩ | h4 <;> omega
      · rw [hfr d hpk hw]
        exact ih.idle k' d ha hs' hf'
    · intro k' p hp i hc
      rw [counts_op] at hc
      dsimp only
      by_cases e : k = k'
      · subst e
        rw [hpk] at hp; cases hp
        simp only [if_true, Prod.mk.injEq] at hc
        have hi : i = n + 1 := by omega
        subst hi
        refine ⟨by simp only [upd, if_true], ?_, ?_⟩
        · simp only [upd, if_true]
          rw [l2, b2]
          rfl
        · intro d hd
          by_cases hw : writes P[k] d
          · rw [l1 d hw, b2]
            rfl
          · rw [hfr d hpk hw, b3 d hd]
            symm
            exact hT.frame k _ n (T.task k n (T.seq len w.mem k)).1 (T.task k n (T.seq len w.mem k)).2 d hpk hw
      · rw [if_neg e, Nat.add_zero] at hc
        simp only [upd, if_neg (Ne.symm e)]
        obtain ⟨c1, c2, c3⟩ := ih.busy k' p hp i hc
        refine ⟨c1, c2, ?_⟩
        intro d hd
        rw [hfr d hpk, c3 d hd]
        intro hw
        simp only [Prod.mk.injEq] at hc
        rcases Nat.lt_trichotomy k k' with hl | hl | hl
        · have := started_after h hl hpk hp ⟨d, Or.inl ⟨hw, hd⟩⟩ (by omega)
          omega
        · exact e hl
        · have hcf : Conf p P[k] := by
            rcases hd with hd | hd
            · exact ⟨d, Or.inr ⟨hd, hw⟩⟩
            · exact ⟨d, Or.inl ⟨hd, Or.inr hw⟩⟩
          have := started_after h hl hp hpk hcf (by omega)
          omega
  | fin h hk h0 ih =>
    rename_i l k
    have hrun : T.run w (l ++ [.fin k]) = T.run w l := by unfold Tasks.run; rw [List.foldl_append]; rfl
    have hpk : P[k]? = some P[k] := List.getElem?_eq_getElem hk
    obtain ⟨b1, b2, b3⟩ := ih.busy k _ hpk (len k) h0
    have h0' := h0
    unfold counts at h0'
    simp only [Prod.mk.injEq] at h0'
    rw [hrun]
    refine ⟨?_, ?_⟩
    · intro k' d ha hs hf
      have hs' : l.count (.start k') = 0 := by simp only [List.count_append] at hs; omega
      have hf' : ∀ j p, j < k' → j ≠ k → P[j]? = some p → writes p d → l.count (.fin j) = 1 := by
        intro j p h1 hne h2 h3
        have := hf j p h1 h2 h3
        rw [List.count_append, List.count_singleton] at this
        have e : ((Ev.fin k == Ev.fin j) = false) := by
          simp only [beq_eq_false_iff_ne, ne_eq, Ev.fin.injEq]; exact fun x => hne x.symm
        rw [e] at this
        simpa using this
      by_cases hw : writes P[k] d
      · have hk' : k' ≤ P.length := by
          rcases ha with e | ⟨q, hq, _⟩
          · omega
          · have := (List.getElem?_eq_some_iff.1 hq).1; omega
        rcases Nat.lt_trichotomy k k' with hl | hl | hl
        · rw [b3 d (Or.inr hw), seq_frame hT len w.mem (a := k + 1) (b := k') (by omega) hk']
          · rfl
          · intro j p g1 g2 g3 g4
            have g5 := hf' j p g2 (by omega) g3 g4
            have g6 := legal_stage h j
            unfold counts at g6
            simp only [Prod.mk.injEq] at g6
            have := started_after h (show k < j by omega) hpk g3 ⟨d, Or.inl ⟨hw, Or.inr g4⟩⟩ (by
              rcases g6 with g6 | ⟨_, _, g6⟩ | g6 <;> omega)
            omega
        · subst hl; omega
        · rcases ha with e | ⟨q, hq, hd⟩
          · omega
          · exfalso
            have hcf : Conf q P[k] := by
              rcases hd with hd | hd
              · exact ⟨d, Or.inr ⟨hd, hw⟩⟩
              · exact ⟨d, Or.inl ⟨hd, Or.inr hw⟩⟩
            have h1 := started_after h hl hq hpk hcf (by omega)
            have h4 := legal_stage h k'
            unfold counts at h4
            simp only [Prod.mk.injEq] at h4
            rcases h4 with h4 | ⟨_, _, h4⟩ | h4 <;> omega
      · refine ih.idle k' d ha hs' ?_
        intro j p h1 h2 h3
        refine hf' j p h1 ?_ h2 h3
        rintro rfl
        rw [hpk] at h2; cases h2; exact hw h3
    · intro k' p hp i hc
      rw [counts_fin] at hc
      by_cases e : k = k'
      · subst e; simp at hc
      · rw [if_neg e, Nat.add_zero] at hc
        exact ih.busy k' p hp i hc

/-- **C34.** At the end of every execution of the program the memory is the one that the tasks compute when
they are executed one by one in submission order.  Partial: needs the conditions `WF` of C33. -/
theorem C34_sequential_partial {G : Cfg} (hn : 1 ≤ G.n) {P : List (List Param)} (hwf : ∀ ps ∈ P, WF ps) {T : Tasks V L}
    (hT : T.Honest P) {s : S} (hr : Reach (step G) (S.init P) s) (hov : s.over = true) (w : World V L) :
    (T.run w s.log).mem = T.seq G.len w.mem P.length := by
  have h := inv_reach hn hwf hr
  have he := (C35_end_partial hn hwf hr hov).1
  funext d
  refine (minv hT h.z.leg w).idle P.length d (Or.inl rfl) ?_ ?_
  · have := legal_range h.z.leg (Nat.le_refl P.length)
    unfold counts at this
    simp only [Prod.mk.injEq] at this
    exact this.1
  · intro j p hj _ _
    exact (he j hj).2.2

/-- **C34.** While a task is executed, it sees the values of its parameters that it would see in the
sequential execution. -/
theorem C34_task_view_partial {G : Cfg} (hn : 1 ≤ G.n) {P : List (List Param)} (hwf : ∀ ps ∈ P, WF ps) {T : Tasks V L}
    (hT : T.Honest P) {s : S} (hr : Reach (step G) (S.init P) s) (w : World V L) {k : Nat} {p : List Param}
    (hp : P[k]? = some p) (hs : s.log.count (.start k) = 1) (hf : s.log.count (.fin k) = 0) :
    (T.run w s.log).loc k = (T.task k (s.log.count (.op k)) (T.seq G.len w.mem k)).2 ∧
    ∀ d, reads p d ∨ writes p d →
      (T.run w s.log).mem d = (T.task k (s.log.count (.op k)) (T.seq G.len w.mem k)).1 d := by
  have h := inv_reach hn hwf hr
  have := (minv hT h.z.leg w).busy k p hp (s.log.count (.op k)) (by unfold counts; rw [hs, hf])
  exact ⟨this.2.1, this.2.2⟩

/-! ## A concrete case -/

/-- task 0: `x1 := 5`; task 1: `x2 := 2 * x1`; task 2: `x1 := 7` -/
def demoT : Tasks Nat Unit where
  ini _ := ()
  opr k _ x := match k with
    | 0 => (upd x.1 1 5, ())
    | 1 => (upd x.1 2 (2 * x.1 1), ())
    | 2 => (upd x.1 1 7, ())
    | _ => x

theorem demo_honest : demoT.Honest demoP := by
  refine ⟨?_, ?_⟩
  · intro k p i M x d hp hd
    match k with
    | 0 =>
      cases hp
      have : d ≠ 1 := by rintro rfl; exact hd (by simp [writes])
      simp only [demoT, upd, if_neg this]
    | 1 =>
      cases hp
      have : d ≠ 2 := by rintro rfl; exact hd (by simp [writes])
      simp only [demoT, upd, if_neg this]
    | 2 =>
      cases hp
      have : d ≠ 1 := by rintro rfl; exact hd (by simp [writes])
      simp only [demoT, upd, if_neg this]
    | k + 3 => simp [demoP] at hp
  · intro k p i M M' x hp hM
    match k with
    | 0 =>
      cases hp
      refine ⟨?_, rfl⟩
      intro d hd
      simp [writes] at hd
      simp [demoT, upd, hd]
    | 1 =>
      cases hp
      refine ⟨?_, rfl⟩
      intro d hd
      simp [writes] at hd
      have := hM 1 (Or.inl (by simp [reads]))
      simp [demoT, upd, hd, this]
    | 2 =>
      cases hp
      refine ⟨?_, rfl⟩
      intro d hd
      simp [writes] at hd
      simp [demoT, upd, hd]
    | k + 3 => simp [demoP] at hp

/-- Non-vacuity of C34: with the run of the other examples. -/
example : demoT.Honest demoP ∧ demoS2.over = true ∧
    (demoT.run ⟨fun _ => 0, fun _ => (), fun _ => 0⟩ demoS2.log).mem 1 = 7 ∧
    (demoT.run ⟨fun _ => 0, fun _ => (), fun _ => 0⟩ demoS2.log).mem 2 = 10 :=
  ⟨demo_honest, by decide +kernel, by decide +kernel, by decide +kernel⟩

end FF.Mdf
