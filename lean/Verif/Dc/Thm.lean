import Verif.Dc.Bound
import Verif.Dc.Spec
/-! # Divide and conquer: the theorems (C56) -/
namespace FF.Dc
open FF.Mdf (Core Rec Cfg St decRow Qi Moved Pushed Rdy)
open FF.Farm (sumN)
open FF.Node (upd)

variable {Op R : Type} {P : Prob Op R} {G : Cfg} {op : Op} {x y : S Op R}

/-! ## The specification -/

theorem allSome_iff {α : Type} : ∀ (l : List (Option α)) (rs : List α), allSome l = some rs ↔ l = rs.map some := by
  intro l
  induction l with
  | nil => intro rs; cases rs <;> simp [allSome]
  | cons a l ih =>
    intro rs
    cases a with
    | none => cases rs <;> simp [allSome]
    | some a =>
      cases rs with
      | nil => simp [allSome]
      | cons r rs => simp [allSome, ih, and_comm]

theorem solve_up {d : Nat} : ∀ {op : Op} {p : R × Nat}, solve P d op = some p → solve P (d + 1) op = some p := by
  induction d with
  | zero => intro op p h; cases h
  | succ d ih =>
    intro op p h
    unfold solve at h ⊢
    split at h
    · rename_i hc; rw [if_pos hc]; exact h
    · rename_i hc
      rw [if_neg hc]
      rw [Option.map_eq_some_iff] at h ⊢
      obtain ⟨l, h1, h2⟩ := h
      refine ⟨l, ?_, h2⟩
      rw [allSome_iff] at h1 ⊢
      apply List.ext_getElem?
      intro i
      have := congrArg (fun z => z[i]?) h1
      simp only [List.getElem?_map] at this ⊢
      rw [← this]
      cases hx : (P.divide op)[i]? with
      | none => rfl
      | some o =>
        rw [hx] at this
        cases hl : l[i]? with
        | none => rw [hl] at this; cases this
        | some q =>
          rw [hl] at this
          simp only [Option.map_some, Option.some.injEq] at this ⊢
          rw [this]; exact ih this

theorem solve_le {d e : Nat} (h : d ≤ e) {p : R × Nat} (hp : solve P d op = some p) : solve P e op = some p := by
  induction h with
  | refl => exact hp
  | step _ ih => exact solve_up ih

/-- the recursion has one result -/
theorem Sol.unique {r r' : R} {n n' : Nat} (h : Sol P op r n) (h' : Sol P op r' n') : r = r' ∧ n = n' := by
  obtain ⟨d, h⟩ := h
  obtain ⟨e, h'⟩ := h'
  have h1 := solve_le (Nat.le_max_left d e) h
  have h2 := solve_le (Nat.le_max_right d e) h'
  rw [h1] at h2
  simpa using h2

theorem Sol.base {r : R} {n : Nat} (h : Sol P op r n) (hc : P.cond op = true) : r = P.seq op ∧ n = 1 := by
  obtain ⟨d, h⟩ := h
  cases d with
  | zero => cases h
  | succ d =>
    unfold solve at h
    rw [if_pos hc] at h
    simp only [Option.some.injEq, Prod.mk.injEq] at h
    exact ⟨h.1.symm, h.2.symm⟩

theorem Sol.split {r : R} {n : Nat} (h : Sol P op r n) (hc : P.cond op = false) :
    ∃ l : List (R × Nat), l.length = (P.divide op).length ∧
      (∀ (i : Nat) o p, (P.divide op)[i]? = some o → l[i]? = some p → Sol P o p.1 p.2) ∧
      r = P.comb (l.map (·.1)) ∧ n = 1 + (l.map (·.2)).sum := by
  obtain ⟨d, h⟩ := h
  cases d with
  | zero => cases h
  | succ d =>
    unfold solve at h
    rw [if_neg (by rw [hc]; simp)] at h
    rw [Option.map_eq_some_iff] at h
    obtain ⟨l, h1, h2⟩ := h
    rw [allSome_iff] at h1
    refine ⟨l, ?_, ?_, ?_, ?_⟩
    · have := congrArg List.length h1
      simpa using this.symm
    · intro i o p ho hp
      have := congrArg (fun z => z[i]?) h1
      simp only [List.getElem?_map, ho, hp, Option.map_some, Option.some.injEq] at this
      exact ⟨d, this⟩
    · exact (congrArg Prod.fst h2).symm
    · exact (congrArg Prod.snd h2).symm

/-- operands on which the recursion ends, and in which only base cases have no parts -/
def Ends (P : Prob Op R) (o : Op) : Prop := (∃ r n, Sol P o r n) ∧ (P.cond o = false → P.divide o ≠ []) ∧ Solid P o

theorem Below.trans {a b c : Op} (h1 : Below P a b) (h2 : Below P b c) : Below P a c := by
  induction h2 with
  | part q1 q2 => exact .deeper h1 q1 q2
  | deeper _ q1 q2 ih => exact .deeper ih q1 q2

/-- the parts of an operand -/
theorem ends_parts {r : R} {n : Nat} (h : Sol P op r n) (hs : Solid P op) (hc : P.cond op = false) :
    ∀ o ∈ P.divide op, Ends P o := by
  intro o ho
  obtain ⟨l, h1, h2, _⟩ := h.split hc
  obtain ⟨i, hi⟩ := List.mem_iff_getElem?.1 ho
  have hl : i < l.length := by rw [h1]; exact (List.getElem?_eq_some_iff.1 hi).1
  exact ⟨⟨_, _, h2 i o _ hi (List.getElem?_eq_getElem hl)⟩, hs o (.part hc ho), fun o' ho' => hs o' ((Below.part hc ho).trans ho')⟩

open Classical in
noncomputable def theSol (P : Prob Op R) (dflt : R) (o : Op) : R × Nat :=
  if h : ∃ p : R × Nat, Sol P o p.1 p.2 then h.choose else (dflt, 0)

theorem theSol_spec {dflt : R} {o : Op} {r : R} {n : Nat} (h : Sol P o r n) : theSol P dflt o = (r, n) := by
  have hx : ∃ p : R × Nat, Sol P o p.1 p.2 := ⟨(r, n), h⟩
  unfold theSol
  rw [dif_pos hx]
  obtain ⟨h1, h2⟩ := hx.choose_spec.unique h
  exact Prod.ext h1 h2

theorem parts_map {l : List (R × Nat)} {dflt : R} (h1 : l.length = (P.divide op).length)
    (h2 : ∀ (i : Nat) o p, (P.divide op)[i]? = some o → l[i]? = some p → Sol P o p.1 p.2) :
    (P.divide op).map (theSol P dflt) = l := by
  apply List.ext_getElem?
  intro i
  rw [List.getElem?_map]
  cases ho : (P.divide op)[i]? with
  | none =>
    rw [List.getElem?_eq_none_iff] at ho
    rw [Option.map_none, eq_comm, List.getElem?_eq_none_iff]; omega
  | some o =>
    have hi : i < l.length := by
      rw [h1]
      exact (List.getElem?_eq_some_iff.1 ho).1
    have hl := List.getElem?_eq_getElem hi
    rw [hl, Option.map_some, theSol_spec (h2 i o _ ho hl)]

theorem top_of {r : R} {n : Nat} (h : Sol P op r n) (hs : Solid P op) (dflt : R) :
    Top P (Ends P) (fun o => (theSol P dflt o).1) op := by
  refine ⟨?_, ?_, ends_parts h hs⟩
  · intro hc
    rw [theSol_spec h]; exact (h.base hc).1
  · intro hc
    obtain ⟨l, h1, h2, h3, _⟩ := h.split hc
    rw [theSol_spec h, h3]
    have := parts_map (dflt := dflt) h1 h2
    rw [← this, List.map_map]; rfl

theorem solves_of (P : Prob Op R) (dflt : R) : Solves P (Ends P) (fun o => (theSol P dflt o).1) := by
  refine ⟨?_, ?_, ?_⟩
  · rintro o ⟨⟨r, n, h⟩, _, hs⟩ hc
    exact (top_of h hs dflt).base hc
  · rintro o ⟨⟨r, n, h⟩, _, hs⟩ hc
    exact (top_of h hs dflt).split hc
  · rintro o ⟨⟨r, n, h⟩, h0, hs⟩ hc
    exact ⟨h0 hc, ends_parts h hs hc⟩

theorem size_top {r : R} {n : Nat} (h : Sol P op r n) (dflt : R) (hc : P.cond op = false) :
    1 + ((P.divide op).map fun o => (theSol P dflt o).2).sum ≤ (theSol P dflt op).2 := by
  obtain ⟨l, h1, h2, _, h4⟩ := h.split hc
  rw [theSol_spec h]
  have := parts_map (dflt := dflt) h1 h2
  have e : (P.divide op).map (fun o => (theSol P dflt o).2) = l.map (·.2) := by rw [← this, List.map_map]; rfl
  rw [e]; dsimp only; omega

theorem size_of (P : Prob Op R) (dflt : R) : Size P (Ends P) (fun o => (theSol P dflt o).2) := by
  refine ⟨?_, ?_⟩
  · rintro o ⟨⟨r, n, h⟩, _⟩ hc
    rw [theSol_spec h]; have := (h.base hc).2; dsimp only; omega
  · rintro o ⟨⟨r, n, h⟩, _⟩ hc
    exact size_top h dflt hc

/-! ## The theorems

Missing for the full property: operands below the first level that are no base cases and have no parts (`Solid`
excludes them); for them it is false, `C56_empty_divide_counterexample`. -/

theorem step_root {act : Act} (h : step P G x act = some y) : y.root = x.root := by
  cases act with
  | recv w o junk =>
    simp only [step] at h
    split at h
    · split at h
      · cases h; rfl
      · cases h; rfl
      · cases h
    · cases h
  | start w =>
    simp only [step] at h
    split at h
    · split at h
      · split at h
        · cases h; rfl
        · cases h; rfl
      · cases h
    · cases h
  | work w cells =>
    simp only [step] at h
    split at h
    · unfold S.work at h
      split at h
      · split at h
        · cases h; rfl
        · split at h
          · cases h; rfl
          · split at h
            · cases h; rfl
            · split at h
              · cases h; rfl
              · cases h
      · split at h
        · cases h; rfl
        · cases h; rfl
      · split at h
        · cases h; rfl
        · cases h; rfl
      · split at h
        · cases h; rfl
        · cases h; rfl
      · cases h
    · cases h
  | send w =>
    simp only [step] at h
    split at h
    · split at h
      · cases h; rfl
      · cases h; rfl
      · cases h
    · cases h

theorem init_root {root : Nat} {mem : Nat → R} {cells : List Nat} : (init P G op root mem cells).root = root := by
  unfold init; split <;> rfl

theorem inv_of {r : R} {n root : Nat} {mem : Nat → R} {cells : List Nat} (hn : 1 ≤ G.n) (hsol : Sol P op r n) (hso : Solid P op)
    (hs : Start P op root cells) (hr : Reach (step P G) (init P G op root mem cells) x) :
    I P (Ends P) (fun o => (theSol P r o).1) G op x ∧ x.root = root := by
  refine hr.inv (Inv := fun x => I P (Ends P) (fun o => (theSol P r o).1) G op x ∧ x.root = root)
    ⟨I.init (top_of hsol hso r) hn hs, init_root⟩ ?_
  rintro s a s' ⟨h1, h2⟩ hst
  exact ⟨I.step (solves_of P r) h1 hst, by rw [step_root hst, h2]⟩

/-- When the scheduler ends, whatever the schedule, the choices of the priority queues and the addresses that the
allocator returns: the result parameter holds the result of the sequential recursion, every vector that was
allocated has been freed, no worker has anything left to do and no message is left. -/
theorem C56_result_partial {r : R} {n root : Nat} {mem : Nat → R} {cells : List Nat} (hn : 1 ≤ G.n) (hsol : Sol P op r n) (hso : Solid P op)
    (hs : Start P op root cells) (hr : Reach (step P G) (init P G op root mem cells) x) (ho : x.s.over = true) :
    x.mem root = r ∧ (∀ b, x.heap b = none) ∧ (∀ w, x.chan w = [] ∧ x.prog w = []) ∧ ∀ i, x.s.c.tk i = none := by
  obtain ⟨h, hroot⟩ := inv_of hn hsol hso hs hr
  obtain ⟨h1, h2⟩ := h.final ho
  refine ⟨?_, h2⟩
  rw [hroot, theSol_spec hsol] at h1
  exact h1

/-- No execution reads or writes memory that is not allocated, executes a task that is not ready or completes a task
that is not in the table. -/
theorem C56_safe_partial {r : R} {n root : Nat} {mem : Nat → R} {cells : List Nat} (hn : 1 ≤ G.n) (hsol : Sol P op r n) (hso : Solid P op)
    (hs : Start P op root cells) (hr : Reach (step P G) (init P G op root mem cells) x) : x.bad = false ∧ x.s.bad = false :=
  ⟨(inv_of hn hsol hso hs hr).1.a.ok.2, (inv_of hn hsol hso hs hr).1.a.ok.1⟩

/-- No execution gets stuck: until the scheduler ends, some thread can continue. -/
theorem C56_progress_partial {r : R} {n root : Nat} {mem : Nat → R} {cells : List Nat} (hn : 1 ≤ G.n) (hcap : 1 ≤ G.cap)
    (hsol : Sol P op r n) (hso : Solid P op) (hs : Start P op root cells) (hr : Reach (step P G) (init P G op root mem cells) x)
    (ho : x.s.over = false) : ∃ act y, step P G x act = some y :=
  (inv_of hn hsol hso hs hr).1.progress hcap ho

theorem load_exec {D : Op → Prop} {sol : Op → R} {T : Op → Nat} (hS : Solves P D sol) (hT : Size P D T) : ∀ (acts : List Act)
    {x y : S Op R}, I P D sol G op x → exec (step P G) x acts = some y → acts.length + load T G y ≤ load T G x := by
  intro acts
  induction acts with
  | nil => intro x y _ h; simp only [exec, Option.some.injEq] at h; subst h; simp
  | cons a as ih =>
    intro x y hI h
    simp only [exec] at h
    cases hs : step P G x a with
    | none => rw [hs] at h; cases h
    | some z =>
      rw [hs] at h
      have h1 := ih (I.step hS hI hs) h
      have h2 := load_step hS hT hI hs
      rw [List.length_cons]; omega

/-- Every execution is finite: for a recursion of `n` calls it has at most `8 n` actions. -/
theorem C56_bounded_partial {r : R} {n root : Nat} {mem : Nat → R} {cells : List Nat} (hn : 1 ≤ G.n) (hsol : Sol P op r n) (hso : Solid P op)
    (hs : Start P op root cells) {acts : List Act} (hr : exec (step P G) (init P G op root mem cells) acts = some x) :
    acts.length ≤ 8 * n := by
  have h1 := load_exec (solves_of P r) (size_of P r) acts (I.init (top_of hsol hso r) hn hs) hr
  have h2 := load_init (G := G) (mem := mem) (top_of hsol hso r) (size_of P r) (size_top hsol r) hs
  rw [theSol_spec hsol] at h2
  dsimp only at h2
  omega

/-- Together: every execution can be continued to the end, and every execution that cannot be continued has ended
with the result of the sequential recursion. -/
theorem C56_complete_partial {r : R} {n root : Nat} {mem : Nat → R} {cells : List Nat} (hn : 1 ≤ G.n) (hcap : 1 ≤ G.cap)
    (hsol : Sol P op r n) (hso : Solid P op) (hs : Start P op root cells) (hr : Reach (step P G) (init P G op root mem cells) x) :
    (∃ y, Reach (step P G) x y ∧ y.s.over = true ∧ y.mem root = r) ∧
    ((∀ act, step P G x act = none) → x.s.over = true ∧ x.mem root = r) := by
  constructor
  · have hI := (inv_of hn hsol hso hs hr).1
    have : ∀ m x, Reach (step P G) (init P G op root mem cells) x → load (fun o => (theSol P r o).2) G x ≤ m →
        ∃ y, Reach (step P G) x y ∧ y.s.over = true ∧ y.mem root = r := by
      intro m
      induction m with
      | zero =>
        intro x hr hl
        cases ho : x.s.over with
        | true => exact ⟨x, Reach.refl _ _, ho, (C56_result_partial hn hsol hso hs hr ho).1⟩
        | false =>
          obtain ⟨act, y, hst⟩ := C56_progress_partial hn hcap hsol hso hs hr ho
          have := load_step (solves_of P r) (size_of P r) (inv_of hn hsol hso hs hr).1 hst
          omega
      | succ m ih =>
        intro x hr hl
        cases ho : x.s.over with
        | true => exact ⟨x, Reach.refl _ _, ho, (C56_result_partial hn hsol hso hs hr ho).1⟩
        | false =>
          obtain ⟨act, y, hst⟩ := C56_progress_partial hn hcap hsol hso hs hr ho
          have := load_step (solves_of P r) (size_of P r) (inv_of hn hsol hso hs hr).1 hst
          obtain ⟨z, h1, h2⟩ := ih y (hr.tail hst) (by omega)
          exact ⟨z, Reach.trans ((Reach.refl _ _).tail hst) h1, h2⟩
    exact this _ x hr (Nat.le_refl _)
  · intro hno
    have ho : x.s.over = true := by
      cases ho : x.s.over with
      | true => rfl
      | false =>
        obtain ⟨act, y, hst⟩ := C56_progress_partial hn hcap hsol hso hs hr ho
        rw [hno] at hst; cases hst
    exact ⟨ho, (C56_result_partial hn hsol hso hs hr ho).1⟩

/-! ## A concrete case: Fibonacci numbers with two workers and channels of one place -/

def fib : Prob Nat Nat := ⟨fun n => n < 2, fun n => [n - 1, n - 2], id, List.sum⟩

def fibCfg : Cfg := ⟨2, fun _ => 0, 0, 1⟩

example : Sol fib 3 2 5 := ⟨3, by decide⟩

example (n : Nat) : Solid fib n := by
  intro o _ _; simp [fib]

example : Start fib 3 1 [2, 3] := ⟨by decide, by decide, by decide, by decide⟩

def rv (w : Nat) : Act := .recv w (fun _ => 0) 0

/-- a complete execution -/
def fibRun : List Act :=
  [rv 2, rv 2, rv 2, .start 1, .start 0, .work 1 [4, 5], .work 1 [], .send 1, rv 1, .work 0 [4, 5], .send 0, rv 0, .start 1,
   .work 1 [], .work 1 [], .send 1, rv 1, .work 0 [], .work 0 [], .send 0, rv 0, .send 0, rv 0, .start 1, .work 1 [], .work 1 [],
   .send 1, rv 1, .start 0, .work 0 [], .work 0 [], .send 0, rv 0]

theorem C56_run_example : (exec (step fib fibCfg) (init fib fibCfg 3 1 (fun _ => 99) [2, 3]) fibRun).map
    (fun x => (x.s.over, x.mem 1, x.bad)) = some (true, 2, false) := by decide +kernel

/-! ## An operand below the first level that is not a base case and has no parts

The recursive call of dc.hpp 200 is on the last element of an empty vector. -/

def hollow : Prob Nat Nat := ⟨fun _ => false, fun n => if n = 2 then [1] else [], id, List.sum⟩

theorem C56_empty_divide_counterexample : Sol hollow 2 0 2 ∧ Start hollow 2 1 [2] ∧
    ∃ acts, (exec (step hollow fibCfg) (init hollow fibCfg 2 1 (fun _ => 0) [2]) acts).map (·.bad) = some true :=
  ⟨⟨2, by decide⟩, ⟨by decide, by decide, by decide, by decide⟩, [rv 2, rv 2, .start 0, .work 0 []], by decide⟩

end FF.Dc
