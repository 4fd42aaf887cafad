import Verif.Parfor.Init
import Verif.Common.Trans
import Mathlib.Data.List.Count
/-!
# Work stealing without a scheduler thread (C29, C30)

Models `forall_Scheduler::nextTaskConcurrent` (ff/parallel_for_internals.hpp 643-727), `sendTask(true)`
(584-620) and `sendWakeUp` (622-627) executed by the calling thread before the workers are thawed, and
`forallreduce_W::svc` (866-892) with `schedRunning == false`: the workers execute the loop body on their
first task and then fetch the next ones from the shared table, their own range first and then that of
another worker.  Every access to the shared table is one step; the workers are interleaved in any order.
`compare_exchange_weak` may fail without reason.

Simplifications: accesses are sequentially consistent; the choice of the victim (677-680: the cached
`maxid`, or `max_element` over the table while the other workers modify it) is any entry of the table,
which includes every choice of the code; the three words of one table entry are read one at a time, the
constant end together with the start.  `PARFOR_MULTIPLE_TASKS_STEALING` and
`FF_PARFOR_PASSIVE_NOSTEALING` are not defined.
-/
namespace FF.Parfor
open FF.Farm (sumN)
open FF.Node (upd)

/-- the constants of a loop: step, grain, number of workers, size of the table, kind of scheduling -/
structure Par where
  step : Int
  chunk : Int
  nw : Nat
  D : Nat
  static : Bool

/-- Where a worker is. -/
inductive PC where
  /-- thawed but without a task in its queue -/
  | idle
  /-- in the loop of the body: next index and end -/
  | run (cur stop : Int)
  /-- 652: load `data[id].ntask` -/
  | l1 (id : Nat)
  /-- 653: load `data[id].task.start` -/
  | ld (id : Nat)
  /-- 657: compare and exchange -/
  | cas (id : Nat) (old : Int)
  /-- 665: `fetch_sub` -/
  | sub (id : Nat) (old : Int)
  /-- 678-680: choose the victim -/
  | mx
  /-- 681: load `data[_maxid].ntask` -/
  | nt (m : Nat)
  /-- `svc` has returned -/
  | out
  deriving DecidableEq, Repr

structure A where
  d : Nat → Range
  pc : Nat → PC
  /-- ghost: the calls of the body, with the worker that made them -/
  log : List (Nat × Int)

/-- 654: the end of the task that starts at `old` -/
def Par.endOf (P : Par) (stop old : Int) : Int := min (old + ((P.chunk - 1) * P.step + 1)) stop

/-- 655: the new start -/
def Par.next (P : Par) (stop old : Int) : Int := P.endOf stop old - 1 + P.step

/-- no task for this worker: 673 -/
def Par.away (P : Par) : PC := if P.static then .out else .mx

inductive Act where
  | go (w : Nat)
  /-- spurious failure of the compare and exchange -/
  | casFail (w : Nat)
  /-- the victim is `m` -/
  | pick (w m : Nat)
  deriving DecidableEq, Repr

/-- one step of worker `w` -/
def go (P : Par) (s : A) (w : Nat) : Option A :=
  match s.pc w with
  | .idle => none
  | .run cur stop =>
    if cur < stop then some { s with pc := upd s.pc w (.run (cur + P.step) stop), log := s.log ++ [(w, cur)] }
    else some { s with pc := upd s.pc w (.l1 w) }
  | .l1 id => some { s with pc := upd s.pc w (if 0 < (s.d id).ntask then .ld id else P.away) }
  | .ld id => some { s with pc := upd s.pc w (.cas id (s.d id).start) }
  | .cas id old =>
    if (s.d id).start = old then
      some { s with d := upd s.d id { s.d id with start := P.next (s.d id).stop old }, pc := upd s.pc w (.sub id old) }
    else some { s with pc := upd s.pc w (.l1 id) }
  | .sub id old =>
    some { s with
      d := upd s.d id { s.d id with ntask := (s.d id).ntask - 1 }
      pc := upd s.pc w (if old < P.endOf (s.d id).stop old then .run old (P.endOf (s.d id).stop old) else P.away) }
  | .mx => none
  | .nt m => some { s with pc := upd s.pc w (if 0 < (s.d m).ntask then .l1 m else .out) }
  | .out => none

def step (P : Par) (s : A) : Act → Option A
  | .go w => if w < P.nw then go P s w else none
  | .casFail w =>
    if w < P.nw then
      match s.pc w with
      | .cas id _ => some { s with pc := upd s.pc w (.l1 id) }
      | _ => none
    else none
  | .pick w m =>
    if w < P.nw ∧ m < P.D ∧ s.pc w = .mx then some { s with pc := upd s.pc w (.nt m) } else none

/-- The parameters of a loop set up by `setloop`. -/
def Loop.par (L : Loop) (step : Int) (D : Nat) : Par := ⟨step, L.chunk, L.nw, D, L.static⟩

/-- The state in which the workers start.  `spin`: `sendWakeUp` (an empty task for each worker);
otherwise `sendTask(true)`: the first task of its range for each worker that has one. -/
def A.start (P : Par) (L : Loop) (spin : Bool) : A :=
  if spin then ⟨L.d, fun _ => .run 0 0, []⟩
  else
    { d := fun w => if w < L.nw ∧ 0 < (L.d w).ntask then
        ⟨(L.d w).ntask - 1, P.next (L.d w).stop (L.d w).start, (L.d w).stop⟩ else L.d w
      pc := fun w => if 0 < (L.d w).ntask then .run (L.d w).start (P.endOf (L.d w).stop (L.d w).start) else .idle
      log := [] }

/-- all workers have returned -/
def A.over (P : Par) (s : A) : Prop := ∀ w, w < P.nw → s.pc w = .out

/-- the indices on which the body has been called, in order -/
def A.calls (s : A) : List Int := s.log.map Prod.snd

/-! ## Invariant -/

/-- what the worker still has to execute -/
def pend (P : Par) (d : Nat → Range) (x : Int) : PC → Nat
  | .run cur stop => on cur stop P.step x
  | .sub id old => on old (P.endOf (d id).stop old) P.step x
  | _ => 0

def isSub (i : Nat) : PC → Nat
  | .sub id _ => if id = i then 1 else 0
  | _ => 0

def inFl (i : Nat) : PC → Nat
  | .ld id | .cas id _ | .sub id _ => if id = i then 1 else 0
  | _ => 0

/-- the worker has found its own range finished -/
def PC.left (w : Nat) : PC → Prop
  | .l1 id | .ld id | .cas id _ | .sub id _ => id ≠ w
  | .mx | .nt _ | .out => True
  | _ => False

structure Inv (first last : Int) (P : Par) (s : A) : Prop where
  cover : ∀ x, s.calls.count x + sumN (fun w => pend P s.d x (s.pc w)) P.nw +
    sumN (fun i => on (s.d i).start (s.d i).stop P.step x) P.nw = on first last P.step x
  cap : ∀ i, i < P.nw → (s.d i).stop ≤ (s.d i).start ∨ (s.d i).stop ≤ (s.d i).start +
    ((s.d i).ntask - (sumN (fun w => isSub i (s.pc w)) P.nw : Nat)) * (P.chunk * P.step)
  tight : P.static = false → ∀ i, i < P.nw → (s.d i).ntask - (sumN (fun w => isSub i (s.pc w)) P.nw : Nat) ≤ 0 ∨
    (s.d i).start + ((s.d i).ntask - (sumN (fun w => isSub i (s.pc w)) P.nw : Nat) - 1) * (P.chunk * P.step)
      < (s.d i).stop
  rest : ∀ i, P.nw ≤ i → (s.d i).ntask ≤ 0
  fl : ∀ w i, w < P.nw → inFl i (s.pc w) ≠ 0 → i < P.nw
  lb : ∀ i, i < P.nw → ((sumN (fun w => inFl i (s.pc w)) P.nw : Nat) : Int) ≤ (s.d i).ntask + P.nw
  left : ∀ w, w < P.nw → (s.pc w).left w → (s.d w).stop ≤ (s.d w).start
  busy : ∀ w, w < P.nw → s.pc w ≠ .idle
  subx : ∀ w id old, w < P.nw → s.pc w = .sub id old → (s.d id).stop ≤ old → (s.d id).stop ≤ (s.d id).start
  who : ∀ e ∈ s.log, e.1 < P.nw

theorem next_ge {P : Par} {a c : Int} (hs : 1 ≤ P.step) (hk : 1 ≤ P.chunk) (h : c ≤ a) : c ≤ P.next c a := by
  have : 0 ≤ (P.chunk - 1) * P.step := by apply mul_nonneg <;> omega
  unfold Par.next Par.endOf
  rw [min_eq_right (by omega)]; omega

theorem endOf_le {P : Par} {a c : Int} (hk : 1 ≤ P.chunk) (hs : 1 ≤ P.step) (h : ¬ a < P.endOf c a) : c ≤ a := by
  have : 0 ≤ (P.chunk - 1) * P.step := by apply mul_nonneg <;> omega
  unfold Par.endOf at h
  rw [min_def'] at h
  split at h <;> omega

theorem inFl_le (i : Nat) (p : PC) : inFl i p ≤ 1 := by
  cases p <;> simp only [inFl] <;> (try split) <;> omega

theorem sum_le_n {f : Nat → Nat} {n : Nat} (h : ∀ i, i < n → f i ≤ 1) : sumN f n ≤ n := by
  induction n with
  | zero => simp [sumN]
  | succ n ih => simp only [sumN]; have := ih (fun i hi => h i (by omega)); have := h n (by omega); omega

/-- the effect of moving one worker on a sum over the workers -/
theorem sum_move (φ : PC → Nat) (pc : Nat → PC) {n w : Nat} (hw : w < n) {p q : PC} (hp : pc w = q) {a b : Nat}
    (ha : φ q = a) (hb : φ p = b) :
    sumN (fun v => φ (upd pc w p v)) n + a = sumN (fun v => φ (pc v)) n + b := by
  have := sumN_change (f := fun v => φ (upd pc w p v)) (g := fun v => φ (pc v)) hw
    (fun j _ hj => by simp only [upd, if_neg hj])
  have h1 : upd pc w p w = p := by simp only [upd, if_true]
  rw [h1, hp, ha, hb] at this
  exact this

variable {first last : Int} {P : Par}

theorem away_cases (P : Par) : P.away = .out ∨ P.away = .mx := by unfold Par.away; split <;> simp

/-- a step that changes only the place of one worker, which has nothing to execute before and after -/
theorem Inv.move {s : A} {w : Nat} {p : PC} (h : Inv first last P s) (hw : w < P.nw)
    (h1 : ∀ x, pend P s.d x p = pend P s.d x (s.pc w)) (h2 : ∀ i, isSub i p = isSub i (s.pc w))
    (h3 : ∀ i, inFl i p ≠ 0 → i < P.nw) (h4 : ∀ i, inFl i p ≤ inFl i (s.pc w) ∨ 0 < (s.d i).ntask)
    (h5 : p.left w → (s.d w).stop ≤ (s.d w).start) (h6 : p ≠ .idle) (h7 : ∀ id old, p ≠ .sub id old) :
    Inv first last P { s with pc := upd s.pc w p } := by
  have e2 : ∀ i, sumN (fun v => isSub i (upd s.pc w p v)) P.nw = sumN (fun v => isSub i (s.pc v)) P.nw :=
    fun i => Farm.sumN_congr fun v _ => by
      by_cases hv : v = w
      · subst hv; simp only [upd, if_true]; exact h2 i
      · simp only [upd, if_neg hv]
  constructor
  · intro x
    rw [← h.cover x]
    simp only [A.calls]
    congr 2
    exact Farm.sumN_congr fun v _ => by
      by_cases hv : v = w
      · subst hv; simp only [upd, if_true]; exact h1 x
      · simp only [upd, if_neg hv]
  · intro i hi; simp only [e2]; exact h.cap i hi
  · intro hns i hi; simp only [e2]; exact h.tight hns i hi
  · exact h.rest
  · intro v i hv hi
    by_cases hvw : v = w
    · subst hvw; simp only [upd, if_true] at hi; exact h3 i hi
    · simp only [upd, if_neg hvw] at hi; exact h.fl v i hv hi
  · intro i hi
    have hlb := h.lb i hi
    rcases h4 i with h4 | h4
    · have : sumN (fun v => inFl i (upd s.pc w p v)) P.nw ≤ sumN (fun v => inFl i (s.pc v)) P.nw :=
        sumN_le fun v _ => by
          by_cases hv : v = w
          · subst hv; simp only [upd, if_true]; exact h4
          · simp only [upd, if_neg hv]; exact Nat.le_refl _
      simp only; omega
    · have := sum_le_n (f := fun v => inFl i (upd s.pc w p v)) (n := P.nw) (fun v _ => inFl_le _ _)
      simp only; omega
  · intro v hv hl
    by_cases hvw : v = w
    · subst hvw; simp only [upd, if_true] at hl; exact h5 hl
    · simp only [upd, if_neg hvw] at hl; exact h.left v hv hl
  · intro v hv
    by_cases hvw : v = w
    · subst hvw; simp only [upd, if_true]; exact h6
    · simp only [upd, if_neg hvw]; exact h.busy v hv
  · intro v id old hv hp
    by_cases hvw : v = w
    · subst hvw; simp only [upd, if_true] at hp; exact absurd hp (h7 id old)
    · simp only [upd, if_neg hvw] at hp; exact h.subx v id old hv hp
  · exact h.who

theorem Inv.exhausted {s : A} {i : Nat} (hs : 1 ≤ P.step) (hk : 1 ≤ P.chunk) (h : Inv first last P s) (hi : i < P.nw)
    (hn : ¬ 0 < (s.d i).ntask) : (s.d i).stop ≤ (s.d i).start := by
  rcases h.cap i hi with hc | hc
  · exact hc
  · have : 0 < P.chunk * P.step := by apply mul_pos <;> omega
    have : ((s.d i).ntask - (sumN (fun w => isSub i (s.pc w)) P.nw : Nat)) * (P.chunk * P.step) ≤ 0 :=
      mul_nonpos_of_nonpos_of_nonneg (by omega) (by omega)
    omega

theorem Inv.go {s s' : A} {w : Nat} (hs : 1 ≤ P.step) (hk : 1 ≤ P.chunk) (h : Inv first last P s) (hw : w < P.nw)
    (hg : Parfor.go P s w = some s') : Inv first last P s' := by
  unfold Parfor.go at hg
  cases hp : s.pc w with
  | idle => rw [hp] at hg; simp at hg
  | mx => rw [hp] at hg; simp at hg
  | out => rw [hp] at hg; simp at hg
  | l1 id =>
    rw [hp] at hg; simp only [Option.some.injEq] at hg; subst hg
    by_cases hn : 0 < (s.d id).ntask
    · rw [if_pos hn]
      have hid : id < P.nw := by
        by_contra hge
        have := h.rest id (by omega); omega
      apply h.move hw
      · intro x; rw [hp]; rfl
      · intro i; rw [hp]; rfl
      · intro i hi
        simp only [inFl] at hi
        split at hi
        · omega
        · exact absurd rfl hi
      · intro i
        by_cases hii : id = i
        · subst hii; exact Or.inr hn
        · left; simp [inFl, hii]
      · intro hl; exact h.left w hw (by rw [hp]; exact hl)
      · simp
      · intro _ _; simp
    · rw [if_neg hn]
      have hl : (s.d w).stop ≤ (s.d w).start := by
        by_cases hiw : id = w
        · subst hiw; exact h.exhausted hs hk hw hn
        · exact h.left w hw (by rw [hp]; exact hiw)
      apply h.move hw
      · intro x; rw [hp]; rcases away_cases P with e | e <;> rw [e] <;> rfl
      · intro i; rw [hp]; rcases away_cases P with e | e <;> rw [e] <;> rfl
      · intro i hi; rcases away_cases P with e | e <;> rw [e] at hi <;> exact absurd rfl hi
      · intro i; left; rcases away_cases P with e | e <;> rw [e] <;> simp [inFl]
      · intro _; exact hl
      · rcases away_cases P with e | e <;> rw [e] <;> simp
      · intro _ _; rcases away_cases P with e | e <;> rw [e] <;> simp
  | ld id =>
    rw [hp] at hg; simp only [Option.some.injEq] at hg; subst hg
    apply h.move hw
    · intro x; rw [hp]; rfl
    · intro i; rw [hp]; rfl
    · intro i hi; exact h.fl w i hw (by rw [hp]; exact hi)
    · intro i; left; rw [hp]; exact Nat.le_refl _
    · intro hl; exact h.left w hw (by rw [hp]; exact hl)
    · simp
    · intro _ _; simp
  | nt m =>
    rw [hp] at hg; simp only [Option.some.injEq] at hg; subst hg
    have hl := h.left w hw (by rw [hp]; trivial)
    apply h.move hw
    · intro x; rw [hp]; split <;> rfl
    · intro i; rw [hp]; split <;> rfl
    · intro i hi; split at hi <;> exact absurd rfl hi
    · intro i; left; split <;> simp [inFl]
    · intro _; exact hl
    · split <;> simp
    · intro _ _; split <;> simp
  | run cur stop =>
    rw [hp] at hg
    dsimp only at hg
    split at hg
    · rename_i hlt
      simp only [Option.some.injEq] at hg; subst hg
      have e2 : ∀ i, sumN (fun v => isSub i (upd s.pc w (.run (cur + P.step) stop) v)) P.nw =
          sumN (fun v => isSub i (s.pc v)) P.nw :=
        fun i => Farm.sumN_congr fun v _ => by
          by_cases hv : v = w
          · subst hv; simp only [upd, if_true, hp]; rfl
          · simp only [upd, if_neg hv]
      have e3 : ∀ i, sumN (fun v => inFl i (upd s.pc w (.run (cur + P.step) stop) v)) P.nw =
          sumN (fun v => inFl i (s.pc v)) P.nw :=
        fun i => Farm.sumN_congr fun v _ => by
          by_cases hv : v = w
          · subst hv; simp only [upd, if_true, hp]; rfl
          · simp only [upd, if_neg hv]
      constructor
      · intro x
        have hc := h.cover x
        have hch := sum_move (pend P s.d x) s.pc hw (p := .run (cur + P.step) stop) hp
          (a := on cur stop P.step x) (b := on (cur + P.step) stop P.step x) rfl rfl
        have hn := on_next (x := x) hs hlt
        have hcnt : List.count x (s.log.map Prod.snd ++ [cur]) =
            List.count x (s.log.map Prod.snd) + if x = cur then 1 else 0 := by
          rw [List.count_append, List.count_singleton]
          congr 1
          by_cases hx : x = cur
          · subst hx; simp
          · simp [hx, Ne.symm hx]
        simp only [A.calls, List.map_append, List.map_cons, List.map_nil] at hc ⊢
        rw [hcnt]
        omega
      · intro i hi; simp only [e2]; exact h.cap i hi
      · intro hns i hi; simp only [e2]; exact h.tight hns i hi
      · exact h.rest
      · intro v i hv hi
        by_cases hvw : v = w
        · subst hvw; simp only [upd, if_true] at hi; exact absurd rfl hi
        · simp only [upd, if_neg hvw] at hi; exact h.fl v i hv hi
      · intro i hi; simp only [e3]; exact h.lb i hi
      · intro v hv hl
        by_cases hvw : v = w
        · subst hvw; simp only [upd, if_true] at hl; exact hl.elim
        · simp only [upd, if_neg hvw] at hl; exact h.left v hv hl
      · intro v hv
        by_cases hvw : v = w
        · subst hvw; simp only [upd, if_true]; simp
        · simp only [upd, if_neg hvw]; exact h.busy v hv
      · intro v id old hv hq
        by_cases hvw : v = w
        · subst hvw; simp only [upd, if_true] at hq; simp at hq
        · simp only [upd, if_neg hvw] at hq; exact h.subx v id old hv hq
      · intro e he
        simp only [List.mem_append, List.mem_singleton] at he
        rcases he with he | he
        · exact h.who e he
        · subst he; exact hw
    · rename_i hge
      simp only [Option.some.injEq] at hg; subst hg
      apply h.move hw
      · intro x; rw [hp]; simp only [pend]; rw [on_empty (by omega)]
      · intro i; rw [hp]; rfl
      · intro i hi; exact absurd rfl hi
      · intro i; left; simp [inFl]
      · intro hl; exact absurd rfl hl
      · simp
      · intro _ _; simp
  | cas id old =>
    rw [hp] at hg
    dsimp only at hg
    split at hg
    · rename_i hst
      simp only [Option.some.injEq] at hg; subst hg
      have hid : id < P.nw := h.fl w id hw (by rw [hp]; simp [inFl])
      subst hst
      have hstop : ∀ i, (upd s.d id { s.d id with start := P.next (s.d id).stop (s.d id).start } i).stop = (s.d i).stop := by
        intro i; by_cases hi : i = id
        · subst hi; simp only [upd, if_true]
        · simp only [upd, if_neg hi]
      have hnt : ∀ i, (upd s.d id { s.d id with start := P.next (s.d id).stop (s.d id).start } i).ntask = (s.d i).ntask := by
        intro i; by_cases hi : i = id
        · subst hi; simp only [upd, if_true]
        · simp only [upd, if_neg hi]
      have e2 : ∀ i, sumN (fun v => isSub i (upd s.pc w (.sub id (s.d id).start) v)) P.nw =
          sumN (fun v => isSub i (s.pc v)) P.nw + if id = i then 1 else 0 := by
        intro i
        have := sum_move (isSub i) s.pc hw (p := .sub id (s.d id).start) hp (a := 0)
          (b := if id = i then 1 else 0) rfl rfl
        omega
      have e3 : ∀ i, sumN (fun v => inFl i (upd s.pc w (.sub id (s.d id).start) v)) P.nw =
          sumN (fun v => inFl i (s.pc v)) P.nw :=
        fun i => Farm.sumN_congr fun v _ => by
          by_cases hv : v = w
          · subst hv; simp only [upd, if_true, hp]; rfl
          · simp only [upd, if_neg hv]
      constructor
      · intro x
        have hc := h.cover x
        have hch := sum_move (pend P s.d x) s.pc hw (p := .sub id (s.d id).start) hp (a := 0)
          (b := on (s.d id).start (P.endOf (s.d id).stop (s.d id).start) P.step x) rfl rfl
        have hpd : ∀ p, pend P (upd s.d id { s.d id with start := P.next (s.d id).stop (s.d id).start }) x p = pend P s.d x p := by
          intro p; cases p <;> simp only [pend]
          rw [hstop]
        have hch2 := sumN_change
          (f := fun i => on (upd s.d id { s.d id with start := P.next (s.d id).stop (s.d id).start } i).start
            (upd s.d id { s.d id with start := P.next (s.d id).stop (s.d id).start } i).stop P.step x)
          (g := fun i => on (s.d i).start (s.d i).stop P.step x) hid
          (fun j _ hj => by simp only [upd, if_neg hj])
        rw [show upd s.d id { s.d id with start := P.next (s.d id).stop (s.d id).start } id =
          { s.d id with start := P.next (s.d id).stop (s.d id).start } by simp only [upd, if_true]] at hch2
        have ht := on_take (x := x) (c := (s.d id).stop) (a := (s.d id).start) hs hk
          (rfl : P.endOf (s.d id).stop (s.d id).start = _)
        simp only [hpd]
        simp only [A.calls] at hc ⊢
        simp only [Par.next] at hch2 ⊢
        omega
      · intro i hi
        simp only [hstop, hnt, e2]
        by_cases hii : i = id
        · subst hii
          simp only [if_true, upd]
          have := cap_take hs (rfl : P.endOf (s.d i).stop (s.d i).start = _) (h.cap i hi) hk
          simp only [Par.next]
          push_cast
          rw [show (s.d i).ntask - ((sumN (fun w => isSub i (s.pc w)) P.nw : Nat) + 1 : Int) =
            (s.d i).ntask - (sumN (fun w => isSub i (s.pc w)) P.nw : Nat) - 1 by ring]
          exact this
        · simp only [upd, if_neg hii, if_neg (Ne.symm hii), Nat.add_zero]
          exact h.cap i hi
      · intro hns i hi
        simp only [hstop, hnt, e2]
        by_cases hii : i = id
        · subst hii
          simp only [if_true, upd]
          have := tight_take hs hk (rfl : P.endOf (s.d i).stop (s.d i).start = _) (h.tight hns i hi)
          simp only [Par.next]
          push_cast
          rw [show (s.d i).ntask - ((sumN (fun w => isSub i (s.pc w)) P.nw : Nat) + 1 : Int) =
            (s.d i).ntask - (sumN (fun w => isSub i (s.pc w)) P.nw : Nat) - 1 by ring]
          exact this
        · simp only [upd, if_neg hii, if_neg (Ne.symm hii), Nat.add_zero]
          exact h.tight hns i hi
      · intro i hi; simp only [hnt]; exact h.rest i hi
      · intro v i hv hi
        by_cases hvw : v = w
        · subst hvw; simp only [upd, if_true] at hi; exact h.fl v i hv (by rw [hp]; exact hi)
        · simp only [upd, if_neg hvw] at hi; exact h.fl v i hv hi
      · intro i hi; simp only [e3, hnt]; exact h.lb i hi
      · intro v hv hl
        have hold : (s.d v).stop ≤ (s.d v).start := by
          by_cases hvw : v = w
          · subst hvw; simp only [upd, if_true] at hl; exact h.left v hv (by rw [hp]; exact hl)
          · simp only [upd, if_neg hvw] at hl; exact h.left v hv hl
        rw [hstop]
        by_cases hvi : v = id
        · subst hvi; simp only [upd, if_true]; exact next_ge hs hk hold
        · simp only [upd, if_neg hvi]; exact hold
      · intro v hv
        by_cases hvw : v = w
        · subst hvw; simp only [upd, if_true]; simp
        · simp only [upd, if_neg hvw]; exact h.busy v hv
      · intro v id' old' hv hq
        rw [hstop]
        intro hle
        by_cases hvw : v = w
        · subst hvw
          simp only [upd, if_true, PC.sub.injEq] at hq
          obtain ⟨rfl, rfl⟩ := hq
          simp only [upd, if_true]
          exact next_ge hs hk hle
        · simp only [upd, if_neg hvw] at hq
          have := h.subx v id' old' hv hq hle
          by_cases hvi : id' = id
          · subst hvi; simp only [upd, if_true]; exact next_ge hs hk this
          · simp only [upd, if_neg hvi]; exact this
      · exact h.who
    · simp only [Option.some.injEq] at hg; subst hg
      apply h.move hw
      · intro x; rw [hp]; rfl
      · intro i; rw [hp]; rfl
      · intro i hi; exact absurd rfl hi
      · intro i; left; simp [inFl]
      · intro hl; exact h.left w hw (by rw [hp]; exact hl)
      · simp
      · intro _ _; simp
  | sub id old =>
    rw [hp] at hg; simp only [Option.some.injEq] at hg; subst hg
    have hid : id < P.nw := h.fl w id hw (by rw [hp]; simp [inFl])
    have hstop : ∀ i, (upd s.d id { s.d id with ntask := (s.d id).ntask - 1 } i).stop = (s.d i).stop := by
      intro i; by_cases hi : i = id
      · subst hi; simp only [upd, if_true]
      · simp only [upd, if_neg hi]
    have hstart : ∀ i, (upd s.d id { s.d id with ntask := (s.d id).ntask - 1 } i).start = (s.d i).start := by
      intro i; by_cases hi : i = id
      · subst hi; simp only [upd, if_true]
      · simp only [upd, if_neg hi]
    generalize hpp : (if old < P.endOf (s.d id).stop old then PC.run old (P.endOf (s.d id).stop old) else P.away) = p
    have psub : ∀ i, isSub i p = 0 := by
      intro i; rw [← hpp]; split
      · rfl
      · rcases away_cases P with e | e <;> rw [e] <;> rfl
    have pfl : ∀ i, inFl i p = 0 := by
      intro i; rw [← hpp]; split
      · rfl
      · rcases away_cases P with e | e <;> rw [e] <;> rfl
    have ppend : ∀ x, pend P s.d x p = on old (P.endOf (s.d id).stop old) P.step x := by
      intro x; rw [← hpp]; split
      · rfl
      · rw [on_empty (by omega)]
        rcases away_cases P with e | e <;> rw [e] <;> rfl
    have e2 : ∀ i, sumN (fun v => isSub i (upd s.pc w p v)) P.nw + (if id = i then 1 else 0) =
        sumN (fun v => isSub i (s.pc v)) P.nw := by
      intro i
      have := sum_move (isSub i) s.pc hw (p := p) hp (a := if id = i then 1 else 0) rfl (psub i)
      omega
    have e3 : ∀ i, sumN (fun v => inFl i (upd s.pc w p v)) P.nw + (if id = i then 1 else 0) =
        sumN (fun v => inFl i (s.pc v)) P.nw := by
      intro i
      have := sum_move (inFl i) s.pc hw (p := p) hp (a := if id = i then 1 else 0) rfl (pfl i)
      omega
    constructor
    · intro x
      have hc := h.cover x
      have hch := sum_move (pend P s.d x) s.pc hw (p := p) hp (a := on old (P.endOf (s.d id).stop old) P.step x) rfl (ppend x)
      have hpd : ∀ p, pend P (upd s.d id { s.d id with ntask := (s.d id).ntask - 1 }) x p = pend P s.d x p := by
        intro p; cases p <;> simp only [pend]
        rw [hstop]
      simp only [hpd, hstop, hstart]
      simp only [A.calls] at hc ⊢
      omega
    · intro i hi
      have h2 := e2 i
      have hc := h.cap i hi
      simp only [hstop, hstart]
      by_cases hii : i = id
      · subst hii
        simp only [upd, if_true] at h2 ⊢
        rw [← h2] at hc
        push_cast at hc
        rw [show (s.d i).ntask - 1 - (sumN (fun v => isSub i (if v = w then p else s.pc v)) P.nw : Nat) =
          (s.d i).ntask - ((sumN (fun v => isSub i (if v = w then p else s.pc v)) P.nw : Nat) + 1 : Int) by ring]
        exact hc
      · simp only [upd, if_neg hii, if_neg (Ne.symm hii), Nat.add_zero] at h2 ⊢
        rw [h2]; exact hc
    · intro hns i hi
      have h2 := e2 i
      have hc := h.tight hns i hi
      simp only [hstop, hstart]
      by_cases hii : i = id
      · subst hii
        simp only [upd, if_true] at h2 ⊢
        rw [← h2] at hc
        push_cast at hc
        rw [show (s.d i).ntask - 1 - (sumN (fun v => isSub i (if v = w then p else s.pc v)) P.nw : Nat) =
          (s.d i).ntask - ((sumN (fun v => isSub i (if v = w then p else s.pc v)) P.nw : Nat) + 1 : Int) by ring]
        exact hc
      · simp only [upd, if_neg hii, if_neg (Ne.symm hii), Nat.add_zero] at h2 ⊢
        rw [h2]; exact hc
    · intro i hi; simp only [upd, if_neg (by omega : ¬ i = id)]; exact h.rest i hi
    · intro v i hv hi
      by_cases hvw : v = w
      · subst hvw; simp only [upd, if_true] at hi; exact absurd (pfl i) hi
      · simp only [upd, if_neg hvw] at hi; exact h.fl v i hv hi
    · intro i hi
      have h3 := e3 i
      have hc := h.lb i hi
      by_cases hii : i = id
      · subst hii
        simp only [if_true] at h3
        simp only
        rw [show (upd s.d i { s.d i with ntask := (s.d i).ntask - 1 } i).ntask = (s.d i).ntask - 1 by simp only [upd, if_true]]
        omega
      · rw [if_neg (Ne.symm hii)] at h3
        simp only
        rw [show (upd s.d id { s.d id with ntask := (s.d id).ntask - 1 } i).ntask = (s.d i).ntask by simp only [upd, if_neg hii]]
        omega
    · intro v hv hl
      rw [hstop, hstart]
      by_cases hvw : v = w
      · subst hvw
        simp only [upd, if_true] at hl
        by_cases hiv : id = v
        · subst hiv
          apply h.subx id id old hid hp
          rw [← hpp] at hl
          split at hl
          · exact hl.elim
          · rename_i hn; exact endOf_le hk hs hn
        · exact h.left v hv (by rw [hp]; exact hiv)
      · simp only [upd, if_neg hvw] at hl; exact h.left v hv hl
    · intro v hv
      by_cases hvw : v = w
      · subst hvw; simp only [upd, if_true]; rw [← hpp]; split
        · simp
        · rcases away_cases P with e | e <;> rw [e] <;> simp
      · simp only [upd, if_neg hvw]; exact h.busy v hv
    · intro v id' old' hv hq
      rw [hstop, hstart]
      by_cases hvw : v = w
      · subst hvw
        simp only [upd, if_true] at hq
        exfalso
        have := psub id'
        rw [hq] at this; simp [isSub] at this
      · simp only [upd, if_neg hvw] at hq
        exact h.subx v id' old' hv hq
    · exact h.who

theorem Inv.step {s s' : A} {a : Act} (hs : 1 ≤ P.step) (hk : 1 ≤ P.chunk) (h : Inv first last P s)
    (hst : Parfor.step P s a = some s') : Inv first last P s' := by
  cases a with
  | go w =>
    simp only [Parfor.step] at hst
    split at hst
    · exact h.go hs hk ‹_› hst
    · simp at hst
  | casFail w =>
    simp only [Parfor.step] at hst
    split at hst
    · rename_i hw
      split at hst
      · rename_i id old hp
        simp only [Option.some.injEq] at hst; subst hst
        apply h.move hw
        · intro x; rw [hp]; rfl
        · intro i; rw [hp]; rfl
        · intro i hi; exact absurd rfl hi
        · intro i; left; simp [inFl]
        · intro hl; exact h.left w hw (by rw [hp]; exact hl)
        · simp
        · intro _ _; simp
      · simp at hst
    · simp at hst
  | pick w m =>
    simp only [Parfor.step] at hst
    split at hst
    · rename_i hc
      obtain ⟨hw, hm, hp⟩ := hc
      simp only [Option.some.injEq] at hst; subst hst
      apply h.move hw
      · intro x; rw [hp]; rfl
      · intro i; rw [hp]; rfl
      · intro i hi; exact absurd rfl hi
      · intro i; left; simp [inFl]
      · intro _; exact h.left w hw (by rw [hp]; trivial)
      · simp
      · intro _ _; simp
    · simp at hst

theorem Inv.start {L : Loop} {st : Int} {D : Nat} (hs : 1 ≤ st) (hg : Good first last st D L) (spin : Bool) :
    Inv first last (L.par st D) (A.start (L.par st D) L spin) := by
  have hk := hg.chunk
  cases spin with
  | true =>
    constructor <;> simp only [A.start, if_true, Loop.par, A.calls]
    · intro x
      have := hg.cover x
      rw [sumN_zero (f := fun w => pend _ _ _ _) (fun i _ => by simp only [pend]; exact on_empty (by omega))]
      simpa using this
    · intro i hi
      rw [sumN_zero (f := fun w => isSub _ _) (fun i _ => rfl)]
      simpa using hg.cap i hi
    · intro hns i hi
      rw [sumN_zero (f := fun w => isSub _ _) (fun i _ => rfl)]
      simpa using hg.tight hns i hi
    · exact hg.rest
    · intro w i _ hi; exact absurd rfl hi
    · intro i hi
      rw [sumN_zero (f := fun w => inFl _ _) (fun i _ => rfl)]
      have := hg.pos i hi; push_cast; omega
    · intro w _ hl; exact hl.elim
    · intro w _; simp
    · intro w id old _ hp; simp at hp
    · simp
  | false =>
    have hpos := hg.pos
    have hd : ∀ i, i < L.nw → (A.start (L.par st D) L false).d i =
        ⟨(L.d i).ntask - 1, (L.par st D).next (L.d i).stop (L.d i).start, (L.d i).stop⟩ := by
      intro i hi
      have := hpos i hi
      simp only [A.start, Bool.false_eq_true, if_false]
      rw [if_pos ⟨hi, by omega⟩]
    have hpc : ∀ i, i < L.nw → (A.start (L.par st D) L false).pc i =
        .run (L.d i).start ((L.par st D).endOf (L.d i).stop (L.d i).start) := by
      intro i hi
      have := hpos i hi
      simp only [A.start, Bool.false_eq_true, if_false]
      rw [if_pos (by omega)]
    have hnw : (L.par st D).nw = L.nw := rfl
    have hsub : ∀ i, sumN (fun w => isSub i ((A.start (L.par st D) L false).pc w)) (L.par st D).nw = 0 :=
      fun i => sumN_zero fun w hw => by rw [hpc w hw]; rfl
    constructor
    · intro x
      have hc := hg.cover x
      have hlog : (A.start (L.par st D) L false).calls = [] := rfl
      rw [hlog, hnw]
      rw [Farm.sumN_congr (f := fun w => pend _ _ _ _)
        (g := fun w => on (L.d w).start ((L.par st D).endOf (L.d w).stop (L.d w).start) st x)
        (fun i hi => by rw [hpc i hi]; rfl)]
      rw [Farm.sumN_congr (f := fun i => on ((A.start (L.par st D) L false).d i).start _ _ _)
        (g := fun w => on ((L.par st D).next (L.d w).stop (L.d w).start) (L.d w).stop st x)
        (fun i hi => by rw [hd i hi]; rfl)]
      rw [List.count_nil, Nat.zero_add, ← sumN_add]
      show _ = on first last st x
      rw [← hc]
      exact (Farm.sumN_congr fun i hi => (on_take (chunk := L.chunk) hs hk rfl)).symm
    · intro i hi
      rw [hsub, hd i hi]
      have := cap_take (chunk := L.chunk) (step := st) hs rfl (hg.cap i hi) hk
      simpa [Par.next, Par.endOf, Loop.par] using this
    · intro hns i hi
      rw [hsub, hd i hi]
      have := tight_take (chunk := L.chunk) (step := st) hs hk rfl (hg.tight hns i hi)
      simpa [Par.next, Par.endOf, Loop.par] using this
    · intro i hi
      have hi : ¬ i < L.nw := by rw [hnw] at hi; omega
      simp only [A.start, Bool.false_eq_true, if_false]
      rw [if_neg (fun h => hi h.1)]
      exact hg.rest i (by omega)
    · intro w i hw hi; rw [hpc w hw] at hi; exact absurd rfl hi
    · intro i hi
      rw [sumN_zero (fun w hw => by rw [hpc w hw]; rfl), hd i hi]
      have := hpos i hi
      simp only [hnw]; push_cast; omega
    · intro w hw hl; rw [hpc w hw] at hl; exact hl.elim
    · intro w hw; rw [hpc w hw]; simp
    · intro w id old hw hp; rw [hpc w hw] at hp; simp at hp
    · intro e he; simp [A.start] at he

end FF.Parfor
