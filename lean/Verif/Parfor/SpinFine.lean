import Verif.Parfor.SpinEnd
/-!
# The end of the loops of spinning workers, access by access (C82)

The system of `Parfor/SpinEnd`, with `doBarrier` (ff/barrier.hpp 191-204) divided into its accesses to shared
variables: `++B[k]` (194), the read of `_barrier` (195), `B[k]=0` (196), the reads of `B[k]` (201).  As long as
`_barrier` does not change while a thread is between 194 and 195, this makes no difference.  `barrierSetup`
(182-189) by the caller can change it, because the caller may have left the barrier before.
-/
namespace FF.Parfor.SpinFine
open FF FF.Node

/-- where a thread is in `doBarrier`: `out` before or after it, `cmp k c` before the comparison of `c` with `_barrier`
(195), `zero k` before `B[k]=0` (196), `spin k` in the loop (200-203) -/
inductive Pos where
  | out
  | cmp (k : Bool) (c : Nat)
  | zero (k : Bool)
  | spin (k : Bool)
  deriving DecidableEq, Repr

structure S where
  /-- `barArray`, `B`, `_barrier` (barrier.hpp 207-209) -/
  par : Nat → Bool
  b : Bool → Nat
  size : Nat
  /-- `getnw()` -/
  n : Nat
  /-- wake-ups in the queue of each worker -/
  q : Nat → Nat
  /-- the worker is executing its part of a loop -/
  busy : Nat → Bool
  w : Nat → Pos
  /-- the caller is in a loop -/
  inLoop : Bool
  c : Pos
  /-- ghost: wake-ups sent to each worker, and parts it has completed -/
  sent : Nat → Nat
  done : Nat → Nat

inductive Act where
  | start (n : Nat)
  | callerEnter | callerCmp | callerZero | callerLook
  | take (w : Nat) | enter (w : Nat) | cmp (w : Nat) | zero (w : Nat) | look (w : Nat)
  deriving DecidableEq, Repr

/-- `barrierSetup(init)` (182-189) -/
def S.setup (s : S) (init : Nat) : S :=
  if init = s.size then s else { s with par := fun _ => false, b := fun _ => 0, size := init }

def step (N : Nat) (s : S) : Act → Option S
  | .start n =>
    -- parallel_for_internals.hpp 1092, 1095
    if s.inLoop = false ∧ 1 ≤ n ∧ n ≤ N then
      some { s.setup (n + 1) with
        n := n
        q := fun v => if v < n then s.q v + 1 else s.q v
        sent := fun v => if v < n then s.sent v + 1 else s.sent v
        inLoop := true }
    else none
  | .callerEnter =>
    -- 1153; barrier.hpp 193-194
    if s.inLoop = true ∧ s.c = .out then
      let k := !s.par s.n
      some { s with par := upd s.par s.n k, b := fun i => if i = k then s.b k + 1 else s.b i, c := .cmp k (s.b k + 1) }
    else none
  | .callerCmp =>
    match s.c with
    | .cmp k c => some { s with c := if c = s.size then .zero k else .spin k }
    | _ => none
  | .callerZero =>
    match s.c with
    | .zero k => some { s with b := fun i => if i = k then 0 else s.b i, c := .out, inLoop := false }
    | _ => none
  | .callerLook =>
    match s.c with
    | .spin k => if s.b k = 0 then some { s with c := .out, inLoop := false } else none
    | _ => none
  | .take v =>
    if v < N ∧ s.busy v = false ∧ s.w v = .out ∧ 0 < s.q v then
      some { s with q := upd s.q v (s.q v - 1), busy := upd s.busy v true }
    else none
  | .enter v =>
    -- 888; barrier.hpp 193-194
    if v < N ∧ s.busy v = true then
      let k := !s.par v
      some { s with par := upd s.par v k, b := fun i => if i = k then s.b k + 1 else s.b i,
                    busy := upd s.busy v false, w := upd s.w v (.cmp k (s.b k + 1)), done := upd s.done v (s.done v + 1) }
    else none
  | .cmp v =>
    match s.w v with
    | .cmp k c => some { s with w := upd s.w v (if c = s.size then .zero k else .spin k) }
    | _ => none
  | .zero v =>
    match s.w v with
    | .zero k => some { s with b := fun i => if i = k then 0 else s.b i, w := upd s.w v .out }
    | _ => none
  | .look v =>
    match s.w v with
    | .spin k => if s.b k = 0 then some { s with w := upd s.w v .out } else none
    | _ => none

/-- a new object; `barArray` and `B` have any values -/
def S.new (par : Nat → Bool) (b : Bool → Nat) : S :=
  { par := par, b := b, size := 0, n := 0, q := fun _ => 0, busy := fun _ => false, w := fun _ => .out, inLoop := false,
    c := .out, sent := fun _ => 0, done := fun _ => 0 }

/-- a loop with 3 workers, in which worker 2 is preempted after its `++B[1]`; when the caller has returned, a loop with
2 workers: the caller enters the barrier first, worker 2 takes itself for the last thread and sets `B[1]` to 0 -/
def early : List Act :=
  [.start 3, .take 0, .take 1, .take 2, .enter 0, .enter 1, .enter 2, .callerEnter, .callerCmp, .callerZero,
   .cmp 0, .look 0, .cmp 1, .look 1,
   .start 2, .callerEnter, .callerCmp, .cmp 2, .zero 2, .callerLook]

/-- **C82** (a loop that returns too early).  There is a schedule of a loop with 3 workers followed by one with 2 workers
in which the caller has returned from the second loop although neither of its workers has begun its part. -/
theorem C82_early_return_counterexample (par : Nat → Bool) (b : Bool → Nat) :
    ∃ s, Reach (step 3) (S.new par b) s ∧ s.inLoop = false ∧ s.n = 2 ∧
      ∀ v, v < 2 → s.sent v = 2 ∧ s.done v = 1 ∧ s.busy v = false ∧ s.q v = 1 := by
  have h : ∃ s, exec (step 3) (S.new par b) early = some s ∧ s.inLoop = false ∧ s.n = 2 ∧
      (s.sent 0 = 2 ∧ s.done 0 = 1 ∧ s.busy 0 = false ∧ s.q 0 = 1) ∧
      (s.sent 1 = 2 ∧ s.done 1 = 1 ∧ s.busy 1 = false ∧ s.q 1 = 1) :=
    ⟨_, rfl, rfl, rfl, ⟨rfl, rfl, rfl, rfl⟩, rfl, rfl, rfl, rfl⟩
  obtain ⟨s, h1, h2, h3, h4, h5⟩ := h
  refine ⟨s, ⟨early, h1⟩, h2, h3, fun v hv => ?_⟩
  have : v = 0 ∨ v = 1 := by omega
  rcases this with rfl | rfl
  · exact h4
  · exact h5

/-- without the delay of worker 2 the same two loops execute all parts -/
example : ((exec (step 3) (S.new (fun _ => true) (fun _ => 5))
    [.start 3, .take 0, .take 1, .take 2, .enter 0, .enter 1, .enter 2, .callerEnter, .callerCmp, .callerZero,
     .cmp 0, .look 0, .cmp 1, .look 1, .cmp 2, .look 2,
     .start 2, .callerEnter, .callerCmp, .take 0, .enter 0, .cmp 0, .take 1, .enter 1, .cmp 1, .zero 1, .callerLook]).map
    fun s => (s.inLoop, s.done 0, s.done 1, s.done 2)) = some (false, 2, 2, 1) := by decide

end FF.Parfor.SpinFine
