import Verif.Ring.Order
/-!
# C69: examples and what goes wrong
-/
namespace FF.Ring
open FF.Node

/-- A first stage that sends the tasks `1 … k` when it is called with `NULL`, adds up what comes back
and ends when `k` results have come.  The state is the number of results still to come and the sum. -/
def master (k : Nat) : Node Nat where
  σ := Nat × Nat
  init := (k, 0)
  comp := false
  src := false
  svc := fun s t => match t with
    | .data d => if s.1 ≤ 1 then ((k, s.2 + d), [], .eos) else ((s.1 - 1, s.2 + d), [], .goon)
    | _ => (s, (List.range k).map fun i => .data (i + 1), .goon)
  eosn := fun s => (s, [])

/-- a stage that ends the stream at its first task -/
def leaver : Node Nat where
  σ := Unit
  init := ()
  comp := false
  src := false
  svc := fun s _ => (s, [], .eos)
  eosn := fun s => (s, [])

theorem master_plain (k : Nat) : Plain (master k) where
  sends s t m hm := by
    have hnil : ∀ d, ((master k).svc s (.data d)).2.1 = [] := by
      intro d; simp only [master]; split <;> rfl
    cases t
    case data d => rw [hnil] at hm; simp at hm
    all_goals
      simp only [master, List.mem_map] at hm
      obtain ⟨_, _, rfl⟩ := hm
      rfl
  ret s t := by
    cases t
    case data d =>
      simp only [master]
      split <;> simp
    all_goals simp [master]
  eosn s m hm := by simp [master] at hm

theorem dbl_plain : Plain dblNode where
  sends s t m hm := by cases t <;> simp [dblNode] at hm
  ret s t := by cases t <;> simp [dblNode]
  eosn s m hm := by simp [dblNode] at hm

theorem dbl_obedient : Obedient dblNode := by
  intro s t
  cases t <;> simp [dblNode, continues]

theorem dbl_maps : Maps dblNode (2 * ·) := ⟨fun _ _ => rfl, fun _ => rfl⟩

/-- the master and a stage that doubles -/
def ring2 (k : Nat) : Nat → Node Nat
  | 0 => master k
  | _ => dblNode

theorem ring2_stages (k : Nat) (n : Nat) : Stages n (ring2 k) where
  plain i _ := by
    cases i with
    | zero => exact master_plain k
    | succ i => exact dbl_plain
  obedient i hi _ := by
    cases i with
    | zero => omega
    | succ i => exact dbl_obedient

/-- queues of capacity 1 and the unbounded feedback queue -/
def caps1 : Nat → Option Nat
  | 0 => none
  | _ => some 1

theorem caps1_ring : RingCaps caps1 where
  feedback := rfl
  inner i := by cases i <;> simp [caps1, room]

/-- The hypotheses of the theorems on complete runs are met: a run of the master with two tasks ends,
it got `2` and `4` back in this order, and the end mark is left in the feedback queue. -/
theorem first_run : ∃ s, Reach (rstep 1 (ring2 2) caps1) (start []) s ∧
    (∀ a, rstep 1 (ring2 2) caps1 s a = none) ∧
    s.consumed 0 = [.nul, .data 2, .data 4] ∧ s.chan 0 = [.eos] ∧
    (after (ring2 2 0) (s.consumed 0)).exited = true ∧
    (after (ring2 2 0) (s.consumed 0)).st = (2, 6) := by
  refine ⟨_, ⟨[.pop 0, .push 0, .pop 1, .push 0, .push 1, .pop 0, .pop 1, .push 1, .pop 0, .push 0,
    .pop 1, .push 1], rfl⟩, ?_, rfl, rfl, rfl, rfl⟩
  intro a
  match a with
  | .pop 0 => rfl
  | .pop 1 => rfl
  | .pop (_ + 2) => rfl
  | .push 0 => rfl
  | .push 1 => rfl
  | .push (_ + 2) => rfl

theorem master_counts (k : Nat) (l : L (master k)) (hl : l.exited = false) (ds : List Nat)
    (hk : l.st.1 + 1 ≤ ds.length) : (run (master k) l (ds.map .data)).1.exited = true := by
  induction ds generalizing l with
  | nil => simp at hk
  | cons d ds ih =>
    rw [List.map_cons, run_cons _ _ hl]
    show (run (master k) (body (master k) l (.data d)).1 (ds.map .data)).1.exited = true
    by_cases h1 : l.st.1 ≤ 1
    · have hb : (body (master k) l (.data d)).1.exited = true := by
        simp [body, svcBody, master, h1, continues]
      rw [run_exited _ _ hb]; exact hb
    · have hb : (body (master k) l (.data d)).1.exited = false := by
        simp [body, svcBody, master, h1, continues]
      have hst : (body (master k) l (.data d)).1.st.1 = l.st.1 - 1 := by
        simp [body, svcBody, master, h1]
      refine ih _ hb ?_
      rw [hst]
      simp only [List.length_cons] at hk
      omega

/-- the first stage of the example stops, so every run of it ends (`C69_ends`) -/
theorem master_stops (k : Nat) : StopsWithin (master k) (k + 1) := by
  intro ds hk
  unfold after
  rw [run_cons _ _ rfl]
  exact master_counts k _ rfl ds hk

example (k n : Nat) : ∃ B, ∀ (cap : Nat → Option Nat) (as : List PAct) (s : P Nat),
    exec (rstep n (ring2 k) cap) (start []) as = some s → as.length ≤ B :=
  C69_ends n (ring2 k) (ring2_stages k n) (k + 1) (master_stops k)

/-- `C69_all_back` for that run: the results of the tasks `1`, `2`, and the end mark, in order -/
example : ∃ s, Reach (rstep 1 (ring2 2) caps1) (start []) s ∧
    s.consumed 0 ++ s.chan 0 = .nul :: (s.pushed 0).map (onMsg (through (fun _ => (2 * ·)) 1)) ∧
    s.consumed 0 ++ s.chan 0 = [.nul, .data 2, .data 4, .eos] := by
  obtain ⟨s, hr, hstuck, hc, hch, _, _⟩ := first_run
  refine ⟨s, hr, C69_all_back (ring2_stages 2 1) caps1_ring (fun _ => (2 * ·)) ?_ hr hstuck, ?_⟩
  · intro i hi _
    cases i with
    | zero => omega
    | succ i => exact dbl_maps
  · rw [hc, hch]; rfl

/-- **C69 is false from the second run on**: the pipeline of the example is run, it ends and has the
right sum; run again, whatever the schedule and the queues, its first stage never gets a task: it is
called once, with `NULL`, and its sum stays what it was. -/
theorem C69_second_run_counterexample :
    ∃ s, Reach (rstep 1 (ring2 2) caps1) (start []) s ∧
      (∀ a, rstep 1 (ring2 2) caps1 s a = none) ∧
      (after (ring2 2 0) (s.consumed 0)).st = (2, 6) ∧
      ∀ (cap' : Nat → Option Nat) (s' : P Nat),
        Reach (rstep 1 (again (ring2 2) s) cap') (restart s) s' →
        s'.consumed 0 <+: [.nul, .eos] := by
  obtain ⟨s, hr, hstuck, hc, hch, he, hst⟩ := first_run
  refine ⟨s, hr, hstuck, hst, ?_⟩
  obtain ⟨ds, e, h1, h2, h3, h4⟩ := C69_second_run (ring2_stages 2 1) caps1_ring hr hstuck he
  intro cap' s' hr'
  have := h4 cap' s' hr'
  rw [← h3, hch] at this
  exact this

/-- In that second run the first stage sends its two tasks and ends; the second stage's results stay
in the feedback queue. -/
example : ∃ s s', Reach (rstep 1 (ring2 2) caps1) (start []) s ∧
    Reach (rstep 1 (again (ring2 2) s) caps1) (restart s) s' ∧
    s'.consumed 0 = [.nul, .eos] ∧ s'.pushed 0 = [.data 1, .data 2, .eos] ∧
    s'.chan 0 = [.data 2, .data 4, .eos] ∧
    (after (again (ring2 2) s 0) (s'.consumed 0)).st = (2, 6) :=
  ⟨_, _, ⟨[.pop 0, .push 0, .pop 1, .push 0, .push 1, .pop 0, .pop 1, .push 1, .pop 0, .push 0,
    .pop 1, .push 1], rfl⟩, ⟨[.pop 0, .push 0, .pop 1, .push 0, .push 1, .pop 1, .push 1, .pop 0,
    .push 0, .pop 1, .push 1], rfl⟩, rfl, rfl, rfl, rfl⟩

/-- **C69, a stage that ends the stream itself**: the second stage returns the end mark at its first
task; the first stage then waits forever for room in the queue, and the pipeline never ends. -/
theorem C69_early_end_counterexample :
    ∃ (nd : Nat → Node Nat) (s : P Nat), (∀ i, i ≤ 1 → Plain (nd i)) ∧
      Reach (rstep 1 nd caps1) (start []) s ∧ (∀ a, rstep 1 nd caps1 s a = none) ∧
      (after (nd 0) (s.consumed 0)).exited = false ∧ s.pending 0 ≠ [] ∧
      (after (nd 1) (s.consumed 1)).exited = true := by
  refine ⟨fun i => if i = 0 then master 3 else leaver, _, ?_,
    ⟨[.pop 0, .push 0, .pop 1, .push 1, .push 0], rfl⟩, ?_, rfl, List.cons_ne_nil _ _, rfl⟩
  · intro i _
    simp only
    split
    · exact master_plain 3
    · exact ⟨fun s t m hm => by simp [leaver] at hm, fun s t => by simp [leaver],
        fun s m hm => by simp [leaver] at hm⟩
  · intro a
    match a with
    | .pop 0 => rfl
    | .pop 1 => rfl
    | .pop (_ + 2) => rfl
    | .push 0 => rfl
    | .push 1 => rfl
    | .push (_ + 2) => rfl

/-- **Why the feedback queue is unbounded**: with a feedback queue of capacity 1 the same stages come
to a stop with everything full. -/
theorem C69_bounded_feedback_counterexample :
    ∃ s : P Nat, Reach (rstep 1 (ring2 4) (fun _ => some 1)) (start []) s ∧
      (∀ a, rstep 1 (ring2 4) (fun _ => some 1) s a = none) ∧
      (∀ i, i ≤ 1 → (after (ring2 4 i) (s.consumed i)).exited = false ∧ s.pending i ≠ [] ∧
        s.chan i ≠ []) := by
  refine ⟨_, ⟨[.pop 0, .push 0, .pop 1, .push 1, .push 0, .pop 1, .push 0], rfl⟩, ?_, ?_⟩
  · intro a
    match a with
    | .pop 0 => rfl
    | .pop 1 => rfl
    | .pop (_ + 2) => rfl
    | .push 0 => rfl
    | .push 1 => rfl
    | .push (_ + 2) => rfl
  · intro i hi
    match i, hi with
    | 0, _ => exact ⟨rfl, List.cons_ne_nil _ _, List.cons_ne_nil _ _⟩
    | 1, _ => exact ⟨rfl, List.cons_ne_nil _ _, List.cons_ne_nil _ _⟩

end FF.Ring
