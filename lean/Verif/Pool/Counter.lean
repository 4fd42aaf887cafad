/-
What the queues made of several queues do not guarantee (C62).
-/
import Verif.Pool.SeqUse

namespace FF.Pool

variable {n : Nat}

/-- The schedule: 7 is pushed; two pops see the count 1; the first takes 7; a push of 8 draws its ticket and stops;
the second pop takes the ticket of 8, finds nothing and returns false; the push of 8 ends. -/
def overtake : List Act :=
  [.callPush 0 7, .go 0, .go 0, .go 0, .go 0,
   .callPop 1, .go 1, .callPop 2, .go 2,
   .go 1, .go 1, .go 1, .go 1, .go 1, .go 1,
   .callPush 0 8, .go 0,
   .go 2, .go 2, .go 2, .go 2, .go 2,
   .go 0, .go 0, .go 0]

/-- What is left: 8 in the inner queue of ticket 2, and the next ticket for pops is 3. -/
def stuck (n : Nat) : S :=
  { enq := 2, deq := 3, cnt := 1, sub := upd (fun _ => []) (2 % n) [8], pc := fun _ => .idle
    log := [.retPush 0 8, .counted 0 8, .put 0 (2 % n) 8, .retPop 2 none, .claim 2 (2 % n), .tick 0 (2 % n),
      .callPush 0 8, .retPop 1 (some 7), .discounted 1 7, .took 1 (1 % n) 7, .claim 1 (1 % n), .callPop 2,
      .callPop 1, .retPush 0 7, .counted 0 7, .put 0 (1 % n) 7, .tick 0 (1 % n), .callPush 0 7] }

theorem overtake_run (n : Nat) : exec (step .fifo n) (init .fifo) overtake = some (stuck n) := by
  have hs : (if 2 % n = 1 % n then [] else if 2 % n = 1 % n then [7] else [] : List Nat) = [] := by
    repeat' split
    all_goals simp_all
  simp [overtake, exec, step, go, init, upd, stuck, hs]
  constructor
  · funext q
    by_cases h2 : q = 2 % n
    · simp [upd, h2]
    · by_cases h1 : q = 1 % n <;> simp [upd, h1, h2]
  · funext t
    by_cases h0 : t = 0
    · simp [upd, h0]
    · by_cases h1 : t = 1
      · simp [upd, h1]
      · by_cases h2 : t = 2 <;> simp [upd, h0, h1, h2]

theorem stuck_pops (n j t : Nat) (l : List Ev) :
    ∃ l', Seq .fifo n { stuck n with log := l } (List.replicate j (.pop none)) { stuck n with log := l' } := by
  induction j generalizing l with
  | zero => exact ⟨l, .nil _⟩
  | succ j ih =>
    obtain ⟨l', h⟩ := ih (.retPop t none :: .callPop t :: l)
    refine ⟨l', .cons (lone_pop_over { stuck n with log := l } t rfl (by simp [stuck]) (by simp [stuck])) h⟩

/-- **C62, an element gets stuck**: `pop` "returns false if the queue is empty", but in the FIFO pool there is a reachable state in which
nobody is inside a call, 8 has been pushed and is stored (`empty()` answers false), and every
number of further pops return false.  For every number of inner queues. -/
theorem C62_stuck_counterexample (n : Nat) (hn : 0 < n) :
    ∃ s, Reach (step .fifo n) (init .fifo) s ∧ Quiet s ∧ stored n s = [8] ∧ popped s.log = [7] ∧
      ∀ j t : Nat, ∃ s', Seq .fifo n s (List.replicate j (.pop none)) s' ∧ s'.sub = s.sub := by
  refine ⟨stuck n, ⟨_, overtake_run n⟩, fun _ => rfl, ?_, rfl, ?_⟩
  · have h := C62_conserved .fifo hn (stuck n) ⟨_, overtake_run n⟩ (fun _ => rfl)
    have h1 : (pushed (stuck n).log).Perm ([7] ++ stored n (stuck n)) := h.1
    have h2 : ([7] ++ [8] : List Nat).Perm ([7] ++ stored n (stuck n)) :=
      (List.Perm.swap 8 7 []).symm.symm.trans h1
    exact (List.singleton_perm.1 ((List.perm_append_left_iff [7]).1 h2)).symm
  · intro j t
    obtain ⟨l', h⟩ := stuck_pops n j t (stuck n).log
    exact ⟨_, h, rfl⟩

/-- **C62, FIFO order is lost for good**: in that state 9 is pushed, and the next pop returns 9 although 8 was pushed (and its call had returned)
before; nothing overlaps.  For every number of inner queues from 2. -/
theorem C62_order_counterexample (n : Nat) (hn : 2 ≤ n) :
    ∃ s s', Reach (step .fifo n) (init .fifo) s ∧ Quiet s ∧ stored n s = [8] ∧
      Seq .fifo n s [.push 9, .pop (some 9)] s' := by
  have hne : 3 % n ≠ 2 % n := by
    rcases Nat.lt_or_ge 3 n with h | h
    · rw [Nat.mod_eq_of_lt h, Nat.mod_eq_of_lt (by omega)]; omega
    · have : n = 2 ∨ n = 3 := by omega
      rcases this with rfl | rfl <;> decide
  have hst : stored n (stuck n) = [8] := by
    have h := C62_conserved .fifo (by omega) (stuck n) ⟨_, overtake_run n⟩ (fun _ => rfl)
    have h1 : (pushed (stuck n).log).Perm ([7] ++ stored n (stuck n)) := h.1
    have h2 : ([7] ++ [8] : List Nat).Perm ([7] ++ stored n (stuck n)) :=
      (List.Perm.swap 8 7 []).symm.symm.trans h1
    exact (List.singleton_perm.1 ((List.perm_append_left_iff [7]).1 h2)).symm
  refine ⟨stuck n, _, ⟨_, overtake_run n⟩, fun _ => rfl, hst, .cons (t := 0) (lone_push _ 0 9 rfl) (.cons (t := 0)
    (lone_pop_fifo _ 0 rfl (by simp [afterPush, stuck]) (by simp [afterPush, stuck]) 9 [] ?_) (.nil _))⟩
  simp [afterPush, stuck, upd, hne]

/-- The schedule for the relaxed pools: two pops see the count 1, one of them misses. -/
def misses : List Act :=
  [.callPush 0 7, .go 0, .go 0, .go 0, .go 0,
   .callPop 1, .go 1, .callPop 2, .go 2,
   .go 1, .go 1, .go 1, .go 1, .go 2, .go 2, .go 2,
   .callPush 0 8, .go 0, .go 0, .go 0, .go 0]

/-- **C62, a false answer says nothing (relaxed pools)**: a reachable state in which nobody is inside a call, 8 has been pushed and not
popped, and a pop that runs alone returns false.  For every number of inner queues from 2. -/
theorem C62_false_counterexample (k : Kind) (hk : k ≠ .fifo) (n : Nat) (hn : 2 ≤ n) :
    ∃ s s', Reach (step k n) (init k) s ∧ Quiet s ∧ (pushed s.log) = [8, 7] ∧ popped s.log = [7] ∧
      Alone k n s 3 (.pop none) s' := by
  have h12 : (1 % n) = 1 := Nat.mod_eq_of_lt (by omega)
  have hne : 3 % n ≠ 2 % n := by
    rcases Nat.lt_or_ge 3 n with h | h
    · rw [Nat.mod_eq_of_lt h, Nat.mod_eq_of_lt (by omega)]; omega
    · have : n = 2 ∨ n = 3 := by omega
      rcases this with rfl | rfl <;> decide
  have hne' : 2 % n ≠ 1 := by
    rcases Nat.lt_or_ge 2 n with h | h
    · rw [Nat.mod_eq_of_lt h]; omega
    · have : n = 2 := by omega
      subst this; decide
  let s0 : S :=
    { enq := 2, deq := 2, cnt := 1, sub := upd (fun _ => []) (2 % n) [8], pc := fun _ => .idle
      log := [.retPush 0 8, .counted 0 8, .put 0 (2 % n) 8, .tick 0 (2 % n), .callPush 0 8, .retPop 2 none,
        .claim 2 (2 % n), .retPop 1 (some 7), .discounted 1 7, .took 1 1 7,
        .claim 1 1, .callPop 2, .callPop 1, .retPush 0 7, .counted 0 7, .put 0 1 7,
        .tick 0 1, .callPush 0 7] }
  refine ⟨s0, _, ⟨misses, ?_⟩, fun _ => rfl, rfl, rfl, lone_pop_miss hk s0 3 rfl (by simp [s0]) ?_⟩
  · simp [misses, exec, step, go, init, upd, h12, hne', hk, s0]
    constructor
    · funext q
      by_cases h2 : q = 2 % n
      · simp [upd, h2]
      · by_cases h1 : q = 1 <;> simp [upd, h1, h2]
    · funext t
      by_cases h0 : t = 0
      · simp [upd, h0]
      · by_cases h1 : t = 1
        · simp [upd, h1]
        · by_cases h2 : t = 2 <;> simp [upd, h0, h1, h2]
  · simp [s0, upd, hne]

end FF.Pool
