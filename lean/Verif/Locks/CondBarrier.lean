import Verif.Locks.Barrier
/-!
# C79: the blocking barrier of a mutex and a condition variable

Source: `/repo/ff/barrier.hpp` 68-116 (`Barrier` where there is no `pthread_barrier`; `barrierSetup` 90-96, `doBarrier` 98-106).

`N` threads, each calling `doBarrier` any number of times.  `counter` is only accessed by the holder of the mutex, so that the body between `pthread_mutex_lock` and
`pthread_cond_wait` or `pthread_mutex_unlock` is one action.  `pthread_cond_wait` releases the mutex and waits in one step, a woken thread takes the mutex again before it goes on.
A thread may also wake up without a broadcast if `sp` is true (POSIX allows this).
Simplifications: `size_t` as natural number (never above `N`); the calls to the mutex and the condition variable do not fail.
Ghost: `entered t`, `left t` count the calls started and returned from; `round` counts the broadcasts.
-/
namespace FF.Locks.CondBarrier
open FF.Locks.Tas (upd)
open FF.Locks.Barrier (countP_upd countP_all sum_upd_lt)

inductive Pc where
  | out
  /-- about to take the mutex -/
  | want
  /-- holds the mutex, about to execute `++counter` -/
  | inside
  /-- in `pthread_cond_wait` -/
  | wait
  /-- woken, about to take the mutex again -/
  | woken
  /-- holds the mutex, about to release it and return -/
  | leave
deriving DecidableEq, Repr

structure St (N : Nat) where
  counter : Nat
  /-- `bLock`: the holder -/
  owner : Option (Fin N)
  pc : Fin N → Pc
  entered : Fin N → Nat
  left : Fin N → Nat
  round : Nat

/-- After `barrierSetup(N)` on a new object (barrier.hpp 74-96). -/
def init (N : Nat) : St N :=
  { counter := 0, owner := none, pc := fun _ => .out, entered := fun _ => 0, left := fun _ => 0, round := 0 }

inductive Act (N : Nat) where
  /-- call -/
  | enter (t : Fin N)
  /-- `pthread_mutex_lock` succeeds -/
  | lock (t : Fin N)
  /-- `++counter`, then the broadcast or the wait -/
  | count (t : Fin N)
  /-- the mutex is taken again at the end of `pthread_cond_wait` -/
  | relock (t : Fin N)
  /-- `pthread_mutex_unlock`, return -/
  | unlock (t : Fin N)
  /-- a thread wakes up without a broadcast -/
  | spurious (t : Fin N)

/-- A broadcast wakes all waiting threads (barrier.hpp 101). -/
def wake : Pc → Pc
  | .wait => .woken
  | c => c

def step (sp : Bool) {N : Nat} (s : St N) : Act N → Option (St N)
  -- barrier.hpp 98
  | .enter t =>
    if s.pc t = .out then some { s with pc := upd s.pc t .want, entered := upd s.entered t (s.entered t + 1) } else none
  -- barrier.hpp 99
  | .lock t =>
    if s.pc t = .want ∧ s.owner = none then some { s with pc := upd s.pc t .inside, owner := some t } else none
  -- barrier.hpp 100-104
  | .count t =>
    if s.pc t = .inside then
      if s.counter + 1 = N then
        some { s with counter := 0, pc := upd (fun t' => wake (s.pc t')) t .leave, round := s.round + 1 }
      else some { s with counter := s.counter + 1, pc := upd s.pc t .wait, owner := none }
    else none
  -- barrier.hpp 104
  | .relock t =>
    if s.pc t = .woken ∧ s.owner = none then some { s with pc := upd s.pc t .leave, owner := some t } else none
  -- barrier.hpp 105-106
  | .unlock t =>
    if s.pc t = .leave then some { s with pc := upd s.pc t .out, owner := none, left := upd s.left t (s.left t + 1) } else none
  -- barrier.hpp 104
  | .spurious t =>
    if sp = true ∧ s.pc t = .wait then some { s with pc := upd s.pc t .woken } else none

/-- What is true of one thread when `round = R`. -/
def TOk (R : Nat) (entered left : Nat) : Pc → Prop
  | .out => entered = R ∧ left = R
  | .want | .inside | .wait => entered = R + 1 ∧ left = R
  | .woken | .leave => entered = R ∧ left + 1 = R

def waits (pc : Pc) : Bool := decide (pc = .wait)

structure Inv {N : Nat} (s : St N) : Prop where
  th : ∀ t, TOk s.round (s.entered t) (s.left t) (s.pc t)
  cnt : s.counter = (List.finRange N).countP fun t => waits (s.pc t)
  own : ∀ t, s.owner = some t ↔ (s.pc t = .inside ∨ s.pc t = .leave)
  lt : 0 < N → s.counter < N

theorem init_inv (N : Nat) : Inv (init N) where
  th := fun _ => ⟨rfl, rfl⟩
  cnt := by simp [init, waits]
  own := by simp [init]
  lt := fun h => h

theorem countP_same {N : Nat} {p p' : Fin N → Bool} (h : ∀ t, p' t = p t) : (List.finRange N).countP p' = (List.finRange N).countP p := by
  congr 1; funext t; exact h t

/-- when the counter is full all other threads wait -/
theorem others_wait {N : Nat} {s : St N} (h : Inv s) {t : Fin N} (ht : s.pc t = .inside) (hc : s.counter + 1 = N) (t' : Fin N) (hne : t' ≠ t) :
    s.pc t' = .wait := by
  have h1 := countP_upd (fun t => waits (s.pc t)) (fun t' => waits (upd s.pc t .wait t')) t (fun t' e => by simp [upd, e]) (by simp [waits, ht]) (by simp [upd, waits])
  rw [← h.cnt, hc] at h1
  have h2 := countP_all h1 t'
  simpa [waits, upd, hne] using h2

theorem Inv.step {N : Nat} {s s' : St N} {a : Act N} (h : Inv s) (hs : CondBarrier.step false s a = some s') : Inv s' := by
  have hth : ∀ (t : Fin N) (c : Pc) (e l : Fin N → Nat), (∀ t', t' ≠ t → e t' = s.entered t' ∧ l t' = s.left t') → TOk s.round (e t) (l t) c →
      ∀ t', TOk s.round (e t') (l t') (upd s.pc t c t') := by
    intro t c e l h1 h2 t'
    by_cases ht : t' = t
    · subst ht; simpa [upd] using h2
    · simp only [upd, ht, if_false]; rw [(h1 t' ht).1, (h1 t' ht).2]; exact h.th t'
  have hcnt : ∀ (t : Fin N) (c : Pc), s.pc t ≠ .wait → c ≠ .wait → s.counter = (List.finRange N).countP fun t' => waits (upd s.pc t c t') := by
    intro t c h1 h2
    rw [h.cnt]
    apply countP_same
    intro t'
    by_cases ht : t' = t
    · subst ht; simp [upd, waits, h1, h2]
    · simp [upd, ht]
  cases a with
  | enter t =>
    simp only [CondBarrier.step] at hs
    split at hs <;> simp only [Option.some.injEq, reduceCtorEq] at hs
    rename_i hp
    subst hs
    have ht := h.th t
    rw [hp] at ht
    refine ⟨hth t _ _ _ (fun t' e => ⟨by simp [upd, e], rfl⟩) ⟨by simp [upd, ht.1], ht.2⟩, hcnt t _ (by simp [hp]) (by simp), ?_, h.lt⟩
    intro t'
    by_cases e : t' = t
    · subst e
      have := (h.own t')
      simp [upd, hp] at this ⊢; exact this
    · simp [upd, e]; exact h.own t'
  | lock t =>
    simp only [CondBarrier.step] at hs
    split at hs <;> simp only [Option.some.injEq, reduceCtorEq] at hs
    rename_i hp
    subst hs
    have ht := h.th t
    rw [hp.1] at ht
    refine ⟨hth t _ _ _ (fun t' e => ⟨rfl, rfl⟩) ht, hcnt t _ (by simp [hp.1]) (by simp), ?_, h.lt⟩
    intro t'
    by_cases e : t' = t
    · subst e; simp [upd]
    · have := h.own t'
      rw [hp.2] at this
      simp [upd, e, Ne.symm e] at this ⊢; exact this
  | count t =>
    simp only [CondBarrier.step] at hs
    split at hs
    · rename_i hp
      have ht := h.th t
      rw [hp] at ht
      have hown := (h.own t).2 (Or.inl hp)
      split at hs
      · rename_i hc
        simp only [Option.some.injEq] at hs
        subst hs
        have how := others_wait h hp hc
        refine ⟨?_, ?_, ?_, fun hN => hN⟩
        · intro t'
          by_cases e : t' = t
          · subst e; simp only [upd, if_true]; exact ⟨ht.1, by rw [ht.2]⟩
          · have h1 := h.th t'
            rw [how t' e] at h1
            simp only [upd, e, if_false, how t' e, wake]; exact ⟨h1.1, by rw [h1.2]⟩
        · symm
          rw [List.countP_eq_zero]
          intro t' _
          by_cases e : t' = t
          · subst e; simp [upd, waits]
          · simp [upd, e, how t' e, wake, waits]
        · intro t'
          by_cases e : t' = t
          · subst e; simp [upd, hown]
          · simp [upd, e, how t' e, wake, hown, Ne.symm e]
      · rename_i hc
        simp only [Option.some.injEq] at hs
        subst hs
        refine ⟨hth t _ _ _ (fun t' e => ⟨rfl, rfl⟩) ht, ?_, ?_, fun hN => ?_⟩
        · rw [h.cnt]
          exact (countP_upd _ _ t (fun t' e => by simp [upd, e]) (by simp [waits, hp]) (by simp [upd, waits])).symm
        · intro t'
          by_cases e : t' = t
          · subst e; simp [upd]
          · have := h.own t'
            rw [hown] at this
            simp [upd, e, Ne.symm e] at this ⊢; exact this
        · have := h.lt hN
          show s.counter + 1 < N
          omega
    · simp at hs
  | relock t =>
    simp only [CondBarrier.step] at hs
    split at hs <;> simp only [Option.some.injEq, reduceCtorEq] at hs
    rename_i hp
    subst hs
    have ht := h.th t
    rw [hp.1] at ht
    refine ⟨hth t _ _ _ (fun t' e => ⟨rfl, rfl⟩) ht, hcnt t _ (by simp [hp.1]) (by simp), ?_, h.lt⟩
    intro t'
    by_cases e : t' = t
    · subst e; simp [upd]
    · have := h.own t'
      rw [hp.2] at this
      simp [upd, e, Ne.symm e] at this ⊢; exact this
  | unlock t =>
    simp only [CondBarrier.step] at hs
    split at hs <;> simp only [Option.some.injEq, reduceCtorEq] at hs
    rename_i hp
    subst hs
    have ht := h.th t
    rw [hp] at ht
    have hown := (h.own t).2 (Or.inr hp)
    refine ⟨hth t _ _ _ (fun t' e => ⟨rfl, by simp [upd, e]⟩) ⟨ht.1, by simp [upd, ht.2]⟩, hcnt t _ (by simp [hp]) (by simp), ?_, h.lt⟩
    intro t'
    by_cases e : t' = t
    · subst e; simp [upd]
    · have := h.own t'
      rw [hown] at this
      simp [upd, e, Ne.symm e] at this ⊢; exact this
  | spurious t => simp [CondBarrier.step] at hs

theorem reach_inv {N : Nat} {s : St N} (h : Reach (step false) (init N) s) : Inv s :=
  h.inv (init_inv N) fun _ _ _ hI hs => hI.step hs

/-- **C79, separation of phases** (partial: no thread wakes up without a broadcast): when a thread has returned from its `k`-th `doBarrier`, every thread of the
group has entered its `k`-th `doBarrier`. -/
theorem C79_separation_partial (N : Nat) (s : St N) (h : Reach (step false) (init N) s) (t t' : Fin N) (k : Nat) (hk : k ≤ s.left t) : k ≤ s.entered t' := by
  have hI := reach_inv h
  have h1 := hI.th t
  have h2 := hI.th t'
  have a : s.left t ≤ s.round := by revert h1; cases s.pc t <;> simp only [TOk] <;> omega
  have b : s.round ≤ s.entered t' := by revert h2; cases s.pc t' <;> simp only [TOk] <;> omega
  omega

/-- **C79, mutual exclusion**: the counter is accessed by one thread at a time (also with spurious wake-ups). -/
theorem C79_exclusive (sp : Bool) (N : Nat) (s : St N) (h : Reach (step sp) (init N) s) (t t' : Fin N)
    (ht : s.pc t = .inside ∨ s.pc t = .leave) (ht' : s.pc t' = .inside ∨ s.pc t' = .leave) : t = t' := by
  have key : ∀ t, s.owner = some t ↔ (s.pc t = .inside ∨ s.pc t = .leave) := by
    refine h.inv (Inv := fun x => ∀ t, x.owner = some t ↔ (x.pc t = .inside ∨ x.pc t = .leave)) (by simp [init]) ?_
    intro x a y hx hs t
    have hown := hx
    cases a with
    | enter u =>
      simp only [step] at hs
      split at hs <;> simp only [Option.some.injEq, reduceCtorEq] at hs
      rename_i hp
      subst hs
      by_cases e : t = u
      · subst e; have := hx t; simp [upd, hp] at this ⊢; exact this
      · simp [upd, e]; exact hx t
    | lock u =>
      simp only [step] at hs
      split at hs <;> simp only [Option.some.injEq, reduceCtorEq] at hs
      rename_i hp
      subst hs
      by_cases e : t = u
      · subst e; simp [upd]
      · have := hx t; rw [hp.2] at this; simp [upd, e, Ne.symm e] at this ⊢; exact this
    | relock u =>
      simp only [step] at hs
      split at hs <;> simp only [Option.some.injEq, reduceCtorEq] at hs
      rename_i hp
      subst hs
      by_cases e : t = u
      · subst e; simp [upd]
      · have := hx t; rw [hp.2] at this; simp [upd, e, Ne.symm e] at this ⊢; exact this
    | unlock u =>
      simp only [step] at hs
      split at hs <;> simp only [Option.some.injEq, reduceCtorEq] at hs
      rename_i hp
      subst hs
      by_cases e : t = u
      · subst e; simp [upd]
      · have := hx t; rw [(hx u).2 (Or.inr hp)] at this; simp [upd, e, Ne.symm e] at this ⊢; exact this
    | spurious u =>
      simp only [step] at hs
      split at hs <;> simp only [Option.some.injEq, reduceCtorEq] at hs
      rename_i hp
      subst hs
      by_cases e : t = u
      · subst e; have := hx t; simp [upd, hp.2] at this ⊢; exact this
      · simp [upd, e]; exact hx t
    | count u =>
      simp only [step] at hs
      split at hs
      · rename_i hp
        have hu := (hx u).2 (Or.inl hp)
        split at hs
        · simp only [Option.some.injEq] at hs
          subst hs
          by_cases e : t = u
          · subst e; simp [upd, hu]
          · have := hx t
            rw [hu] at this
            simp only [upd, e, if_false, hu, Option.some.injEq, Ne.symm e, false_iff] at this ⊢
            revert this
            cases x.pc t <;> simp [wake]
        · simp only [Option.some.injEq] at hs
          subst hs
          by_cases e : t = u
          · subst e; simp [upd]
          · have := hx t; rw [hu] at this; simp [upd, e, Ne.symm e] at this ⊢; exact this
      · simp at hs
  have h1 := (key t).2 ht
  have h2 := (key t').2 ht'
  rw [h1] at h2
  exact Option.some.inj h2

/-- Number of actions the threads inside still have to do. -/
def work : Pc → Nat
  | .out => 0
  | .want => 5
  | .inside => 4
  | .wait => 3
  | .woken => 2
  | .leave => 1

def isEnter {N : Nat} : Act N → Bool
  | .enter _ => true
  | _ => false

theorem sum_le {N : Nat} {f g : Fin N → Nat} (h : ∀ t, g t ≤ f t) : ((List.finRange N).map g).sum ≤ ((List.finRange N).map f).sum := by
  induction List.finRange N with
  | nil => simp
  | cons a l ih => simp only [List.map_cons, List.sum_cons]; have := h a; omega

/-- **C79, every thread can return** (partial: no thread wakes up without a broadcast): from any state in which all threads have entered their `k`-th call, the
threads inside can all return without anybody entering again. -/
theorem C79_all_return_partial (N : Nat) (s : St N) (h : Reach (step false) (init N) s) (k : Nat) (hk : ∀ t, s.entered t = k) :
    ∃ as s', exec (step false) s as = some s' ∧ (∀ a ∈ as, isEnter a = false) ∧ ∀ t, s'.pc t = .out ∧ s'.left t = k := by
  generalize hm : ((List.finRange N).map fun t => work (s.pc t)).sum = m
  induction m using Nat.strongRecOn generalizing s with
  | ind m ih =>
  have hI := reach_inv h
  by_cases hall : ∀ t, s.pc t = .out
  · refine ⟨[], s, rfl, by simp, fun t => ⟨hall t, ?_⟩⟩
    have := hI.th t
    rw [hall t] at this
    rw [this.2, ← this.1, hk]
  · have hstep : ∃ a s1, step false s a = some s1 ∧ isEnter a = false ∧
        ((List.finRange N).map fun t => work (s1.pc t)).sum < m ∧ ∀ t, s1.entered t = k := by
      cases ho : s.owner with
      | some t =>
        rcases (hI.own t).1 ho with hp | hp
        · by_cases hc : s.counter + 1 = N
          · refine ⟨.count t, _, (if_pos hp).trans (if_pos hc), rfl, ?_, hk⟩
            rw [← hm]
            refine Nat.lt_of_le_of_lt (sum_le (f := fun t' => work (upd s.pc t .leave t')) ?_)
              (sum_upd_lt _ _ t (fun t' e => by simp [upd, e]) (by simp [upd, hp, work]))
            intro t'
            by_cases e : t' = t
            · simp [upd, e]
            · simp only [upd, e, if_false]
              cases s.pc t' <;> simp [wake, work]
          · refine ⟨.count t, _, (if_pos hp).trans (if_neg hc), rfl, ?_, hk⟩
            rw [← hm]
            exact sum_upd_lt _ _ t (fun t' e => by simp [upd, e]) (by simp [upd, hp, work])
        · refine ⟨.unlock t, _, if_pos hp, rfl, ?_, hk⟩
          rw [← hm]
          exact sum_upd_lt _ _ t (fun t' e => by simp [upd, e]) (by simp [upd, hp, work])
      | none =>
        by_cases hw : ∃ t, s.pc t = .want
        · obtain ⟨t, hp⟩ := hw
          refine ⟨.lock t, _, if_pos ⟨hp, ho⟩, rfl, ?_, hk⟩
          rw [← hm]
          exact sum_upd_lt _ _ t (fun t' e => by simp [upd, e]) (by simp [upd, hp, work])
        · by_cases hw2 : ∃ t, s.pc t = .woken
          · obtain ⟨t, hp⟩ := hw2
            refine ⟨.relock t, _, if_pos ⟨hp, ho⟩, rfl, ?_, hk⟩
            rw [← hm]
            exact sum_upd_lt _ _ t (fun t' e => by simp [upd, e]) (by simp [upd, hp, work])
          · -- all threads are out or wait; since all have entered as often, all wait: the counter would be full
            exfalso
            have hcase : ∀ t, s.pc t = .out ∨ s.pc t = .wait := by
              intro t
              have h1 := hI.own t
              rw [ho] at h1
              have h2 : s.pc t ≠ .want := fun e => hw ⟨t, e⟩
              have h3 : s.pc t ≠ .woken := fun e => hw2 ⟨t, e⟩
              revert h1 h2 h3
              cases s.pc t <;> simp
            obtain ⟨t, ht⟩ := Classical.not_forall.1 hall
            have htw := (hcase t).resolve_left ht
            have h1 := hI.th t
            rw [htw] at h1
            have hall2 : ∀ t', s.pc t' = .wait := by
              intro t'
              refine (hcase t').resolve_left fun e => ?_
              have h2 := hI.th t'
              rw [e] at h2
              have := hk t; have := hk t'
              have := h1.1; have := h2.1
              omega
            have h3 : (List.finRange N).countP (fun t => waits (s.pc t)) = N := by
              have : (List.finRange N).countP (fun t => waits (s.pc t)) = (List.finRange N).length := by
                rw [List.countP_eq_length]
                intro t' _
                simp [waits, hall2 t']
              simpa using this
            have := hI.lt (Nat.lt_of_le_of_lt (Nat.zero_le _) t.isLt)
            rw [hI.cnt, h3] at this
            omega
    obtain ⟨a, s1, h1, h2, h3, h4⟩ := hstep
    obtain ⟨as, s', h5, h6, h7⟩ := ih _ h3 s1 (h.tail h1) h4 rfl
    refine ⟨a :: as, s', by simp only [exec, h1]; exact h5, ?_, h7⟩
    intro b hb
    rcases List.mem_cons.1 hb with rfl | hb
    · exact h2
    · exact h6 b hb

/-- **C79 fails** if a thread may wake up without a broadcast, for every group of at least two threads: a thread returns from its first `doBarrier` although another one
has not entered it. -/
theorem C79_spurious_counterexample (N : Nat) (t t' : Fin N) (hne : t ≠ t') :
    ∃ s, Reach (step true) (init N) s ∧ s.left t = 1 ∧ s.entered t' = 0 := by
  have hN : ¬ 0 + 1 = N := by
    have h1 := t.isLt
    have h2 := t'.isLt
    have : t.val ≠ t'.val := fun e => hne (Fin.ext e)
    omega
  have key : ∃ s, exec (step true) (init N) [.enter t, .lock t, .count t, .spurious t, .relock t, .unlock t] = some s ∧ s.left t = 1 ∧ s.entered t' = 0 := by
    simp [exec, step, init, upd, hN, Ne.symm hne]
  obtain ⟨s, h1, h2⟩ := key
  exact ⟨s, ⟨_, h1⟩, h2⟩

/-! With two threads: the thread that has returned is still counted, so that its second call completes the round although the other thread has not called `doBarrier` at all. -/
example : (exec (step true) (init 2) [.enter 0, .lock 0, .count 0, .spurious 0, .relock 0, .unlock 0, .enter 0, .lock 0, .count 0, .unlock 0]).map
    (fun s => (s.left 0, s.entered 1, s.counter)) = some (2, 0, 0) := by decide

/-! Non-vacuity: three threads, two rounds, thread 2 enters the second round while the others are still in the first one. -/
example : (exec (step false) (init 3) [.enter 0, .lock 0, .enter 1, .count 0, .lock 1, .count 1, .enter 2, .lock 2, .count 2, .unlock 2, .enter 2, .lock 2, .count 2,
    .relock 1, .unlock 1]).map (fun s => (s.left 0, s.left 1, s.left 2, s.entered 2, s.counter)) = some (0, 1, 1, 2, 1) := by decide

end FF.Locks.CondBarrier
