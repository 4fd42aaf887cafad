import Verif.Common.Trans
/-!
# The test-and-set spin lock

Source: `/repo/ff/spin-lock.hpp` 86-89 (`spin_lock`: `while(l->test_and_set(acquire));`,
`spin_unlock`: `l->clear(release)`), flag initially clear (`ATOMIC_FLAG_INIT`, 78).

Any number of threads.  `clear` is a plain store with release order, so it may sit in the thread's
store buffer (`pend`) before the other threads can see it; `test_and_set` is a read-modify-write and
acts on the visible flag, after the thread's own earlier store to the same location is visible.
-/
namespace FF.Locks.Tas

variable {T : Type}

inductive Pc where
  | out
  /-- inside `spin_lock` -/
  | trying
  /-- `spin_lock` has returned -/
  | inside
deriving DecidableEq, Repr

structure St (T : Type) where
  flag : Bool
  pend : T → Bool
  pc : T → Pc

def init (T : Type) : St T := { flag := false, pend := fun _ => false, pc := fun _ => .out }

def upd {I V : Type} [DecidableEq I] (f : I → V) (i : I) (v : V) : I → V :=
  fun j => if j = i then v else f j

inductive Act (T : Type) where
  /-- call of `spin_lock` -/
  | lock (t : T)
  /-- one `test_and_set` -/
  | tas (t : T)
  /-- `spin_unlock`: issues the store -/
  | unlock (t : T)
  /-- the pending store of `t` becomes visible -/
  | commit (t : T)

def step [DecidableEq T] (s : St T) : Act T → Option (St T)
  | .lock t => if s.pc t = .out then some { s with pc := upd s.pc t .trying } else none
  -- spin-lock.hpp 87: returns the old value and sets the flag; loop while it was set
  | .tas t =>
    if s.pc t = .trying ∧ s.pend t = false then
      if s.flag then some s else some { s with flag := true, pc := upd s.pc t .inside }
    else none
  -- spin-lock.hpp 89
  | .unlock t =>
    if s.pc t = .inside then
      some { s with pend := upd s.pend t true, pc := upd s.pc t .out }
    else none
  | .commit t =>
    if s.pend t = true then some { s with pend := upd s.pend t false, flag := false } else none

/-- `t` holds the flag: it is inside, or its release is not visible yet. -/
def holds (pc : Pc) (pend : Bool) : Bool := pc = .inside || pend

structure Inv (s : St T) : Prop where
  free : s.flag = false → ∀ t, holds (s.pc t) (s.pend t) = false
  one : ∀ t t', holds (s.pc t) (s.pend t) = true → holds (s.pc t') (s.pend t') = true → t = t'
  ex : s.flag = true → ∃ t, holds (s.pc t) (s.pend t) = true
  sep : ∀ t, s.pc t = .inside → s.pend t = false

theorem Inv.step [DecidableEq T] {s s' : St T} {act : Act T} (h : Inv s)
    (hs : Tas.step s act = some s') : Inv s' := by
  obtain ⟨flag, pend, pc⟩ := s
  obtain ⟨hf, ho, he, hsep⟩ := h
  simp only at hf ho he hsep
  cases act with
  | lock t =>
    simp only [Tas.step] at hs
    split at hs <;> simp only [Option.some.injEq, reduceCtorEq] at hs
    rename_i hpc
    subst hs
    have key : ∀ t', holds (upd pc t .trying t') (pend t') = holds (pc t') (pend t') := by
      intro t'; simp only [upd]; split
      · rename_i e; subst e; rw [hpc]; rfl
      · rfl
    refine ⟨fun hfl t' => ?_, fun a b => ?_, fun hfl => ?_, fun t' => ?_⟩
    · rw [key]; exact hf hfl t'
    · simp only [key]; exact ho a b
    · simp only [key]; exact he hfl
    · simp only [upd]; split
      · simp
      · exact hsep t'
  | tas t =>
    simp only [Tas.step] at hs
    split at hs <;> try simp only [reduceCtorEq] at hs
    rename_i hpc
    split at hs <;> simp only [Option.some.injEq] at hs <;> subst hs
    · exact ⟨hf, ho, he, hsep⟩
    · rename_i hfl
      simp only [Bool.not_eq_true] at hfl
      have hall := hf hfl
      refine ⟨by simp, fun a b => ?_, fun _ => ⟨t, by simp [upd, holds]⟩, fun t' => ?_⟩
      · simp only [upd]
        split <;> split
        · intros; simp_all
        · intro _ h2; rw [hall b] at h2; simp at h2
        · intro h1; rw [hall a] at h1; simp at h1
        · intro h1; rw [hall a] at h1; simp at h1
      · simp only [upd]; split
        · rename_i e; subst e; exact fun _ => hpc.2
        · exact hsep t'
  | unlock t =>
    simp only [Tas.step] at hs
    split at hs <;> simp only [Option.some.injEq, reduceCtorEq] at hs
    rename_i hpc
    subst hs
    have key : ∀ t', holds (upd pc t .out t') (upd pend t true t') = holds (pc t') (pend t') := by
      intro t'; simp only [upd]; split
      · rename_i e; subst e; rw [hpc]; rfl
      · rfl
    refine ⟨fun hfl t' => ?_, fun a b => ?_, fun hfl => ?_, fun t' => ?_⟩
    · rw [key]; exact hf hfl t'
    · simp only [key]; exact ho a b
    · simp only [key]; exact he hfl
    · simp only [upd]; split
      · simp
      · exact hsep t'
  | commit t =>
    simp only [Tas.step] at hs
    split at hs <;> simp only [Option.some.injEq, reduceCtorEq] at hs
    rename_i hpd
    subst hs
    have hout : ∀ t', holds (pc t') (upd pend t false t') = false := by
      intro t'
      simp only [upd]; split
      · rename_i e; subst e
        cases hb : holds (pc t') false with
        | false => rfl
        | true =>
          simp only [holds, Bool.or_false, decide_eq_true_eq] at hb
          rw [hsep t' hb] at hpd; simp at hpd
      · rename_i hne
        cases hb : holds (pc t') (pend t') with
        | false => rfl
        | true => exact absurd (ho t' t hb (by simp [holds, hpd])) hne
    refine ⟨fun _ => hout, fun a b h1 => ?_, by simp, fun t' => ?_⟩
    · rw [hout a] at h1; simp at h1
    · simp only [upd]; split
      · simp
      · exact hsep t'

theorem reach_inv [DecidableEq T] {s : St T} (h : Reach step (init T) s) : Inv s :=
  h.inv ⟨fun _ _ => rfl, by simp [init, holds], by simp [init], by simp [init]⟩
    fun _ _ _ hI hs => hI.step hs

/-- **C13, mutual exclusion**: at most one thread is between `spin_lock` and `spin_unlock`. -/
theorem C13_mutual_exclusion [DecidableEq T] (s : St T) (h : Reach step (init T) s) (t t' : T)
    (h1 : s.pc t = .inside) (h2 : s.pc t' = .inside) : t = t' :=
  (reach_inv h).one t t' (by simp [holds, h1]) (by simp [holds, h2])

/-- **C13, handover**: when no thread is inside, every waiting thread can be the next one to enter,
at most two actions later (the pending release becomes visible, then its `test_and_set`); in
particular right after an unlock. -/
theorem C13_handover [DecidableEq T] (s : St T) (h : Reach step (init T) s)
    (hno : ∀ t, s.pc t ≠ .inside) (t : T) (ht : s.pc t = .trying) :
    ∃ as s', as.length ≤ 2 ∧ exec step s as = some s' ∧ s'.pc t = .inside ∧
      (∀ a ∈ as, a = .tas t ∨ ∃ t', a = .commit t') := by
  have hI := reach_inv h
  cases hf : s.flag with
  | false =>
    have hp : s.pend t = false := by
      have := hI.free hf t
      simp only [holds, Bool.or_eq_false_iff] at this
      exact this.2
    exact ⟨[.tas t], { s with flag := true, pc := upd s.pc t .inside }, by simp,
      by simp [exec, step, ht, hp, hf], by simp [upd], by simp⟩
  | true =>
    obtain ⟨t', ht'⟩ := hI.ex hf
    have hp : s.pend t' = true := by
      simp only [holds, Bool.or_eq_true, decide_eq_true_eq] at ht'
      exact ht'.resolve_left (hno t')
    have hpt : upd s.pend t' false t = false := by
      simp only [upd]; split
      · rfl
      · rename_i hne
        cases hb : s.pend t with
        | false => rfl
        | true => exact absurd (hI.one t t' (by simp [holds, hb]) ht') hne
    refine ⟨[.commit t', .tas t],
      { s with flag := true, pend := upd s.pend t' false, pc := upd s.pc t .inside }, by simp, by simp [exec, step, ht, hp, hpt], by simp [upd], ?_⟩
    simp

/-- While one thread is inside, the attempts of the others change nothing. -/
theorem C13_no_entry [DecidableEq T] (s : St T) (h : Reach step (init T) s) (t t' : T)
    (h1 : s.pc t = .inside) : step s (.tas t') = none ∨ step s (.tas t') = some s := by
  have hI := reach_inv h
  have hf : s.flag = true := by
    cases hf : s.flag with
    | true => rfl
    | false =>
      have := hI.free hf t
      simp [holds, h1] at this
  simp only [step, hf]
  split
  · exact Or.inr rfl
  · exact Or.inl rfl

/-! Non-vacuity: thread 1 waits while thread 0 is inside, and gets in after the release. -/
example : (exec step (init Nat) [.lock 0, .tas 0, .lock 1, .tas 1, .unlock 0, .tas 1, .commit 0,
    .tas 1]).map (fun s => (s.pc 0, s.pc 1, s.flag)) = some (.out, .inside, true) := by decide

example : (exec step (init Nat) [.lock 0, .tas 0, .lock 1, .unlock 0]).map
    (fun s => (s.pc 0, s.pc 1, s.pend 0)) = some (.out, .trying, true) := by decide

end FF.Locks.Tas
