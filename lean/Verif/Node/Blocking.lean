import Verif.Common.Trans
import Mathlib.Tactic.IntervalCases
/-!
# C55: a channel in blocking mode

`ff_node::Push` and `Pop` with `blocking_out` and `blocking_in` (ff/node.hpp:576-621) on the two ends of a
channel.  The queue itself is the FIFO of C01, C08; `empty`, `push` and `pop` are one action each.

The mutex of either side is taken by that side only (the signal is sent without it), so taking it never
waits.  A wait ends by a signal, or after the time limit (ff/config.hpp:179, ff/utils.hpp:217-224), or
spuriously; the last two are the actions `pTime` and `cTime`.  The condition variable of the producer is
never signalled.
-/
namespace FF.Blocking

/-- Where the producer is in `Push` (ff/node.hpp:577-590): before `empty()`, before `push`, before the
signal, before the wait, waiting. -/
inductive PPc where
  | look
  | push (empty : Bool)
  | signal
  | lock
  | wait
  deriving DecidableEq

/-- Where the consumer is in `Pop` (ff/node.hpp:601-613): before `pop`, before the wait, waiting. -/
inductive CPc where
  | pop
  | lock
  | wait
  deriving DecidableEq

/-- The channel: what the producer still has to push, the queue, what the consumer has received, how many
elements it still has to receive. -/
structure S (T : Type) where
  todo : List T
  q : List T
  got : List T
  left : Nat
  pp : PPc
  cp : CPc

/-- The producer pushes `l`, the consumer receives as many. -/
def init {T : Type} (l : List T) : S T := ⟨l, [], [], l.length, .look, .pop⟩

/-- What can happen: the next action of the producer, of the consumer, and the end of a wait without a
signal. -/
inductive Act where
  | p
  | c
  | pTime
  | cTime
  deriving DecidableEq

variable {T : Type}

/-- One step; `cap` is the capacity of the queue. -/
def step (cap : Nat) (s : S T) : Act → Option (S T)
  | .p =>
    match s.pp, s.todo with
    -- `bool empty=out->empty()` (ff/node.hpp:579)
    | .look, _ :: _ => some { s with pp := .push s.q.isEmpty }
    -- `push(ptr)` (ff/node.hpp:580-583)
    | .push e, x :: xs =>
      if s.q.length < cap then
        some { s with q := s.q ++ [x], todo := xs, pp := if e then .signal else .look }
      else some { s with pp := .lock }
    -- `pthread_cond_signal(p_cons_c)` (ff/node.hpp:582)
    | .signal, _ => some { s with pp := .look, cp := if s.cp = .wait then .pop else s.cp }
    -- `pthread_mutex_lock` and the begin of the wait (ff/node.hpp:584-587)
    | .lock, _ :: _ => some { s with pp := .wait }
    | _, _ => none
  | .pTime => if s.pp = .wait then some { s with pp := .look } else none
  | .c =>
    if s.left = 0 then none
    else match s.cp with
    -- `in->pop(ptr)` (ff/node.hpp:604)
    | .pop =>
      match s.q with
      | x :: xs => some { s with q := xs, got := s.got ++ [x], left := s.left - 1 }
      | [] => some { s with cp := .lock }
    -- `pthread_mutex_lock` and the begin of the wait (ff/node.hpp:606-609)
    | .lock => some { s with cp := .wait }
    | .wait => none
  | .cTime => if s.cp = .wait then some { s with cp := .pop } else none

/-! ## Order -/

/-- What does not change. -/
structure Inv (l : List T) (s : S T) : Prop where
  all : s.got ++ s.q ++ s.todo = l
  left : s.left = s.q.length + s.todo.length
  busy : ∀ e, s.pp = .push e → s.todo ≠ []
  busy' : s.pp = .lock ∨ s.pp = .wait → s.todo ≠ []

theorem Inv.step {cap : Nat} {l : List T} {s s' : S T} {a : Act} (h : Inv l s)
    (hs : step cap s a = some s') : Inv l s' := by
  obtain ⟨h1, h2, h3, h4⟩ := h
  cases a with
  | p =>
    simp only [Blocking.step] at hs
    split at hs
    · rename_i x xs hp ht
      simp only [Option.some.injEq] at hs; subst hs
      exact ⟨h1, h2, fun _ _ => by simp [ht], fun _ => by simp [ht]⟩
    · rename_i e x xs hp ht
      split at hs
      · simp only [Option.some.injEq] at hs; subst hs
        rw [ht] at h1 h2
        refine ⟨by simpa using h1, by simp at h2 ⊢; omega, ?_, ?_⟩ <;> · dsimp only; split <;> simp
      · simp only [Option.some.injEq] at hs; subst hs
        exact ⟨h1, h2, fun _ _ => by simp [ht], fun _ => by simp [ht]⟩
    · simp only [Option.some.injEq] at hs; subst hs
      exact ⟨h1, h2, by simp, by simp⟩
    · rename_i x xs hp ht
      simp only [Option.some.injEq] at hs; subst hs
      exact ⟨h1, h2, by simp, fun _ => by simp [ht]⟩
    · cases hs
  | pTime =>
    simp only [Blocking.step] at hs
    split at hs
    · simp only [Option.some.injEq] at hs; subst hs; exact ⟨h1, h2, by simp, by simp⟩
    · cases hs
  | c =>
    simp only [Blocking.step] at hs
    split at hs
    · cases hs
    split at hs
    · split at hs
      · rename_i x xs hq
        simp only [Option.some.injEq] at hs; subst hs
        rw [hq] at h1 h2
        exact ⟨by simpa using h1, by simp at h2 ⊢; omega, h3, h4⟩
      · simp only [Option.some.injEq] at hs; subst hs; exact ⟨h1, h2, h3, h4⟩
    · simp only [Option.some.injEq] at hs; subst hs; exact ⟨h1, h2, h3, h4⟩
    · cases hs
  | cTime =>
    simp only [Blocking.step] at hs
    split at hs
    · simp only [Option.some.injEq] at hs; subst hs; exact ⟨h1, h2, h3, h4⟩
    · cases hs

theorem inv_init (l : List T) : Inv l (init l) := ⟨by simp [init], by simp [init], by simp [init], by simp [init]⟩

/-- **C55**, order: in blocking mode nothing is lost, duplicated or reordered. -/
theorem C55_order {cap : Nat} {l : List T} {s : S T} (h : Reach (step cap) (init l) s) :
    s.got ++ s.q ++ s.todo = l :=
  (Reach.inv h (inv_init l) fun _ _ _ hi hs => hi.step hs).all

/-! ## How long an element waits -/

/-- The actions of the consumer, the end of its wait included. -/
def isC : Act → Bool
  | .c => true
  | .cTime => true
  | _ => false

/-- The actions of the producer. -/
def isP (a : Act) : Bool := !isC a

/-- Actions the consumer needs before it pops. -/
def rankC (s : S T) : Nat :=
  match s.cp with
  | .pop => 0
  | .wait => 1
  | .lock => 2

/-- Actions the producer needs before it pushes, if there is room. -/
def rankP (s : S T) : Nat :=
  match s.pp with
  | .push _ => 0
  | .look => 1
  | .signal => 2
  | .wait => 2
  | .lock => 3

theorem c_step {cap : Nat} {s s' : S T} {a : Act} (hq : s.q ≠ []) (hs : step cap s a = some s') :
    (isC a = true → s'.got.length = s.got.length + 1 ∨ (s'.got = s.got ∧ s'.q = s.q ∧ rankC s' < rankC s)) ∧
    (isC a = false → s'.got = s.got ∧ s'.q ≠ [] ∧ rankC s' ≤ rankC s) := by
  cases a with
  | p =>
    refine ⟨by simp [isC], fun _ => ?_⟩
    simp only [step] at hs
    split at hs
    · simp only [Option.some.injEq] at hs; subst hs; exact ⟨rfl, hq, Nat.le_refl _⟩
    · split at hs
      · simp only [Option.some.injEq] at hs; subst hs; exact ⟨rfl, by simp, Nat.le_refl _⟩
      · simp only [Option.some.injEq] at hs; subst hs; exact ⟨rfl, hq, Nat.le_refl _⟩
    · simp only [Option.some.injEq] at hs; subst hs
      refine ⟨rfl, hq, ?_⟩
      unfold rankC
      dsimp only
      split <;> rename_i h <;> cases hc : s.cp <;> simp_all
    · simp only [Option.some.injEq] at hs; subst hs; exact ⟨rfl, hq, Nat.le_refl _⟩
    · cases hs
  | pTime =>
    refine ⟨by simp [isC], fun _ => ?_⟩
    simp only [step] at hs
    split at hs
    · simp only [Option.some.injEq] at hs; subst hs; exact ⟨rfl, hq, Nat.le_refl _⟩
    · cases hs
  | c =>
    refine ⟨fun _ => ?_, by simp [isC]⟩
    simp only [step] at hs
    split at hs
    · cases hs
    split at hs
    · split at hs
      · simp only [Option.some.injEq] at hs; subst hs; left; simp
      · rename_i h; exact absurd h hq
    · rename_i h
      simp only [Option.some.injEq] at hs; subst hs
      right; simp [rankC, h]
    · cases hs
  | cTime =>
    refine ⟨fun _ => ?_, by simp [isC]⟩
    simp only [step] at hs
    split at hs
    · rename_i h
      simp only [Option.some.injEq] at hs; subst hs
      right; simp [rankC, h]
    · cases hs

theorem got_mono {cap : Nat} {s s' : S T} {a : Act} (hs : step cap s a = some s') :
    s.got.length ≤ s'.got.length ∧ s'.todo.length ≤ s.todo.length := by
  cases a with
  | p =>
    simp only [step] at hs
    split at hs
    · simp only [Option.some.injEq] at hs; subst hs; simp
    · rename_i h
      split at hs
      · simp only [Option.some.injEq] at hs; subst hs; simp [h]
      · simp only [Option.some.injEq] at hs; subst hs; simp
    · simp only [Option.some.injEq] at hs; subst hs; simp
    · simp only [Option.some.injEq] at hs; subst hs; simp
    · cases hs
  | pTime =>
    simp only [step] at hs
    split at hs
    · simp only [Option.some.injEq] at hs; subst hs; simp
    · cases hs
  | c =>
    simp only [step] at hs
    split at hs
    · cases hs
    split at hs
    · split at hs <;> · simp only [Option.some.injEq] at hs; subst hs; simp
    · simp only [Option.some.injEq] at hs; subst hs; simp
    · cases hs
  | cTime =>
    simp only [step] at hs
    split at hs
    · simp only [Option.some.injEq] at hs; subst hs; simp
    · cases hs

theorem exec_mono {cap : Nat} : ∀ (as : List Act) {s s' : S T}, exec (step cap) s as = some s' →
    s.got.length ≤ s'.got.length ∧ s'.todo.length ≤ s.todo.length
  | [], s, s', h => by simp only [exec, Option.some.injEq] at h; subst h; simp
  | a :: as, s, s', h => by
    simp only [exec] at h
    cases hs : step cap s a with
    | none => rw [hs] at h; cases h
    | some s1 =>
      rw [hs] at h
      have h1 := got_mono hs
      have h2 := exec_mono as h
      omega

/-- **C55**, consumer: whatever the producer does and whichever wake-ups are lost, as soon as the queue is
not empty the consumer receives an element within three of its own actions: at most the begin of a wait, the
end of that wait (by the time limit, if no signal arrives) and the `pop`. -/
theorem C55_consumer {cap : Nat} {s s' : S T} {as : List Act} (hq : s.q ≠ [])
    (h : exec (step cap) s as = some s') (hn : 3 ≤ as.countP isC) : s.got.length < s'.got.length := by
  have key : ∀ (as : List Act) (s : S T), s.q ≠ [] → exec (step cap) s as = some s' →
      rankC s < as.countP isC → s.got.length < s'.got.length := by
    intro as
    induction as with
    | nil => intro s _ _ hr; simp at hr
    | cons a as ih =>
      intro s hq h hr
      simp only [exec] at h
      cases hs : step cap s a with
      | none => rw [hs] at h; cases h
      | some s1 =>
        rw [hs] at h
        obtain ⟨h1, h2⟩ := c_step hq hs
        cases ha : isC a with
        | true =>
          rw [List.countP_cons_of_pos ha] at hr
          cases h1 ha with
          | inl h1 => have := exec_mono as h; omega
          | inr h1 =>
            have := ih s1 (by rw [h1.2.1]; exact hq) h (by omega)
            rw [h1.1] at this; exact this
        | false =>
          rw [List.countP_cons_of_neg (by simp [ha])] at hr
          obtain ⟨g1, g2, g3⟩ := h2 ha
          have := ih s1 g2 h (by omega)
          rw [g1] at this; exact this
  refine key as s hq h ?_
  have : rankC s ≤ 2 := by unfold rankC; split <;> omega
  omega

theorem p_step {cap : Nat} {s s' : S T} {a : Act} (hr : s.q.length < cap) (ht : s.todo ≠ [])
    (hs : step cap s a = some s') :
    (isP a = true → s'.todo.length < s.todo.length ∨
      (s'.todo = s.todo ∧ s'.q = s.q ∧ rankP s' < rankP s)) ∧
    (isP a = false → s'.todo = s.todo ∧ s'.q.length < cap ∧ rankP s' ≤ rankP s) := by
  cases a with
  | p =>
    refine ⟨fun _ => ?_, by simp [isP, isC]⟩
    simp only [step] at hs
    split at hs
    · rename_i h _
      simp only [Option.some.injEq] at hs; subst hs; right; simp [rankP, h]
    · rename_i h
      rw [if_pos hr] at hs
      simp only [Option.some.injEq] at hs; subst hs; left; simp [h]
    · rename_i h
      simp only [Option.some.injEq] at hs; subst hs; right; simp [rankP, h]
    · rename_i h _
      simp only [Option.some.injEq] at hs; subst hs; right; simp [rankP, h]
    · cases hs
  | pTime =>
    refine ⟨fun _ => ?_, by simp [isP, isC]⟩
    simp only [step] at hs
    split at hs
    · rename_i h
      simp only [Option.some.injEq] at hs; subst hs; right; simp [rankP, h]
    · cases hs
  | c =>
    refine ⟨by simp [isP, isC], fun _ => ?_⟩
    simp only [step] at hs
    split at hs
    · cases hs
    split at hs
    · split at hs
      · rename_i h
        simp only [Option.some.injEq] at hs; subst hs
        rw [h] at hr
        rw [List.length_cons] at hr
        exact ⟨rfl, Nat.lt_of_succ_lt hr, Nat.le_refl _⟩
      · simp only [Option.some.injEq] at hs; subst hs; exact ⟨rfl, hr, Nat.le_refl _⟩
    · simp only [Option.some.injEq] at hs; subst hs; exact ⟨rfl, hr, Nat.le_refl _⟩
    · cases hs
  | cTime =>
    refine ⟨by simp [isP, isC], fun _ => ?_⟩
    simp only [step] at hs
    split at hs
    · simp only [Option.some.injEq] at hs; subst hs; exact ⟨rfl, hr, Nat.le_refl _⟩
    · cases hs

/-- **C55**, producer: as soon as there is room the producer pushes its next element within four of its own
actions, although nobody signals its condition variable. -/
theorem C55_producer {cap : Nat} {s s' : S T} {as : List Act} (hr : s.q.length < cap) (ht : s.todo ≠ [])
    (h : exec (step cap) s as = some s') (hn : 4 ≤ as.countP isP) : s'.todo.length < s.todo.length := by
  have key : ∀ (as : List Act) (s : S T), s.q.length < cap → s.todo ≠ [] →
      exec (step cap) s as = some s' → rankP s < as.countP isP → s'.todo.length < s.todo.length := by
    intro as
    induction as with
    | nil => intro s _ _ _ hr; simp at hr
    | cons a as ih =>
      intro s hr ht h hk
      simp only [exec] at h
      cases hs : step cap s a with
      | none => rw [hs] at h; cases h
      | some s1 =>
        rw [hs] at h
        obtain ⟨h1, h2⟩ := p_step hr ht hs
        cases ha : isP a with
        | true =>
          rw [List.countP_cons_of_pos ha] at hk
          cases h1 ha with
          | inl h1 => have := exec_mono as h; omega
          | inr h1 =>
            have := ih s1 (by rw [h1.2.1]; exact hr) (by rw [h1.1]; exact ht) h (by omega)
            rw [h1.1] at this; exact this
        | false =>
          rw [List.countP_cons_of_neg (by simp [ha])] at hk
          obtain ⟨g1, g2, g3⟩ := h2 ha
          have := ih s1 g2 (by rw [g1]; exact ht) h (by omega)
          rw [g1] at this; exact this
  refine key as s hr ht h ?_
  have : rankP s ≤ 3 := by unfold rankP; split <;> omega
  omega

/-! ## Every fair run delivers everything -/

/-- An infinite run in which each side acts again and again as long as it has work. -/
structure Fair (cap : Nat) (l : List T) (σ : Nat → S T) (α : Nat → Act) : Prop where
  start : σ 0 = init l
  step : ∀ i, step cap (σ i) (α i) = some (σ (i + 1)) ∨ σ (i + 1) = σ i
  cons : ∀ i, (σ i).left ≠ 0 → ∃ j, i ≤ j ∧ isC (α j) = true ∧ Blocking.step cap (σ j) (α j) = some (σ (j + 1))
  prod : ∀ i, (σ i).todo ≠ [] → ∃ j, i ≤ j ∧ isP (α j) = true ∧ Blocking.step cap (σ j) (α j) = some (σ (j + 1))

theorem Fair.inv {cap : Nat} {l : List T} {σ : Nat → S T} {α : Nat → Act} (h : Fair cap l σ α) :
    ∀ i, Inv l (σ i)
  | 0 => by rw [h.start]; exact inv_init l
  | i + 1 => by
    cases h.step i with
    | inl hs => exact (h.inv i).step hs
    | inr hs => rw [hs]; exact h.inv i

theorem Fair.mono {cap : Nat} {l : List T} {σ : Nat → S T} {α : Nat → Act} (h : Fair cap l σ α) (i : Nat) :
    ∀ k, (σ i).got.length ≤ (σ (i + k)).got.length ∧ (σ (i + k)).todo.length ≤ (σ i).todo.length
  | 0 => by simp
  | k + 1 => by
    have := h.mono i k
    cases h.step (i + k) with
    | inl hs => have := got_mono hs; rw [← Nat.add_assoc]; omega
    | inr hs => rw [← Nat.add_assoc, hs]; exact this

/-- A queue that is not empty: the consumer receives something later. -/
theorem Fair.receives {cap : Nat} {l : List T} {σ : Nat → S T} {α : Nat → Act} (h : Fair cap l σ α) :
    ∀ (r i : Nat), rankC (σ i) ≤ r → (σ i).q ≠ [] →
      ∃ k, (σ i).got.length < (σ (i + k)).got.length := by
  intro r
  induction r using Nat.strongRecOn with
  | ind r ih =>
  intro i hr hq
  have hl : (σ i).left ≠ 0 := by
    have := (h.inv i).left
    have := List.length_pos_iff.2 hq
    omega
  obtain ⟨j, hij, hc, hst⟩ := h.cons i hl
  obtain ⟨d, rfl⟩ := Nat.exists_eq_add_of_le hij
  clear hij
  -- up to `i + d` the queue is not empty, or something was received
  have walk : ∀ d, (∃ k, (σ i).got.length < (σ (i + k)).got.length) ∨
      ((σ (i + d)).q ≠ [] ∧ rankC (σ (i + d)) ≤ rankC (σ i)) := by
    intro d
    induction d with
    | zero => exact Or.inr ⟨hq, Nat.le_refl _⟩
    | succ d ihd =>
      cases ihd with
      | inl hk => exact Or.inl hk
      | inr hk =>
        cases h.step (i + d) with
        | inr hs => rw [← Nat.add_assoc, hs]; exact Or.inr hk
        | inl hs =>
          obtain ⟨h1, h2⟩ := c_step hk.1 hs
          have hm := (h.mono i d).1
          cases ha : isC (α (i + d)) with
          | true =>
            cases h1 ha with
            | inl h1 => left; refine ⟨d + 1, ?_⟩; rw [← Nat.add_assoc]; omega
            | inr h1 => right; rw [← Nat.add_assoc]; exact ⟨by rw [h1.2.1]; exact hk.1, by omega⟩
          | false =>
            obtain ⟨g1, g2, g3⟩ := h2 ha
            right; rw [← Nat.add_assoc]; exact ⟨g2, by omega⟩
  cases walk d with
  | inl hk => exact hk
  | inr hk =>
    have hm := (h.mono i d).1
    cases (c_step hk.1 hst).1 hc with
    | inl h1 => refine ⟨d + 1, ?_⟩; rw [← Nat.add_assoc]; omega
    | inr h1 =>
      obtain ⟨k, hk'⟩ := ih (rankC (σ (i + d + 1))) (by omega) (i + d + 1) (Nat.le_refl _)
        (by rw [h1.2.1]; exact hk.1)
      refine ⟨d + 1 + k, ?_⟩
      have e : i + (d + 1 + k) = i + d + 1 + k := by omega
      rw [e]
      rw [h1.1] at hk'
      omega

/-- An empty queue: the producer pushes something later. -/
theorem Fair.pushes {cap : Nat} {l : List T} {σ : Nat → S T} {α : Nat → Act} (h : Fair cap l σ α) :
    ∀ (r i : Nat), rankP (σ i) ≤ r → (σ i).q.length < cap → (σ i).todo ≠ [] →
      ∃ k, (σ (i + k)).todo.length < (σ i).todo.length := by
  intro r
  induction r using Nat.strongRecOn with
  | ind r ih =>
  intro i hr hq ht
  obtain ⟨j, hij, hc, hst⟩ := h.prod i ht
  obtain ⟨d, rfl⟩ := Nat.exists_eq_add_of_le hij
  clear hij
  have walk : ∀ d, (∃ k, (σ (i + k)).todo.length < (σ i).todo.length) ∨
      ((σ (i + d)).q.length < cap ∧ (σ (i + d)).todo = (σ i).todo ∧ rankP (σ (i + d)) ≤ rankP (σ i)) := by
    intro d
    induction d with
    | zero => exact Or.inr ⟨hq, rfl, Nat.le_refl _⟩
    | succ d ihd =>
      cases ihd with
      | inl hk => exact Or.inl hk
      | inr hk =>
        cases h.step (i + d) with
        | inr hs => rw [← Nat.add_assoc, hs]; exact Or.inr hk
        | inl hs =>
          obtain ⟨h1, h2⟩ := p_step hk.1 (by rw [hk.2.1]; exact ht) hs
          cases ha : isP (α (i + d)) with
          | true =>
            cases h1 ha with
            | inl h1 =>
              left; refine ⟨d + 1, ?_⟩; rw [← Nat.add_assoc]; rw [hk.2.1] at h1; exact h1
            | inr h1 =>
              right; rw [← Nat.add_assoc]
              exact ⟨by rw [h1.2.1]; exact hk.1, by rw [h1.1]; exact hk.2.1, by omega⟩
          | false =>
            obtain ⟨g1, g2, g3⟩ := h2 ha
            right; rw [← Nat.add_assoc]; exact ⟨g2, by rw [g1]; exact hk.2.1, by omega⟩
  cases walk d with
  | inl hk => exact hk
  | inr hk =>
    cases (p_step hk.1 (by rw [hk.2.1]; exact ht) hst).1 hc with
    | inl h1 => refine ⟨d + 1, ?_⟩; rw [← Nat.add_assoc]; rw [hk.2.1] at h1; exact h1
    | inr h1 =>
      obtain ⟨k, hk'⟩ := ih (rankP (σ (i + d + 1))) (by omega) (i + d + 1) (Nat.le_refl _)
        (by rw [h1.2.1]; exact hk.1) (by rw [h1.1, hk.2.1]; exact ht)
      refine ⟨d + 1 + k, ?_⟩
      have e : i + (d + 1 + k) = i + d + 1 + k := by omega
      rw [e]
      rw [h1.1, hk.2.1] at hk'
      exact hk'

/-- **C55**, liveness: with a queue of at least one place, every fair run in blocking mode delivers every
element, in order. -/
theorem C55_delivers {cap : Nat} (hcap : 1 ≤ cap) {l : List T} {σ : Nat → S T} {α : Nat → Act}
    (h : Fair cap l σ α) : ∃ i, (σ i).got = l ∧ (σ i).left = 0 := by
  have key : ∀ n i, (σ i).todo.length + (σ i).left = n → ∃ j, (σ j).got = l ∧ (σ j).left = 0 := by
    intro n
    induction n using Nat.strongRecOn with
    | ind n ih =>
    intro i hn
    have hi := h.inv i
    by_cases hq : (σ i).q = []
    · by_cases ht : (σ i).todo = []
      · refine ⟨i, ?_, ?_⟩
        · have := hi.all; rw [hq, ht] at this; simpa using this
        · have := hi.left; rw [hq, ht] at this; simpa using this
      · obtain ⟨k, hk⟩ := h.pushes _ i (Nat.le_refl _) (by rw [hq]; exact hcap) ht
        have hl : (σ (i + k)).left ≤ (σ i).left := by
          have h1 := (h.mono i k).1
          have h2 := congrArg List.length hi.all
          have h3 := congrArg List.length (h.inv (i + k)).all
          have h4 := hi.left
          have h5 := (h.inv (i + k)).left
          simp only [List.length_append] at h2 h3
          omega
        exact ih _ (by omega) (i + k) rfl
    · obtain ⟨k, hk⟩ := h.receives _ i (Nat.le_refl _) hq
      have hl : (σ (i + k)).left < (σ i).left ∧ (σ (i + k)).todo.length ≤ (σ i).todo.length := by
        have h1 := (h.mono i k).2
        have h2 := congrArg List.length hi.all
        have h3 := congrArg List.length (h.inv (i + k)).all
        have h4 := hi.left
        have h5 := (h.inv (i + k)).left
        simp only [List.length_append] at h2 h3
        omega
      exact ih _ (by omega) (i + k) rfl
  exact key _ 0 rfl

/-- Without the time limit the same channel can stop for ever: the consumer finds the queue empty, the
producer pushes and signals before the consumer waits, then fills the queue and waits too.  The queue is
full, both sides wait, and only the time limit can end the wait of either. -/
theorem C55_lost_wakeup_counterexample : ∃ s, exec (step 1) (init [5, 6]) [.c, .p, .p, .p, .c, .p, .p, .p] = some s ∧
    s.q = [5] ∧ s.got = [] ∧ step 1 s .p = none ∧ step 1 s .c = none := ⟨_, rfl, rfl, rfl, rfl, rfl⟩

/-- The same state, continued after the time limit: everything is delivered. -/
example : ∃ s, exec (step 1) (init [5, 6])
    [.c, .p, .p, .p, .c, .p, .p, .p, .cTime, .c, .pTime, .p, .p, .c] = some s ∧ s.got = [5, 6] ∧ s.left = 0 :=
  ⟨_, rfl, rfl, rfl⟩

/-- A run that meets the conditions of `C55_consumer`: three actions of the consumer after the lost signal. -/
example : ∃ s s', exec (step 1) (init [5, 6]) [.c, .p, .p, .p] = some s ∧ s.q ≠ [] ∧ s.cp = .lock ∧
    exec (step 1) s [.c, .p, .cTime, .c] = some s' ∧ s'.got = [5] := ⟨_, _, rfl, by decide, rfl, rfl, rfl⟩

/-- The actions of the example above, and the run they make. -/
def demoA : List Act := [.c, .p, .p, .p, .c, .p, .p, .p, .cTime, .c, .pTime, .p, .p, .c]
def demoσ (i : Nat) : S Nat := (exec (step 1) (init [5, 6]) (demoA.take i)).getD (init [])

/-- It is a fair run. -/
example : Fair 1 [5, 6] demoσ (fun i => demoA.getD i .p) := by
  have hlast : ∀ i, 14 ≤ i → demoσ i = demoσ 14 := by
    intro i hi
    unfold demoσ
    rw [List.take_of_length_le (show demoA.length ≤ i from hi)]
    rfl
  refine ⟨rfl, ?_, ?_, ?_⟩
  · intro i
    by_cases h : i < 14
    · left
      interval_cases i <;> rfl
    · right; rw [hlast i (by omega), hlast (i + 1) (by omega)]
  · intro i hl
    by_cases h : i < 14
    · exact ⟨13, by omega, rfl, rfl⟩
    · rw [hlast i (by omega)] at hl; exact absurd rfl hl
  · intro i hl
    by_cases h : i < 13
    · exact ⟨12, by omega, rfl, rfl⟩
    · by_cases h' : i = 13
      · subst h'; exact absurd rfl hl
      · rw [hlast i (by omega)] at hl; exact absurd rfl hl

end FF.Blocking
