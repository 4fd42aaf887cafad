import Verif.Parfor.SpinFineC
/-!
# The end of the loops of spinning workers, access by access: loops return (C82)

The number of accesses between two starts of loops is bounded, so that with `C82_fine_progress_partial` every loop of a
careful caller returns; a program whose loops all use the same number of workers is one of a careful caller.
-/
namespace FF.Parfor.SpinFine
open FF FF.Node
open FF.Parfor.SpinEnd (sum_lt)

/-- accesses a thread has still to do in `doBarrier` -/
def Pos.left : Pos → Nat
  | .out => 0
  | .cmp _ _ => 2
  | .zero _ => 1
  | .spin _ => 1

/-- accesses a worker has still to do: four for each wake-up -/
def S.wleft (s : S) (v : Nat) : Nat := 4 * s.q v + (if s.busy v then 3 else 0) + (s.w v).left

/-- the same of the caller -/
def S.cleft (s : S) : Nat := if s.inLoop = true ∧ s.c = .out then 3 else s.c.left

/-- the same of all threads -/
def S.left (s : S) (N : Nat) : Nat := ((List.range N).map s.wleft).sum + s.cleft

theorem out_step {N : Nat} {s s' : S} {a : Act} (h : ∀ v, N ≤ v → s.w v = .out) (hs : step N s a = some s') :
    ∀ v, N ≤ v → s'.w v = .out := by
  have up : ∀ v p, v < N → ∀ x, N ≤ x → upd s.w v p x = .out := by
    intro v p hv x hx
    have : x ≠ v := by omega
    simp only [upd, this, if_false]; exact h x hx
  have ins : ∀ v, s.w v ≠ .out → v < N := fun v hv => Classical.byContradiction fun hn => hv (h v (by omega))
  cases a with
  | start n =>
    simp only [step] at hs
    split at hs
    · simp only [Option.some.injEq] at hs; subst hs
      intro v hv
      show (s.setup (n + 1)).w v = .out
      unfold S.setup; split
      · exact h v hv
      · exact h v hv
    · simp at hs
  | callerEnter =>
    simp only [step] at hs
    split at hs
    · simp only [Option.some.injEq] at hs; subst hs; exact h
    · simp at hs
  | callerCmp =>
    simp only [step] at hs
    split at hs
    · simp only [Option.some.injEq] at hs; subst hs; exact h
    · simp at hs
  | callerZero =>
    simp only [step] at hs
    split at hs
    · simp only [Option.some.injEq] at hs; subst hs; exact h
    · simp at hs
  | callerLook =>
    simp only [step] at hs
    split at hs
    · split at hs
      · simp only [Option.some.injEq] at hs; subst hs; exact h
      · simp at hs
    · simp at hs
  | take v =>
    simp only [step] at hs
    split at hs
    · simp only [Option.some.injEq] at hs; subst hs; exact h
    · simp at hs
  | enter v =>
    simp only [step] at hs
    split at hs
    · rename_i hc
      simp only [Option.some.injEq] at hs; subst hs; exact up v _ hc.1
    · simp at hs
  | cmp v =>
    simp only [step] at hs
    split at hs
    · rename_i hw
      simp only [Option.some.injEq] at hs; subst hs; exact up v _ (ins v (by rw [hw]; simp))
    · simp at hs
  | zero v =>
    simp only [step] at hs
    split at hs
    · rename_i hw
      simp only [Option.some.injEq] at hs; subst hs; exact up v _ (ins v (by rw [hw]; simp))
    · simp at hs
  | look v =>
    simp only [step] at hs
    split at hs
    · rename_i hw
      split at hs
      · simp only [Option.some.injEq] at hs; subst hs; exact up v _ (ins v (by rw [hw]; simp))
      · simp at hs
    · simp at hs

theorem left_step {N : Nat} {s s' : S} {a : Act} (h : ∀ v, N ≤ v → s.w v = .out) (ha : ∀ n, a ≠ .start n)
    (hs : step N s a = some s') : s'.left N < s.left N := by
  have ins : ∀ v, s.w v ≠ .out → v < N := fun v hv => Classical.byContradiction fun hn => hv (h v (by omega))
  cases a with
  | start n => exact absurd rfl (ha n)
  | callerEnter =>
    simp only [step] at hs
    split at hs
    · rename_i hc
      simp only [Option.some.injEq] at hs; subst hs
      apply Nat.add_lt_add_left
      simp [S.cleft, hc.1, hc.2, Pos.left]
    · simp at hs
  | callerCmp =>
    simp only [step] at hs
    split at hs
    · rename_i k c hc
      simp only [Option.some.injEq] at hs; subst hs
      apply Nat.add_lt_add_left
      by_cases he : c = s.size <;> simp [S.cleft, hc, he, Pos.left]
    · simp at hs
  | callerZero =>
    simp only [step] at hs
    split at hs
    · rename_i k hc
      simp only [Option.some.injEq] at hs; subst hs
      apply Nat.add_lt_add_left
      simp [S.cleft, hc, Pos.left]
    · simp at hs
  | callerLook =>
    simp only [step] at hs
    split at hs
    · rename_i k hc
      split at hs
      · simp only [Option.some.injEq] at hs; subst hs
        apply Nat.add_lt_add_left
        simp [S.cleft, hc, Pos.left]
      · simp at hs
    · simp at hs
  | take v =>
    simp only [step] at hs
    split at hs
    · rename_i hc
      simp only [Option.some.injEq] at hs; subst hs
      apply Nat.add_lt_add_right
      apply sum_lt hc.1
      · intro x hx; simp [S.wleft, upd, hx]
      · simp only [S.wleft, upd, if_true, hc.2.1]; simp; omega
    · simp at hs
  | enter v =>
    simp only [step] at hs
    split at hs
    · rename_i hc
      simp only [Option.some.injEq] at hs; subst hs
      apply Nat.add_lt_add_right
      apply sum_lt hc.1
      · intro x hx; simp [S.wleft, upd, hx]
      · simp only [S.wleft, upd, if_true, hc.2, Pos.left]; simp; omega
    · simp at hs
  | cmp v =>
    simp only [step] at hs
    split at hs
    · rename_i k c hw
      simp only [Option.some.injEq] at hs; subst hs
      apply Nat.add_lt_add_right
      apply sum_lt (ins v (by rw [hw]; simp))
      · intro x hx; simp [S.wleft, upd, hx]
      · by_cases he : c = s.size <;> simp [S.wleft, upd, hw, he, Pos.left]
    · simp at hs
  | zero v =>
    simp only [step] at hs
    split at hs
    · rename_i k hw
      simp only [Option.some.injEq] at hs; subst hs
      apply Nat.add_lt_add_right
      apply sum_lt (ins v (by rw [hw]; simp))
      · intro x hx; simp [S.wleft, upd, hx]
      · simp [S.wleft, upd, hw, Pos.left]
    · simp at hs
  | look v =>
    simp only [step] at hs
    split at hs
    · rename_i k hw
      split at hs
      · simp only [Option.some.injEq] at hs; subst hs
        apply Nat.add_lt_add_right
        apply sum_lt (ins v (by rw [hw]; simp))
        · intro x hx; simp [S.wleft, upd, hx]
        · simp [S.wleft, upd, hw, Pos.left]
      · simp at hs
    · simp at hs

theorem bounded {N : Nat} {s s' : S} {as : List Act} (h : ∀ v, N ≤ v → s.w v = .out)
    (ha : ∀ a ∈ as, ∀ n, a ≠ .start n) (he : exec (step N) s as = some s') : as.length + s'.left N ≤ s.left N := by
  induction as generalizing s with
  | nil => simp only [exec, Option.some.injEq] at he; subst he; simp
  | cons a as ih =>
    simp only [exec] at he
    cases hs : step N s a with
    | none => rw [hs] at he; simp at he
    | some x =>
      rw [hs] at he
      have h1 := left_step h (ha a (by simp)) hs
      have h2 := ih (out_step h hs) (fun a' h' => ha a' (by simp [h'])) he
      simp only [List.length_cons]; omega

/-- **C82** (no endless activity, access by access).  In every program, between two starts of loops only finitely many
accesses are possible: at most four for each wake-up of each worker and three for the caller.  (Reads that find `B`
different from 0 do not count.) -/
theorem C82_fine_bounded {N : Nat} {par : Nat → Bool} {b : Bool → Nat} {s s' : S} {as : List Act}
    (hr : Reach (step N) (S.new par b) s) (ha : ∀ a ∈ as, ∀ n, a ≠ .start n) (he : exec (step N) s as = some s') :
    as.length + s'.left N ≤ s.left N :=
  bounded (hr.inv (Inv := fun s => ∀ v, N ≤ v → s.w v = .out) (fun _ _ => rfl) fun _ _ _ h hs => out_step h hs) ha he

theorem cstep_eq {N : Nat} {s : S} {a : Act} (ha : ∀ n, a ≠ .start n) : cstep N s a = step N s a := by
  cases a with
  | start n => exact absurd rfl (ha n)
  | _ => rfl

theorem cstep_step {N : Nat} {s s' : S} {a : Act} (hs : cstep N s a = some s') : step N s a = some s' := by
  cases a with
  | start n =>
    simp only [cstep] at hs
    split at hs
    · exact hs
    · simp at hs
  | _ => exact hs

theorem reach_step {N : Nat} {s s' : S} (hr : Reach (cstep N) s s') : Reach (step N) s s' :=
  hr.inv (Inv := fun x => Reach (step N) s x) (Reach.refl _ _) fun _ _ _ h hs => h.tail (cstep_step hs)

/-- **C82** (loops return, access by access; partial: of a caller that changes the number of workers only when no worker
is in the barrier).  From any moment of any such program, whatever the threads do next without a new loop, they stop
after at most `left` accesses, and when none of them can go on the caller has returned from its loop and every worker
has completed all parts it has been woken up for. -/
theorem C82_fine_returns_partial {N : Nat} {par : Nat → Bool} {b : Bool → Nat} {s s' : S} {as : List Act}
    (hr : Reach (cstep N) (S.new par b) s) (ha : ∀ a ∈ as, ∀ n, a ≠ .start n) (he : exec (cstep N) s as = some s') :
    as.length ≤ s.left N ∧
    ((∀ a, (∀ n, a ≠ .start n) → step N s' a = none) →
      s'.inLoop = false ∧ ∀ v, s'.done v = s'.sent v ∧ s'.busy v = false) := by
  have he' : exec (step N) s as = some s' := by
    clear hr
    induction as generalizing s with
    | nil => exact he
    | cons a as ih =>
      simp only [exec] at he ⊢
      rw [cstep_eq (ha a (by simp))] at he
      cases hs : step N s a with
      | none => rw [hs] at he; simp at he
      | some x => rw [hs] at he; exact ih (fun a' h' => ha a' (by simp [h'])) he
  have hr' := hr.trans ⟨as, he⟩
  refine ⟨by have := C82_fine_bounded (reach_step hr) ha he'; omega, fun hno => ?_⟩
  have hc : s'.inLoop = false := by
    cases hc : s'.inLoop with
    | false => rfl
    | true =>
      obtain ⟨a, x, h1, h2⟩ := C82_fine_progress_partial hr' hc
      rw [hno a h1] at h2; simp at h2
  exact ⟨hc, fun v => C82_fine_separation_partial hr' hc v⟩

/-! ## Programs whose loops all use the same number of workers -/

theorem size_step {N : Nat} {s s' : S} {a : Act} (ha : ∀ n, a ≠ .start n) (hs : step N s a = some s') :
    s'.size = s.size := by
  cases a with
  | start n => exact absurd rfl (ha n)
  | _ =>
    simp only [step] at hs
    split at hs
    · first
        | (simp only [Option.some.injEq] at hs; subst hs; rfl)
        | (split at hs
           · simp only [Option.some.injEq] at hs; subst hs; rfl
           · simp at hs)
    · simp at hs

/-- no loop has been started -/
structure New (s : S) : Prop where
  q : ∀ v, s.q v = 0
  busy : ∀ v, s.busy v = false
  w : ∀ v, s.w v = .out
  inLoop : s.inLoop = false
  c : s.c = .out

theorem New.only {N : Nat} {s s' : S} {a : Act} (h : New s) (hs : step N s a = some s') : ∃ n, a = .start n := by
  cases a with
  | start n => exact ⟨n, rfl⟩
  | callerEnter => simp [step, h.inLoop] at hs
  | callerCmp => simp [step, h.c] at hs
  | callerZero => simp [step, h.c] at hs
  | callerLook => simp [step, h.c] at hs
  | take v => simp [step, h.q v] at hs
  | enter v => simp [step, h.busy v] at hs
  | cmp v => simp [step, h.w v] at hs
  | zero v => simp [step, h.w v] at hs
  | look v => simp [step, h.w v] at hs

/-- the schedule of a program all of whose loops use `n` workers is one of the careful caller -/
theorem same_careful {N n : Nat} {s s' : S} {as : List Act} (ha : ∀ m, .start m ∈ as → m = n)
    (h : New s ∨ s.size = n + 1) (he : exec (step N) s as = some s') : exec (cstep N) s as = some s' := by
  induction as generalizing s with
  | nil => exact he
  | cons a as ih =>
    simp only [exec] at he ⊢
    cases hs : step N s a with
    | none => rw [hs] at he; simp at he
    | some x =>
      rw [hs] at he
      have key : cstep N s a = some x ∧ x.size = n + 1 := by
        by_cases hst : ∃ m, a = .start m
        · obtain ⟨m, rfl⟩ := hst
          have hm := ha m (by simp)
          subst hm
          refine ⟨?_, ?_⟩
          · simp only [cstep]
            rw [if_pos (h.elim (fun h => Or.inr fun v _ => h.w v) fun h => Or.inl h.symm)]
            exact hs
          · simp only [step] at hs
            split at hs
            · simp only [Option.some.injEq] at hs; subst hs
              show (s.setup (m + 1)).size = m + 1
              unfold S.setup; split
              · rename_i e; exact e.symm
              · rfl
            · simp at hs
        · have hn : ∀ m, a ≠ .start m := fun m e => hst ⟨m, e⟩
          refine ⟨by rw [cstep_eq hn]; exact hs, ?_⟩
          rcases h with h | h
          · exact absurd (h.only hs) hst
          · rw [size_step hn hs]; exact h
      rw [key.1]
      exact ih (fun m hm => ha m (by simp [hm])) (Or.inr key.2) he

theorem same_reach {N n : Nat} {par : Nat → Bool} {b : Bool → Nat} {s : S} {as : List Act}
    (ha : ∀ m, .start m ∈ as → m = n) (he : exec (step N) (S.new par b) as = some s) :
    Reach (cstep N) (S.new par b) s :=
  ⟨as, same_careful ha (Or.inl ⟨fun _ => rfl, fun _ => rfl, fun _ => rfl, rfl, rfl⟩) he⟩

/-- **C82** (separation, access by access; partial: when all loops use the same number of workers).  Whenever the caller
is between two loops, every worker has completed as many parts of loops as it has been woken up for, and none is
executing one. -/
theorem C82_fine_same_number_separation_partial {N n : Nat} {par : Nat → Bool} {b : Bool → Nat} {s : S} {as : List Act}
    (ha : ∀ m, .start m ∈ as → m = n) (he : exec (step N) (S.new par b) as = some s) (hc : s.inLoop = false) (v : Nat) :
    s.done v = s.sent v ∧ s.busy v = false := C82_fine_separation_partial (same_reach ha he) hc v

/-- **C82** (loops return, access by access; partial: of the code as it is, when all loops use the same number of
workers).  Whenever the caller is in a loop, some thread can go on, and by `C82_fine_bounded` they do so only finitely
often before it returns. -/
theorem C82_fine_same_number_partial {N n : Nat} {par : Nat → Bool} {b : Bool → Nat} {s : S} {as : List Act}
    (ha : ∀ m, .start m ∈ as → m = n) (he : exec (step N) (S.new par b) as = some s) (hc : s.inLoop = true) :
    ∃ a s', (∀ n, a ≠ .start n) ∧ step N s a = some s' := C82_fine_progress_partial (same_reach ha he) hc

/-- two loops with 2 workers; worker 0 is still before its comparison for the first loop when the caller waits in the
barrier of the second -/
example : (∀ m, Act.start m ∈ [Act.start 2, .take 0, .take 1, .enter 0, .enter 1, .callerEnter, .callerCmp, .callerZero,
      .start 2, .callerEnter, .callerCmp] → m = 2) ∧
    ((exec (step 2) (S.new (fun _ => true) (fun _ => 5))
      [.start 2, .take 0, .take 1, .enter 0, .enter 1, .callerEnter, .callerCmp, .callerZero,
       .start 2, .callerEnter, .callerCmp]).map fun s => (s.inLoop, s.w 0, s.c, s.left 2)) =
    some (true, .cmp true 1, .spin false, 13) := by
  refine ⟨by intro m hm; simpa using hm, by decide⟩

end FF.Parfor.SpinFine
