/-!
# Executions of a transition system

A system is `step : S → A → Option S`; `none` means that the action is not enabled.  A schedule is
any list of actions; the interleaving is part of the schedule.
-/
namespace FF

/-- Executes a schedule; `none` as soon as an action is not enabled. -/
def exec {S A : Type} (step : S → A → Option S) (s : S) : List A → Option S
  | [] => some s
  | a :: as =>
    match step s a with
    | none => none
    | some s' => exec step s' as

/-- `s'` is reachable from `s` by some schedule. -/
def Reach {S A : Type} (step : S → A → Option S) (s s' : S) : Prop :=
  ∃ as, exec step s as = some s'

theorem exec_append {S A : Type} (step : S → A → Option S) (s : S) (as bs : List A) :
    exec step s (as ++ bs) = (exec step s as).bind fun s' => exec step s' bs := by
  induction as generalizing s with
  | nil => rfl
  | cons a as ih =>
    simp only [List.cons_append, exec]
    cases step s a with
    | none => rfl
    | some s' => exact ih s'

/-- Induction over schedules. -/
theorem exec_inv {S A : Type} {step : S → A → Option S} {Inv : S → Prop} {s s' : S} {as : List A}
    (h0 : Inv s) (hstep : ∀ s a s', Inv s → step s a = some s' → Inv s')
    (h : exec step s as = some s') : Inv s' := by
  induction as generalizing s with
  | nil => simp only [exec, Option.some.injEq] at h; exact h ▸ h0
  | cons a as ih =>
    simp only [exec] at h
    cases hs : step s a with
    | none => rw [hs] at h; exact absurd h (by simp)
    | some s1 => rw [hs] at h; exact ih (hstep s a s1 h0 hs) h

theorem Reach.inv {S A : Type} {step : S → A → Option S} {Inv : S → Prop} {s s' : S}
    (hr : Reach step s s') (h0 : Inv s)
    (hstep : ∀ s a s', Inv s → step s a = some s' → Inv s') : Inv s' := by
  obtain ⟨as, h⟩ := hr
  exact exec_inv h0 hstep h

theorem Reach.refl {S A : Type} (step : S → A → Option S) (s : S) : Reach step s s := ⟨[], rfl⟩

theorem Reach.tail {S A : Type} {step : S → A → Option S} {s s1 s2 : S} {a : A}
    (h : Reach step s s1) (hs : step s1 a = some s2) : Reach step s s2 := by
  obtain ⟨as, h⟩ := h
  exact ⟨as ++ [a], by simp [exec_append, h, exec, hs]⟩

theorem Reach.trans {S A : Type} {step : S → A → Option S} {s s1 s2 : S}
    (h : Reach step s s1) (h' : Reach step s1 s2) : Reach step s s2 := by
  obtain ⟨as, h⟩ := h
  obtain ⟨bs, h'⟩ := h'
  exact ⟨as ++ bs, by simp [exec_append, h, h']⟩

end FF
