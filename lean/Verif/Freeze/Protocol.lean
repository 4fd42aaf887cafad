import Verif.Freeze.Model
/-!
# C28: the documented protocol runs one service loop per thaw and ends
-/
namespace FF.Freeze

/-- what is left after `wait_freezing` when `j` thaws are still to come -/
def tailOf : Nat → List Cmd
  | 0 => [.wait]
  | j + 1 => .thaw true :: rest j

theorem rest_eq (j : Nat) : rest j = .waitFreezing :: tailOf j := by cases j <;> rfl

/-- the node's part while the controller has not called `wait` -/
inductive Main (s : St) : Prop where
  /-- frozen -/
  | parked (h1 : s.frozen = true) (h2 : s.freezing = 1) (h3 : s.n.parked = true)
      (h4 : s.rounds = s.thaws + 1)
  /-- thawed, has not noticed yet -/
  | woken (h1 : s.frozen = false) (h2 : s.freezing = 2)
      (h3 : s.n = .asleep ∨ s.n = .relock ∨ s.n = .loop ∨ s.n = .after) (h4 : s.rounds = s.thaws)
  /-- going to start -/
  | before (h1 : s.frozen = false) (h2 : s.freezing = 1)
      (h3 : s.n = .unlock ∨ s.n = .again ∨ s.n = .init) (h4 : s.rounds = s.thaws)
  /-- started -/
  | running (h1 : s.frozen = false) (h2 : s.freezing = 1)
      (h3 : s.n = .svc ∨ s.n = .lock ∨ s.n = .chk ∨ s.n = .chk0 ∨ s.n = .loop ∨ s.n = .setf)
      (h4 : s.rounds = s.thaws + 1)

/-- the node's part after the last `thaw` -/
def Leaving (n : NPc) : Prop :=
  n = .relock ∨ n = .loop ∨ n = .after ∨ n = .unlock ∨ n = .again ∨ n = .endc ∨ n = .fin ∨ n = .done

def CtlOk (K : Nat) (s : St) : Prop :=
  match s.c with
  | .idle =>
      (s.prog = protocol K ∧ s.n = .off ∧ s.freezing = 0 ∧ s.frozen = false ∧ s.rounds = 0 ∧ s.thaws = 0)
    ∨ (s.prog = .spawn :: rest K ∧ s.n = .off ∧ s.freezing = 1 ∧ s.frozen = false ∧ s.stp = false ∧
        s.rounds = 0 ∧ s.thaws = 0)
    ∨ (s.stp = false ∧ Main s ∧ ∃ j, s.thaws + j = K ∧
        (s.prog = rest j ∨ (s.frozen = true ∧ s.prog = tailOf j)))
    ∨ (s.prog = [] ∧ s.n = .done ∧ s.rounds = K + 1 ∧ s.thaws = K)
  | .fz => s.prog = .spawn :: rest K ∧ s.n = .off ∧ s.frozen = false ∧ s.stp = false ∧ s.rounds = 0 ∧
      s.thaws = 0
  | .wl false | .wc false | .ww false | .wa false | .wr false =>
      s.stp = false ∧ Main s ∧ ∃ j, s.thaws + j = K ∧ s.prog = tailOf j
  | .wu false => s.stp = false ∧ s.frozen = true ∧ Main s ∧ ∃ j, s.thaws + j = K ∧ s.prog = tailOf j
  | .tl f false | .ts f false =>
      f = true ∧ s.stp = false ∧ s.frozen = true ∧ Main s ∧ ∃ j, s.thaws + (j + 1) = K ∧ s.prog = rest j
  | .tf f false => f = true ∧ s.stp = false ∧ s.frozen = true ∧ s.freezing = 2 ∧
      (s.n = .asleep ∨ s.n = .relock) ∧ s.rounds = s.thaws + 1 ∧ ∃ j, s.thaws + (j + 1) = K ∧ s.prog = rest j
  | .tg f false => f = true ∧ s.stp = false ∧ s.frozen = false ∧ s.freezing = 2 ∧
      (s.n = .asleep ∨ s.n = .relock) ∧ s.rounds = s.thaws ∧ ∃ j, s.thaws + j = K ∧ s.prog = rest j
  | .tu f false => f = true ∧ s.stp = false ∧ Main s ∧ ∃ j, s.thaws + j = K ∧ s.prog = rest j
  | .w1 | .wl true | .wc true | .wu true =>
      s.prog = [] ∧ s.stp = true ∧ s.frozen = true ∧ s.freezing = 1 ∧ s.n.parked = true ∧
      s.rounds = K + 1 ∧ s.thaws = K
  | .tl f true | .ts f true => f = false ∧
      s.prog = [] ∧ s.stp = true ∧ s.frozen = true ∧ s.freezing = 1 ∧ s.n.parked = true ∧
      s.rounds = K + 1 ∧ s.thaws = K
  | .tf f true => f = false ∧
      s.prog = [] ∧ s.stp = true ∧ s.frozen = true ∧ s.freezing = 0 ∧ (s.n = .asleep ∨ s.n = .relock) ∧
      s.rounds = K + 1 ∧ s.thaws = K
  | .tg f true => f = false ∧
      s.prog = [] ∧ s.stp = true ∧ s.frozen = false ∧ s.freezing = 0 ∧ (s.n = .asleep ∨ s.n = .relock) ∧
      s.rounds = K + 1 ∧ s.thaws = K
  | .tu f true => f = false ∧
      s.prog = [] ∧ s.stp = true ∧ s.frozen = false ∧ s.freezing = 0 ∧ Leaving s.n ∧
      s.rounds = K + 1 ∧ s.thaws = K
  | .wj =>
      s.prog = [] ∧ s.stp = true ∧ s.frozen = false ∧ s.freezing = 0 ∧ Leaving s.n ∧
      s.rounds = K + 1 ∧ s.thaws = K
  | .ww true | .wa true | .wr true => False

structure PInv (K : Nat) (s : St) : Prop where
  inv : Inv s
  ctl : CtlOk K s
  ret : s.ret ≠ .nofreeze

theorem PInv.start (K : Nat) : PInv K (St.start (protocol K)) where
  inv := Inv.reach (calm := true) (Reach.refl _ _)
  ctl := by simp [CtlOk, St.start]
  ret := by simp [St.start]

/-- a step of the node in the main phase -/
theorem Main.nstep {s s' : St} {r : Ret} (h : Main s) (hst : s.stp = false) (hI : Inv s)
    (hret : s.ret ≠ .nofreeze) (hw : s.c.presig = false) (hs : Freeze.nstep s r = some s') :
    Main s' ∧ s'.stp = false ∧ s'.thaws = s.thaws ∧ s'.prog = s.prog ∧
      (s.frozen = true → s'.frozen = true) := by
  unfold Freeze.nstep at hs
  cases h with
  | parked h1 h2 h3 h4 =>
    cases hn : s.n <;> rw [hn] at h3 hs <;> simp [NPc.parked] at h3
    all_goals
      first
      | (simp only [Option.some.injEq] at hs; subst hs
         refine ⟨.parked ?_ ?_ ?_ ?_, ?_, rfl, rfl, ?_⟩ <;> simp_all [NPc.parked]; done)
      | (simp at hs; done)
      | (dsimp only at hs; split at hs <;> simp only [Option.some.injEq, reduceCtorEq] at hs; subst hs
         refine ⟨.parked ?_ ?_ ?_ ?_, ?_, rfl, rfl, ?_⟩ <;> simp_all [NPc.parked]; done)
  | woken h1 h2 h3 h4 =>
    rcases h3 with hn | hn | hn | hn <;> rw [hn] at hs
    · simp at hs
    · dsimp only at hs; split at hs <;> simp only [Option.some.injEq, reduceCtorEq] at hs; subst hs
      refine ⟨.woken ?_ ?_ ?_ ?_, ?_, rfl, rfl, ?_⟩ <;> simp_all
    · simp only [Option.some.injEq] at hs; subst hs
      refine ⟨.woken ?_ ?_ ?_ ?_, ?_, rfl, rfl, ?_⟩ <;> simp_all
    · simp only [Option.some.injEq] at hs; subst hs
      refine ⟨.before ?_ ?_ ?_ ?_, ?_, rfl, rfl, ?_⟩ <;> simp_all
  | before h1 h2 h3 h4 =>
    rcases h3 with hn | hn | hn <;> rw [hn] at hs <;> simp only [Option.some.injEq] at hs <;> subst hs
    · refine ⟨.before ?_ ?_ ?_ ?_, ?_, rfl, rfl, ?_⟩ <;> simp_all
    · refine ⟨.before ?_ ?_ ?_ ?_, ?_, rfl, rfl, ?_⟩ <;> simp_all
    · refine ⟨.running ?_ ?_ ?_ ?_, ?_, rfl, rfl, ?_⟩ <;> simp_all
  | running h1 h2 h3 h4 =>
    rcases h3 with hn | hn | hn | hn | hn | hn <;> rw [hn] at hs
    · simp only [Option.some.injEq] at hs; subst hs
      refine ⟨.running ?_ ?_ ?_ ?_, ?_, rfl, rfl, ?_⟩ <;> simp_all
    · dsimp only at hs; split at hs <;> simp only [Option.some.injEq, reduceCtorEq] at hs; subst hs
      refine ⟨.running ?_ ?_ ?_ ?_, ?_, rfl, rfl, ?_⟩ <;> simp_all
    · simp only [Option.some.injEq] at hs; subst hs
      refine ⟨.running ?_ ?_ ?_ ?_, ?_, rfl, rfl, ?_⟩ <;> simp_all
    · simp only [Option.some.injEq] at hs; subst hs
      refine ⟨.running ?_ ?_ ?_ ?_, ?_, rfl, rfl, ?_⟩ <;> simp_all
    · simp only [Option.some.injEq] at hs; subst hs
      refine ⟨.running ?_ ?_ ?_ ?_, ?_, rfl, rfl, ?_⟩ <;> simp_all
    · simp only [Option.some.injEq] at hs; subst hs
      refine ⟨.parked ?_ ?_ ?_ ?_, ?_, rfl, rfl, ?_⟩ <;> simp_all [NPc.parked]

theorem nstep_c {s s' : St} {r : Ret} (hs : Freeze.nstep s r = some s') :
    (s'.c = s.c ∨ s'.c = wakeC s.c) ∧ (s'.ret = s.ret ∨ s'.ret = r) := by
  unfold Freeze.nstep at hs
  cases hn : s.n <;> rw [hn] at hs <;> simp only [Option.some.injEq, reduceCtorEq] at hs
  case lock | relock | endl =>
    split at hs <;> simp only [Option.some.injEq, reduceCtorEq] at hs
    subst hs; simp
  all_goals subst hs; simp

theorem PInv.nstep {K : Nat} {s s' : St} {r : Ret} (h : PInv K s) (hr : r ≠ .nofreeze)
    (hs : Freeze.nstep s r = some s') : PInv K s' := by
  obtain ⟨hI, hc, hret⟩ := h
  have hI' := hI.nstep hs
  obtain ⟨hcc, hrr⟩ := nstep_c hs
  refine ⟨hI', ?_, by rcases hrr with h | h <;> rw [h] <;> assumption⟩
  have main : s.stp = false → Main s → s.c.presig = false →
      Main s' ∧ s'.stp = false ∧ s'.thaws = s.thaws ∧ s'.prog = s.prog ∧
        (s.frozen = true → s'.frozen = true) := fun a b c => b.nstep a hI hret c hs
  -- the node while it is parked and the controller is in `wait`
  have pk : s.frozen = true → s.freezing = 1 → s.n.parked = true →
      s'.prog = s.prog ∧ s'.stp = s.stp ∧ s'.frozen = true ∧ s'.freezing = 1 ∧ s'.n.parked = true ∧
        s'.rounds = s.rounds ∧ s'.thaws = s.thaws := by
    intro h1 h2 h3
    unfold Freeze.nstep at hs
    cases hn : s.n <;> rw [hn] at h3 hs <;> simp [NPc.parked] at h3
    all_goals
      first
      | (simp only [Option.some.injEq] at hs; subst hs; simp_all [NPc.parked]; done)
      | (simp at hs; done)
      | (dsimp only at hs; split at hs <;> simp only [Option.some.injEq, reduceCtorEq] at hs; subst hs
         simp_all [NPc.parked]; done)
  -- the node while it is leaving
  have lv : s.stp = true → s.frozen = false → s.freezing = 0 → Leaving s.n →
      s'.prog = s.prog ∧ s'.stp = true ∧ s'.frozen = false ∧ s'.freezing = 0 ∧ Leaving s'.n ∧
        s'.rounds = s.rounds ∧ s'.thaws = s.thaws := by
    intro h1 h2 h3 h4
    unfold Freeze.nstep at hs
    unfold Leaving at h4 ⊢
    rcases h4 with hn | hn | hn | hn | hn | hn | hn | hn <;> rw [hn] at hs
    all_goals
      first
      | (simp at hs; done)
      | (simp only [Option.some.injEq] at hs; subst hs; simp_all; done)
      | (dsimp only at hs; split at hs <;> simp only [Option.some.injEq, reduceCtorEq] at hs; subst hs; simp_all; done)
  -- the node cannot move while the controller holds the mutex and it is asleep or woken up
  have st : s.mtx = some .ctl → s.n = .asleep ∨ s.n = .relock → False := by
    intro h1 h2
    unfold Freeze.nstep at hs
    rcases h2 with hn | hn <;> rw [hn] at hs <;> simp [h1] at hs
  have hmC := hI.mC
  unfold CtlOk at hc
  cases hcx : s.c with
  | idle =>
    rw [hcx] at hc hcc main
    have e : s'.c = .idle := by rcases hcc with h | h <;> simpa [wakeC] using h
    simp only [CtlOk, e]
    rcases hc with ⟨_, hn, _⟩ | ⟨_, hn, _⟩ | ⟨h1, h2, j, h3, h4⟩ | ⟨_, hn, _⟩
    · simp [Freeze.nstep, hn] at hs
    · simp [Freeze.nstep, hn] at hs
    · obtain ⟨m1, m2, m3, m4, m5⟩ := main h1 h2 rfl
      right; right; left
      refine ⟨m2, m1, j, by rw [m3]; exact h3, ?_⟩
      rw [m4]
      rcases h4 with h4 | ⟨h4, h5⟩
      · exact Or.inl h4
      · exact Or.inr ⟨m5 h4, h5⟩
    · simp [Freeze.nstep, hn] at hs
  | fz =>
    rw [hcx] at hc
    simp [Freeze.nstep, hc.2.1] at hs
  | w1 =>
    rw [hcx] at hc hcc
    have e : s'.c = .w1 := by rcases hcc with h | h <;> simpa [wakeC] using h
    simp only [CtlOk, e]
    obtain ⟨a1, a2, a3, a4, a5, a6, a7⟩ := hc
    obtain ⟨b1, b2, b3, b4, b5, b6, b7⟩ := pk a3 a4 a5
    exact ⟨by rw [b1]; exact a1, by rw [b2]; exact a2, b3, b4, b5, by rw [b6]; exact a6, by rw [b7]; exact a7⟩
  | wj =>
    rw [hcx] at hc hcc
    have e : s'.c = .wj := by rcases hcc with h | h <;> simpa [wakeC] using h
    simp only [CtlOk, e]
    obtain ⟨a1, a2, a3, a4, a5, a6, a7⟩ := hc
    obtain ⟨b1, b2, b3, b4, b5, b6, b7⟩ := lv a2 a3 a4 a5
    exact ⟨by rw [b1]; exact a1, b2, b3, b4, b5, by rw [b6]; exact a6, by rw [b7]; exact a7⟩
  | wl w =>
    rw [hcx] at hc hcc main
    have e : s'.c = .wl w := by rcases hcc with h | h <;> simpa [wakeC] using h
    cases w with
    | false =>
      simp only [CtlOk, e]
      obtain ⟨h1, h2, j, h3, h4⟩ := hc
      obtain ⟨m1, m2, m3, m4, m5⟩ := main h1 h2 rfl
      exact ⟨m2, m1, j, by rw [m3]; exact h3, by rw [m4]; exact h4⟩
    | true =>
      simp only [CtlOk, e]
      obtain ⟨a1, a2, a3, a4, a5, a6, a7⟩ := hc
      obtain ⟨b1, b2, b3, b4, b5, b6, b7⟩ := pk a3 a4 a5
      exact ⟨by rw [b1]; exact a1, by rw [b2]; exact a2, b3, b4, b5, by rw [b6]; exact a6, by rw [b7]; exact a7⟩
  | wc w =>
    rw [hcx] at hc hcc main
    have e : s'.c = .wc w := by rcases hcc with h | h <;> simpa [wakeC] using h
    cases w with
    | false =>
      simp only [CtlOk, e]
      obtain ⟨h1, h2, j, h3, h4⟩ := hc
      obtain ⟨m1, m2, m3, m4, m5⟩ := main h1 h2 rfl
      exact ⟨m2, m1, j, by rw [m3]; exact h3, by rw [m4]; exact h4⟩
    | true =>
      simp only [CtlOk, e]
      obtain ⟨a1, a2, a3, a4, a5, a6, a7⟩ := hc
      obtain ⟨b1, b2, b3, b4, b5, b6, b7⟩ := pk a3 a4 a5
      exact ⟨by rw [b1]; exact a1, by rw [b2]; exact a2, b3, b4, b5, by rw [b6]; exact a6, by rw [b7]; exact a7⟩
  | ww w =>
    rw [hcx] at hc hcc main
    have e : s'.c = .ww w := by rcases hcc with h | h <;> simpa [wakeC] using h
    cases w with
    | false =>
      simp only [CtlOk, e]
      obtain ⟨h1, h2, j, h3, h4⟩ := hc
      obtain ⟨m1, m2, m3, m4, m5⟩ := main h1 h2 rfl
      exact ⟨m2, m1, j, by rw [m3]; exact h3, by rw [m4]; exact h4⟩
    | true => exact absurd hc (by simp)
  | wa w =>
    rw [hcx] at hc hcc main
    cases w with
    | false =>
      obtain ⟨h1, h2, j, h3, h4⟩ := hc
      obtain ⟨m1, m2, m3, m4, m5⟩ := main h1 h2 rfl
      rcases hcc with e | e
      · simp only [CtlOk, e]
        exact ⟨m2, m1, j, by rw [m3]; exact h3, by rw [m4]; exact h4⟩
      · simp only [CtlOk, e, wakeC]
        exact ⟨m2, m1, j, by rw [m3]; exact h3, by rw [m4]; exact h4⟩
    | true => exact absurd hc (by simp)
  | wr w =>
    rw [hcx] at hc hcc main
    have e : s'.c = .wr w := by rcases hcc with h | h <;> simpa [wakeC] using h
    cases w with
    | false =>
      simp only [CtlOk, e]
      obtain ⟨h1, h2, j, h3, h4⟩ := hc
      obtain ⟨m1, m2, m3, m4, m5⟩ := main h1 h2 rfl
      exact ⟨m2, m1, j, by rw [m3]; exact h3, by rw [m4]; exact h4⟩
    | true => exact absurd hc (by simp)
  | wu w =>
    rw [hcx] at hc hcc main
    have e : s'.c = .wu w := by rcases hcc with h | h <;> simpa [wakeC] using h
    cases w with
    | false =>
      simp only [CtlOk, e]
      obtain ⟨h1, h0, h2, j, h3, h4⟩ := hc
      obtain ⟨m1, m2, m3, m4, m5⟩ := main h1 h2 rfl
      exact ⟨m2, m5 h0, m1, j, by rw [m3]; exact h3, by rw [m4]; exact h4⟩
    | true =>
      simp only [CtlOk, e]
      obtain ⟨a1, a2, a3, a4, a5, a6, a7⟩ := hc
      obtain ⟨b1, b2, b3, b4, b5, b6, b7⟩ := pk a3 a4 a5
      exact ⟨by rw [b1]; exact a1, by rw [b2]; exact a2, b3, b4, b5, by rw [b6]; exact a6, by rw [b7]; exact a7⟩
  | tl f w =>
    rw [hcx] at hc hcc main
    have e : s'.c = .tl f w := by rcases hcc with h | h <;> simpa [wakeC] using h
    cases w with
    | false =>
      simp only [CtlOk, e]
      obtain ⟨hf, h1, h0, h2, j, h3, h4⟩ := hc
      obtain ⟨m1, m2, m3, m4, m5⟩ := main h1 h2 rfl
      exact ⟨hf, m2, m5 h0, m1, j, by rw [m3]; exact h3, by rw [m4]; exact h4⟩
    | true =>
      simp only [CtlOk, e]
      obtain ⟨hf, a1, a2, a3, a4, a5, a6, a7⟩ := hc
      obtain ⟨b1, b2, b3, b4, b5, b6, b7⟩ := pk a3 a4 a5
      exact ⟨hf, by rw [b1]; exact a1, by rw [b2]; exact a2, b3, b4, b5, by rw [b6]; exact a6,
        by rw [b7]; exact a7⟩
  | ts f w =>
    rw [hcx] at hc hcc main
    have e : s'.c = .ts f w := by rcases hcc with h | h <;> simpa [wakeC] using h
    cases w with
    | false =>
      simp only [CtlOk, e]
      obtain ⟨hf, h1, h0, h2, j, h3, h4⟩ := hc
      obtain ⟨m1, m2, m3, m4, m5⟩ := main h1 h2 rfl
      exact ⟨hf, m2, m5 h0, m1, j, by rw [m3]; exact h3, by rw [m4]; exact h4⟩
    | true =>
      simp only [CtlOk, e]
      obtain ⟨hf, a1, a2, a3, a4, a5, a6, a7⟩ := hc
      obtain ⟨b1, b2, b3, b4, b5, b6, b7⟩ := pk a3 a4 a5
      exact ⟨hf, by rw [b1]; exact a1, by rw [b2]; exact a2, b3, b4, b5, by rw [b6]; exact a6,
        by rw [b7]; exact a7⟩
  | tf f w =>
    rw [hcx] at hc hmC
    cases w with
    | false => exact absurd hc.2.2.2.2.1 fun h => st (hmC.1 rfl) h
    | true => exact absurd hc.2.2.2.2.2.1 fun h => st (hmC.1 rfl) h
  | tg f w =>
    rw [hcx] at hc hmC
    cases w with
    | false => exact absurd hc.2.2.2.2.1 fun h => st (hmC.1 rfl) h
    | true => exact absurd hc.2.2.2.2.2.1 fun h => st (hmC.1 rfl) h
  | tu f w =>
    rw [hcx] at hc hcc main
    have e : s'.c = .tu f w := by rcases hcc with h | h <;> simpa [wakeC] using h
    cases w with
    | false =>
      simp only [CtlOk, e]
      obtain ⟨hf, h1, h2, j, h3, h4⟩ := hc
      obtain ⟨m1, m2, m3, m4, m5⟩ := main h1 h2 rfl
      exact ⟨hf, m2, m1, j, by rw [m3]; exact h3, by rw [m4]; exact h4⟩
    | true =>
      simp only [CtlOk, e]
      obtain ⟨hf, a1, a2, a3, a4, a5, a6, a7⟩ := hc
      obtain ⟨b1, b2, b3, b4, b5, b6, b7⟩ := lv a2 a3 a4 a5
      exact ⟨hf, by rw [b1]; exact a1, b2, b3, b4, b5, by rw [b6]; exact a6, by rw [b7]; exact a7⟩


theorem Main.of_eq {s s' : St} (h : Main s) (e1 : s'.frozen = s.frozen) (e2 : s'.freezing = s.freezing)
    (e3 : s'.n = s.n) (e4 : s'.rounds = s.rounds) (e5 : s'.thaws = s.thaws) : Main s' := by
  cases h with
  | parked h1 h2 h3 h4 => exact .parked (by rw [e1, h1]) (by rw [e2, h2]) (by rw [e3, h3]) (by omega)
  | woken h1 h2 h3 h4 => exact .woken (by rw [e1, h1]) (by rw [e2, h2]) (by rw [e3]; exact h3) (by omega)
  | before h1 h2 h3 h4 => exact .before (by rw [e1, h1]) (by rw [e2, h2]) (by rw [e3]; exact h3) (by omega)
  | running h1 h2 h3 h4 => exact .running (by rw [e1, h1]) (by rw [e2, h2]) (by rw [e3]; exact h3) (by omega)

theorem Main.frozen {s : St} (h : Main s) (hf : s.frozen = true) :
    s.freezing = 1 ∧ s.n.parked = true ∧ s.rounds = s.thaws + 1 := by
  cases h <;> simp_all

theorem parked_free {n : NPc} (h : n.parked = true) (h' : n.holds = false) : n = .asleep ∨ n = .relock := by
  cases n <;> simp_all [NPc.parked, NPc.holds]

theorem PInv.cstep {K : Nat} {s s' : St} (h : PInv K s) (hs : Freeze.cstep s = some s') : PInv K s' := by
  obtain ⟨hI, hc, hret⟩ := h
  have hI' := hI.cstep hs
  have hr' : s'.ret = s.ret := by
    unfold Freeze.cstep at hs
    revert hs
    repeat' split
    all_goals first
      | (intro hs; simp only [Option.some.injEq] at hs; subst hs; rfl)
      | (intro hs; simp at hs)
  refine ⟨hI', ?_, by rw [hr']; exact hret⟩
  -- the node does not hold the mutex if the controller does
  have free : s.mtx = some .ctl → s.n.holds = false := by
    intro hm
    cases hh : s.n.holds with
    | false => rfl
    | true => have := hI.mN.1 hh; rw [hm] at this; simp at this
  unfold CtlOk at hc
  unfold Freeze.cstep at hs
  cases hcx : s.c with
  | idle =>
    rw [hcx] at hc hs
    simp only at hs hc
    rcases hc with ⟨hp, hn, h1, h2, h3, h4⟩ | ⟨hp, hn, h1, h2, h3, h4, h5⟩ | ⟨h1, h2, j, h3, h4⟩ | ⟨hp, _⟩
    · rw [hp] at hs
      simp only [protocol, Option.some.injEq] at hs; subst hs
      simp [CtlOk, hn, h2, h3, h4]
    · rw [hp] at hs
      simp only [hn, if_true, Option.some.injEq] at hs; subst hs
      unfold CtlOk
      right; right; left
      refine ⟨h3, .before h2 h1 (by simp) ?_, K, by simp [h5], by simp⟩
      simp [h4, h5]
    · rcases h4 with h4 | ⟨h4, h5⟩
      · rw [h4, rest_eq] at hs
        simp only [Option.some.injEq] at hs; subst hs
        unfold CtlOk
        exact ⟨h1, h2.of_eq rfl rfl rfl rfl rfl, j, h3, rfl⟩
      · obtain ⟨f1, f2, f3⟩ := h2.frozen h4
        cases j with
        | zero =>
          rw [h5] at hs
          simp only [tailOf, Option.some.injEq] at hs; subst hs
          unfold CtlOk
          exact ⟨rfl, rfl, h4, f1, f2, by simp only; omega, by simp only; omega⟩
        | succ j =>
          rw [h5] at hs
          simp only [tailOf, Option.some.injEq] at hs; subst hs
          unfold CtlOk
          exact ⟨rfl, h1, h4, h2.of_eq rfl rfl rfl rfl rfl, j, by simp only; omega, rfl⟩
    · rw [hp] at hs; simp at hs
  | fz =>
    rw [hcx] at hc hs
    simp only [Option.some.injEq] at hs; subst hs
    obtain ⟨a1, a2, a3, a4, a5, a6⟩ := hc
    unfold CtlOk
    exact Or.inr (Or.inl ⟨a1, a2, rfl, a3, a4, a5, a6⟩)
  | wl w =>
    rw [hcx] at hc hs
    dsimp only at hs
    split at hs <;> simp only [Option.some.injEq, reduceCtorEq] at hs; subst hs
    cases w with
    | false =>
      obtain ⟨h1, h2, h3⟩ := hc
      unfold CtlOk
      exact ⟨h1, h2.of_eq rfl rfl rfl rfl rfl, h3⟩
    | true => unfold CtlOk; exact hc
  | wc w =>
    rw [hcx] at hc hs
    simp only [Option.some.injEq] at hs
    by_cases hf : s.frozen = true
    · rw [if_pos hf] at hs; subst hs
      cases w with
      | false =>
        obtain ⟨h1, h2, h3⟩ := hc
        unfold CtlOk
        exact ⟨h1, hf, h2.of_eq rfl rfl rfl rfl rfl, h3⟩
      | true => unfold CtlOk; exact hc
    · rw [if_neg hf] at hs; subst hs
      cases w with
      | false =>
        obtain ⟨h1, h2, h3⟩ := hc
        unfold CtlOk
        exact ⟨h1, h2.of_eq rfl rfl rfl rfl rfl, h3⟩
      | true => exact absurd hc.2.2.1 hf
  | ww w =>
    rw [hcx] at hc hs
    simp only [Option.some.injEq] at hs; subst hs
    cases w with
    | false =>
      obtain ⟨h1, h2, h3⟩ := hc
      unfold CtlOk
      exact ⟨h1, h2.of_eq rfl rfl rfl rfl rfl, h3⟩
    | true => exact absurd hc (by simp)
  | wa w => rw [hcx] at hs; simp at hs
  | wr w =>
    rw [hcx] at hc hs
    dsimp only at hs
    split at hs <;> simp only [Option.some.injEq, reduceCtorEq] at hs; subst hs
    cases w with
    | false =>
      obtain ⟨h1, h2, h3⟩ := hc
      unfold CtlOk
      exact ⟨h1, h2.of_eq rfl rfl rfl rfl rfl, h3⟩
    | true => exact absurd hc (by simp)
  | wu w =>
    rw [hcx] at hc hs
    cases w with
    | false =>
      simp only [Bool.false_eq_true, if_false, Option.some.injEq] at hs; subst hs
      obtain ⟨h1, h0, h2, j, h3, h4⟩ := hc
      unfold CtlOk
      exact Or.inr (Or.inr (Or.inl ⟨h1, h2.of_eq rfl rfl rfl rfl rfl, j, h3, Or.inr ⟨h0, h4⟩⟩))
    | true =>
      simp only [if_true, Option.some.injEq] at hs; subst hs
      unfold CtlOk; exact ⟨rfl, hc⟩
  | tl f w =>
    rw [hcx] at hc hs
    dsimp only at hs
    split at hs <;> simp only [Option.some.injEq, reduceCtorEq] at hs; subst hs
    cases w with
    | false =>
      obtain ⟨hf, h1, h0, h2, h3⟩ := hc
      unfold CtlOk
      exact ⟨hf, h1, h0, h2.of_eq rfl rfl rfl rfl rfl, h3⟩
    | true => unfold CtlOk; exact hc
  | ts f w =>
    have hfree := free (hI.mC.1 (by rw [hcx]; rfl))
    rw [hcx] at hc hs
    simp only [Option.some.injEq] at hs; subst hs
    cases w with
    | false =>
      obtain ⟨hf, h1, h0, h2, h3⟩ := hc
      obtain ⟨f1, f2, f3⟩ := h2.frozen h0
      subst hf
      unfold CtlOk
      exact ⟨rfl, h1, h0, rfl, parked_free f2 hfree, f3, h3⟩
    | true =>
      obtain ⟨hf, a1, a2, a3, a4, a5, a6, a7⟩ := hc
      subst hf
      unfold CtlOk
      exact ⟨rfl, a1, a2, a3, rfl, parked_free a5 hfree, a6, a7⟩
  | tf f w =>
    rw [hcx] at hc hs
    simp only [Option.some.injEq] at hs; subst hs
    cases w with
    | false =>
      obtain ⟨hf, h1, h0, h2, h3, h4, j, h5, h6⟩ := hc
      subst hf
      unfold CtlOk
      exact ⟨rfl, h1, rfl, h2, h3, h4, j, by simp only [if_true]; omega, h6⟩
    | true =>
      obtain ⟨hf, a1, a2, a3, a4, a5, a6, a7⟩ := hc
      subst hf
      unfold CtlOk
      exact ⟨rfl, a1, a2, rfl, a4, a5, a6, by simpa using a7⟩
  | tg f w =>
    rw [hcx] at hc hs
    simp only [Option.some.injEq] at hs; subst hs
    cases w with
    | false =>
      obtain ⟨hf, h1, h0, h2, h3, h4, h5⟩ := hc
      unfold CtlOk
      refine ⟨hf, h1, .woken h0 h2 ?_ h4, h5⟩
      rcases h3 with h3 | h3 <;> simp [h3, wakeN]
    | true =>
      obtain ⟨hf, a1, a2, a3, a4, a5, a6, a7⟩ := hc
      unfold CtlOk
      refine ⟨hf, a1, a2, a3, a4, ?_, a6, a7⟩
      rcases a5 with h3 | h3 <;> simp [h3, wakeN, Leaving]
  | tu f w =>
    rw [hcx] at hc hs
    cases w with
    | false =>
      simp only [Bool.false_eq_true, if_false, Option.some.injEq] at hs; subst hs
      obtain ⟨hf, h1, h2, j, h3, h4⟩ := hc
      unfold CtlOk
      exact Or.inr (Or.inr (Or.inl ⟨h1, h2.of_eq rfl rfl rfl rfl rfl, j, h3, Or.inl h4⟩))
    | true =>
      simp only [if_true, Option.some.injEq] at hs; subst hs
      unfold CtlOk; exact hc.2
  | w1 =>
    rw [hcx] at hc hs
    have : 0 < s.freezing := by rw [hc.2.2.2.1]; omega
    simp only [this, if_true, Option.some.injEq] at hs; subst hs
    unfold CtlOk
    exact hc
  | wj =>
    rw [hcx] at hc hs
    dsimp only at hs
    split at hs <;> simp only [Option.some.injEq, reduceCtorEq] at hs; subst hs
    rename_i hn
    obtain ⟨a1, a2, a3, a4, a5, a6, a7⟩ := hc
    unfold CtlOk
    right; right; right
    refine ⟨a1, ?_, a6, a7⟩
    rcases hn with hn | hn
    · exact hn
    · rw [hn] at a5; simp [Leaving] at a5

theorem PInv.step {K : Nat} {s s' : St} {a : Act} (h : PInv K s) (hs : Freeze.step true s a = some s') :
    PInv K s' := by
  have hI' := h.inv.step hs
  cases a with
  | ctl => exact h.cstep hs
  | node r =>
    simp only [Freeze.step] at hs
    split at hs
    · simp at hs
    · rename_i hr
      exact h.nstep (fun hh => hr ⟨trivial, hh⟩) hs
  | initFail => simp [Freeze.step] at hs
  | spurC =>
    simp only [Freeze.step] at hs
    split at hs <;> simp only [Option.some.injEq, reduceCtorEq] at hs
    subst hs
    rename_i w hc
    obtain ⟨hI, hk, hret⟩ := h
    unfold CtlOk at hk
    rw [hc] at hk
    cases w with
    | false => exact ⟨hI', ⟨hk.1, hk.2.1.of_eq rfl rfl rfl rfl rfl, hk.2.2⟩, hret⟩
    | true => exact absurd hk (by simp)
  | spurN =>
    simp only [Freeze.step] at hs
    split at hs <;> simp only [Option.some.injEq, reduceCtorEq] at hs
    subst hs
    rename_i hn
    obtain ⟨hI, hk, hret⟩ := h
    refine ⟨hI', ?_, hret⟩
    have main : Main s → Main { s with n := .relock } := by
      intro h
      cases h with
      | parked h1 h2 h3 h4 => exact .parked h1 h2 rfl h4
      | woken h1 h2 h3 h4 => exact .woken h1 h2 (by simp) h4
      | before h1 h2 h3 h4 => simp [hn] at h3
      | running h1 h2 h3 h4 => simp [hn] at h3
    unfold CtlOk at hk ⊢
    cases hc : s.c with
    | idle =>
      rw [hc] at hk
      rcases hk with ⟨_, h, _⟩ | ⟨_, h, _⟩ | ⟨h1, h2, h3⟩ | ⟨_, h, _⟩
      · rw [hn] at h; simp at h
      · rw [hn] at h; simp at h
      · exact Or.inr (Or.inr (Or.inl ⟨h1, (main h2).of_eq rfl rfl rfl rfl rfl, h3⟩))
      · rw [hn] at h; simp at h
    | fz => rw [hc] at hk; have := hk.2.1; rw [hn] at this; simp at this
    | wl w =>
      rw [hc] at hk
      cases w with
      | false => exact ⟨hk.1, (main hk.2.1).of_eq rfl rfl rfl rfl rfl, hk.2.2⟩
      | true => exact ⟨hk.1, hk.2.1, hk.2.2.1, hk.2.2.2.1, rfl, hk.2.2.2.2.2⟩
    | wc w =>
      rw [hc] at hk
      cases w with
      | false => exact ⟨hk.1, (main hk.2.1).of_eq rfl rfl rfl rfl rfl, hk.2.2⟩
      | true => exact ⟨hk.1, hk.2.1, hk.2.2.1, hk.2.2.2.1, rfl, hk.2.2.2.2.2⟩
    | ww w =>
      rw [hc] at hk
      cases w with
      | false => exact ⟨hk.1, (main hk.2.1).of_eq rfl rfl rfl rfl rfl, hk.2.2⟩
      | true => exact absurd hk (by simp)
    | wa w =>
      rw [hc] at hk
      cases w with
      | false => exact ⟨hk.1, (main hk.2.1).of_eq rfl rfl rfl rfl rfl, hk.2.2⟩
      | true => exact absurd hk (by simp)
    | wr w =>
      rw [hc] at hk
      cases w with
      | false => exact ⟨hk.1, (main hk.2.1).of_eq rfl rfl rfl rfl rfl, hk.2.2⟩
      | true => exact absurd hk (by simp)
    | wu w =>
      rw [hc] at hk
      cases w with
      | false => exact ⟨hk.1, hk.2.1, (main hk.2.2.1).of_eq rfl rfl rfl rfl rfl, hk.2.2.2⟩
      | true => exact ⟨hk.1, hk.2.1, hk.2.2.1, hk.2.2.2.1, rfl, hk.2.2.2.2.2⟩
    | tl f w =>
      rw [hc] at hk
      cases w with
      | false => exact ⟨hk.1, hk.2.1, hk.2.2.1, (main hk.2.2.2.1).of_eq rfl rfl rfl rfl rfl, hk.2.2.2.2⟩
      | true => exact ⟨hk.1, hk.2.1, hk.2.2.1, hk.2.2.2.1, hk.2.2.2.2.1, rfl, hk.2.2.2.2.2.2⟩
    | ts f w =>
      rw [hc] at hk
      cases w with
      | false => exact ⟨hk.1, hk.2.1, hk.2.2.1, (main hk.2.2.2.1).of_eq rfl rfl rfl rfl rfl, hk.2.2.2.2⟩
      | true => exact ⟨hk.1, hk.2.1, hk.2.2.1, hk.2.2.2.1, hk.2.2.2.2.1, rfl, hk.2.2.2.2.2.2⟩
    | tf f w =>
      rw [hc] at hk
      cases w with
      | false => exact ⟨hk.1, hk.2.1, hk.2.2.1, hk.2.2.2.1, Or.inr rfl, hk.2.2.2.2.2⟩
      | true => exact ⟨hk.1, hk.2.1, hk.2.2.1, hk.2.2.2.1, hk.2.2.2.2.1, Or.inr rfl, hk.2.2.2.2.2.2⟩
    | tg f w =>
      rw [hc] at hk
      cases w with
      | false => exact ⟨hk.1, hk.2.1, hk.2.2.1, hk.2.2.2.1, Or.inr rfl, hk.2.2.2.2.2⟩
      | true => exact ⟨hk.1, hk.2.1, hk.2.2.1, hk.2.2.2.1, hk.2.2.2.2.1, Or.inr rfl, hk.2.2.2.2.2.2⟩
    | tu f w =>
      rw [hc] at hk
      cases w with
      | false => exact ⟨hk.1, hk.2.1, (main hk.2.2.1).of_eq rfl rfl rfl rfl rfl, hk.2.2.2⟩
      | true => exact ⟨hk.1, hk.2.1, hk.2.2.1, hk.2.2.2.1, hk.2.2.2.2.1, Or.inl rfl, hk.2.2.2.2.2.2⟩
    | w1 => rw [hc] at hk; exact ⟨hk.1, hk.2.1, hk.2.2.1, hk.2.2.2.1, rfl, hk.2.2.2.2.2⟩
    | wj => rw [hc] at hk; exact ⟨hk.1, hk.2.1, hk.2.2.1, hk.2.2.2.1, Or.inl rfl, hk.2.2.2.2.2⟩

theorem PInv.reach {K : Nat} {s : St} (hr : Reach (Freeze.step true) (St.start (protocol K)) s) :
    PInv K s :=
  hr.inv (PInv.start K) (fun _ _ _ h hs => h.step hs)

/-- the controller has executed its program -/
def St.over (s : St) : Prop := s.c = .idle ∧ s.prog = []

/-- **C28, one service loop per thaw**: with the documented protocol (freeze and run; `K` times wait
for the freezing and thaw; wait for the freezing; wait), in every schedule: each time `wait_freezing`
passes, the service loop was executed once for the start and once for each thaw so far; at the end it
was executed exactly `K + 1` times, and the thread has ended. -/
theorem C28_rounds_partial {K : Nat} {s : St} (hr : Reach (Freeze.step true) (St.start (protocol K)) s) :
    (s.c.isWu = true → s.rounds = s.thaws + 1) ∧ (s.over → s.n = .done ∧ s.rounds = K + 1) := by
  obtain ⟨hI, hk, _⟩ := PInv.reach hr
  unfold CtlOk at hk
  refine ⟨fun h => ?_, fun ⟨h1, h2⟩ => ?_⟩
  · cases hc : s.c <;> rw [hc] at h <;> simp [CPc.isWu] at h
    rename_i w
    rw [hc] at hk
    cases w with
    | false => exact (hk.2.2.1.frozen hk.2.1).2.2
    | true => rw [hk.2.2.2.2.2.1, hk.2.2.2.2.2.2]
  · rw [h1] at hk
    rcases hk with ⟨h, _⟩ | ⟨h, _⟩ | ⟨_, _, j, _, h⟩ | ⟨_, h3, h4, _⟩
    · rw [h2] at h; simp [protocol] at h
    · rw [h2] at h; simp at h
    · rcases h with h | ⟨_, h⟩ <;> rw [h2] at h
      · rw [rest_eq] at h; simp at h
      · cases j <;> simp [tailOf] at h
    · exact ⟨h3, h4⟩

/-! ## Completion -/

def Cmd.cost : Cmd → Nat
  | .wait => 300
  | _ => 100

def CPc.cost (frozen : Bool) : CPc → Nat
  | .idle => 0
  | .fz => 50
  | .wl w => 30 + if w then 100 else 0
  | .wc w => (if frozen then 22 else 28) + if w then 100 else 0
  | .ww w => 26 + if w then 100 else 0
  | .wa w => 24 + if w then 100 else 0
  | .wr w => (if frozen then 23 else 29) + if w then 100 else 0
  | .wu w => 20 + if w then 100 else 0
  | .tl _ w => 70 + if w then 10 else 0
  | .ts _ w => 69 + if w then 10 else 0
  | .tf _ w => 40 + if w then 10 else 0
  | .tg _ w => 39 + if w then 10 else 0
  | .tu _ w => 4 + if w then 10 else 0
  | .w1 => 290
  | .wj => 5

def NPc.cost (freezing : Nat) : NPc → Nat
  | .off | .asleep | .done => 0
  | .waitc => 1
  | .sig => 11
  | .setf => 12
  | .loop => if freezing = 1 then 13 else 23
  | .relock => if freezing = 1 then 14 else 24
  | .chk0 => 15
  | .chk => 16
  | .lock => 17
  | .svc => 18
  | .init => 19
  | .again => 20
  | .unlock => 21
  | .after => 22
  | .endc => 19
  | .endl => 18
  | .ends => 17
  | .endg => 16
  | .endu => 10
  | .fin => 9

def St.work (s : St) : Nat :=
  (s.prog.map Cmd.cost).sum + s.c.cost s.frozen + s.n.cost s.freezing

def Act.isSpur : Act → Bool
  | .spurC | .spurN => true
  | _ => false

theorem wakeC_cost (b : Bool) (c : CPc) : (wakeC c).cost b ≤ c.cost b + 5 := by
  cases c <;> cases b <;> simp [wakeC, CPc.cost]
  all_goals split <;> omega

theorem cost_frozen (c : CPc) (b : Bool) : c.cost true ≤ c.cost b := by
  cases c <;> cases b <;> simp [CPc.cost]

theorem PInv.chk {K : Nat} {s : St} (h : PInv K s) (hn : s.n = .chk ∨ s.n = .chk0) :
    s.stp = false ∧ s.freezing = 1 := by
  have main : Main s → s.freezing = 1 := by
    intro h
    cases h with
    | parked h1 h2 h3 h4 => exact h2
    | woken h1 h2 h3 h4 => rcases hn with hn | hn <;> rw [hn] at h3 <;> simp at h3
    | before h1 h2 h3 h4 => exact h2
    | running h1 h2 h3 h4 => exact h2
  have nopark : s.n.parked = true → False := by
    intro h; rcases hn with hn | hn <;> rw [hn] at h <;> simp [NPc.parked] at h
  have nosleep : s.n = .asleep ∨ s.n = .relock → False := by
    intro h; rcases hn with hn | hn <;> rw [hn] at h <;> simp at h
  have noleave : Leaving s.n → False := by
    intro h; rcases hn with hn | hn <;> rw [hn] at h <;> simp [Leaving] at h
  have hk := h.ctl
  unfold CtlOk at hk
  cases hc : s.c with
  | idle =>
    rw [hc] at hk
    rcases hk with ⟨_, h, _⟩ | ⟨_, h, _⟩ | ⟨h1, h2, h3⟩ | ⟨_, h, _⟩
    · rcases hn with hn | hn <;> rw [hn] at h <;> simp at h
    · rcases hn with hn | hn <;> rw [hn] at h <;> simp at h
    · exact ⟨h1, main h2⟩
    · rcases hn with hn | hn <;> rw [hn] at h <;> simp at h
  | fz =>
    rw [hc] at hk
    have := hk.2.1
    rcases hn with hn | hn <;> rw [hn] at this <;> simp at this
  | wl w | wc w =>
    rw [hc] at hk
    cases w with
    | false => exact ⟨hk.1, main hk.2.1⟩
    | true => exact absurd hk.2.2.2.2.1 nopark
  | ww w | wa w | wr w =>
    rw [hc] at hk
    cases w with
    | false => exact ⟨hk.1, main hk.2.1⟩
    | true => exact absurd hk (by simp)
  | wu w =>
    rw [hc] at hk
    cases w with
    | false => exact ⟨hk.1, main hk.2.2.1⟩
    | true => exact absurd hk.2.2.2.2.1 nopark
  | tl f w | ts f w =>
    rw [hc] at hk
    cases w with
    | false => exact ⟨hk.2.1, main hk.2.2.2.1⟩
    | true => exact absurd hk.2.2.2.2.2.1 nopark
  | tf f w | tg f w =>
    rw [hc] at hk
    cases w with
    | false => exact absurd hk.2.2.2.2.1 nosleep
    | true => exact absurd hk.2.2.2.2.2.1 nosleep
  | tu f w =>
    rw [hc] at hk
    cases w with
    | false => exact ⟨hk.2.1, main hk.2.2.1⟩
    | true => exact absurd hk.2.2.2.2.2.1 noleave
  | w1 => rw [hc] at hk; exact absurd hk.2.2.2.2.1 nopark
  | wj => rw [hc] at hk; exact absurd hk.2.2.2.2.1 noleave

theorem work_nstep {K : Nat} {s s' : St} {r : Ret} (h : PInv K s) (hs : Freeze.nstep s r = some s') :
    s'.work < s.work := by
  have hchk := h.chk
  have hret := h.ret
  have hwake := wakeC_cost s.frozen s.c
  have hfr := cost_frozen s.c s.frozen
  unfold Freeze.nstep at hs
  cases hn : s.n <;> rw [hn] at hs hchk <;> simp only [Option.some.injEq, reduceCtorEq] at hs
  case lock | relock | endl =>
    split at hs <;> simp only [Option.some.injEq, reduceCtorEq] at hs
    subst hs
    simp only [St.work, hn, NPc.cost]
    (try split) <;> omega
  case chk =>
    subst hs
    obtain ⟨h1, h2⟩ := hchk (by simp)
    simp [St.work, hn, NPc.cost, h1, hret]
  case chk0 =>
    subst hs
    obtain ⟨h1, h2⟩ := hchk (by simp)
    simp [St.work, hn, NPc.cost, h2]
  case loop =>
    subst hs
    by_cases hf : s.freezing = 1 <;> simp [St.work, hn, NPc.cost, hf]
  case again =>
    subst hs
    by_cases hf : s.stp = false <;> simp [St.work, hn, NPc.cost, hf]
  case endc =>
    subst hs
    by_cases hf : s.freezing = 0 <;> simp [St.work, hn, NPc.cost, hf]
  all_goals
    subst hs
    simp only [St.work, hn, NPc.cost]
    omega

theorem work_cstep {K : Nat} {s s' : St} (h : PInv K s) (hs : Freeze.cstep s = some s') :
    s'.work < s.work := by
  have hcost : ∀ f g, s.n.cost f ≤ s.n.cost g + 10 := by
    intro f g
    cases s.n <;> simp only [NPc.cost] <;> repeat' split
    all_goals omega
  have hwake : ∀ f, (wakeN s.n).cost f ≤ s.n.cost f + 24 := by
    intro f
    cases s.n <;> simp only [NPc.cost, wakeN] <;> repeat' split
    all_goals omega
  have hk := h.ctl
  unfold CtlOk at hk
  unfold Freeze.cstep at hs
  cases hc : s.c <;> rw [hc] at hs hk
  case idle =>
    simp only at hs
    split at hs
    · simp at hs
    · simp only [Option.some.injEq] at hs; subst hs
      rename_i hp
      simp only [St.work, hp, hc, List.map_cons, List.sum_cons, Cmd.cost, CPc.cost]; omega
    · rename_i hp
      split at hs <;> simp only [Option.some.injEq] at hs <;> subst hs
      · rename_i hn
        simp only [St.work, hp, hc, hn, List.map_cons, List.sum_cons, Cmd.cost, CPc.cost, NPc.cost]; omega
      · simp only [St.work, hp, hc, List.map_cons, List.sum_cons, Cmd.cost, CPc.cost]; omega
    · simp only [Option.some.injEq] at hs; subst hs
      rename_i hp
      simp [St.work, hp, hc, Cmd.cost, CPc.cost]; omega
    · simp only [Option.some.injEq] at hs; subst hs
      rename_i hp
      simp [St.work, hp, hc, Cmd.cost, CPc.cost]; omega
    · simp only [Option.some.injEq] at hs; subst hs
      rename_i hp
      simp [St.work, hp, hc, Cmd.cost, CPc.cost]; omega
  case fz =>
    simp only [Option.some.injEq] at hs; subst hs
    have := hcost 1 s.freezing
    simp only [St.work, hc, CPc.cost]; omega
  case wl w =>
    dsimp only at hs
    split at hs <;> simp only [Option.some.injEq, reduceCtorEq] at hs; subst hs
    simp only [St.work, hc, CPc.cost]
    cases s.frozen <;> simp <;> omega
  case wr w =>
    dsimp only at hs
    split at hs <;> simp only [Option.some.injEq, reduceCtorEq] at hs; subst hs
    simp only [St.work, hc, CPc.cost]
    cases s.frozen <;> simp <;> omega
  case tl f w =>
    dsimp only at hs
    split at hs <;> simp only [Option.some.injEq, reduceCtorEq] at hs; subst hs
    simp only [St.work, hc, CPc.cost]; omega
  case wc w =>
    simp only [Option.some.injEq] at hs; subst hs
    simp only [St.work, hc]
    cases s.frozen <;> simp [CPc.cost] <;> omega
  case ww w =>
    simp only [Option.some.injEq] at hs; subst hs
    simp only [St.work, hc, CPc.cost]; omega
  case wa w => simp at hs
  case wu w =>
    simp only [Option.some.injEq] at hs; subst hs
    simp only [St.work, hc]
    cases w <;> simp [CPc.cost] <;> omega
  case ts f w =>
    simp only [Option.some.injEq] at hs; subst hs
    have := hcost (if f then 2 else 0) s.freezing
    simp only [St.work, hc, CPc.cost]; omega
  case tf f w =>
    simp only [Option.some.injEq] at hs; subst hs
    simp only [St.work, hc, CPc.cost]; omega
  case tg f w =>
    simp only [Option.some.injEq] at hs; subst hs
    have := hwake s.freezing
    simp only [St.work, hc, CPc.cost]; omega
  case tu f w =>
    simp only [Option.some.injEq] at hs; subst hs
    simp only [St.work, hc]
    cases w <;> simp [CPc.cost] <;> omega
  case w1 =>
    simp only [Option.some.injEq] at hs; subst hs
    simp only [St.work, hc]
    split <;> simp [CPc.cost] <;> omega
  case wj =>
    dsimp only at hs
    split at hs <;> simp only [Option.some.injEq, reduceCtorEq] at hs; subst hs
    simp only [St.work, hc, CPc.cost]; omega

/-- the node's thread is not blocked if it holds the mutex -/
theorem holds_enabled {s : St} (h : s.n.holds = true) : ∃ s', Freeze.nstep s .eos = some s' := by
  unfold Freeze.nstep
  cases hn : s.n <;> rw [hn] at h <;> simp [NPc.holds] at h
  all_goals exact ⟨_, rfl⟩

/-- **C28, no deadlock**: with the documented protocol, until the controller is through, the thread or
the controller can take a step (without any spurious wake-up). -/
theorem C28_progress {K : Nat} {s : St} (hr : Reach (Freeze.step true) (St.start (protocol K)) s)
    (ho : ¬ s.over) : ∃ a s', a.isSpur = false ∧ Freeze.step true s a = some s' := by
  have h := PInv.reach hr
  have hI := h.inv
  have hk := h.ctl
  have node : ∀ {s'}, Freeze.nstep s .eos = some s' →
      ∃ a s', a.isSpur = false ∧ Freeze.step true s a = some s' :=
    fun {s'} h => ⟨.node .eos, s', rfl, by simp [Freeze.step, h]⟩
  have nholds : s.mtx = some .node → ∃ a s', a.isSpur = false ∧ Freeze.step true s a = some s' := by
    intro hm
    obtain ⟨s', h'⟩ := holds_enabled (hI.mN.2 hm)
    exact node h'
  have ctl : ∀ {s'}, Freeze.cstep s = some s' →
      ∃ a s', a.isSpur = false ∧ Freeze.step true s a = some s' :=
    fun {s'} h => ⟨.ctl, s', rfl, h⟩
  have mtx : s.c.holds = false → s.mtx = none ∨ s.mtx = some .node := by
    intro hh
    cases hm : s.mtx with
    | none => exact Or.inl rfl
    | some x =>
      cases x with
      | node => exact Or.inr rfl
      | ctl => have := hI.mC.2 hm; rw [hh] at this; simp at this
  unfold CtlOk at hk
  cases hc : s.c with
  | idle =>
    cases hp : s.prog with
    | nil => exact absurd ⟨hc, hp⟩ ho
    | cons x p =>
      cases x with
      | spawn =>
        by_cases hn : s.n = .off
        · exact ctl (s' := { s with prog := p, n := .init }) (by simp [Freeze.cstep, hc, hp, hn])
        · exact ctl (s' := { s with prog := p }) (by simp [Freeze.cstep, hc, hp, hn])
      | freeze => exact ctl (by simp only [Freeze.cstep, hc, hp]; rfl)
      | waitFreezing => exact ctl (by simp only [Freeze.cstep, hc, hp]; rfl)
      | thaw f => exact ctl (by simp only [Freeze.cstep, hc, hp]; rfl)
      | wait => exact ctl (by simp only [Freeze.cstep, hc, hp]; rfl)
  | wl w =>
    rcases mtx (by rw [hc]; rfl) with hm | hm
    · exact ctl (s' := { s with c := .wc w, mtx := some .ctl }) (by simp [Freeze.cstep, hc, hm])
    · exact nholds hm
  | wr w =>
    rcases mtx (by rw [hc]; rfl) with hm | hm
    · exact ctl (s' := { s with c := .wc w, mtx := some .ctl }) (by simp [Freeze.cstep, hc, hm])
    · exact nholds hm
  | tl f w =>
    rcases mtx (by rw [hc]; rfl) with hm | hm
    · exact ctl (s' := { s with c := .ts f w, mtx := some .ctl }) (by simp [Freeze.cstep, hc, hm])
    · exact nholds hm
  | wa w =>
    rcases mtx (by rw [hc]; rfl) with hm | hm
    · rw [hc] at hk
      cases w with
      | true => exact absurd hk (by simp)
      | false =>
        have haC := hI.aC (by rw [hc]; rfl)
        have haN := hI.aN
        have hfr := hI.mN
        rw [hm] at hfr
        cases hk.2.1 with
        | parked h1 h2 h3 h4 =>
          rcases haC with h | h
          · rw [h1] at h; simp at h
          · have : s.n.holds = true := by cases hn : s.n <;> simp_all [NPc.presig, NPc.holds]
            simp [this] at hfr
        | woken h1 h2 h3 h4 =>
          rcases h3 with hn | hn | hn | hn
          · rcases haN hn with h | h
            · omega
            · rw [hc] at h; simp [CPc.presig] at h
          · exact node (s' := { s with n := .loop, mtx := some .node }) (by simp [Freeze.nstep, hn, hm])
          · exact node (by simp only [Freeze.nstep, hn]; rfl)
          · exact node (by simp only [Freeze.nstep, hn]; rfl)
        | before h1 h2 h3 h4 =>
          rcases h3 with hn | hn | hn <;> exact node (by simp only [Freeze.nstep, hn]; rfl)
        | running h1 h2 h3 h4 =>
          rcases h3 with hn | hn | hn | hn | hn | hn
          · exact node (by simp only [Freeze.nstep, hn]; rfl)
          · exact node (s' := { s with n := .chk, mtx := some .node }) (by simp [Freeze.nstep, hn, hm])
          · exact node (by simp only [Freeze.nstep, hn]; rfl)
          · exact node (by simp only [Freeze.nstep, hn]; rfl)
          · exact node (by simp only [Freeze.nstep, hn]; rfl)
          · exact node (by simp only [Freeze.nstep, hn]; rfl)
    · exact nholds hm
  | wj =>
    rcases mtx (by rw [hc]; rfl) with hm | hm
    · rw [hc] at hk
      have hl := hk.2.2.2.2.1
      unfold Leaving at hl
      rcases hl with hn | hn | hn | hn | hn | hn | hn | hn
      · exact node (s' := { s with n := .loop, mtx := some .node }) (by simp [Freeze.nstep, hn, hm])
      · exact node (by simp only [Freeze.nstep, hn]; rfl)
      · exact node (by simp only [Freeze.nstep, hn]; rfl)
      · exact node (by simp only [Freeze.nstep, hn]; rfl)
      · exact node (by simp only [Freeze.nstep, hn]; rfl)
      · exact node (by simp only [Freeze.nstep, hn]; rfl)
      · exact node (by simp only [Freeze.nstep, hn]; rfl)
      · exact ctl (s' := { s with c := .idle }) (by simp [Freeze.cstep, hc, hn])
    · exact nholds hm
  | fz => exact ctl (by simp only [Freeze.cstep, hc]; rfl)
  | wc w => exact ctl (by simp only [Freeze.cstep, hc]; rfl)
  | ww w => exact ctl (by simp only [Freeze.cstep, hc]; rfl)
  | wu w => exact ctl (by simp only [Freeze.cstep, hc]; rfl)
  | ts f w => exact ctl (by simp only [Freeze.cstep, hc]; rfl)
  | tf f w => exact ctl (by simp only [Freeze.cstep, hc]; rfl)
  | tg f w => exact ctl (by simp only [Freeze.cstep, hc]; rfl)
  | tu f w => exact ctl (by simp only [Freeze.cstep, hc]; rfl)
  | w1 => exact ctl (by simp only [Freeze.cstep, hc]; rfl)

theorem C28_work {K : Nat} {s s' : St} {a : Act}
    (hr : Reach (Freeze.step true) (St.start (protocol K)) s) (ha : a.isSpur = false)
    (hs : Freeze.step true s a = some s') : s'.work < s.work := by
  have h := PInv.reach hr
  cases a with
  | ctl => exact work_cstep h hs
  | node r =>
    simp only [Freeze.step] at hs
    split at hs
    · simp at hs
    · exact work_nstep h hs
  | initFail => simp [Freeze.step] at hs
  | spurC => simp [Act.isSpur] at ha
  | spurN => simp [Act.isSpur] at ha

/-- **C28, completion**: from every reachable state of the documented protocol the run can end, with
`K + 1` executions of the service loop.  (Steps that are not spurious wake-ups reduce a measure,
`C28_work`, and one of them is always possible, `C28_progress`: every schedule with finitely many
spurious wake-ups ends.) -/
theorem C28_completes_partial {K : Nat} {s : St} (hr : Reach (Freeze.step true) (St.start (protocol K)) s) :
    ∃ s', Reach (Freeze.step true) s s' ∧ s'.over ∧ s'.n = .done ∧ s'.rounds = K + 1 := by
  have key : ∀ w, ∀ s : St, s.work = w → Reach (Freeze.step true) (St.start (protocol K)) s →
      ∃ s', Reach (Freeze.step true) s s' ∧ s'.over := by
    intro w
    induction w using Nat.strongRecOn with
    | _ w ih =>
      intro s hw hr
      by_cases ho : s.over
      · exact ⟨s, Reach.refl _ _, ho⟩
      · obtain ⟨a, s1, ha, hs⟩ := C28_progress hr ho
        have hd := C28_work hr ha hs
        obtain ⟨s2, h1, h2⟩ := ih _ (by omega) s1 rfl (hr.tail hs)
        exact ⟨s2, (Reach.tail (Reach.refl _ _) hs).trans h1, h2⟩
  obtain ⟨s', h1, h2⟩ := key _ s rfl hr
  obtain ⟨h3, h4⟩ := (C28_rounds_partial (hr.trans h1)).2 h2
  exact ⟨s', h1, h2, h3, h4⟩

/-! ## Outside the protocol -/

/-- **C28, `thaw` followed by `wait`**: if the controller calls `wait` right after a `thaw` (without
`wait_freezing` in between), the thread may end without executing the service loop for that thaw: `wait`
sets `stp`, and the woken thread tests `stp` before it starts the next round. -/
theorem C28_thaw_wait_counterexample (f : Bool) :
    ∃ as s, exec (Freeze.step true) (St.start [.freeze, .spawn, .waitFreezing, .thaw f, .wait]) as = some s ∧
      s.over ∧ s.n = .done ∧ s.rounds = 1 := by
  cases f
  · refine ⟨List.replicate 3 .ctl ++ List.replicate 9 (.node .eos) ++ List.replicate 12 .ctl ++
      List.replicate 7 (.node .eos) ++ List.replicate 1 .ctl, _, rfl, ?_, rfl, rfl⟩
    exact ⟨rfl, rfl⟩
  · refine ⟨List.replicate 3 .ctl ++ List.replicate 9 (.node .eos) ++ List.replicate 12 .ctl ++
      List.replicate 11 (.node .eos) ++ List.replicate 9 .ctl, _, rfl, ?_, rfl, rfl⟩
    exact ⟨rfl, rfl⟩

/-- **C28, `FF_EOS_NOFREEZE`**: a round that ends that way is followed by another one without any thaw:
that is what the mark is for. -/
theorem C28_nofreeze_counterexample :
    ∃ as s, exec (Freeze.step false) (St.start [.freeze, .spawn, .waitFreezing]) as = some s ∧
      s.rounds = 2 ∧ s.thaws = 0 :=
  ⟨List.replicate 3 .ctl ++ [.node .nofreeze, .node .nofreeze] ++ List.replicate 6 (.node .eos), _, rfl, rfl, rfl⟩

/-- a complete run of the protocol without a thaw; with `C28_completes_partial` there are complete runs for every `K` -/
example : ∃ as s, exec (Freeze.step true) (St.start (protocol 0)) as = some s ∧ s.over ∧ s.rounds = 1 :=
  ⟨List.replicate 3 .ctl ++ List.replicate 9 (.node .eos) ++ List.replicate 14 .ctl ++
    List.replicate 7 (.node .eos) ++ List.replicate 1 .ctl, _, rfl, ⟨rfl, rfl⟩, rfl⟩

end FF.Freeze
