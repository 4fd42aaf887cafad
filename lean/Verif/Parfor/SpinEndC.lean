import Verif.Parfor.SpinEnd
/-!
# Loops of spinning workers: what a caller relies on (C82)
-/
namespace FF.Parfor.SpinEnd
open FF FF.Node

/-- separation in this model, for any caller -/
theorem separation {N : Nat} {careful : Bool} {par : Nat → Bool} {b : Bool → Nat} {s : S}
    (hr : Reach (step N careful) (S.new par b) s) (hc : s.c = .out) (v : Nat) :
    s.done v = s.sent v ∧ s.w v ≠ .run := by
  rcases inv_reach hr with h | h
  · exact ⟨(h.count v).symm, by rw [h.w v]; simp⟩
  · have hall := cnt_all.1 (h.cout hc)
    have hcnt := h.count v
    by_cases hv : v < s.n
    · have ha := hall v (by omega)
      refine ⟨by rw [hcnt]; simp [ha], fun hw => ?_⟩
      have := (h.run v hv hw).2
      rw [ha] at this; simp at this
    · exact ⟨by simp [hv] at hcnt; exact hcnt.symm, (h.rest v (by omega)).2⟩

/-- **C82** (separation; partial: of a caller that changes the number of workers only when all workers have left the
barrier of the last loop; otherwise it is false of the code, `SpinFine.C82_early_return_counterexample`).  Whenever the
caller is between two loops, every worker has completed as many parts of loops as it has been woken up for, and none
is executing one. -/
theorem C82_separation_partial {N : Nat} {par : Nat → Bool} {b : Bool → Nat} {s : S}
    (hr : Reach (step N true) (S.new par b) s) (hc : s.c = .out) (v : Nat) :
    s.done v = s.sent v ∧ s.w v ≠ .run := separation hr hc v

/-! ## Work left -/

def WPC.left : WPC → Nat
  | .idle => 0
  | .run => 2
  | .spin _ => 1

def CPC.left : CPC → Nat
  | .out => 0
  | .wait => 2
  | .spin _ => 1

/-- a bound on the number of actions before the next loop is started -/
def S.left (N : Nat) (s : S) : Nat :=
  ((List.range N).map fun v => 3 * s.q v + (s.w v).left).sum + s.c.left

theorem sum_lt {N : Nat} {f g : Nat → Nat} {v : Nat} (hv : v < N) (h : ∀ x, x ≠ v → g x = f x) (hlt : g v < f v) :
    ((List.range N).map g).sum < ((List.range N).map f).sum := by
  induction N with
  | zero => omega
  | succ N ih =>
    rw [List.range_succ]
    simp only [List.map_append, List.sum_append, List.map_cons, List.map_nil, List.sum_cons, List.sum_nil]
    by_cases hvn : v = N
    · subst hvn
      have : (List.range v).map g = (List.range v).map f := by
        apply List.map_congr_left
        intro x hx
        exact h x (by simp at hx; omega)
      rw [this]; omega
    · have := ih (by omega)
      rw [h N (fun e => hvn e.symm)]; omega

theorem enter_same (s : S) (t : Nat) : (s.enter t).1.q = s.q ∧ (s.enter t).1.w = s.w ∧ (s.enter t).1.c = s.c ∧
    (s.enter t).1.n = s.n ∧ (s.enter t).1.size = s.size := by
  unfold S.enter; simp only; split <;> simp

theorem left_step {N : Nat} {careful : Bool} {s s' : S} {a : Act} (ha : ∀ n, a ≠ .start n)
    (hs : step N careful s a = some s') : s'.left N < s.left N := by
  cases a with
  | start n => exact absurd rfl (ha n)
  | callerEnter =>
    simp only [step] at hs
    split at hs
    · rename_i hc
      obtain ⟨e1, e2, e3, _⟩ := enter_same s s.n
      split at hs <;> rename_i x he <;> rw [he] at e1 e2 e3 <;> simp only [Option.some.injEq] at hs <;> subst hs <;>
        simp only [S.left] <;> simp only at e1 e2 <;> rw [e1, e2, hc] <;> simp [CPC.left]
    · simp at hs
  | callerLook =>
    simp only [step] at hs
    split at hs
    · rename_i k hc
      split at hs
      · simp only [Option.some.injEq] at hs
        subst hs
        simp [S.left, hc, CPC.left]
      · simp at hs
    · simp at hs
  | take v =>
    simp only [step] at hs
    split at hs
    · rename_i hc
      simp only [Option.some.injEq] at hs
      subst hs
      apply Nat.add_lt_add_right
      apply sum_lt hc.1
      · intro x hx; simp [upd, hx]
      · simp only [upd, if_true, hc.2.1, WPC.left]; omega
    · simp at hs
  | enter v =>
    simp only [step] at hs
    split at hs
    · rename_i hc
      obtain ⟨e1, e2, e3, _⟩ := enter_same s v
      split at hs <;> rename_i x he <;> rw [he] at e1 e2 e3 <;> simp only [Option.some.injEq] at hs <;> subst hs <;>
        simp only [S.left] <;> simp only at e1 e3 <;> rw [e1, e3] <;> apply Nat.add_lt_add_right <;>
        apply sum_lt hc.1
      · intro x hx; simp [upd, hx]
      · simp [upd, hc.2, WPC.left]
      · intro x hx; simp [upd, hx]
      · simp [upd, hc.2, WPC.left]
    · simp at hs
  | look v =>
    simp only [step] at hs
    split at hs
    · rename_i hv
      split at hs
      · rename_i k hw
        split at hs
        · simp only [Option.some.injEq] at hs
          subst hs
          apply Nat.add_lt_add_right
          apply sum_lt hv
          · intro x hx; simp [upd, hx]
          · simp [upd, hw, WPC.left]
        · simp at hs
      · simp at hs
    · simp at hs

/-- **C82** (no endless activity).  Between two starts of loops only finitely many actions are possible: at most
three for each wake-up of each worker and two for the caller.  (Reads that find `B` different from 0 do not count.) -/
theorem C82_bounded {N : Nat} {careful : Bool} {s s' : S} {as : List Act} (ha : ∀ a ∈ as, ∀ n, a ≠ .start n)
    (he : exec (step N careful) s as = some s') : as.length + s'.left N ≤ s.left N := by
  induction as generalizing s with
  | nil => simp only [exec, Option.some.injEq] at he; subst he; simp
  | cons a as ih =>
    simp only [exec] at he
    cases hs : step N careful s a with
    | none => rw [hs] at he; simp at he
    | some x =>
      rw [hs] at he
      have h1 := left_step (ha a (by simp)) hs
      have h2 := ih (fun a' h' => ha a' (by simp [h'])) he
      simp only [List.length_cons]; omega

/-! ## Loops return when a change of the number waits for the workers -/

structure J (N : Nat) (s : S) : Prop where
  n : s.n ≤ N
  idle : ∀ v, N ≤ v → s.w v = .idle
  spin : ∀ v k, s.w v = .spin k → v < s.n ∧ (s.arr v = false → k = s.p)

theorem J.step {N : Nat} {s s' : S} {a : Act} (h : J N s) (hi : Fresh s ∨ I s) (hs : step N true s a = some s') : J N s' := by
  have hi' : ∀ v k, s.w v = .spin k → s.arr v = true → k = !s.p := by
    intro v k hw ha
    rcases hi with hi | hi
    · rw [hi.w v] at hw; simp at hw
    · rcases hi.spin v k (h.spin v k hw).1 hw with h1 | h1
      · exact h1.1
      · rw [ha] at h1; simp at h1
  cases a with
  | start n =>
    simp only [SpinEnd.step] at hs
    split at hs
    · rename_i hc
      simp only [Option.some.injEq] at hs
      subst hs
      obtain ⟨hout, _, hnN, hq⟩ := hc
      refine ⟨hnN, ?_, ?_⟩
      · intro v hv
        have : (s.setup (n + 1)).w = s.w := by unfold S.setup; split <;> rfl
        show (s.setup (n + 1)).w v = .idle
        rw [this]; exact h.idle v hv
      · intro v k hw
        have e : (s.setup (n + 1)).w = s.w := by unfold S.setup; split <;> rfl
        have hw : s.w v = .spin k := by rw [← e]; exact hw
        by_cases heq : n + 1 = s.size
        · rcases hi with hi | hi
          · rw [hi.w v] at hw; simp at hw
          · have hn : n = s.n := by have := hi.size; omega
            have hv := (h.spin v k hw).1
            refine ⟨by show v < n; omega, fun _ => ?_⟩
            have ha := cnt_all.1 (hi.cout hout) v (by omega)
            show k = (s.setup (n + 1)).p
            rw [S.setup, if_pos heq]
            exact hi' v k hw ha
        · exfalso
          have hvN : v < N := by
            rcases Nat.lt_or_ge v N with h1 | h1
            · exact h1
            · rw [h.idle v h1] at hw; simp at hw
          exact hq trivial heq v hvN k hw
    · simp at hs
  | callerEnter =>
    simp only [SpinEnd.step] at hs
    split at hs
    · rename_i hc
      rcases hi with hi | hi
      · rw [hi.c] at hc; simp at hc
      obtain ⟨x, o, e0, e1, e2, e3, e4, e5, e6, e7, e8, e9, e10, e11, e12, e13, e14⟩ :=
        enter_spec hi.size hi.b0 hi.b1 (t := s.n) (by omega) (hi.cwait hc)
      rw [e0] at hs
      have key : ∀ c, J N { x with c := c } := by
        intro c
        refine ⟨by show x.n ≤ N; rw [e2]; exact h.n, ?_, ?_⟩
        · intro v hv; show x.w v = _; rw [e4]; exact h.idle v hv
        · intro v k (hw : x.w v = .spin k)
          rw [e4] at hw
          obtain ⟨h1, h2⟩ := h.spin v k hw
          show v < x.n ∧ (x.arr v = false → k = x.p)
          have hne : v ≠ s.n := by omega
          rw [e2, e8, e9]
          exact ⟨h1, fun hh => h2 (by simpa [upd, hne] using hh)⟩
      cases o <;> simp only [Option.some.injEq] at hs <;> subst hs <;> exact key _
    · simp at hs
  | callerLook =>
    simp only [SpinEnd.step] at hs
    split at hs
    · split at hs
      · simp only [Option.some.injEq] at hs
        subst hs
        exact ⟨h.n, h.idle, h.spin⟩
      · simp at hs
    · simp at hs
  | take v =>
    simp only [SpinEnd.step] at hs
    split at hs
    · rename_i hc
      simp only [Option.some.injEq] at hs
      subst hs
      refine ⟨h.n, ?_, ?_⟩
      · intro x hx
        have : x ≠ v := by omega
        simp only [upd, this, if_false]; exact h.idle x hx
      · intro x k hw
        by_cases hxv : x = v
        · subst hxv; simp [upd] at hw
        · simp only [upd, hxv, if_false] at hw; exact h.spin x k hw
    · simp at hs
  | enter v =>
    simp only [SpinEnd.step] at hs
    split at hs
    · rename_i hc
      rcases hi with hi | hi
      · rw [hi.w v] at hc; simp at hc
      have hv : v < s.n := Classical.byContradiction fun hv => (hi.rest v (by omega)).2 hc.2
      obtain ⟨x, o, e0, e1, e2, e3, e4, e5, e6, e7, e8, e9, e10, e11, e12, e13, e14⟩ :=
        enter_spec hi.size hi.b0 hi.b1 (t := v) (by omega) (hi.run v hv hc.2).2
      rw [e0] at hs
      have key : ∀ p d, J N { x with w := upd s.w v p, done := d } := by
        intro p d
        refine ⟨by show x.n ≤ N; rw [e2]; exact h.n, ?_, ?_⟩
        · intro y hy
          have : y ≠ v := by omega
          show upd s.w v p y = _
          simp only [upd, this, if_false]; exact h.idle y hy
        · intro y k (hw : upd s.w v p y = .spin k)
          show y < x.n ∧ (x.arr y = false → k = x.p)
          rw [e2, e8, e9]
          by_cases hyv : y = v
          · subst hyv; exact ⟨hv, by simp [upd]⟩
          · simp only [upd, hyv, if_false] at hw ⊢; exact h.spin y k hw
      cases o <;> simp only [Option.some.injEq] at hs <;> subst hs <;> exact key _ _
    · simp at hs
  | look v =>
    simp only [SpinEnd.step] at hs
    split at hs
    · split at hs
      · split at hs
        · simp only [Option.some.injEq] at hs
          subst hs
          refine ⟨h.n, ?_, ?_⟩
          · intro x hx
            have : x ≠ v := by omega
            simp only [upd, this, if_false]; exact h.idle x hx
          · intro x k hw
            by_cases hxv : x = v
            · subst hxv; simp [upd] at hw
            · simp only [upd, hxv, if_false] at hw; exact h.spin x k hw
        · simp at hs
      · simp at hs
    · simp at hs

theorem IJ_reach {N : Nat} {par : Nat → Bool} {b : Bool → Nat} {s : S}
    (hr : Reach (step N true) (S.new par b) s) : (Fresh s ∨ I s) ∧ J N s := by
  refine hr.inv (Inv := fun s => (Fresh s ∨ I s) ∧ J N s)
    ⟨inv_reach (careful := true) (Reach.refl (step N true) _), Nat.zero_le _, fun _ _ => rfl, by simp [S.new]⟩ ?_
  intro s a s' ⟨h1, h2⟩ hs
  refine ⟨Or.inr ?_, h2.step h1 hs⟩
  rcases h1 with h | h
  · cases a with
    | start n => exact start_inv (Or.inl h) hs
    | callerEnter => simp [step, h.c] at hs
    | callerLook => simp [step, h.c] at hs
    | take v => simp [step, h.q v] at hs
    | enter v => simp [step, h.w v] at hs
    | look v => simp [step, h.w v] at hs
  · exact h.step hs

/-- in a loop, some thread can go on; the actions other than `start` do not depend on the flag -/
theorem can_go {N : Nat} {s : S} (h : I s) (hj : J N s) (careful : Bool) (hc : s.c ≠ .out) :
    ∃ a s', (∀ n, a ≠ .start n) ∧ step N careful s a = some s' := by
  cases hcc : s.c with
  | out => exact absurd hcc hc
  | wait =>
    cases he : s.enter s.n with
    | mk x o =>
      cases o with
      | none => exact ⟨.callerEnter, { x with c := .out }, by simp, by simp [step, hcc, he]⟩
      | some k => exact ⟨.callerEnter, { x with c := .spin k }, by simp, by simp [step, hcc, he]⟩
  | spin k =>
    obtain ⟨rfl, ha⟩ := h.cspin k hcc
    by_cases hf : s.cnt = s.n + 1
    · have hb := h.b1
      rw [if_pos hf] at hb
      exact ⟨.callerLook, { s with c := .out }, by simp, by simp [step, hcc, hb]⟩
    · have hnall : ¬ ∀ t, t < s.n + 1 → s.arr t = true := fun hh => hf (cnt_all.2 hh)
      obtain ⟨t, ht⟩ := Classical.not_forall.1 hnall
      obtain ⟨ht, hta⟩ := Classical.not_imp.1 ht
      have hta : s.arr t = false := by simpa using hta
      have htn : t ≠ s.n := by intro hh; rw [hh, ha] at hta; simp at hta
      have ht : t < s.n := by omega
      have htN : t < N := by have := hj.n; omega
      cases hw : s.w t with
      | idle =>
        have hq : 0 < s.q t := by
          rcases h.idle t ht hw with h1 | h1
          · omega
          · rw [hta] at h1; simp at h1
        exact ⟨.take t, { s with q := upd s.q t (s.q t - 1), w := upd s.w t .run }, by simp,
          by simp [step, htN, hw, hq]⟩
      | run =>
        cases he : s.enter t with
        | mk x o =>
          cases o with
          | none => exact ⟨.enter t, _, by simp, by simp only [step, htN, hw, and_self, if_true, he]; rfl⟩
          | some k => exact ⟨.enter t, _, by simp, by simp only [step, htN, hw, and_self, if_true, he]; rfl⟩
      | spin k =>
        have hk := (hj.spin t k hw).2 hta
        have hb : s.b k = 0 := by rw [hk]; exact h.b0
        exact ⟨.look t, { s with w := upd s.w t .idle }, by simp, by simp [step, htN, hw, hb]⟩

/-- **C82** (loops return; partial: of a caller that changes the number of workers only when all workers have left the
barrier of the last loop, which the code gives no means to find out).  From any moment of any such program, whatever
the threads do next without a new loop, they stop after at most `left` actions, and when none of them can go on the
caller has returned from its loop. -/
theorem C82_returns_partial {N : Nat} {par : Nat → Bool} {b : Bool → Nat} {s s' : S} {as : List Act}
    (hr : Reach (step N true) (S.new par b) s) (ha : ∀ a ∈ as, ∀ n, a ≠ .start n)
    (he : exec (step N true) s as = some s') :
    as.length ≤ s.left N ∧
    ((∀ a, (∀ n, a ≠ .start n) → step N true s' a = none) → s'.c = .out) := by
  refine ⟨by have := C82_bounded ha he; omega, fun hno => ?_⟩
  refine Classical.byContradiction fun hc => ?_
  obtain ⟨hi, hj⟩ := IJ_reach (hr.trans ⟨as, he⟩)
  rcases hi with hi | hi
  · exact hc hi.c
  · obtain ⟨a, x, h1, h2⟩ := can_go hi hj true hc
    rw [hno a h1] at h2; simp at h2

/-- the schedule of a program all of whose loops use `n` workers is one of the careful caller -/
theorem same_careful {N n : Nat} {s s' : S} {as : List Act} (ha : ∀ m, .start m ∈ as → m = n)
    (h : (Fresh s ∨ I s ∧ s.n = n)) (he : exec (step N false) s as = some s') : exec (step N true) s as = some s' := by
  induction as generalizing s with
  | nil => exact he
  | cons a as ih =>
    simp only [exec] at he ⊢
    cases hs : step N false s a with
    | none => rw [hs] at he; simp at he
    | some x =>
      rw [hs] at he
      have heq : step N true s a = some x := by
        cases a with
        | start m =>
          have hm := ha m (by simp)
          simp only [step] at hs ⊢
          split at hs
          · rename_i hc
            have hq : m + 1 ≠ s.size → s.quiet N := by
              intro hne
              rcases h with h | h
              · intro v _ k; rw [h.w v]; simp
              · have := h.1.size; omega
            rw [if_pos ⟨hc.1, hc.2.1, hc.2.2.1, fun _ => hq⟩]
            exact hs
          · simp at hs
        | callerEnter => exact hs
        | callerLook => exact hs
        | take v => exact hs
        | enter v => exact hs
        | look v => exact hs
      rw [heq]
      refine ih (fun m hm => ha m (by simp [hm])) (Or.inr ?_) he
      cases a with
      | start m =>
        have hI : I x := start_inv (by rcases h with h | h; exact Or.inl h; exact Or.inr h.1) hs
        refine ⟨hI, ?_⟩
        have hm := ha m (by simp)
        simp only [step] at hs
        split at hs
        · simp only [Option.some.injEq] at hs; rw [← hs]; exact hm
        · simp at hs
      | callerEnter =>
        rcases h with h | h
        · simp [step, h.c] at hs
        · refine ⟨h.1.step hs, ?_⟩
          simp only [step] at hs
          have e := (enter_same s s.n).2.2.2.1
          split at hs
          · split at hs <;> rename_i y hy <;> rw [hy] at e <;> simp only [Option.some.injEq] at hs <;> rw [← hs, ← h.2] <;>
              exact e
          · simp at hs
      | callerLook =>
        rcases h with h | h
        · simp [step, h.c] at hs
        · refine ⟨h.1.step hs, ?_⟩
          simp only [step] at hs
          split at hs
          · split at hs
            · simp only [Option.some.injEq] at hs; rw [← hs]; exact h.2
            · simp at hs
          · simp at hs
      | take v =>
        rcases h with h | h
        · simp [step, h.q v] at hs
        · refine ⟨h.1.step hs, ?_⟩
          simp only [step] at hs
          split at hs
          · simp only [Option.some.injEq] at hs; rw [← hs]; exact h.2
          · simp at hs
      | enter v =>
        rcases h with h | h
        · simp [step, h.w v] at hs
        · refine ⟨h.1.step hs, ?_⟩
          simp only [step] at hs
          have e := (enter_same s v).2.2.2.1
          split at hs
          · split at hs <;> rename_i y hy <;> rw [hy] at e <;> simp only [Option.some.injEq] at hs <;> rw [← hs, ← h.2] <;>
              exact e
          · simp at hs
      | look v =>
        rcases h with h | h
        · simp [step, h.w v] at hs
        · refine ⟨h.1.step hs, ?_⟩
          simp only [step] at hs
          split at hs
          · split at hs
            · split at hs
              · simp only [Option.some.injEq] at hs; rw [← hs]; exact h.2
              · simp at hs
            · simp at hs
          · simp at hs

/-- **C82** (loops return; partial: of the code as it is, when all loops use the same number of workers).  Whenever the
caller is in a loop, some thread can go on (and by `C82_bounded` they do so only finitely often before it returns). -/
theorem C82_same_number_partial {N n : Nat} {par : Nat → Bool} {b : Bool → Nat} {s : S} {as : List Act}
    (ha : ∀ m, .start m ∈ as → m = n) (he : exec (step N false) (S.new par b) as = some s) (hc : s.c ≠ .out) :
    ∃ a s', (∀ n, a ≠ .start n) ∧ step N false s a = some s' := by
  have hr : Reach (step N true) (S.new par b) s :=
    ⟨as, same_careful ha (Or.inl ⟨rfl, fun _ => rfl, fun _ => rfl, rfl, fun _ => rfl⟩) he⟩
  obtain ⟨hi, hj⟩ := IJ_reach hr
  rcases hi with hi | hi
  · exact absurd hi.c hc
  · exact can_go hi hj false hc

/-- **C82** (separation; partial: when all loops use the same number of workers) -/
theorem C82_same_number_separation_partial {N n : Nat} {par : Nat → Bool} {b : Bool → Nat} {s : S} {as : List Act}
    (_ha : ∀ m, .start m ∈ as → m = n) (he : exec (step N false) (S.new par b) as = some s) (hc : s.c = .out) (v : Nat) :
    s.done v = s.sent v ∧ s.w v ≠ .run := separation ⟨as, he⟩ hc v

/-! ## The change of the number of workers -/

/-- worker 0 is still spinning on `B[1]` for the last loop, and the caller is already waiting in the barrier of this
one, on `B[1]` -/
structure Doomed (s : S) : Prop where
  i : I s
  n : 0 < s.n
  p : s.p = false
  w : s.w 0 = .spin true
  a : s.arr 0 = false
  c : s.c = .spin true

theorem Doomed.b {s : S} (h : Doomed s) : s.b true ≠ 0 := by
  have hb := h.i.b1
  rw [h.p] at hb
  have hnf : s.cnt ≠ s.n + 1 := fun hh => by
    have := cnt_all.1 hh 0 (by omega)
    rw [h.a] at this; simp at this
  rw [if_neg hnf] at hb
  simp only [Bool.not_false] at hb
  rw [hb]
  intro h0
  have h0 : (List.range (s.n + 1)).countP s.arr = 0 := h0
  rw [List.countP_eq_zero] at h0
  exact h0 s.n (by simp) (h.i.cspin true h.c).2

theorem Doomed.step {N : Nat} {s s' : S} {a : Act} (h : Doomed s) (hs : step N false s a = some s') : Doomed s' := by
  have hI := h.i.step hs
  have hb := h.b
  cases a with
  | start n => simp [SpinEnd.step, h.c] at hs
  | callerEnter => simp [SpinEnd.step, h.c] at hs
  | callerLook => simp [SpinEnd.step, h.c, hb] at hs
  | take v =>
    simp only [SpinEnd.step] at hs
    split at hs
    · rename_i hc
      simp only [Option.some.injEq] at hs
      have hv : 0 ≠ v := by intro hh; rw [← hh, h.w] at hc; simp at hc
      subst hs
      exact ⟨hI, h.n, h.p, by simp only [upd, hv, if_false]; exact h.w, h.a, h.c⟩
    · simp at hs
  | enter v =>
    simp only [SpinEnd.step] at hs
    split at hs
    · rename_i hc
      have hv0 : 0 ≠ v := by intro hh; rw [← hh, h.w] at hc; simp at hc
      have hv : v < s.n := Classical.byContradiction fun hv => (h.i.rest v (by omega)).2 hc.2
      obtain ⟨x, o, e0, e1, e2, e3, e4, e5, e6, e7, e8, e9, e10, e11, e12, e13, e14⟩ :=
        enter_spec h.i.size h.i.b0 h.i.b1 (t := v) (by omega) (h.i.run v hv hc.2).2
      rw [e0] at hs
      have hax : x.arr 0 = false := by rw [e9]; simp only [upd, hv0, if_false]; exact h.a
      cases o <;> simp only [Option.some.injEq] at hs <;> subst hs <;>
        exact ⟨hI, by show 0 < x.n; rw [e2]; exact h.n, by show x.p = _; rw [e8]; exact h.p,
          by simp only [upd, hv0, if_false]; exact h.w, hax, by show x.c = _; rw [e5]; exact h.c⟩
    · simp at hs
  | look v =>
    simp only [SpinEnd.step] at hs
    split at hs
    · split at hs
      · rename_i k hw
        split at hs
        · rename_i hbk
          have hv0 : 0 ≠ v := by
            intro hh
            rw [← hh, h.w] at hw
            simp only [WPC.spin.injEq] at hw
            rw [← hw] at hbk
            exact hb hbk
          simp only [Option.some.injEq] at hs
          subst hs
          exact ⟨hI, h.n, h.p, by simp only [upd, hv0, if_false]; exact h.w, h.a, h.c⟩
        · simp at hs
      · simp at hs
    · simp at hs

/-- in the first loop the first `k` workers have entered the barrier -/
theorem entered {N m : Nat} (hm : 1 ≤ m) (hN : m ≤ N) (par : Nat → Bool) (b : Bool → Nat) (k : Nat) (hk : k ≤ m) :
    ∃ s, Reach (step N false) (S.new par b) s ∧ I s ∧ s.n = m ∧ s.p = false ∧ s.c = .wait ∧
      (∀ v, v < k → s.w v = .spin true ∧ s.arr v = true) ∧ (∀ v, k ≤ v → s.w v = .idle) ∧
      (∀ v, k ≤ v → v < m + 1 → s.arr v = false) := by
  induction k with
  | zero =>
    have hs : ∃ s, step N false (S.new par b) (.start m) = some s ∧ s.n = m ∧ s.p = false ∧ s.c = .wait ∧
        (∀ v, s.w v = .idle) ∧ (∀ v, s.arr v = false) := by
      refine ⟨_, by simp only [step]; rw [if_pos ⟨rfl, hm, hN, by simp⟩], rfl, ?_, rfl, ?_, ?_⟩
      · simp [S.setup, S.new]
      · intro v; simp [S.setup, S.new]
      · intro v; simp [S.arr, S.setup, S.new]
    obtain ⟨s, h1, h2, h3, h4, h5, h6⟩ := hs
    exact ⟨s, (Reach.refl _ _).tail h1,
      start_inv (Or.inl ⟨rfl, fun _ => rfl, fun _ => rfl, rfl, fun _ => rfl⟩) h1, h2, h3, h4,
      fun v hv => by omega, fun v _ => h5 v, fun v _ _ => h6 v⟩
  | succ k ih =>
    obtain ⟨s, hr, hI, hn, hp, hc, hlt, hge, harr⟩ := ih (by omega)
    have hak := harr k (by omega) (by omega)
    have hq : s.q k = 1 := by
      rcases hI.idle k (by omega) (hge k (by omega)) with h1 | h1
      · exact h1.1
      · rw [hak] at h1; simp at h1
    -- take
    have h1 : step N false s (.take k) = some { s with q := upd s.q k (s.q k - 1), w := upd s.w k .run } := by
      simp only [step]
      rw [if_pos ⟨by omega, hge k (by omega), by omega⟩]
    have hI1 := hI.step h1
    generalize hs1 : ({ s with q := upd s.q k (s.q k - 1), w := upd s.w k .run } : S) = s1 at h1 hI1
    have f1 : s1.n = m := by rw [← hs1]; exact hn
    have f2 : s1.p = false := by rw [← hs1]; exact hp
    have f3 : s1.c = .wait := by rw [← hs1]; exact hc
    have f4 : s1.w = upd s.w k .run := by rw [← hs1]
    have f5 : s1.arr = s.arr := by rw [← hs1]; rfl
    have hw : s1.w k = .run := by rw [f4]; simp [upd]
    -- enter
    obtain ⟨x, o, e0, e1, e2, e3, e4, e5, e6, e7, e8, e9, e10, e11, e12, e13, e14⟩ :=
      enter_spec hI1.size hI1.b0 hI1.b1 (t := k) (by omega) (by rw [f5]; exact hak)
    have ho : ∃ j, o = some j := by
      cases o with
      | some j => exact ⟨j, rfl⟩
      | none =>
        have := e13.1 rfl
        rw [← e2] at this
        have := cnt_all.1 this m (by omega)
        have hne : m ≠ k := by omega
        rw [e9, f5] at this
        simp only [upd, hne, if_false] at this
        rw [harr m (by omega) (by omega)] at this
        simp at this
    obtain ⟨j, rfl⟩ := ho
    have hj : j = true := by rw [e14 j rfl, f2]; rfl
    subst hj
    have h2 : step N false s1 (.enter k) =
        some { x with w := upd s1.w k (.spin true), done := upd s1.done k (s1.done k + 1) } := by
      simp only [step]
      rw [if_pos ⟨by omega, hw⟩, e0]
    refine ⟨_, (hr.tail h1).tail h2, hI1.step h2, ?_, ?_, ?_, ?_, ?_, ?_⟩
    · show x.n = m; rw [e2, f1]
    · show x.p = false; rw [e8, f2]
    · show x.c = _; rw [e5, f3]
    · intro v hv
      show upd s1.w k (.spin true) v = _ ∧ x.arr v = true
      rw [e9, f5, f4]
      by_cases hvk : v = k
      · subst hvk; simp [upd]
      · simp only [upd, hvk, if_false]; exact hlt v (by omega)
    · intro v hv
      show upd s1.w k (.spin true) v = _
      have hvk : v ≠ k := by omega
      rw [f4]; simp only [upd, hvk, if_false]; exact hge v (by omega)
    · intro v hv hv'
      show x.arr v = false
      have hvk : v ≠ k := by omega
      rw [e9, f5]; simp only [upd, hvk, if_false]; exact harr v (by omega) hv'

/-- **C82** (a loop that never returns).  For all numbers `m` and `n` of workers that differ: there is a schedule of
a loop with `m` workers, from which the caller has returned, followed by a loop with `n` workers, after which, whatever
the threads do, the caller never returns. -/
theorem C82_change_counterexample {N m n : Nat} (hm : 1 ≤ m) (hmN : m ≤ N) (hn : 1 ≤ n) (hnN : n ≤ N) (hne : m ≠ n)
    (par : Nat → Bool) (b : Bool → Nat) :
    ∃ s1 s2 s3, Reach (step N false) (S.new par b) s1 ∧ s1.c = .out ∧ s1.n = m ∧
      step N false s1 (.start n) = some s2 ∧ Reach (step N false) s2 s3 ∧
      ∀ s, Reach (step N false) s3 s → s.c ≠ .out := by
  obtain ⟨s, hr, hI, hsn, hp, hc, hlt, hge, harr⟩ := entered hm hmN par b m (Nat.le_refl m)
  -- the caller is the last one
  obtain ⟨x, o, e0, e1, e2, e3, e4, e5, e6, e7, e8, e9, e10, e11, e12, e13, e14⟩ :=
    enter_spec hI.size hI.b0 hI.b1 (t := s.n) (by omega) (hI.cwait hc)
  have hfull : x.cnt = s.n + 1 := by
    rw [← e2]
    refine cnt_all.2 fun t ht => ?_
    rw [e2] at ht
    rw [e9]
    by_cases htn : t = s.n
    · simp [upd, htn]
    · simp only [upd, htn, if_false]; exact (hlt t (by omega)).2
  have ho := e13.2 hfull
  subst ho
  have h1 : step N false s .callerEnter = some { x with c := .out } := by
    simp only [step]; rw [if_pos hc, e0]
  have hI1 := hI.step h1
  generalize hs1 : ({ x with c := .out } : S) = s1 at h1 hI1
  have f1 : s1.n = m := by rw [← hs1]; show x.n = m; rw [e2, hsn]
  have f2 : s1.c = .out := by rw [← hs1]
  have f3 : s1.w 0 = .spin true := by rw [← hs1]; show x.w 0 = _; rw [e4]; exact (hlt 0 (by omega)).1
  -- the second loop
  have hsz : ¬ n + 1 = s1.size := by rw [hI1.size, f1]; omega
  have h2 : ∃ s2, step N false s1 (.start n) = some s2 ∧ s2.n = n ∧ s2.p = false ∧ s2.c = .wait ∧ s2.w 0 = .spin true ∧
      (∀ v, s2.arr v = false) := by
    refine ⟨_, by simp only [step]; rw [if_pos ⟨f2, hn, hnN, by simp⟩], rfl, ?_, rfl, ?_, ?_⟩
    · simp [S.setup, hsz]
    · simp only [S.setup, hsz, if_false]; exact f3
    · intro v; simp [S.arr, S.setup, hsz]
  obtain ⟨s2, h2, g1, g2, g3, g4, g5⟩ := h2
  have hI2 := hI1.step h2
  -- the caller enters the barrier before worker 0 looks
  obtain ⟨y, o, d0, d1, d2, d3, d4, d5, d6, d7, d8, d9, d10, d11, d12, d13, d14⟩ :=
    enter_spec hI2.size hI2.b0 hI2.b1 (t := s2.n) (by omega) (g5 _)
  have hy0 : y.arr 0 = false := by
    have : 0 ≠ s2.n := by omega
    rw [d9]; simp only [upd, this, if_false]; exact g5 0
  have ho : ∃ j, o = some j := by
    cases o with
    | some j => exact ⟨j, rfl⟩
    | none =>
      have := d13.1 rfl
      rw [← d2] at this
      have := cnt_all.1 this 0 (by omega)
      rw [hy0] at this; simp at this
  obtain ⟨j, rfl⟩ := ho
  have hj : j = true := by rw [d14 j rfl, g2]; rfl
  subst hj
  have h3 : step N false s2 .callerEnter = some { y with c := .spin true } := by
    simp only [step]; rw [if_pos g3, d0]
  have hD : Doomed { y with c := .spin true } :=
    ⟨hI2.step h3, by show 0 < y.n; rw [d2]; omega, by show y.p = _; rw [d8, g2],
      by show y.w 0 = _; rw [d4]; exact g4, hy0, rfl⟩
  refine ⟨s1, s2, _, hr.tail h1, f2, f1, h2, (Reach.refl _ _).tail h3, fun z hz => ?_⟩
  have := hz.inv (Inv := Doomed) hD (fun _ _ _ h hs => h.step hs)
  rw [this.c]; simp

/-! ## Non-vacuity -/

/-- two loops with 2 workers each and one with 3, the workers having left the barrier: all return -/
def twice : List Act :=
  [.start 2, .take 0, .take 1, .enter 0, .enter 1, .callerEnter, .look 0, .start 2, .take 0, .enter 0, .callerEnter,
   .look 1, .take 1, .enter 1, .look 0, .callerLook]

example : ((exec (step 3 false) (S.new (fun _ => true) (fun _ => 7)) twice).map fun s => (s.c, s.done 0, s.done 1)) =
    some (.out, 2, 2) := by decide

/-- in the same loops, without the last read, the caller is inside (hypothesis of `C82_same_number_partial`) -/
example : ((exec (step 3 false) (S.new (fun _ => true) (fun _ => 7)) (twice.take 15)).map fun s => s.c) =
    some (.spin false) := by decide

/-- with a change of the number when the workers are out of the barrier (hypotheses of `C82_returns_partial`) -/
example : ((exec (step 3 true) (S.new (fun _ => true) (fun _ => 7)) (twice ++ [.start 3, .take 2, .enter 2])).map
    fun s => (s.c, s.w 2)) = some (.wait, .spin true) := by decide

end FF.Parfor.SpinEnd
