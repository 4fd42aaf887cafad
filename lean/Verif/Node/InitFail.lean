import Verif.Node.Pipe
/-!
# C63: a stage whose `svc_init` fails

`node.hpp` 246-305 (`thread_routine`: if `svc_init` returns a negative number the thread sets `init_error`, leaves
the loop and ends, without having popped or pushed anything), 371-392 (`wait` joins the thread; its answer does not
depend on `init_error`), `pipeline.hpp` 1270-1280 (`run_and_wait_end`), 1309-1321 (`wait`).

The pipeline is the one of C20; `bad i` says that `svc_init` of stage `i` fails.
-/
namespace FF.Node
open FF
variable {D : Type}

/-- One action of a pipeline in which the stages with `bad i` have ended at once (node.hpp 260-264). -/
def fstep (n : Nat) (nd : Nat → Node D) (cap : Nat → Nat) (bad : Nat → Bool) (s : P D) :
    PAct → Option (P D)
  | .pop i => if bad i then none else pstep n nd cap s (.pop i)
  | .push i => if bad i then none else pstep n nd cap s (.push i)

/-- The thread of stage `i` has ended: it can be joined (node.hpp 378). -/
def Ended (nd : Nat → Node D) (bad : Nat → Bool) (s : P D) (i : Nat) : Prop :=
  bad i = true ∨ (s.pending i = [] ∧ (after (nd i) (s.consumed i)).exited = true)

/-- `wait` (pipeline.hpp 1309-1321) has returned: all threads have been joined. -/
def Joined (n : Nat) (nd : Nat → Node D) (bad : Nat → Bool) (s : P D) : Prop :=
  ∀ i, i < n → Ended nd bad s i

/-- The answer of `ff_thread::wait` (node.hpp 371-392): -1 only if the thread attributes cannot be destroyed. -/
def threadWait (_initError attrFails : Bool) : Int := if attrFails then -1 else 0

/-- The answer of `run_and_wait_end` when `run` has succeeded and `wait` has returned
(pipeline.hpp 1276-1279, 1310-1316). -/
def runAndWaitEnd (n : Nat) (bad attrFails : Nat → Bool) : Int :=
  if (List.range n).any (fun i => threadWait (bad i) (attrFails i) < 0) then -1 else 0

structure FInv (n : Nat) (nd : Nat → Node D) (cap : Nat → Nat) (bad : Nat → Bool) (inp : List (Msg D))
    (s : P D) : Prop where
  base : PInv n nd inp s
  idle : ∀ i, bad i = true → s.consumed i = [] ∧ s.pending i = [] ∧ s.pushed i = []
  room : ∀ i, 0 < i → i < n → (s.chan i).length ≤ cap i

theorem FInv.start (n : Nat) (nd : Nat → Node D) (cap : Nat → Nat) (bad : Nat → Bool) (inp : List (Msg D)) :
    FInv n nd cap bad inp (P.start inp) where
  base := PInv.start n nd inp
  idle i _ := by simp [P.start]
  room i h _ := by
    have : i ≠ 0 := by omega
    simp [P.start, upd, this]

theorem FInv.step {n : Nat} {nd : Nat → Node D} {cap : Nat → Nat} {bad : Nat → Bool} {inp : List (Msg D)}
    {s s' : P D} {a : PAct} (h : FInv n nd cap bad inp s) (hs : fstep n nd cap bad s a = some s') :
    FInv n nd cap bad inp s' := by
  cases a with
  | pop i =>
    simp only [fstep] at hs
    split at hs
    · cases hs
    · rename_i hb
      refine ⟨h.base.step hs, ?_, ?_⟩
      · intro j hj
        have hji : j ≠ i := fun e => hb (by rw [← e]; exact hj)
        simp only [pstep] at hs
        split at hs
        · split at hs
          · cases hs
          · cases hs
            simp only [upd, hji, if_false]
            exact h.idle j hj
        · cases hs
      · intro j h0 hj
        simp only [pstep] at hs
        split at hs
        · split at hs
          · cases hs
          · rename_i m ms hm
            cases hs
            have := h.room j h0 hj
            by_cases hji : j = i
            · subst hji
              rw [hm] at this
              simp only [upd, if_true, List.length_cons] at this ⊢
              omega
            · simp only [upd, hji, if_false]; exact this
        · cases hs
  | push i =>
    simp only [fstep] at hs
    split at hs
    · cases hs
    · rename_i hb
      refine ⟨h.base.step hs, ?_, ?_⟩
      · intro j hj
        have hji : j ≠ i := fun e => hb (by rw [← e]; exact hj)
        simp only [pstep] at hs
        split at hs
        · split at hs
          · cases hs
          · cases hs
            simp only [upd, hji, if_false]
            exact h.idle j hj
        · cases hs
      · intro j h0 hj
        simp only [pstep] at hs
        split at hs
        · rename_i hc
          split at hs
          · cases hs
          · cases hs
            have := h.room j h0 hj
            by_cases hji : j = i + 1
            · subst hji
              simp only [upd, if_true, List.length_append, List.length_cons, List.length_nil]
              omega
            · simp only [upd, hji, if_false]; exact this
        · cases hs

theorem FInv.reach {n : Nat} {nd : Nat → Node D} {cap : Nat → Nat} {bad : Nat → Bool} {inp : List (Msg D)}
    {s : P D} (hr : Reach (fstep n nd cap bad) (P.start inp) s) : FInv n nd cap bad inp s :=
  hr.inv (FInv.start n nd cap bad inp) (fun _ _ _ h hs => h.step hs)

theorem not_exited_nil (n : Node D) : (after n ([] : List (Msg D))).exited = false := by
  simp [after, run, L.start]

/-- **C63, the stage after a failed one waits for ever**: whatever the stages are, if `svc_init` of a stage fails and that of the
next one does not, then in no schedule does `run_and_wait_end` return: the next stage gets nothing, not even an end of stream. -/
theorem C63_hangs_counterexample (n : Nat) (nd : Nat → Node D) (cap : Nat → Nat) (bad : Nat → Bool)
    (inp : List (Msg D)) (i : Nat) (hi : i + 1 < n) (hb : bad i = true) (hb' : bad (i + 1) = false)
    (s : P D) (hr : Reach (fstep n nd cap bad) (P.start inp) s) :
    s.consumed (i + 1) = [] ∧ ¬ Joined n nd bad s := by
  have h := FInv.reach hr
  have h1 := h.base.chan i (by omega)
  rw [(h.idle i hb).2.2] at h1
  have h2 : s.consumed (i + 1) = [] := (List.append_eq_nil_iff.1 h1.symm).1
  refine ⟨h2, fun hj => ?_⟩
  rcases hj (i + 1) hi with h3 | h3
  · rw [hb'] at h3; cases h3
  · rw [h2, not_exited_nil] at h3; cases h3.2

/-- **C63, a full channel in front of a failed stage**: if stage `k + 1` fails and stage `k` has more to send than the channel between them
holds, `run_and_wait_end` does not return either. -/
theorem C63_full_counterexample (n : Nat) (nd : Nat → Node D) (cap : Nat → Nat) (bad : Nat → Bool)
    (inp : List (Msg D)) (k : Nat) (hk : k + 1 < n) (hgood : ∀ i, i ≤ k → bad i = false)
    (hb : bad (k + 1) = true) (hlong : cap (k + 1) < (sem nd inp (k + 1)).length)
    (s : P D) (hr : Reach (fstep n nd cap bad) (P.start inp) s) :
    ¬ Joined n nd bad s := by
  intro hj
  have h := FInv.reach hr
  -- all stages up to k have sent everything
  have out : ∀ i, i ≤ k → s.pushed i = sem nd inp (i + 1) := by
    intro i hi
    rcases hj i (by omega) with h1 | ⟨h1, h2⟩
    · rw [hgood i hi] at h1; cases h1
    · have h3 := h.base.out i (by omega)
      rw [h1, List.append_nil] at h3
      rw [h3]
      exact (stream_exited _ (h.base.consumed_prefix i (by omega)) h2).symm
  have h1 := h.base.chan k (by omega)
  rw [(h.idle (k + 1) hb).1, List.nil_append, out k (Nat.le_refl k)] at h1
  have h2 := h.room (k + 1) (by omega) hk
  rw [← h1] at h2
  omega

/-- **C63, a failure is not reported**: when `run_and_wait_end` returns, its answer does not depend on which initialisations
failed; it is 0 unless a thread attribute could not be destroyed.  For instance it returns 0 at once when all of them failed. -/
theorem C63_silent_counterexample (n : Nat) (nd : Nat → Node D) (inp : List (Msg D)) :
    (∀ bad : Nat → Bool, runAndWaitEnd n bad (fun _ => false) = 0) ∧
    Joined n nd (fun _ => true) (P.start inp) :=
  ⟨fun bad => by simp [runAndWaitEnd, threadWait], fun _ _ => Or.inl rfl⟩

/-! ## What holds -/

/-- A stage that uses the control values as intended and ends only when its input ends. -/
structure Patient (n : Node D) : Prop extends Plain n where
  goes : ∀ s t, continues (n.svc s t).2.2 = true

/-- A stream: tasks, then one end mark. -/
def WF (l : List (Msg D)) : Prop :=
  ∃ xs m, (∀ x ∈ xs, x.isData = true) ∧ (m = .eos ∨ m = .eosw) ∧ l = xs ++ [m]

theorem run_patient {n : Node D} (hp : Patient n) (l : L n) (hl : l.exited = false) (ms : List (Msg D))
    (hd : ∀ m ∈ ms, m.isData = true) :
    (run n l ms).1.exited = false ∧ (run n l ms).1.neos = l.neos ∧ (∀ m ∈ (run n l ms).2, m.isData = true) := by
  induction ms generalizing l with
  | nil => simp [run, hl]
  | cons m ms ih =>
    rw [run_cons n l hl]
    have hm : isTask m = true := by
      have := hd m (by simp)
      cases m <;> simp [Msg.isData, isTask] at this ⊢
    rw [body_task n l hm]
    have h1 : (svcBody n l m).1.exited = false := by simp [svcBody, hp.goes]
    obtain ⟨h2, h3, h4⟩ := ih (svcBody n l m).1 h1 (fun x hx => hd x (by simp [hx]))
    refine ⟨h2, by rw [h3]; rfl, ?_⟩
    intro x hx
    rcases List.mem_append.1 hx with hx | hx
    · simp only [svcBody, List.mem_append] at hx
      rcases hx with hx | hx
      · exact hp.sends _ _ x hx
      · have hg := hp.goes l.st m
        cases hr : (n.svc l.st m).2.2 <;> rw [hr] at hx hg <;> simp [visible, continues] at hx hg
        subst hx; rfl
    · exact h4 x hx

theorem run_patient_mark {n : Node D} (hp : Patient n) (ms : List (Msg D))
    (hd : ∀ m ∈ ms, m.isData = true) (m : Msg D) (hm : m = .eos ∨ m = .eosw) :
    (after n (ms ++ [m])).exited = true ∧ WF (stream n (ms ++ [m])) := by
  obtain ⟨h1, h2, h3⟩ := run_patient hp (L.start n 1) rfl ms hd
  have hb : ∀ l : L n, l.neos = 1 → (body n l m).1.exited = true ∧ (body n l m).2 = (n.eosn l.st).2 ++ [m] := by
    intro l hl
    rcases hm with rfl | rfl <;> simp [body, markBody, hl]
  have hb' := hb _ h2
  unfold after stream
  rw [run_append, run_cons n _ h1]
  refine ⟨by simpa [run] using hb'.1, ?_⟩
  refine ⟨(run n (L.start n 1) ms).2 ++ (n.eosn (run n (L.start n 1) ms).1.st).2, m, ?_, hm, ?_⟩
  · intro x hx
    rcases List.mem_append.1 hx with hx | hx
    · exact h3 x hx
    · exact hp.eosn _ x hx
  · simp [hb'.2, run]

theorem sem_wf {nd : Nat → Node D} {inp : List (Msg D)} (hp : ∀ i, Patient (nd i)) (hi : WF inp) (k : Nat) :
    WF (sem nd inp k) := by
  induction k with
  | zero => exact hi
  | succ k ih =>
    obtain ⟨xs, m, h1, h2, h3⟩ := ih
    simp only [sem]
    rw [h3]
    exact (run_patient_mark (hp k) xs h1 m h2).2

/-- A patient stage has left its loop exactly when it has consumed its whole stream. -/
theorem exited_iff {n : Node D} (hp : Patient n) {xs l : List (Msg D)} (hl : WF l) (hx : xs <+: l) :
    (after n xs).exited = true ↔ xs = l := by
  obtain ⟨ys, m, h1, h2, rfl⟩ := hl
  constructor
  · intro he
    obtain ⟨t, ht⟩ := hx
    rcases List.eq_nil_or_concat t with rfl | ⟨t', z, rfl⟩
    · simpa using ht
    · exfalso
      have : xs ++ t' = ys := by
        rw [List.concat_eq_append, ← List.append_assoc] at ht
        exact (List.append_inj' ht rfl).1
      have := (run_patient hp (L.start n 1) rfl xs (fun x hx => h1 x (by rw [← this]; simp [hx]))).1
      unfold after at he
      rw [this] at he
      cases he
  · rintro rfl
    exact (run_patient_mark hp ys h1 m h2).1

/-- **C63, what holds**: if exactly the last stages fail (those after stage `k`; none of them if `k + 1 = n`), the others end
only when their input ends, and the channel in front of the failed stages has room for all that is sent into it, then every
schedule that cannot go on has ended all threads (`run_and_wait_end` returns) and all that the working stages
should send has been sent. -/
theorem C63_suffix_partial (n k : Nat) (hk : k < n) (nd : Nat → Node D) (hp : ∀ i, Patient (nd i)) (cap : Nat → Nat)
    (hcap : ∀ i, 0 < cap i) (bad : Nat → Bool) (inp : List (Msg D)) (hinp : WF inp) (hbad : ∀ i, bad i = true ↔ k < i)
    (hroom : k + 1 < n → (sem nd inp (k + 1)).length ≤ cap (k + 1))
    (s : P D) (hr : Reach (fstep n nd cap bad) (P.start inp) s) (hstuck : ∀ a, fstep n nd cap bad s a = none) :
    Joined n nd bad s ∧ s.pushed k = sem nd inp (k + 1) := by
  have h := FInv.reach hr
  have hgood : ∀ i, i ≤ k → bad i = false := by
    intro i hi
    cases e : bad i with
    | false => rfl
    | true => have := (hbad i).1 e; omega
  have popst : ∀ i, i ≤ k → s.pending i = [] → (after (nd i) (s.consumed i)).exited = false → s.chan i = [] := by
    intro i hi hp he
    have := hstuck (.pop i)
    simp only [fstep, hgood i hi, Bool.false_eq_true, if_false] at this
    exact pop_stuck this (by omega) hp he
  have pushst : ∀ i, i ≤ k → (i + 1 = n ∨ (s.chan (i + 1)).length < cap (i + 1)) → s.pending i = [] := by
    intro i hi hc
    have := hstuck (.push i)
    simp only [fstep, hgood i hi, Bool.false_eq_true, if_false] at this
    exact push_stuck this (by omega) hc
  have pk : s.pending k = [] := by
    by_cases hn : k + 1 = n
    · exact pushst k (Nat.le_refl k) (Or.inl hn)
    · have hb : bad (k + 1) = true := (hbad _).2 (by omega)
      have h1 := h.base.chan k (by omega)
      rw [(h.idle (k + 1) hb).1, List.nil_append] at h1
      have h2 : (s.pushed k ++ s.pending k) <+: sem nd inp (k + 1) := by
        rw [h.base.out k hk]
        exact stream_mono _ (h.base.consumed_prefix k (by omega))
      have h3 := h2.length_le
      have h4 := hroom (by omega)
      rw [List.length_append, h1] at h3
      cases hp : s.pending k with
      | nil => rfl
      | cons m ms =>
        have := pushst k (Nat.le_refl k) (Or.inr (by rw [hp] at h3; simp at h3; omega))
        rw [hp] at this
        cases this
  -- a stage with nothing to send has an empty input channel
  have empt : ∀ i, i ≤ k → s.pending i = [] → s.chan i = [] := by
    intro i hi hpi
    cases he : (after (nd i) (s.consumed i)).exited with
    | false => exact popst i hi hpi he
    | true =>
      have h1 := (exited_iff (hp i) (sem_wf hp hinp i) (h.base.consumed_prefix i (by omega))).1 he
      cases i with
      | zero =>
        have h2 := h.base.src
        rw [h1] at h2
        simp only [sem] at h2
        exact List.self_eq_append_right.1 h2
      | succ i =>
        have h2 := (h.base.pushed_prefix i (by omega)).length_le
        rw [h.base.chan i (by omega), h1, List.length_append] at h2
        exact List.length_eq_zero_iff.1 (by omega)
  have pend : ∀ d, d ≤ k → s.pending (k - d) = [] := by
    intro d
    induction d with
    | zero => intro _; exact pk
    | succ d ih =>
      intro hd
      apply pushst _ (by omega)
      right
      have := empt (k - d) (by omega) (ih (by omega))
      have e : k - (d + 1) + 1 = k - d := by omega
      rw [e, this]
      exact hcap _
  have pend' : ∀ i, i ≤ k → s.pending i = [] := fun i hi => by
    have := pend (k - i) (by omega)
    rwa [show k - (k - i) = i by omega] at this
  have cons : ∀ i, i ≤ k → s.consumed i = sem nd inp i := by
    intro i
    induction i with
    | zero =>
      intro _
      have h1 := h.base.src
      rw [empt 0 (by omega) (pend' 0 (by omega)), List.append_nil] at h1
      exact h1.symm
    | succ i ih =>
      intro hi
      have h1 := h.base.chan i (by omega)
      rw [empt (i + 1) hi (pend' _ hi), List.append_nil] at h1
      have h2 := h.base.out i (by omega)
      rw [pend' i (by omega), List.append_nil, h1, ih (by omega)] at h2
      exact h2
  refine ⟨?_, ?_⟩
  · intro i hi
    by_cases hik : i ≤ k
    · right
      exact ⟨pend' i hik, (exited_iff (hp i) (sem_wf hp hinp i) (h.base.consumed_prefix i (by omega))).2 (cons i hik)⟩
    · exact Or.inl ((hbad i).2 (by omega))
  · have h2 := h.base.out k (by omega)
    rw [pk, List.append_nil, cons k (Nat.le_refl k)] at h2
    exact h2

/-- **C63, every schedule stops**: no schedule makes more actions than the messages of the specification. -/
theorem C63_bounded (n : Nat) (nd : Nat → Node D) (cap : Nat → Nat) (bad : Nat → Bool) (inp : List (Msg D))
    (as : List PAct) (s : P D) (h : exec (fstep n nd cap bad) (P.start inp) as = some s) :
    as.length ≤ workBound nd inp n := by
  apply C20_bounded n nd cap inp as s
  generalize P.start inp = s0 at h
  induction as generalizing s0 with
  | nil => exact h
  | cons a as ih =>
    simp only [exec] at h ⊢
    have hstep : ∀ s1, fstep n nd cap bad s0 a = some s1 → pstep n nd cap s0 a = some s1 := by
      intro s1 h1
      cases a with
      | pop i => simp only [fstep] at h1; split at h1; cases h1; exact h1
      | push i => simp only [fstep] at h1; split at h1; cases h1; exact h1
    cases hs : fstep n nd cap bad s0 a with
    | none => rw [hs] at h; simp at h
    | some s1 =>
      rw [hs] at h
      rw [hstep s1 hs]
      exact ih s1 h

theorem dblNode_patient : Patient dblNode where
  sends s t m hm := by cases t <;> simp [dblNode] at hm
  ret s t := by cases t <;> simp [dblNode]
  eosn s m hm := by simp [dblNode] at hm
  goes s t := by cases t <;> simp [dblNode, continues]

-- two doubling stages of which the last fails: the run of the first ends and `wait` returns
example : ∃ s, Reach (fstep 2 (fun _ => dblNode) (fun _ => 4) (fun i => decide (0 < i)))
      (P.start [.data 3, .eos]) s ∧
    (∀ a, fstep 2 (fun _ => dblNode) (fun _ => 4) (fun i => decide (0 < i)) s a = none) ∧
    s.chan 1 = [.data 6, .eos] := by
  refine ⟨_, ⟨[.pop 0, .push 0, .pop 0, .push 0], rfl⟩, ?_, rfl⟩
  intro a
  cases a with
  | pop i =>
    by_cases hi : 0 < i
    · simp [fstep, hi]
    · have : i = 0 := by omega
      subst this; rfl
  | push i =>
    by_cases hi : 0 < i
    · simp [fstep, hi]
    · have : i = 0 := by omega
      subst this; rfl

-- the first of two fails: a reachable state, in which nothing can happen and the second stage waits
example : Reach (fstep 2 (fun _ => dblNode) (fun _ => 4) (fun i => decide (i = 0)))
      (P.start [.data 3, .eos]) (P.start [.data 3, .eos]) ∧
    (0 : Nat) + 1 < 2 ∧ decide ((0 : Nat) = 0) = true ∧ decide ((0 : Nat) + 1 = 0) = false :=
  ⟨Reach.refl _ _, by decide, by decide, by decide⟩

-- a channel of one place in front of a failed stage, two messages to send
example : (1 : Nat) < (sem (fun _ => dblNode) [.data 3, .eos] (0 + 1)).length := by decide

end FF.Node
