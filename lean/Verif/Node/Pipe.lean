import Verif.Node.Props
/-!
# C20: a pipeline computes the composition of its stages
-/
namespace FF.Node
variable {D : Type}

/-- Specification: the stream in front of stage `k`, by composing the stream functions of the stages
before it. -/
def sem (nd : Nat → Node D) (inp : List (Msg D)) : Nat → List (Msg D)
  | 0 => inp
  | k + 1 => stream (nd k) (sem nd inp k)

theorem stream_snoc (n : Node D) (ms : List (Msg D)) (m : Msg D)
    (h : (after n ms).exited = false) :
    stream n (ms ++ [m]) = stream n ms ++ (body n (after n ms) m).2 := by
  unfold stream
  rw [run_append]
  have h' : (run n (L.start n 1) ms).1.exited = false := h
  rw [run_cons n _ h']
  simp [run, after]

/-- More input never changes what has been sent. -/
theorem stream_mono (n : Node D) {xs ys : List (Msg D)} (h : xs <+: ys) :
    stream n xs <+: stream n ys := by
  obtain ⟨t, rfl⟩ := h
  unfold stream
  rw [run_append]
  exact List.prefix_append _ _

theorem stream_exited (n : Node D) {xs ys : List (Msg D)} (h : xs <+: ys)
    (he : (after n xs).exited = true) : stream n ys = stream n xs := by
  obtain ⟨t, rfl⟩ := h
  have he' : (run n (L.start n 1) xs).1.exited = true := he
  unfold stream
  rw [run_append, run_exited n _ he']
  simp

structure PInv (n : Nat) (nd : Nat → Node D) (inp : List (Msg D)) (s : P D) : Prop where
  out : ∀ i, i < n → s.pushed i ++ s.pending i = stream (nd i) (s.consumed i)
  chan : ∀ i, i < n → s.pushed i = s.consumed (i + 1) ++ s.chan (i + 1)
  src : inp = s.consumed 0 ++ s.chan 0
  last : s.consumed n = [] ∨ n = 0

theorem PInv.start (n : Nat) (nd : Nat → Node D) (inp : List (Msg D)) :
    PInv n nd inp (P.start inp) where
  out i _ := by simp [P.start, stream, run]
  chan i _ := by simp [P.start, upd]
  src := by simp [P.start, upd]
  last := by simp [P.start]

theorem PInv.step {n : Nat} {nd : Nat → Node D} {cap : Nat → Nat} {inp : List (Msg D)} {s s' : P D}
    {a : PAct} (h : PInv n nd inp s) (hs : pstep n nd cap s a = some s') : PInv n nd inp s' := by
  cases a with
  | pop i =>
    simp only [pstep] at hs
    split at hs
    · rename_i hc
      obtain ⟨hi, hp, he⟩ := hc
      split at hs
      · simp at hs
      · rename_i m ms hm
        simp only [Option.some.injEq] at hs
        subst hs
        have hne : n ≠ i := by omega
        refine ⟨?_, ?_, ?_, ?_⟩
        · intro j hj
          by_cases hji : j = i
          · subst hji
            simp only [upd, if_true]
            rw [stream_snoc _ _ _ he, ← h.out j hj, hp, List.append_nil]
          · simp only [upd, hji, if_false]; exact h.out j hj
        · intro j hj
          by_cases hji : j + 1 = i
          · subst hji
            simp only [upd, if_true]
            rw [h.chan j hj, hm]; simp
          · simp only [upd, hji, if_false]; exact h.chan j hj
        · by_cases h0 : i = 0
          · subst h0
            simp only [upd, if_true]
            rw [h.src, hm]; simp
          · have : (0 : Nat) ≠ i := fun hh => h0 hh.symm
            simp only [upd, this, if_false]; exact h.src
        · simp only [upd, hne, if_false]; exact h.last
    · simp at hs
  | push i =>
    simp only [pstep] at hs
    split at hs
    · rename_i hc
      obtain ⟨hi, hc⟩ := hc
      split at hs
      · simp at hs
      · rename_i m ms hm
        simp only [Option.some.injEq] at hs
        subst hs
        refine ⟨?_, ?_, ?_, h.last⟩
        · intro j hj
          by_cases hji : j = i
          · subst hji
            simp only [upd, if_true]
            rw [← h.out j hj, hm]; simp
          · simp only [upd, hji, if_false]; exact h.out j hj
        · intro j hj
          by_cases hji : j = i
          · subst hji
            simp only [upd, if_true]
            rw [h.chan j hj]; simp
          · have : j + 1 ≠ i + 1 := by omega
            simp only [upd, hji, this, if_false]; exact h.chan j hj
        · have : (0 : Nat) ≠ i + 1 := by omega
          simp only [upd, this, if_false]; exact h.src
    · simp at hs

theorem PInv.reach {n : Nat} {nd : Nat → Node D} {cap : Nat → Nat} {inp : List (Msg D)} {s : P D}
    (hr : Reach (pstep n nd cap) (P.start inp) s) : PInv n nd inp s :=
  hr.inv (PInv.start n nd inp) (fun _ _ _ h hs => h.step hs)

theorem PInv.consumed_prefix {n : Nat} {nd : Nat → Node D} {inp : List (Msg D)} {s : P D}
    (h : PInv n nd inp s) (k : Nat) (hk : k ≤ n) : s.consumed k <+: sem nd inp k := by
  induction k with
  | zero => exact ⟨_, h.src.symm⟩
  | succ k ih =>
    have h1 := stream_mono (nd k) (ih (by omega))
    rw [← h.out k (by omega), h.chan k (by omega)] at h1
    simp only [List.append_assoc] at h1
    exact (List.prefix_append _ _).trans h1

theorem PInv.pushed_prefix {n : Nat} {nd : Nat → Node D} {inp : List (Msg D)} {s : P D}
    (h : PInv n nd inp s) (k : Nat) (hk : k < n) : s.pushed k <+: sem nd inp (k + 1) := by
  have h1 := stream_mono (nd k) (h.consumed_prefix k (by omega))
  rw [← h.out k hk] at h1
  exact (List.prefix_append _ _).trans h1

/-- **C20, prefix**: in every reachable state of a pipeline of `n + 1` stages, for every schedule and
all channel capacities, what has left the pipeline is a prefix of the composition of the stages'
stream functions on the input; and the same holds for what has left every inner stage. -/
theorem C20_prefix (n : Nat) (nd : Nat → Node D) (cap : Nat → Nat) (inp : List (Msg D)) (s : P D)
    (hr : Reach (pstep (n + 1) nd cap) (P.start inp) s) :
    s.chan (n + 1) <+: sem nd inp (n + 1) ∧
    ∀ k, k < n + 1 → s.pushed k <+: sem nd inp (k + 1) := by
  have h := PInv.reach hr
  refine ⟨?_, fun k hk => h.pushed_prefix k hk⟩
  have := h.pushed_prefix n (by omega)
  rw [h.chan n (by omega)] at this
  rcases h.last with hl | hl
  · rwa [hl, List.nil_append] at this
  · omega

theorem pop_stuck {n : Nat} {nd : Nat → Node D} {cap : Nat → Nat} {s : P D} {i : Nat}
    (h : pstep n nd cap s (.pop i) = none) (hi : i < n) (hp : s.pending i = [])
    (he : (after (nd i) (s.consumed i)).exited = false) : s.chan i = [] := by
  cases hc : s.chan i with
  | nil => rfl
  | cons m ms => simp [pstep, hi, hp, he, hc] at h

theorem push_stuck {n : Nat} {nd : Nat → Node D} {cap : Nat → Nat} {s : P D} {i : Nat}
    (h : pstep n nd cap s (.push i) = none) (hi : i < n)
    (hc : i + 1 = n ∨ (s.chan (i + 1)).length < cap (i + 1)) : s.pending i = [] := by
  cases hp : s.pending i with
  | nil => rfl
  | cons m ms => simp [pstep, hi, hc, hp] at h

/-- from a stage whose output is complete to the end of the pipeline -/
theorem PInv.forward {n : Nat} {nd : Nat → Node D} {inp : List (Msg D)} {s : P D}
    (h : PInv n nd inp s) (k d : Nat) (hk : k + d < n)
    (hpend : ∀ i, k ≤ i → i < n → s.pending i = [])
    (hchan : ∀ i, k < i → i < n → s.chan i = [])
    (hfull : stream (nd k) (s.consumed k) = sem nd inp (k + 1)) :
    s.pushed (k + d) = sem nd inp (k + d + 1) := by
  induction d with
  | zero =>
    have := h.out k (by omega)
    rw [hpend k (by omega) (by omega), List.append_nil] at this
    rw [Nat.add_zero, this, hfull]
  | succ d ih =>
    have h1 := ih (by omega)
    have h2 := h.chan (k + d) (by omega)
    rw [hchan (k + d + 1) (by omega) (by omega), List.append_nil] at h2
    have h3 := h.out (k + d + 1) (by omega)
    rw [hpend (k + d + 1) (by omega) (by omega), List.append_nil, ← h2, h1] at h3
    exact h3

/-- **C20, no deadlock**: if the capacities are at least 1 and no action is enabled, then everything
has left: the output is the whole composition. -/
theorem C20_complete (n : Nat) (nd : Nat → Node D) (cap : Nat → Nat) (hcap : ∀ i, 0 < cap i)
    (inp : List (Msg D)) (s : P D) (hr : Reach (pstep (n + 1) nd cap) (P.start inp) s)
    (hstuck : ∀ a, pstep (n + 1) nd cap s a = none) :
    s.chan (n + 1) = sem nd inp (n + 1) := by
  have h := PInv.reach hr
  suffices hp : s.pushed n = sem nd inp (n + 1) by
    rw [← hp, h.chan n (by omega)]
    rcases h.last with hl | hl
    · rw [hl, List.nil_append]
    · omega
  -- going backwards: the last stages still run, are idle and their channels are empty, or all is out
  have back : ∀ d, d ≤ n + 1 →
      ((∀ i, n + 1 - d ≤ i → i < n + 1 →
          (after (nd i) (s.consumed i)).exited = false ∧ s.pending i = [] ∧ s.chan i = []) ∨
        s.pushed n = sem nd inp (n + 1)) := by
    intro d
    induction d with
    | zero => intro _; left; intro i h1 h2; omega
    | succ d ih =>
      intro hd
      rcases ih (by omega) with ih | ih
      · have hlt : n - d < n + 1 := by omega
        have hpend : s.pending (n - d) = [] := by
          apply push_stuck (hstuck (.push (n - d))) hlt
          by_cases hd0 : d = 0
          · left; omega
          · right
            rw [(ih (n - d + 1) (by omega) (by omega)).2.2]
            exact hcap _
        cases he : (after (nd (n - d)) (s.consumed (n - d))).exited with
        | false =>
          left
          intro i h1 h2
          by_cases hi : i = n - d
          · subst hi
            exact ⟨he, hpend, pop_stuck (hstuck (.pop (n - d))) hlt hpend he⟩
          · exact ih i (by omega) h2
        | true =>
          right
          have := h.forward (n - d) d (by omega)
            (fun i h1 h2 => by
              by_cases hi : i = n - d
              · rw [hi]; exact hpend
              · exact (ih i (by omega) h2).2.1)
            (fun i h1 h2 => (ih i (by omega) h2).2.2)
            (by
              simp only [sem]
              exact (stream_exited _ (h.consumed_prefix (n - d) (by omega)) he).symm)
          have hnd : n - d + d = n := by omega
          rwa [hnd] at this
      · right; exact ih
  rcases back (n + 1) (by omega) with hb | hb
  · have := h.forward 0 n (by omega) (fun i _ h2 => (hb i (by omega) h2).2.1)
      (fun i _ h2 => (hb i (by omega) h2).2.2)
      (by
        simp only [sem]
        have := h.src
        rw [(hb 0 (by omega) (by omega)).2.2, List.append_nil] at this
        rw [← this])
    rwa [Nat.zero_add] at this
  · exact hb

/-- total number of messages handled so far -/
def work (s : P D) : Nat → Nat
  | 0 => 0
  | k + 1 => work s k + (s.consumed k).length + (s.pushed k).length

/-- the same for the whole run, from the specification -/
def workBound (nd : Nat → Node D) (inp : List (Msg D)) : Nat → Nat
  | 0 => 0
  | k + 1 => workBound nd inp k + (sem nd inp k).length + (sem nd inp (k + 1)).length

theorem PInv.work_le {n : Nat} {nd : Nat → Node D} {inp : List (Msg D)} {s : P D}
    (h : PInv n nd inp s) (k : Nat) (hk : k ≤ n) : work s k ≤ workBound nd inp k := by
  induction k with
  | zero => simp [work]
  | succ k ih =>
    have h1 := ih (by omega)
    have h2 := (h.consumed_prefix k (by omega)).length_le
    have h3 := (h.pushed_prefix k (by omega)).length_le
    simp only [work, workBound]; omega

theorem work_lt {s s' : P D} {i : Nat}
    (hlt : (s.consumed i).length + (s.pushed i).length + 1 =
      (s'.consumed i).length + (s'.pushed i).length)
    (heq : ∀ j, j ≠ i → (s.consumed j).length + (s.pushed j).length =
      (s'.consumed j).length + (s'.pushed j).length) (k : Nat) :
    work s' k = work s k + (if i < k then 1 else 0) := by
  induction k with
  | zero => simp [work]
  | succ k ih =>
    simp only [work]
    by_cases hk : k = i
    · subst hk; simp at ih ⊢; omega
    · have := heq k hk
      by_cases hik : i < k
      · rw [if_pos hik] at ih; rw [if_pos (by omega)]; omega
      · rw [if_neg hik] at ih; rw [if_neg (by omega)]; omega

theorem work_step {n : Nat} {nd : Nat → Node D} {cap : Nat → Nat} {s s' : P D} {a : PAct}
    (hs : pstep n nd cap s a = some s') : work s' n = work s n + 1 := by
  cases a with
  | pop i =>
    simp only [pstep] at hs
    split at hs
    · rename_i hc
      split at hs
      · simp at hs
      · simp only [Option.some.injEq] at hs
        subst hs
        rw [work_lt (i := i), if_pos hc.1]
        · simp only [upd, if_true, List.length_append, List.length_singleton]; omega
        · intro j hj; simp only [upd, hj, if_false]
    · simp at hs
  | push i =>
    simp only [pstep] at hs
    split at hs
    · rename_i hc
      split at hs
      · simp at hs
      · simp only [Option.some.injEq] at hs
        subst hs
        rw [work_lt (i := i), if_pos hc.1]
        · simp only [upd, if_true, List.length_append, List.length_singleton]; omega
        · intro j hj; simp only [upd, hj, if_false]
    · simp at hs

/-- **C20, termination**: no schedule performs more actions than the messages that the specification
puts on the channels, each counted once when pushed and once when popped.  With `C20_complete`:
every maximal execution is finite and delivers the whole composition. -/
theorem C20_bounded (n : Nat) (nd : Nat → Node D) (cap : Nat → Nat) (inp : List (Msg D))
    (as : List PAct) (s : P D) (h : exec (pstep n nd cap) (P.start inp) as = some s) :
    as.length ≤ workBound nd inp n := by
  have hw : ∀ (as : List PAct) (s0 s : P D), exec (pstep n nd cap) s0 as = some s →
      work s n = work s0 n + as.length := by
    intro as
    induction as with
    | nil => intro s0 s h; simp only [exec, Option.some.injEq] at h; subst h; simp
    | cons a as ih =>
      intro s0 s h
      simp only [exec] at h
      cases hs : pstep n nd cap s0 a with
      | none => rw [hs] at h; simp at h
      | some s1 =>
        rw [hs] at h
        have := ih s1 s h
        rw [this, work_step hs, List.length_cons]; omega
  have h1 := hw as _ _ h
  have h2 := (PInv.reach ⟨as, h⟩).work_le n (Nat.le_refl n)
  have h0 : ∀ k, work (P.start inp : P D) k = 0 := by
    intro k
    induction k with
    | zero => rfl
    | succ k ih => simp only [work, ih]; simp [P.start]
  rw [h0] at h1
  omega

/-- a second stage that doubles -/
def dblNode : Node Nat where
  σ := Unit
  init := ()
  comp := false
  src := false
  svc := fun s t => match t with
    | .data d => (s, [], .data (2 * d))
    | _ => (s, [], .goon)
  eosn := fun s => (s, [])

/-- stage 0 sums, the others double -/
def exNd : Nat → Node Nat
  | 0 => sumNode
  | _ => dblNode

-- a complete run of two stages with channels of capacity 1: the hypotheses of `C20_complete` are met
example : ∃ s, Reach (pstep 2 exNd (fun _ => 1)) (P.start [.data 3, .eos]) s ∧
    s.chan 2 = [.data 6, .data 6, .data 6, .eos] ∧
    s.chan 2 = sem exNd [.data 3, .eos] 2 := by
  refine ⟨_, ⟨[.pop 0, .push 0, .pop 1, .push 0, .push 1, .pop 1, .pop 0, .push 1, .push 0, .pop 1,
    .push 0, .push 1, .pop 1, .push 1], rfl⟩, rfl, rfl⟩

end FF.Node
