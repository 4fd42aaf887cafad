import Verif.Ring.Inv
/-!
# C69: a pipeline with feedback
-/
namespace FF.Ring
open FF.Node
variable {D : Type}

/-- The stages of a ring of `n + 1` stages: they use the control values as intended, and only the
first one decides when the stream ends. -/
structure Stages (n : Nat) (nd : Nat → Node D) : Prop where
  plain : ∀ i, i ≤ n → Plain (nd i)
  obedient : ∀ i, 0 < i → i ≤ n → Obedient (nd i)

theorem turns_good {n : Nat} {nd : Nat → Node D} (hst : Stages n nd) {init : List (Msg D)}
    (hinit : ∀ m ∈ init, Good m) (k i : Nat) (hi : i ≤ n) : ∀ m ∈ turns n nd init k i, Good m := by
  induction k generalizing i with
  | zero =>
    intro m hm
    simp only [turns] at hm
    split at hm
    · exact hinit m hm
    · simp at hm
  | succ k ih =>
    intro m hm
    have hgood : ∀ j, j ≤ n → ∀ m ∈ stream (nd j) (turns n nd init k j), Good m := fun j hj m hm => by
      rcases stream_good (nd j) (hst.plain j hj) _ (ih j hj) m hm with h | h
      · exact Good.of_data h
      · exact Or.inr h
    cases i with
    | zero =>
      rcases List.mem_append.1 (show m ∈ init ++ stream (nd n) (turns n nd init k n) from hm) with h | h
      · exact hinit m h
      · exact hgood n (Nat.le_refl n) m h
    | succ j => exact hgood j (by omega) m hm

section
variable {n : Nat} {nd : Nat → Node D} {cap : Nat → Option Nat} {left : List (Msg D)} {s : P D}

theorem good_all (hst : Stages n nd) (hleft : ∀ m ∈ left, Good m)
    (hr : Reach (rstep n nd cap) (start left) s) (i : Nat) (hi : i ≤ n) :
    ∀ m ∈ s.consumed i ++ s.chan i, Good m := by
  obtain ⟨k, hk⟩ := Below.reach hr
  intro m hm
  refine turns_good hst (init := .nul :: left) ?_ k i hi m ((hk i hi).subset hm)
  intro x hx
  rcases List.mem_cons.1 hx with rfl | hx
  · exact Or.inl rfl
  · exact hleft x hx

/-- a stage that sent an end mark has ended -/
theorem sent_end (hst : Stages n nd) (hleft : ∀ m ∈ left, Good m)
    (hr : Reach (rstep n nd cap) (start left) s) (i : Nat) (hi : i ≤ n)
    (h : ∃ m ∈ s.pushed i ++ s.pending i, isEnd m = true) :
    (after (nd i) (s.consumed i)).exited = true := by
  have hinv := RInv.reach hr
  obtain ⟨out, h1, h2, _⟩ := stream_shape (nd i) (hst.plain i hi) (s.consumed i)
    (fun m hm => good_all hst hleft hr i hi m (List.mem_append_left _ hm))
  cases he : (after (nd i) (s.consumed i)).exited with
  | true => rfl
  | false =>
    obtain ⟨m, hm, hm'⟩ := h
    rw [hinv.out i hi, h2 he] at hm
    rw [isEnd_data (h1 m hm)] at hm'
    exact absurd hm' (by simp)

/-- an ended stage produced tasks and then one end mark -/
theorem ended_shape (hst : Stages n nd) (hleft : ∀ m ∈ left, Good m)
    (hr : Reach (rstep n nd cap) (start left) s) (i : Nat) (hi : i ≤ n)
    (he : (after (nd i) (s.consumed i)).exited = true) :
    ∃ out e, (∀ m ∈ out, m.isData = true) ∧ isEnd e = true ∧
      s.pushed i ++ s.pending i = out ++ [e] := by
  obtain ⟨out, h1, _, h3⟩ := stream_shape (nd i) (hst.plain i hi) (s.consumed i)
    (fun m hm => good_all hst hleft hr i hi m (List.mem_append_left _ hm))
  obtain ⟨e, he1, he2⟩ := h3 he
  exact ⟨out, e, h1, he1, by rw [(RInv.reach hr).out i hi, he2]⟩

/-- a stage that ended was told so by the stage before it, which has ended too -/
theorem ended_back (hst : Stages n nd) (hleft : ∀ m ∈ left, Good m)
    (hr : Reach (rstep n nd cap) (start left) s) (i : Nat) (hi : i < n)
    (he : (after (nd (i + 1)) (s.consumed (i + 1))).exited = true) :
    (∃ m ∈ s.consumed (i + 1), isEnd m = true) ∧ (after (nd i) (s.consumed i)).exited = true := by
  obtain ⟨m, hm, hm'⟩ := after_obedient (nd (i + 1)) (hst.obedient (i + 1) (by omega) (by omega))
    (s.consumed (i + 1))
    (fun m hm => good_all hst hleft hr (i + 1) (by omega) m (List.mem_append_left _ hm)) he
  refine ⟨⟨m, hm, hm'⟩, sent_end hst hleft hr i (by omega) ⟨m, ?_, hm'⟩⟩
  rw [(RInv.reach hr).chan i hi]
  simp [hm]

theorem ended_back_all (hst : Stages n nd) (hleft : ∀ m ∈ left, Good m)
    (hr : Reach (rstep n nd cap) (start left) s) (i : Nat) (hi : i ≤ n)
    (he : (after (nd i) (s.consumed i)).exited = true) :
    (after (nd 0) (s.consumed 0)).exited = true := by
  induction i with
  | zero => exact he
  | succ i ih => exact ih (by omega) (ended_back hst hleft hr i (by omega) he).2

/-- after the end mark there is nothing -/
theorem end_last {xs ys out : List (Msg D)} {e : Msg D} (h : xs ++ ys = out ++ [e])
    (hout : ∀ m ∈ out, m.isData = true) (hx : ∃ m ∈ xs, isEnd m = true) : ys = [] := by
  rcases List.eq_nil_or_concat ys with h1 | ⟨zs, z, h1⟩
  · exact h1
  · exfalso
    rw [h1] at h
    rw [List.concat_eq_append, ← List.append_assoc] at h
    have h2 := List.append_inj_left' h rfl
    obtain ⟨m, hm, hm'⟩ := hx
    have : m ∈ out := h2 ▸ List.mem_append_left _ hm
    rw [isEnd_data (hout m this)] at hm'
    exact absurd hm' (by simp)

theorem pop_none {i : Nat} (h : rstep n nd cap s (.pop i) = none) (hi : i ≤ n)
    (hp : s.pending i = []) (he : (after (nd i) (s.consumed i)).exited = false) : s.chan i = [] := by
  cases hc : s.chan i with
  | nil => rfl
  | cons m ms => simp [rstep, hi, hp, he, hc] at h

theorem push_none {i : Nat} (h : rstep n nd cap s (.push i) = none) (hi : i ≤ n)
    (hp : s.pending i ≠ []) : ¬ room (cap (nxt n i)) (s.chan (nxt n i)).length := by
  intro hroom
  cases hc : s.pending i with
  | nil => exact hp hc
  | cons m ms => simp [rstep, hi, hroom, hc] at h

/-- in a state in which nothing can be done, every stage has sent all it had to send -/
theorem stuck_pending (hst : Stages n nd) (hcap : RingCaps cap) (hleft : ∀ m ∈ left, Good m)
    (hr : Reach (rstep n nd cap) (start left) s) (hstuck : ∀ a, rstep n nd cap s a = none) (d : Nat)
    (hd : d ≤ n) : s.pending (n - d) = [] := by
  have hinv := RInv.reach hr
  refine Classical.byContradiction fun hne => ?_
  have hfull := push_none (hstuck (.push (n - d))) (by omega) hne
  cases d with
  | zero =>
    have : nxt n (n - 0) = 0 := by simp [nxt]
    rw [this, hcap.feedback] at hfull
    exact hfull trivial
  | succ d =>
    have hnx : nxt n (n - (d + 1)) = n - (d + 1) + 1 := by unfold nxt; rw [if_neg (by omega)]
    rw [hnx] at hfull
    have hidx : n - (d + 1) + 1 = n - d := by omega
    have ih := stuck_pending hst hcap hleft hr hstuck d (by omega)
    have hch : s.chan (n - d) ≠ [] := by
      intro h0
      rw [hidx, h0] at hfull
      exact hfull (hcap.inner _)
    have hex : (after (nd (n - d)) (s.consumed (n - d))).exited = true := by
      cases he : (after (nd (n - d)) (s.consumed (n - d))).exited with
      | true => rfl
      | false => exact absurd (pop_none (hstuck (.pop (n - d))) (by omega) ih he) hch
    have hb := ended_back hst hleft hr (n - (d + 1)) (by omega) (by rw [hidx]; exact hex)
    obtain ⟨out, e, h1, _, h3⟩ := ended_shape hst hleft hr (n - (d + 1)) (by omega) hb.2
    have h4 := hinv.chan (n - (d + 1)) (by omega)
    refine hne (end_last h3 h1 ?_)
    obtain ⟨m, hm, hm'⟩ := hb.1
    exact ⟨m, by rw [h4]; exact List.mem_append_left _ hm, hm'⟩

/-- **C69, no deadlock**: with the queues `wrap_around` creates, whatever the schedule, a ring in
which nothing can happen any more has either ended (every stage has left its loop, everything that
was sent inside has been read), or is waiting with nothing in it: every queue is empty and every
stage has sent all it had to send. -/
theorem C69_no_deadlock (hst : Stages n nd) (hcap : RingCaps cap) (hleft : ∀ m ∈ left, Good m)
    (hr : Reach (rstep n nd cap) (start left) s) (hstuck : ∀ a, rstep n nd cap s a = none) :
    (∀ i, i ≤ n → (after (nd i) (s.consumed i)).exited = true ∧ s.pending i = [] ∧
      (0 < i → s.chan i = [])) ∨
    (∀ i, i ≤ n → (after (nd i) (s.consumed i)).exited = false ∧ s.pending i = [] ∧
      s.chan i = []) := by
  have hinv := RInv.reach hr
  have hpend : ∀ i, i ≤ n → s.pending i = [] := fun i hi => by
    have := stuck_pending hst hcap hleft hr hstuck (n - i) (by omega)
    rwa [show n - (n - i) = i by omega] at this
  cases h0 : (after (nd 0) (s.consumed 0)).exited with
  | true =>
    left
    have hall : ∀ i, i ≤ n → (after (nd i) (s.consumed i)).exited = true ∧ (0 < i → s.chan i = []) := by
      intro i
      induction i with
      | zero => intro _; exact ⟨h0, fun h => absurd h (by omega)⟩
      | succ i ih =>
        intro hi
        obtain ⟨he, _⟩ := ih (by omega)
        obtain ⟨out, e, h1, h2, h3⟩ := ended_shape hst hleft hr i (by omega) he
        rw [hpend i (by omega), List.append_nil] at h3
        have h4 := hinv.chan i (by omega)
        have hex : (after (nd (i + 1)) (s.consumed (i + 1))).exited = true := by
          cases hx : (after (nd (i + 1)) (s.consumed (i + 1))).exited with
          | true => rfl
          | false =>
            have hc := pop_none (hstuck (.pop (i + 1))) hi (hpend (i + 1) hi) hx
            rw [hc, List.append_nil] at h4
            have := after_mark (nd (i + 1)) (s.consumed (i + 1))
              ⟨e, by rw [← h4, h3]; simp, h2⟩
            rw [this] at hx; exact absurd hx (by simp)
        refine ⟨hex, fun _ => ?_⟩
        obtain ⟨hm, _⟩ := ended_back hst hleft hr i (by omega) hex
        exact end_last (h4 ▸ h3) h1 hm
    exact fun i hi => ⟨(hall i hi).1, hpend i hi, (hall i hi).2⟩
  | false =>
    right
    have hall : ∀ i, i ≤ n → (after (nd i) (s.consumed i)).exited = false := by
      intro i hi
      cases hx : (after (nd i) (s.consumed i)).exited with
      | false => rfl
      | true => rw [ended_back_all hst hleft hr i hi hx] at h0; exact absurd h0 (by simp)
    exact fun i hi => ⟨hall i hi, hpend i hi, pop_none (hstuck (.pop i)) hi (hpend i hi) (hall i hi)⟩

/-! ## Determinism -/

theorem prefix_comparable {α : Type} {a b c : List α} (h1 : a <+: c) (h2 : b <+: c) :
    a <+: b ∨ b <+: a := List.prefix_or_prefix_of_prefix h1 h2

/-- **C69, any two runs agree**: take any two runs of the same stages, with any queues and any
schedules, and stop them at any moment.  For each stage, what it has read in one of them continues
what it has read in the other, and so does what it has sent. -/
theorem C69_same_histories {cap' : Nat → Option Nat} {s' : P D}
    (hr : Reach (rstep n nd cap) (start left) s) (hr' : Reach (rstep n nd cap') (start left) s')
    (i : Nat) (hi : i ≤ n) :
    (s.consumed i <+: s'.consumed i ∨ s'.consumed i <+: s.consumed i) ∧
    (s.pushed i <+: s'.pushed i ∨ s'.pushed i <+: s.pushed i) := by
  obtain ⟨k, hk⟩ := Below.reach hr
  obtain ⟨k', hk'⟩ := Below.reach hr'
  have h1 := ((List.prefix_append _ _).trans (hk i hi)).trans
    (turns_le n nd (.nul :: left) (Nat.le_max_left k k') i)
  have h2 := ((List.prefix_append _ _).trans (hk' i hi)).trans
    (turns_le n nd (.nul :: left) (Nat.le_max_right k k') i)
  refine ⟨prefix_comparable h1 h2, ?_⟩
  have h3 : s.pushed i <+: stream (nd i) (s.consumed i) := ⟨_, (RInv.reach hr).out i hi⟩
  have h4 : s'.pushed i <+: stream (nd i) (s'.consumed i) := ⟨_, (RInv.reach hr').out i hi⟩
  exact prefix_comparable (h3.trans (stream_mono _ h1)) (h4.trans (stream_mono _ h2))

/-- **C69, it computes what the specification says**: what a stage has read or finds in front of it
is, at any moment, the beginning of the specified stream. -/
theorem C69_prefix (hr : Reach (rstep n nd cap) (start left) s) :
    ∃ m, ∀ i, i ≤ n → s.consumed i ++ s.chan i <+: turns n nd (.nul :: left) m i := Below.reach hr

/-- when nothing can happen any more, everything the specification says has arrived -/
theorem C69_complete (hst : Stages n nd) (hcap : RingCaps cap) (hleft : ∀ m ∈ left, Good m)
    (hr : Reach (rstep n nd cap) (start left) s) (hstuck : ∀ a, rstep n nd cap s a = none)
    (m i : Nat) (hi : i ≤ n) : turns n nd (.nul :: left) m i <+: s.consumed i ++ s.chan i := by
  have hinv := RInv.reach hr
  have hq := C69_no_deadlock hst hcap hleft hr hstuck
  have hpend : ∀ i, i ≤ n → s.pending i = [] := fun i hi => by
    rcases hq with hq | hq
    · exact (hq i hi).2.1
    · exact (hq i hi).2.1
  have hsame : ∀ i, i ≤ n → stream (nd i) (s.consumed i ++ s.chan i) = s.pushed i := fun i hi => by
    have ho := hinv.out i hi
    rw [hpend i hi, List.append_nil] at ho
    rcases hq with hq | hq
    · rw [stream_exited (nd i) (List.prefix_append _ _) (hq i hi).1, ho]
    · rw [(hq i hi).2.2, List.append_nil, ho]
  induction m generalizing i with
  | zero =>
    cases i with
    | zero => rw [← hinv.close]; simp [turns]
    | succ j => simp [turns]
  | succ m ih =>
    cases i with
    | zero =>
      rw [← hinv.close]
      show (Msg.nul :: left) ++ stream (nd n) (turns n nd (.nul :: left) m n) <+: _
      refine (List.prefix_append_right_inj _).2 ?_
      rw [← hsame n (Nat.le_refl n)]
      exact stream_mono _ (ih n (Nat.le_refl n))
    | succ j =>
      rw [← hinv.chan j (by omega), ← hsame j (by omega)]
      exact stream_mono _ (ih j (by omega))

/-- **C69, one result**: all runs that come to a stop, with any queues `wrap_around` can create and
any schedules, come to a stop in the same situation: each stage has read the same messages, sent the
same messages, and the same messages are left in the queues. -/
theorem C69_one_result {cap' : Nat → Option Nat} {s' : P D} (hst : Stages n nd)
    (hleft : ∀ m ∈ left, Good m) (hcap : RingCaps cap) (hcap' : RingCaps cap')
    (hr : Reach (rstep n nd cap) (start left) s) (hr' : Reach (rstep n nd cap') (start left) s')
    (hstuck : ∀ a, rstep n nd cap s a = none) (hstuck' : ∀ a, rstep n nd cap' s' a = none)
    (i : Nat) (hi : i ≤ n) :
    s.consumed i = s'.consumed i ∧ s.chan i = s'.chan i ∧ s.pushed i = s'.pushed i := by
  have key : ∀ {c c' : Nat → Option Nat} {a b : P D}, RingCaps c → RingCaps c' →
      Reach (rstep n nd c) (start left) a → Reach (rstep n nd c') (start left) b →
      (∀ x, rstep n nd c a x = none) → (∀ x, rstep n nd c' b x = none) →
      a.consumed i ++ a.chan i <+: b.consumed i ++ b.chan i := by
    intro c c' a b hc hc' ha hb hsa hsb
    obtain ⟨k, hk⟩ := Below.reach ha
    exact (hk i hi).trans (C69_complete hst hc' hleft hb hsb k i hi)
  have hEq : s.consumed i ++ s.chan i = s'.consumed i ++ s'.chan i :=
    (key hcap hcap' hr hr' hstuck hstuck').eq_of_length_le
      (key hcap' hcap hr' hr hstuck' hstuck).length_le
  have side : ∀ {c c' : Nat → Option Nat} {a b : P D}, RingCaps c → RingCaps c' →
      Reach (rstep n nd c) (start left) a → Reach (rstep n nd c') (start left) b →
      (∀ x, rstep n nd c a x = none) → (∀ x, rstep n nd c' b x = none) →
      a.consumed i ++ a.chan i = b.consumed i ++ b.chan i →
      a.consumed i <+: b.consumed i → a.consumed i = b.consumed i := by
    intro c c' a b hc hc' ha hb hsa hsb heq hpre
    refine Classical.byContradiction fun hne => ?_
    have hl := (RInv.reach hb).live i hi (a.consumed i) hpre hne
    rcases C69_no_deadlock hst hc hleft ha hsa with h | h
    · rw [(h i hi).1] at hl; exact absurd hl (by simp)
    · rw [(h i hi).2.2, List.append_nil] at heq
      exact hne (hpre.eq_of_length_le (by rw [heq]; simp))
  have hcons : s.consumed i = s'.consumed i := by
    rcases (C69_same_histories hr hr' i hi).1 with h | h
    · exact side hcap hcap' hr hr' hstuck hstuck' hEq h
    · exact (side hcap' hcap hr' hr hstuck' hstuck hEq.symm h).symm
  refine ⟨hcons, ?_, ?_⟩
  · rw [hcons] at hEq; exact List.append_cancel_left hEq
  · have h1 := (RInv.reach hr).out i hi
    have h2 := (RInv.reach hr').out i hi
    have p1 : s.pending i = [] := by
      rcases C69_no_deadlock hst hcap hleft hr hstuck with h | h
      · exact (h i hi).2.1
      · exact (h i hi).2.1
    have p2 : s'.pending i = [] := by
      rcases C69_no_deadlock hst hcap' hleft hr' hstuck' with h | h
      · exact (h i hi).2.1
      · exact (h i hi).2.1
    rw [p1, List.append_nil] at h1
    rw [p2, List.append_nil] at h2
    rw [h1, h2, hcons]

end

/-! ## Every run ends -/

/-- a sequence that does not change from some point on -/
def Stab {α : Type} (f : Nat → List α) : Prop := ∃ m, ∀ k, m ≤ k → f k = f m

theorem stab_of_bounded {α : Type} (f : Nat → List α) (hm : ∀ a b, a ≤ b → f a <+: f b) (B : Nat)
    (hB : ∀ k, (f k).length ≤ B) : Stab f := by
  have : ∀ d m, B - (f m).length ≤ d → Stab f := by
    intro d
    induction d with
    | zero =>
      intro m h
      refine ⟨m, fun k hk => ((hm m k hk).eq_of_length_le ?_).symm⟩
      have := hB k; omega
    | succ d ih =>
      intro m h
      refine Classical.byCases (p := ∀ k, m ≤ k → f k = f m) (fun h1 => ⟨m, h1⟩) (fun h1 => ?_)
      obtain ⟨k, hk⟩ := Classical.not_forall.1 h1
      obtain ⟨hk1, hk2⟩ := Classical.not_imp.1 hk
      refine ih k ?_
      have hle := (hm m k hk1).length_le
      have hne : (f m).length ≠ (f k).length := fun he =>
        hk2 ((hm m k hk1).eq_of_length_le (by omega)).symm
      have := hB k
      omega
  exact this _ 0 (Nat.le_refl _)

theorem Stab.bound {α : Type} {f : Nat → List α} (hm : ∀ a b, a ≤ b → f a <+: f b) (h : Stab f) :
    ∃ B, ∀ k, (f k).length ≤ B := by
  obtain ⟨m, hk⟩ := h
  refine ⟨(f m).length, fun k => ?_⟩
  by_cases hkm : m ≤ k
  · rw [hk k hkm]; exact Nat.le_refl _
  · exact (hm k m (by omega)).length_le

/-- tasks, and then perhaps an end mark -/
def Shape (ms : List (Msg D)) : Prop :=
  ∃ ds : List (Msg D), (∀ m ∈ ds, m.isData = true) ∧ (ms = ds ∨ ∃ e, isEnd e = true ∧ ms = ds ++ [e])

theorem stream_Shape (nd : Node D) (hp : Plain nd) (ms : List (Msg D)) (hms : ∀ m ∈ ms, Good m) :
    Shape (stream nd ms) := by
  obtain ⟨out, h1, h2, h3⟩ := stream_shape nd hp ms hms
  cases he : (after nd ms).exited with
  | false => exact ⟨out, h1, Or.inl (h2 he)⟩
  | true => exact ⟨out, h1, Or.inr (h3 he)⟩

theorem data_list (ds : List (Msg D)) (h : ∀ m ∈ ds, m.isData = true) :
    ∃ l : List D, ds = l.map .data := by
  induction ds with
  | nil => exact ⟨[], rfl⟩
  | cons x xs ih =>
    obtain ⟨l, hl⟩ := ih (fun m hm => h m (by simp [hm]))
    have hx := h x (by simp)
    cases x <;> simp [Msg.isData] at hx
    rename_i d
    exact ⟨d :: l, by rw [hl]; rfl⟩

/-- a first stage that stops does not depend on what comes after -/
theorem stream_take (nd : Node D) (K : Nat) (hK : StopsWithin nd K) (ms : List (Msg D))
    (hs : Shape ms) :
    stream nd (.nul :: ms) = stream nd ((.nul :: ms).take (K + 2)) := by
  obtain ⟨ds, hd, h⟩ := hs
  obtain ⟨l, rfl⟩ := data_list ds hd
  have hpre : l.map Msg.data <+: ms := by
    rcases h with h | ⟨e, _, h⟩
    · rw [h]; exact List.prefix_rfl
    · rw [h]; exact List.prefix_append _ _
  have hlen : ms.length ≤ l.length + 1 := by
    rcases h with h | ⟨e, _, h⟩
    · rw [h]; simp
    · rw [h]; simp
  by_cases hle : K ≤ l.length
  · have hex := hK (l.take K) (by rw [List.length_take]; omega)
    have hp : Msg.nul :: (l.take K).map Msg.data <+: Msg.nul :: ms := by
      refine (List.prefix_cons_inj _).2 (List.IsPrefix.trans ?_ hpre)
      rw [List.map_take]; exact List.take_prefix _ _
    have hp' : Msg.nul :: (l.take K).map Msg.data <+: (Msg.nul :: ms).take (K + 2) := by
      refine List.prefix_take_iff.2 ⟨hp, ?_⟩
      simp only [List.length_cons, List.length_map, List.length_take]; omega
    rw [stream_exited nd hp hex, stream_exited nd hp' hex]
  · rw [List.take_of_length_le (by simp only [List.length_cons]; omega)]

theorem take_prefix_take {α : Type} {a b : List α} (h : a <+: b) (K : Nat) : a.take K <+: b.take K := by
  obtain ⟨t, rfl⟩ := h
  rw [List.take_append]
  exact List.prefix_append _ _

/-- what arrives in front of the first stage -/
theorem turns_first {n : Nat} {nd : Nat → Node D} (hst : Stages n nd) (m : Nat) :
    ∃ ms, Shape ms ∧ turns n nd [.nul] m 0 = .nul :: ms := by
  cases m with
  | zero => exact ⟨[], ⟨[], by simp, Or.inl rfl⟩, rfl⟩
  | succ m =>
    refine ⟨stream (nd n) (turns n nd [.nul] m n), stream_Shape _ (hst.plain n (Nat.le_refl n)) _ ?_, rfl⟩
    exact turns_good hst (by intro x hx; simp at hx; subst hx; exact Or.inl rfl) m n (Nat.le_refl n)

theorem stab_sent (n : Nat) (nd : Nat → Node D) (hst : Stages n nd) (K : Nat)
    (hK : StopsWithin (nd 0) K) (i : Nat) (hi : i ≤ n) :
    Stab fun m => stream (nd i) (turns n nd [.nul] m i) := by
  induction i with
  | zero =>
    have h : Stab fun m => (turns n nd [.nul] m 0).take (K + 2) :=
      stab_of_bounded _ (fun a b hab => take_prefix_take (turns_le n nd [.nul] hab 0) (K + 2)) (K + 2)
        (fun k => by rw [List.length_take]; omega)
    obtain ⟨m, hm⟩ := h
    refine ⟨m, fun k hk => ?_⟩
    show stream (nd 0) (turns n nd [.nul] k 0) = stream (nd 0) (turns n nd [.nul] m 0)
    have hcut : ∀ m, stream (nd 0) (turns n nd [.nul] m 0) =
        stream (nd 0) ((turns n nd [.nul] m 0).take (K + 2)) := fun m => by
      obtain ⟨ms, h1, h2⟩ := turns_first hst m
      rw [h2]; exact stream_take (nd 0) K hK ms h1
    rw [hcut k, hcut m]
    exact congrArg (stream (nd 0)) (hm k hk)
  | succ i ih =>
    obtain ⟨m, hm⟩ := ih (by omega)
    refine ⟨m + 1, fun k hk => ?_⟩
    obtain ⟨k', rfl⟩ : ∃ k', k = k' + 1 := ⟨k - 1, by omega⟩
    show stream (nd (i + 1)) (stream (nd i) (turns n nd [.nul] k' i)) =
      stream (nd (i + 1)) (stream (nd i) (turns n nd [.nul] m i))
    exact congrArg (stream (nd (i + 1))) (hm k' (by omega))

theorem stab_read (n : Nat) (nd : Nat → Node D) (hst : Stages n nd) (K : Nat)
    (hK : StopsWithin (nd 0) K) (i : Nat) (hi : i ≤ n) : Stab fun m => turns n nd [.nul] m i := by
  cases i with
  | zero =>
    obtain ⟨m, hm⟩ := stab_sent n nd hst K hK n (Nat.le_refl n)
    refine ⟨m + 1, fun k hk => ?_⟩
    obtain ⟨k', rfl⟩ : ∃ k', k = k' + 1 := ⟨k - 1, by omega⟩
    show [.nul] ++ stream (nd n) (turns n nd [.nul] k' n) = [.nul] ++ stream (nd n) (turns n nd [.nul] m n)
    exact congrArg ([.nul] ++ ·) (hm k' (by omega))
  | succ j =>
    obtain ⟨m, hm⟩ := stab_sent n nd hst K hK j (by omega)
    refine ⟨m + 1, fun k hk => ?_⟩
    obtain ⟨k', rfl⟩ : ∃ k', k = k' + 1 := ⟨k - 1, by omega⟩
    exact hm k' (by omega)

theorem rwork_step {n : Nat} {nd : Nat → Node D} {cap : Nat → Option Nat} {s s' : P D} {a : PAct}
    (hs : rstep n nd cap s a = some s') : work s' (n + 1) = work s (n + 1) + 1 := by
  cases a with
  | pop i =>
    simp only [rstep] at hs
    split at hs
    · rename_i hc
      split at hs
      · simp at hs
      · simp only [Option.some.injEq] at hs
        subst hs
        rw [work_lt (i := i), if_pos (by omega)]
        · simp only [upd, if_true, List.length_append, List.length_singleton]; omega
        · intro j hj; simp only [upd, hj, if_false]
    · simp at hs
  | push i =>
    simp only [rstep] at hs
    split at hs
    · rename_i hc
      split at hs
      · simp at hs
      · simp only [Option.some.injEq] at hs
        subst hs
        rw [work_lt (i := i), if_pos (by omega)]
        · simp only [upd, if_true, List.length_append, List.length_singleton]; omega
        · intro j hj; simp only [upd, hj, if_false]
    · simp at hs

/-- **C69, every run ends**: if the first stage stops when some number of tasks have come back,
whatever they are, then there is a bound on the number of actions of all runs, for all schedules and all queues. -/
theorem C69_ends (n : Nat) (nd : Nat → Node D) (hst : Stages n nd) (K : Nat)
    (hK : StopsWithin (nd 0) K) :
    ∃ B, ∀ (cap : Nat → Option Nat) (as : List PAct) (s : P D),
      exec (rstep n nd cap) (start []) as = some s → as.length ≤ B := by
  -- a bound for each stage
  have hbound : ∀ k, k ≤ n + 1 → ∃ B, ∀ (cap : Nat → Option Nat) (s : P D),
      Reach (rstep n nd cap) (start []) s → work s k ≤ B := by
    intro k
    induction k with
    | zero => intro _; exact ⟨0, fun _ _ _ => by simp [work]⟩
    | succ k ih =>
      intro hk
      obtain ⟨B, hB⟩ := ih (by omega)
      obtain ⟨B1, hB1⟩ := (stab_read n nd hst K hK k (by omega)).bound
        (fun a b hab => turns_le n nd _ hab k)
      obtain ⟨B2, hB2⟩ := (stab_sent n nd hst K hK k (by omega)).bound
        (fun a b hab => stream_mono _ (turns_le n nd _ hab k))
      refine ⟨B + B1 + B2, fun cap s hr => ?_⟩
      obtain ⟨m, hm⟩ := Below.reach hr
      have hc : s.consumed k <+: turns n nd [.nul] m k :=
        (List.prefix_append _ _).trans (hm k (by omega))
      have hp0 : s.pushed k <+: stream (nd k) (s.consumed k) := ⟨_, (RInv.reach hr).out k (by omega)⟩
      have hp := hp0.trans (stream_mono _ hc)
      have h1 := Nat.le_trans hc.length_le (hB1 m)
      have h2 := Nat.le_trans hp.length_le (hB2 m)
      have h3 := hB cap s hr
      simp only [work]; omega
  obtain ⟨B, hB⟩ := hbound (n + 1) (Nat.le_refl _)
  refine ⟨B, fun cap as s h => ?_⟩
  have hw : ∀ (as : List PAct) (s0 s : P D), exec (rstep n nd cap) s0 as = some s →
      work s (n + 1) = work s0 (n + 1) + as.length := by
    intro as
    induction as with
    | nil => intro s0 s h; simp only [exec, Option.some.injEq] at h; subst h; simp
    | cons a as ih =>
      intro s0 s h
      simp only [exec] at h
      cases hs : rstep n nd cap s0 a with
      | none => rw [hs] at h; simp at h
      | some s1 =>
        rw [hs] at h
        have := ih s1 s h
        rw [this, rwork_step hs, List.length_cons]; omega
  have h1 := hw as _ _ h
  have h2 := hB cap s ⟨as, h⟩
  omega

end FF.Ring
