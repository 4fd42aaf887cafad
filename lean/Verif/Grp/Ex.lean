import Verif.Grp.Nets
/-!
# C67: examples and counterexamples
-/
namespace FF.Grp

/-- Example: the hypotheses of the theorems hold for the network `exN`, in which workers answer with
several messages, messages have destinations, and all the queues are bounded by 1. -/
example : Good exN ∧ Room exN := ⟨exN_good, exN_room⟩

/-- Example: a state in the middle of a run of it, with messages everywhere. -/
example : ∃ s, Reach (step exN) (S.start exN) s ∧ s.cons 2 = [⟨0, none, some 1⟩] ∧
    s.wire 0 2 = [leos 0] ∧ s.inq 3 = [⟨0, some 3, some 2⟩] ∧ s.pend 2 = [.msg ⟨2, none, some 11⟩] :=
  ⟨_, ⟨[.first 0, .push 0, .gather 0 2, .push 0, .send 0, .gather 0 0, .recv 0 2 2, .send 0,
    .deliver 2, .pop 2, .push 2, .recv 0 2 0, .deliver 2, .push 0, .gather 0 0, .send 0], rfl⟩,
    rfl, rfl, rfl, rfl⟩

/-- Example: how such a run ends. -/
example : ∃ s, Reach (step exN) (S.start exN) s ∧ Stuck exN s ∧ Final exN s ∧ Complete exN s.cons :=
  C67_ends exN_good exN_room (Reach.refl _ _)

/-- Example: a complete run of it in which the sink has got everything. -/
example : ∃ s, Reach (step exN) (S.start exN) s ∧ (s.w 4).exited = true ∧
    s.cons 4 = [⟨2, some 4, some 0⟩, ⟨2, none, some 11⟩, ⟨2, some 4, some 1⟩, ⟨2, none, some 13⟩, leos 2,
      ⟨3, none, some 22⟩, ⟨3, none, some 7⟩, ⟨3, none, some 7⟩, leos 3] :=
  ⟨_, ⟨[.first 0, .push 0, .first 1, .push 1, .gather 0 2, .push 0, .gather 1 0, .push 1, .send 0,
    .gather 0 0, .push 0, .send 1, .gather 1 0, .push 1, .recv 0 2 2, .send 0, .gather 0 0, .push 0,
    .deliver 2, .pop 2, .push 2, .gather 2 0, .push 2, .send 2, .gather 2 3, .recv 0 2 0, .send 0,
    .gather 0 0, .push 0, .deliver 2, .pop 3, .push 3, .recv 0 2 0, .deliver 2, .pop 2, .deliver 2,
    .pop 3, .recv 1 2 0, .send 1, .gather 1 0, .push 1, .deliver 2, .pop 2, .push 2, .recv 1 2 0,
    .deliver 2, .deliver 2, .recv 2 3 0, .send 2, .gather 2 0, .push 2, .pop 2, .deliver 3, .pop 4,
    .recv 2 3 4, .send 2, .gather 2 3, .push 2, .deliver 3, .pop 4, .recv 2 3 0, .send 2,
    .gather 2 0, .push 2, .deliver 3, .pop 4, .recv 2 3 4, .send 2, .gather 2 0, .gather 3 3,
    .push 3, .pop 3, .deliver 3, .pop 4, .recv 2 3 0, .send 2, .gather 3 3, .push 3, .deliver 3,
    .pop 4, .recv 2 3 4, .send 2, .gather 3 3, .push 3, .deliver 3, .pop 4, .recv 2 3 4, .send 2,
    .gather 3 0, .push 3, .deliver 3, .pop 4, .recv 2 3 4, .send 2, .gather 3 0, .deliver 3, .pop 4,
    .recv 2 3 0, .deliver 3, .pop 4, .push 4, .gather 4 0], rfl⟩, rfl, rfl⟩

/-- A state in which nothing can happen, checked. -/
def stuckB {D : Type} (N : Net D) (s : S N) : Bool :=
  (List.range N.n).all (fun x =>
    (!(N.ing x).isEmpty || (s.w x).exited) &&
    ((s.inq x).isEmpty || (N.ing x).isEmpty || (s.w x).exited || !(s.pend x).isEmpty) &&
    ((s.pend x).isEmpty || decide (N.capO x ≤ (s.outq x).length)) &&
    ((s.outq x).isEmpty || s.off x || !(s.stodo (N.grp x)).isEmpty)) &&
  (List.range N.k).all (fun g =>
    (match s.stodo g with | [] => true | (c, _) :: _ => decide (N.capW g c ≤ (s.wire g c).length)) &&
    (match s.rtodo g with | [] => true | (x, _) :: _ => !room (N.capI x) (s.inq x).length) &&
    (List.range N.k).all fun a => (s.wire a g).isEmpty || !(s.rtodo g).isEmpty || s.ended g)

/-- nothing is in a place that does not exist -/
structure InRange {D : Type} (N : Net D) (s : S N) : Prop where
  x : ∀ x, N.n ≤ x → s.pend x = [] ∧ s.outq x = [] ∧ s.inq x = []
  g : ∀ g, N.k ≤ g → s.stodo g = [] ∧ s.rtodo g = []
  w : ∀ a g, N.k ≤ a ∨ N.k ≤ g → s.wire a g = []

theorem inRange {D : Type} {N : Net D} {s : S N} (hg : Good N) (hr : Reach (step N) (S.start N) s) :
    InRange N s := by
  obtain ⟨hi, h2⟩ := inv_reach hg hr
  have hC : ∀ a g, ∀ m ∈ s.C a g, a < N.k ∧ g < N.k := by
    intro a g m hm
    have hc := hi.conn a g m hm
    refine ⟨hc.grp ▸ hg.grp_lt _ hc.lt, ?_⟩
    cases hd : m.dest with
    | some d =>
      obtain ⟨h1, h2⟩ := hc.dest d hd
      exact h2 ▸ hg.grp_lt _ (hg.eg_lt _ hc.lt _ h1)
    | none =>
      obtain ⟨z, h1, h2⟩ := (mem_conns hg hc.lt).1 (hc.anon hd)
      exact h2 ▸ hg.grp_lt _ (hg.eg_lt _ hc.lt _ h1)
  refine ⟨fun x hx => ?_, fun g hgk => ⟨?_, ?_⟩, fun a g h => ?_⟩
  · have := h2.none x hx
    simp only [S.X, List.append_eq_nil_iff] at this
    refine ⟨this.2, this.1.2, by_contra fun hn => ?_⟩
    obtain ⟨m, ms, e⟩ := List.exists_cons_of_ne_nil hn
    have := (hi.recv x m (by simp [S.R, e])).1
    omega
  · refine by_contra fun hn => ?_
    obtain ⟨⟨c, m⟩, l, e⟩ := List.exists_cons_of_ne_nil hn
    have := (hC g c m (by simp [S.C, e, toG])).1
    omega
  · refine by_contra fun hn => ?_
    obtain ⟨⟨x, m⟩, l, e⟩ := List.exists_cons_of_ne_nil hn
    have hgx : N.grp x = g := hi.rt g (x, m) (by rw [e]; exact List.mem_cons_self)
    have hx := (hi.recv x m (by simp [S.R, hgx, e, toG])).1
    have := hg.grp_lt x hx
    omega
  · refine by_contra fun hn => ?_
    obtain ⟨m, ms, e⟩ := List.exists_cons_of_ne_nil hn
    have := hC a g m (by simp [S.C, e])
    omega

theorem stuck_of {D : Type} {N : Net D} {s : S N} (hr : InRange N s) (h : stuckB N s = true) :
    Stuck N s := by
  simp only [stuckB, Bool.and_eq_true, List.all_eq_true, List.mem_range, Bool.or_eq_true,
    Bool.not_eq_true', List.isEmpty_iff, decide_eq_true_eq] at h
  obtain ⟨hx, hgk⟩ := h
  intro a
  cases a with
  | first x =>
    simp only [step]
    refine if_neg ?_
    rintro ⟨h1, h2, h3⟩
    rcases (hx x h1).1.1.1 with h | h
    · simp [h2] at h
    · rw [h3] at h; simp at h
  | pop x =>
    simp only [step]
    cases hq : s.inq x with
    | nil => rfl
    | cons m ms =>
      refine if_neg ?_
      rintro ⟨h1, h2, h3, h4⟩
      rcases (hx x h1).1.1.2 with ((h | h) | h) | h
      · simp [hq] at h
      · exact h2 h
      · rw [h3] at h; simp at h
      · simp [h4] at h
  | push x =>
    simp only [step]
    cases hq : s.pend x with
    | nil => rfl
    | cons m ms =>
      refine if_neg fun hl => ?_
      by_cases h1 : x < N.n
      · rcases (hx x h1).1.2 with h | h
        · simp [hq] at h
        · omega
      · have := (hr.x x (by omega)).1
        simp [hq] at this
  | gather x c =>
    simp only [step]
    cases hq : s.outq x with
    | nil => rfl
    | cons m ms =>
      refine if_neg ?_
      rintro ⟨h1, h2, h3⟩
      rcases (hx x h1).2 with (h | h) | h
      · simp [hq] at h
      · rw [h2] at h; simp at h
      · simp [h3] at h
  | send g =>
    simp only [step]
    cases hq : s.stodo g with
    | nil => rfl
    | cons p l =>
      refine if_neg fun hl => ?_
      by_cases h1 : g < N.k
      · have := (hgk g h1).1.1
        rw [hq] at this
        simp only [decide_eq_true_eq] at this
        omega
      · have := (hr.g g (by omega)).1
        simp [hq] at this
  | recv a g x =>
    simp only [step]
    cases hq : s.wire a g with
    | nil => rfl
    | cons m ms =>
      refine if_neg ?_
      rintro ⟨h1, h2⟩
      by_cases h3 : a < N.k ∧ g < N.k
      · rcases (hgk g h3.2).2 a h3.1 with (h | h) | h
        · simp [hq] at h
        · simp [h1] at h
        · rw [h2] at h; simp at h
      · have := hr.w a g (by omega)
        simp [hq] at this
  | deliver g =>
    simp only [step]
    cases hq : s.rtodo g with
    | nil => rfl
    | cons p l =>
      refine if_neg fun hl => ?_
      by_cases h1 : g < N.k
      · have := (hgk g h1).1.2
        rw [hq] at this
        simp only [Bool.not_eq_true'] at this
        rw [hl] at this
        simp at this
      · have := (hr.g g (by omega)).2
        simp [hq] at this

theorem deadNet_good : Good deadNet := by
  refine Good.ofNodes (by decide) (by decide) (by decide) (by decide) (by decide) (by decide) ?_ ?_
  · refine lt_five ?_ ?_ ?_ ?_ ?_ <;> intro h <;> first | rfl | exact absurd h (by decide)
  · refine lt_five ?_ ?_ ?_ ?_ ?_
    · exact srcN_ok (by simp)
    · exact fnN_ok (by simp) (by simp) (by simp)
    · exact fnN_ok (by simp) (by simp) (by simp)
    · exact fnN_ok (by simp) (by simp) (by simp)
    · exact fnN_ok (by simp) (by simp) (by simp)

theorem dead_reach : ∃ s, Reach (step deadNet) (S.start deadNet) s ∧ stuckB deadNet s = true ∧
    (s.w 4).exited = false :=
  ⟨_, ⟨[.first 0, .push 0, .gather 0 1, .push 0, .send 0, .gather 0 0, .push 0, .recv 0 1 1, .send 0,
    .gather 0 0, .push 0, .deliver 1, .pop 1, .push 1, .gather 1 2, .push 1, .send 1, .gather 1 2,
    .push 1, .recv 0 1 0, .deliver 1, .recv 1 2 2, .send 1, .gather 1 2, .push 1, .deliver 2,
    .pop 2, .push 2, .gather 2 1, .push 2, .send 2, .gather 2 1, .push 2, .recv 1 2 2, .send 1,
    .gather 1 2, .push 1, .pop 1, .deliver 2, .recv 1 2 2, .send 1, .gather 1 2, .push 1,
    .recv 2 1 3, .deliver 1, .pop 3, .push 3, .send 2, .gather 2 1, .push 2, .recv 2 1 3,
    .deliver 1, .send 2, .gather 2 1, .push 2, .recv 2 1 3, .send 2, .gather 2 1, .push 2], rfl⟩,
    by rfl, by rfl⟩

/-- **C67, counterexample: the order of the groups is needed.** Two groups that feed each other, though
the network has no cycle: 0 → 1 → 2 → 3 → 4 with 1 and 3 in one group, 2 and 4 in another one.  With
bounded queues in front of the nodes, each receiver waits for room in the queue of a node, whose messages
wait for the sender, which waits for room on the connection to the other group: nothing can happen any
more, and no node behind the source ends. -/
theorem C67_deadlock_counterexample :
    Good deadNet ∧ (∀ x, 0 < deadNet.capO x) ∧ (∀ g g', 0 < deadNet.capW g g') ∧
    (∀ x, deadNet.capI x ≠ some 0) ∧
    ∃ s, Reach (step deadNet) (S.start deadNet) s ∧ Stuck deadNet s ∧ (s.w 4).exited = false := by
  refine ⟨deadNet_good, fun _ => Nat.one_pos, fun _ _ => Nat.one_pos, fun _ => by simp [deadNet], ?_⟩
  obtain ⟨s, h, hb, he⟩ := dead_reach
  exact ⟨s, h, stuck_of (inRange deadNet_good h) hb, he⟩

/-- **C67, counterexample: a source must do all its work in one call.** A source that returns its items
one by one, and `EOS` at the end, is called once in a group without receiver: its first item gets
through, the others are never asked for, and since it has not returned `EOS` the logical end mark is not
sent: the source's group ends, its consumer waits for ever. -/
theorem C67_source_counterexample :
    ∃ s, Reach (step srcNet) (S.start srcNet) s ∧ Stuck srcNet s ∧ s.ended 0 = true ∧
      s.cons 1 = [⟨0, none, some 1⟩] ∧ (s.w 1).exited = false := by
  have : ∃ s, Reach (step srcNet) (S.start srcNet) s ∧ InRange srcNet s ∧ stuckB srcNet s = true ∧
      s.ended 0 = true ∧ s.cons 1 = [⟨0, none, some 1⟩] ∧ (s.w 1).exited = false := by
    refine ⟨_, ⟨[.first 0, .push 0, .push 0, .gather 0 1, .send 0, .gather 0 0, .recv 0 1 1,
      .deliver 1, .pop 1], rfl⟩, ⟨?_, ?_, ?_⟩, by rfl, by rfl, by rfl, by rfl⟩
    · intro x hx
      have hx : 2 ≤ x := hx
      have h0 : x ≠ 0 := by omega
      have h1 : x ≠ 1 := by omega
      simp [upd, S.start, h0, h1]
    · intro g hx
      have hx : 2 ≤ g := hx
      have h0 : g ≠ 0 := by omega
      have h1 : g ≠ 1 := by omega
      simp [upd, S.start, h0, h1, srcNet]
    · intro a g hx
      have hx : 2 ≤ a ∨ 2 ≤ g := hx
      have h0 : ¬ (a = 0 ∧ g = 1) := by omega
      simp [upd2, S.start, h0, srcNet]
  obtain ⟨s, h, hr, hb, h1, h2, h3⟩ := this
  exact ⟨s, h, stuck_of hr hb, h1, h2, h3⟩

/-- **C67, counterexample: a node must not end its stream before its input ends.** A node that returns
`EOS` at its first input: its wrapper sends the end mark, but goes on calling `svc`; what the node
returns then is not taken by the sender and is lost. -/
theorem C67_early_counterexample :
    ∃ s, Reach (step earlyNet) (S.start earlyNet) s ∧ (∀ g, g < 3 → s.ended g = true) ∧
      s.cons 1 = [⟨0, none, some 1⟩, ⟨0, none, some 2⟩, leos 0] ∧
      sent earlyNet 1 (s.cons 1) = [(none, 2)] ∧ s.cons 2 = [leos 1] := by
  refine ⟨_, ⟨[.first 0, .push 0, .push 0, .push 0, .push 0, .push 0, .gather 0 1, .send 0,
    .gather 0 1, .send 0, .gather 0 0, .send 0, .gather 0 0, .recv 0 1 1, .deliver 1, .pop 1, .push 1,
    .push 1, .gather 1 0, .send 1, .gather 1 0, .recv 0 1 1, .deliver 1, .pop 1, .push 1, .recv 0 1 0,
    .deliver 1, .pop 1, .push 1, .push 1, .recv 1 2 0, .deliver 2, .pop 2, .push 2, .gather 2 0], rfl⟩,
    ?_, by rfl, by rfl, by rfl⟩
  intro g hg
  match g, hg with
  | 0, _ => rfl
  | 1, _ => rfl
  | 2, _ => rfl

end FF.Grp
