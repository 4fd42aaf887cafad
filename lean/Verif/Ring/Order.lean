import Verif.Ring.Thm
/-!
# C69: what comes back, and running the pipeline again
-/
namespace FF.Ring
open FF.Node
variable {D : Type}

theorem Shape.prefix {xs ys : List (Msg D)} (h : Shape ys) (hp : xs <+: ys) : Shape xs := by
  obtain ⟨ds, hd, h⟩ := h
  rcases h with h | ⟨e, he, h⟩
  · subst h
    exact ⟨xs, fun m hm => hd m (hp.subset hm), Or.inl rfl⟩
  · subst h
    by_cases hx : xs = ds ++ [e]
    · exact ⟨ds, hd, Or.inr ⟨e, he, hx⟩⟩
    · have := prefix_snoc hp hx
      exact ⟨xs, fun m hm => hd m (this.subset hm), Or.inl rfl⟩

theorem Maps.run_data {nd : Node D} {f : D → D} (hm : Maps nd f) (l : L nd) (hl : l.exited = false)
    (hn : l.neos = 1) (ds : List (Msg D)) (hd : ∀ m ∈ ds, m.isData = true) :
    (run nd l ds).2 = ds.map (onMsg f) ∧ (run nd l ds).1.exited = false ∧
      (run nd l ds).1.neos = 1 := by
  induction ds generalizing l with
  | nil => exact ⟨rfl, hl, hn⟩
  | cons x xs ih =>
    have hx := hd x (by simp)
    cases x <;> simp [Msg.isData] at hx
    rename_i d
    have hs := hm.svc l.st d
    have hb : (body nd l (.data d)).2 = [.data (f d)] ∧ (body nd l (.data d)).1.exited = false ∧
        (body nd l (.data d)).1.neos = 1 := by
      simp [body, svcBody, hs, visible, continues, hn]
    rw [run_cons nd l hl]
    obtain ⟨h1, h2, h3⟩ := ih _ hb.2.1 hb.2.2 (fun m hm => hd m (by simp [hm]))
    exact ⟨by simp [hb.1, h1, onMsg], h2, h3⟩

theorem Maps.stream_eq {nd : Node D} {f : D → D} (hm : Maps nd f) {ms : List (Msg D)} (h : Shape ms) :
    stream nd ms = ms.map (onMsg f) := by
  obtain ⟨ds, hd, h⟩ := h
  obtain ⟨h1, h2, h3⟩ := hm.run_data (L.start nd 1) rfl rfl ds hd
  rcases h with rfl | ⟨e, he, rfl⟩
  · exact h1
  · unfold stream
    rw [run_append, h1, List.map_append, run_cons nd _ h2]
    have : (body nd (run nd (L.start nd 1) ds).1 e).2 = [e] ∧ onMsg f e = e := by
      cases e <;> simp [isEnd] at he <;>
        simp [body, markBody, h3, hm.eosn, onMsg]
    simp [run, this.1, this.2]

section
variable {n : Nat} {nd : Nat → Node D} {cap : Nat → Option Nat} {s : P D}

theorem pushed_shape (hst : Stages n nd) (hr : Reach (rstep n nd cap) (start []) s) (i : Nat)
    (hi : i ≤ n) : Shape (s.pushed i) := by
  have hg := fun m hm => good_all hst (by simp) hr i hi m (List.mem_append_left _ hm)
  exact (stream_Shape (nd i) (hst.plain i hi) _ hg).prefix ⟨_, (RInv.reach hr).out i hi⟩

theorem onMsg_comp (f g : D → D) (m : Msg D) : onMsg f (onMsg g m) = onMsg (fun d => f (g d)) m := by
  cases m <;> rfl

theorem through_prefix (hst : Stages n nd) (f : Nat → D → D)
    (hmaps : ∀ i, 0 < i → i ≤ n → Maps (nd i) (f i))
    (hr : Reach (rstep n nd cap) (start []) s) (k : Nat) (hk : k ≤ n) :
    s.pushed k <+: (s.pushed 0).map (onMsg (through f k)) := by
  induction k with
  | zero =>
    have : (onMsg (through f 0) : Msg D → Msg D) = id := by funext m; cases m <;> rfl
    rw [this, List.map_id]
    exact List.prefix_rfl
  | succ k ih =>
    have h1 := ih (by omega)
    have hinv := RInv.reach hr
    have hc : s.consumed (k + 1) <+: s.pushed k := ⟨_, (hinv.chan k (by omega)).symm⟩
    have hp : s.pushed (k + 1) <+: stream (nd (k + 1)) (s.consumed (k + 1)) :=
      ⟨_, hinv.out (k + 1) hk⟩
    rw [(hmaps (k + 1) (by omega) hk).stream_eq ((pushed_shape hst hr k (by omega)).prefix hc)] at hp
    have h2 := (hc.trans h1).map (onMsg (f (k + 1)))
    rw [List.map_map] at h2
    have : (onMsg (f (k + 1)) ∘ onMsg (through f k) : Msg D → Msg D) = onMsg (through f (k + 1)) := by
      funext m; exact onMsg_comp _ _ m
    rw [this] at h2
    exact hp.trans h2

/-- **C69, what comes back**: if the other stages apply functions to the tasks, then what the first
stage reads after its first call is, at any moment and whatever the schedule, the beginning of the
sequence of the results of the tasks it has sent, in the order in which it sent them. -/
theorem C69_order (hst : Stages n nd) (f : Nat → D → D)
    (hmaps : ∀ i, 0 < i → i ≤ n → Maps (nd i) (f i))
    (hr : Reach (rstep n nd cap) (start []) s) :
    s.consumed 0 ++ s.chan 0 <+: .nul :: (s.pushed 0).map (onMsg (through f n)) := by
  rw [← (RInv.reach hr).close]
  exact List.prefix_cons_inj _ |>.2 (through_prefix hst f hmaps hr n (Nat.le_refl n))

/-- **C69, all of it comes back**: when nothing can happen any more, all results have come back. -/
theorem C69_all_back (hst : Stages n nd) (hcap : RingCaps cap) (f : Nat → D → D)
    (hmaps : ∀ i, 0 < i → i ≤ n → Maps (nd i) (f i))
    (hr : Reach (rstep n nd cap) (start []) s) (hstuck : ∀ a, rstep n nd cap s a = none) :
    s.consumed 0 ++ s.chan 0 = .nul :: (s.pushed 0).map (onMsg (through f n)) := by
  refine (C69_order hst f hmaps hr).eq_of_length ?_
  have hinv := RInv.reach hr
  have hq := C69_no_deadlock hst hcap (by simp) hr hstuck
  have hlen : ∀ k, k ≤ n → (s.pushed k).length = (s.pushed 0).length := by
    intro k
    induction k with
    | zero => intro _; rfl
    | succ k ih =>
      intro hk
      have hp : s.pending (k + 1) = [] ∧ s.chan (k + 1) = [] := by
        rcases hq with hq | hq
        · exact ⟨(hq (k + 1) hk).2.1, (hq (k + 1) hk).2.2 (by omega)⟩
        · exact ⟨(hq (k + 1) hk).2.1, (hq (k + 1) hk).2.2⟩
      have h1 := hinv.chan k (by omega)
      rw [hp.2, List.append_nil] at h1
      have h2 := hinv.out (k + 1) hk
      rw [hp.1, List.append_nil, ← h1,
        (hmaps (k + 1) (by omega) hk).stream_eq (pushed_shape hst hr k (by omega))] at h2
      rw [h2, List.length_map, ih (by omega)]
  rw [← hinv.close]
  simp [hlen n (Nat.le_refl n)]

/-- the first stage never reads an end mark in a first run: it decides the end itself -/
theorem first_reads_no_end (hst : Stages n nd) (hr : Reach (rstep n nd cap) (start []) s) :
    ∀ m ∈ s.consumed 0, isEnd m = false := by
  obtain ⟨as, h⟩ := hr
  have key : ∀ (as : List PAct) (s0 s : P D), Reach (rstep n nd cap) (start []) s0 →
      (∀ m ∈ s0.consumed 0, isEnd m = false) → exec (rstep n nd cap) s0 as = some s →
      ∀ m ∈ s.consumed 0, isEnd m = false := by
    intro as
    induction as with
    | nil => intro s0 s _ h0 h; simp only [exec, Option.some.injEq] at h; exact h ▸ h0
    | cons a as ih =>
      intro s0 s hr0 h0 h
      simp only [exec] at h
      cases hs : rstep n nd cap s0 a with
      | none => rw [hs] at h; simp at h
      | some s1 =>
        rw [hs] at h
        refine ih s1 s (hr0.tail hs) ?_ h
        cases a with
        | push i =>
          simp only [rstep] at hs
          split at hs
          · split at hs
            · simp at hs
            · simp only [Option.some.injEq] at hs
              subst hs; exact h0
          · simp at hs
        | pop i =>
          simp only [rstep] at hs
          split at hs
          · rename_i hc
            split at hs
            · simp at hs
            · rename_i x xs hx
              simp only [Option.some.injEq] at hs
              subst hs
              by_cases hi : i = 0
              · subst hi
                intro m hm
                simp only [upd, if_true] at hm
                rcases List.mem_append.1 hm with hm | hm
                · exact h0 m hm
                · simp only [List.mem_singleton] at hm
                  subst hm
                  cases he : isEnd m with
                  | false => rfl
                  | true =>
                    exfalso
                    have hcl := (RInv.reach hr0).close
                    have hmem : m ∈ Msg.nul :: s0.pushed n := by
                      have : m ∈ s0.consumed 0 ++ s0.chan 0 := by rw [hx]; simp
                      rw [← hcl] at this; exact this
                    rcases List.mem_cons.1 hmem with rfl | hmem
                    · simp [isEnd] at he
                    · have h1 := sent_end hst (by simp) hr0 n (Nat.le_refl n)
                        ⟨m, List.mem_append_left _ hmem, he⟩
                      have h2 := ended_back_all hst (by simp) hr0 n (Nat.le_refl n) h1
                      rw [hc.2.2] at h2
                      exact absurd h2 (by simp)
              · have : (0 : Nat) ≠ i := fun hh => hi hh.symm
                intro m hm
                simp only [upd, this, if_false] at hm
                exact h0 m hm
          · simp at hs
  exact key as _ s (Reach.refl _ _) (by simp [start, P.start]) h

/-- **C69, a second run gets nothing back**: once a run has ended, the feedback queue holds the tasks
the first stage did not wait for and the end mark of that run.  In the next run, whatever the
schedule and the queues, the first stage reads at most these: none of the results of what it sends
in that run ever reaches it. -/
theorem C69_second_run (hst : Stages n nd) (hcap : RingCaps cap)
    (hr : Reach (rstep n nd cap) (start []) s) (hstuck : ∀ a, rstep n nd cap s a = none)
    (hend : (after (nd 0) (s.consumed 0)).exited = true) :
    ∃ ds e, (∀ m ∈ ds, m.isData = true) ∧ isEnd e = true ∧ s.chan 0 = ds ++ [e] ∧
      ∀ (cap' : Nat → Option Nat) (s' : P D),
        Reach (rstep n (again nd s) cap') (restart s) s' → s'.consumed 0 <+: .nul :: (ds ++ [e]) := by
  have hinv := RInv.reach hr
  have hq : ∀ i, i ≤ n → (after (nd i) (s.consumed i)).exited = true ∧ s.pending i = [] ∧
      (0 < i → s.chan i = []) := by
    rcases C69_no_deadlock hst hcap (by simp) hr hstuck with hq | hq
    · exact hq
    · rw [(hq 0 (by omega)).1] at hend; exact absurd hend (by simp)
  obtain ⟨out, e, h1, h2, h3⟩ := ended_shape hst (by simp) hr n (Nat.le_refl n) (hq n (Nat.le_refl n)).1
  rw [(hq n (Nat.le_refl n)).2.1, List.append_nil] at h3
  have hcl := hinv.close
  rw [h3] at hcl
  -- the end mark has not been read
  have hne : s.chan 0 ≠ [] := by
    intro h0
    rw [h0, List.append_nil] at hcl
    have := first_reads_no_end hst hr e (by rw [← hcl]; simp)
    rw [this] at h2; exact absurd h2 (by simp)
  rcases List.eq_nil_or_concat (s.chan 0) with h0 | ⟨ds, e', h0⟩
  · exact absurd h0 hne
  rw [List.concat_eq_append] at h0
  rw [h0, ← List.append_assoc, ← List.append_assoc] at hcl
  have hee : e = e' := by simpa using List.append_inj_right' hcl rfl
  have hds := List.append_inj_left' hcl rfl
  subst hee
  refine ⟨ds, e, ?_, h2, h0, ?_⟩
  · intro m hm
    have hmem : m ∈ [Msg.nul] ++ out := by rw [hds]; exact List.mem_append_right _ hm
    rcases List.mem_append.1 hmem with hmem | hmem
    · -- the `NULL` is the first message read
      exfalso
      have hcons : s.consumed 0 ≠ [] := by
        intro hc
        have : (after (nd 0) (s.consumed 0)).exited = false := by rw [hc]; rfl
        rw [this] at hend; exact absurd hend (by simp)
      cases hc : s.consumed 0 with
      | nil => exact hcons hc
      | cons x xs =>
        rw [hc] at hds
        simp only [List.cons_append, List.nil_append, List.cons.injEq] at hds
        have : m ∈ out := by rw [hds.2]; exact List.mem_append_right _ hm
        have hd := h1 m this
        simp only [List.mem_singleton] at hmem
        subst hmem
        simp [Msg.isData] at hd
    · exact h1 m hmem
  · intro cap' s' hr'
    have hinv' := RInv.reach (nd := again nd s) (left := s.chan 0) hr'
    have hp1 : s'.consumed 0 <+: (Msg.nul :: s.chan 0) ++ s'.pushed n := ⟨_, hinv'.close.symm⟩
    have hp2 : (Msg.nul :: s.chan 0) <+: (Msg.nul :: s.chan 0) ++ s'.pushed n := List.prefix_append _ _
    rw [← h0]
    rcases prefix_comparable hp1 hp2 with h | h
    · exact h
    · by_cases heq : (Msg.nul :: s.chan 0) = s'.consumed 0
      · rw [heq]; exact List.prefix_rfl
      · exfalso
        have hl := hinv'.live 0 (by omega) _ h heq
        have := after_mark (again nd s 0) (Msg.nul :: s.chan 0) ⟨e, by rw [h0]; simp, h2⟩
        rw [this] at hl; exact absurd hl (by simp)

end
end FF.Ring
