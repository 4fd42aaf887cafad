import Verif.Gsearch.All
import Mathlib.Data.List.Nodup
/-!
# C78: the theorems about the search for all nodes
-/
namespace FF.Gs
open FF.Node FF.Farm
variable {V : Type} {p : V → Bool} {out : V → List V} {id : V → Nat} {start : Option V}

/-- everything that was sent has come back exactly if as many nodes have come back as were sent -/
theorem sent_all {cf : Cfg V} (hcw : ∀ i, cf.w i = searcher p) {em : Em V} {s : M em} (h : MInv cf [] s) (hl : LInv cf s)
    (hsrc0 : ∀ x ∈ s.hist, ∃ i, i < cf.n ∧ x.src = some i) {ts : List V}
    {l1 : List (Nat × Msg V)} (hx : Explains cf.n (ts.map (fun t => Cmd.sched (.data t))) l1)
    (hform : ∀ i, i < cf.n → from_ s.e.log i = from_ l1 i ∨ from_ s.e.log i = from_ l1 i ++ [.eos]) :
    (∀ i, i < cf.n → (fromW s.hist i).length ≤ (from_ l1 i).length) ∧
    sumN (fun i => (fromW s.hist i).length) cf.n = s.hist.length ∧
    sumN (fun i => (from_ l1 i).length) cf.n = ts.length ∧
    ((∀ i, i < cf.n → (fromW s.hist i).length = (from_ l1 i).length) →
      (∀ i, i < cf.n → fromW s.hist i = from_ l1 i) ∧ (tasks (s.hist.map (·.m))).Perm ts) ∧
    (∀ i, ∀ m ∈ from_ l1 i, m.isData = true) ∧
    ts.Perm ((List.range cf.n).flatMap fun i => tasks (from_ l1 i)) := by
  have hsrc : ∀ x ∈ s.hist, x.src ≠ none := by
    intro x hx hh
    obtain ⟨i, _, hi⟩ := hsrc0 x hx
    rw [hh] at hi; simp at hi
  have hchan : ∀ r m, (r, m) ∈ histPairs s.hist → r < cf.n := by
    intro r m hm
    simp only [histPairs, List.mem_map, Prod.mk.injEq] at hm
    obtain ⟨x, hx, rfl, _⟩ := hm
    obtain ⟨i, hi, he⟩ := hsrc0 x hx
    rw [he]; exact hi
  have hchan1 : ∀ r m, (r, m) ∈ l1 → r < cf.n := hx.chan (fun i m hm => by simp at hm)
  have p1 := perm_channels (histPairs s.hist) hchan
  have p2 := perm_channels l1 hchan1
  have hpm : (histPairs s.hist).map Prod.snd = s.hist.map (·.m) := by simp [histPairs]
  have hlm := sched_log ts l1 hx
  have hd1 : ∀ i, ∀ m ∈ from_ l1 i, m.isData = true := by
    intro i m hm
    have : m ∈ l1.map Prod.snd := List.mem_map.2 ⟨(i, m), mem_from.1 hm, rfl⟩
    rw [hlm] at this
    simp only [List.mem_map] at this
    obtain ⟨d, _, rfl⟩ := this
    rfl
  have hst : ∀ i, i < cf.n → stream (cf.w i) (from_ l1 i) = from_ l1 i := by
    intro i hi
    rw [hcw i, data_list (hd1 i)]
    exact searcher_stream p _
  have hpre : ∀ i, i < cf.n → fromW s.hist i <+: from_ l1 i := by
    intro i hi
    have h3 : fromW s.hist i <+: s.pushed i := by
      rw [h.outq i, List.append_assoc]; exact ⟨_, rfl⟩
    have h4 : s.pushed i <+: stream (cf.w i) (from_ s.e.log i) :=
      (show s.pushed i <+: stream (cf.w i) (s.consumed i) from ⟨_, h.work i hi⟩).trans
        (stream_mono _ ⟨s.inq i, (h.inq i).symm⟩)
    have h5 := h3.trans h4
    have hfd : ∀ m ∈ fromW s.hist i, m.isData = true := by
      intro m hm
      simp only [fromW, List.mem_map, List.mem_filter, decide_eq_true_eq] at hm
      obtain ⟨x, ⟨hx1, hx2⟩, rfl⟩ := hm
      exact hl.data x hx1 (by rw [hx2]; simp)
    rcases hform i hi with hh | hh
    · rw [hh, hst i hi] at h5; exact h5
    · rw [hh, hcw i, stream_eos (searcher_steady p) (searcher_silent p) (hd1 i), ← hcw i, hst i hi] at h5
      rcases List.prefix_concat_iff.1 (by simpa using h5) with h6 | h6
      · have : Msg.eos ∈ fromW s.hist i := by rw [h6]; simp
        have := hfd _ this
        simp [Msg.isData] at this
      · exact h6
  have q2 := p2.filterMap (fun m => match m with | Msg.data d => some d | _ => none)
  rw [List.filterMap_flatMap] at q2
  have q2' : (tasks (l1.map Prod.snd)).Perm ((List.range cf.n).flatMap fun i => tasks (from_ l1 i)) := q2
  rw [hlm, tasks_data] at q2'
  refine ⟨fun i hi => (hpre i hi).length_le, ?_, ?_, ?_, hd1, q2'⟩
  · have := p1.length_eq
    rw [length_flatMap_range] at this
    rw [sumN_congr fun i _ => by rw [← from_pairs hsrc i], ← this]
    simp [histPairs]
  · have := p2.length_eq
    rw [length_flatMap_range, hlm] at this
    simpa using this.symm
  · intro heq
    have hall : ∀ i, i < cf.n → fromW s.hist i = from_ l1 i := fun i hi => (hpre i hi).eq_of_length (heq i hi)
    refine ⟨hall, ?_⟩
    have hflat : ∀ (k : Nat), k ≤ cf.n → ((List.range k).flatMap fun i => tasks (from_ (histPairs s.hist) i)) =
        ((List.range k).flatMap fun i => tasks (from_ l1 i)) := by
      intro k
      induction k with
      | zero => intro _; rfl
      | succ k ih =>
        intro hk
        rw [List.range_succ, List.flatMap_append, List.flatMap_append, ih (by omega)]
        simp [from_pairs hsrc k, hall k (by omega)]
    have q1 := p1.filterMap (fun m => match m with | Msg.data d => some d | _ => none)
    rw [List.filterMap_flatMap] at q1
    have q1' : (tasks ((histPairs s.hist).map Prod.snd)).Perm
        ((List.range cf.n).flatMap fun i => tasks (from_ (histPairs s.hist) i)) := q1
    rw [hflat cf.n (Nat.le_refl _), hpm] at q1'
    exact q1'.trans q2'.symm

/-- the state of a search in progress -/
abbrev run0 (p : V → Bool) (out : V → List V) (id : V → Nat) (start : Option V) (nw : Nat) (ci : Nat → Nat) :
    M (explorer out id start) := M.init (farm p nw ci) (explorer out id start) []

theorem good (nw : Nat) (ci : Nat → Nat) : GoodInput (farm p nw ci) ([] : List (Msg V)) := ⟨by simp, by simp, fun _ => rfl⟩

theorem steady (nw : Nat) (ci : Nat → Nat) : ∀ i, i < (farm p nw ci).n → Steady ((farm p nw ci).w i) :=
  fun _ _ => searcher_steady p

theorem GInv.reach {nw : Nat} {ci : Nat → Nat} (hn : 0 < nw) {s : M (explorer out id start)}
    (hr : Reach (mstep (farm p nw ci)) (run0 p out id start nw ci) s) :
    MInv (farm p nw ci) [] s ∧ LInv (farm p nw ci) s ∧ GInv out id start (farm p nw ci) s := by
  have hm := explorer_master out id start nw
  have := hr.inv (Inv := fun x => (MInv (farm p nw ci) [] x ∧ ChInv (farm p nw ci) x ∧ LInv (farm p nw ci) x) ∧
      GInv out id start (farm p nw ci) x)
      ⟨⟨MInv.init _ _ _, ChInv.init hn _ _, LInv.init hn _ _⟩,
        ⟨by intro x hx; simp [M.init] at hx, fun _ => ⟨rfl, rfl, rfl⟩, by intro hh; simp [M.init, farm] at hh⟩⟩
      (by
        intro x a y ⟨⟨a1, a2, a3⟩, a4⟩ hs
        exact ⟨⟨a1.step hn hs, a2.step hn hs, LInv.step hn (steady nw ci) hm (good nw ci) a1 a2 a3 hs⟩,
          GInv.step (fun _ => rfl) a1 a2 a3 a4 hs⟩)
  exact ⟨this.1.1, this.1.2.2, this.2⟩

/-- once the emitter has left its loop and sent everything, everything has come back -/
theorem left {nw : Nat} {ci : Nat → Nat} (hn : 0 < nw) {s : M (explorer out id start)}
    (hr : Reach (mstep (farm p nw ci)) (run0 p out id start nw ci) s) (hp : s.ph ≠ .loop) (hpc : s.e.pc = .idle)
    (hcm : s.e.cmds = []) :
    ∃ sent fr l1, GOk out id start sent fr s.es s.hist s.issued (s.ph = .loop) ∧
      (∀ i, i < nw → from_ s.e.log i = from_ l1 i ++ [.eos]) ∧ (∀ i, i < nw → fromW s.hist i = from_ l1 i) ∧
      (tasks (s.hist.map (·.m))).Perm sent ∧ (∀ i, ∀ m ∈ from_ l1 i, m.isData = true) ∧
      sent.Perm ((List.range nw).flatMap fun i => tasks (from_ l1 i)) := by
  obtain ⟨h, hl, hk⟩ := GInv.reach hn hr
  have hf : s.first = false := by
    cases hh : s.first with
    | false => rfl
    | true => exact absurd (h.first hh).2.2 hp
  obtain ⟨sent, fr, hg⟩ := hk.later hf
  have hk0 : s.es.counter = 0 := Classical.byContradiction fun hh => hp (hg.loopIff.2 hh)
  have k4 := hg.issuedEq
  rw [if_pos hk0] at k4
  obtain ⟨l, g, e1, e2, e3⟩ := h.e.log
  rw [hpc] at e3
  simp only [PartOk] at e3
  subst e3
  rw [List.append_nil] at e1
  have hdn : s.e.dn = sent.map (fun t => Cmd.sched (.data t)) ++ [.bcast .eos] := by
    have := h.e.cmds
    rw [hpc, hcm, k4] at this
    simpa [EPc.cur] using this
  rw [hdn] at e2
  obtain ⟨l1, l2, rfl, e4, g2, l3, rfl, e5, e6⟩ := e2.append_inv
  simp only [Explains] at e6
  subst e6
  have hform : ∀ i, i < nw → from_ s.e.log i = from_ l1 i ++ [.eos] := by
    intro i hi
    rw [e1, List.append_nil, from_append, perm_eos e5 hi]
  obtain ⟨b1, b2, b3, b4, b5, b6⟩ := sent_all (p := p) (fun _ => rfl) h hl hk.src e4 (fun i hi => Or.inr (hform i hi))
  have hcnt := hg.count
  have := b4 (sumN_eq_le b1 (by rw [b2, b3]; omega))
  exact ⟨sent, fr, l1, hg, hform, this.1, this.2, b5, b6⟩

/-- **C78, the search returns**: for every graph with finitely many identifiers, every number of workers, all capacities and every schedule so far, the
state in which the emitter and all workers have ended is reachable. -/
theorem C78_returns {N nw : Nat} {ci : Nat → Nat} (hn : 0 < nw) (hci : ∀ i, i < nw → 0 < ci i) (hid : ∀ v, id v < N)
    {s : M (explorer out id start)} (hr : Reach (mstep (farm p nw ci)) (run0 p out id start nw ci) s) :
    ∃ s', Reach (mstep (farm p nw ci)) s s' ∧ s'.Final (farm p nw ci) := by
  have hm := explorer_master out id start nw
  obtain ⟨s', h1, h2⟩ := C57_completes_partial (cf := farm p nw ci) hn (steady nw ci) hci hm (explorer_spends out id start hid nw)
    (good nw ci) hr
  have hr' := hr.trans h1
  obtain ⟨h, hl, hk⟩ := GInv.reach hn hr'
  rcases h2 with h2 | h2 | h2
  · exact ⟨s', h1, h2⟩
  · exfalso
    obtain ⟨q1, _, q3⟩ := C57_quiet hn hr' h2
    obtain ⟨c1, c2, c3, c4, _⟩ := h2
    obtain ⟨sent, fr, hg⟩ := hk.later c2
    have hk0 := hg.loopIff.1 c1
    rw [hg.issuedEq, if_neg hk0, List.append_nil] at q3
    obtain ⟨b1, b2, b3, _⟩ := sent_all (p := p) (fun _ => rfl) h hl hk.src q3 (fun i hi => Or.inl rfl)
    have hlen : ∀ i, i < nw → (fromW s'.hist i).length = (from_ s'.e.log i).length := by
      intro i hi
      rw [q1 i hi]
      have hd : ∀ m ∈ from_ s'.e.log i, m.isData = true := loop_consumed h hl c1 i
      conv => lhs; rw [data_list hd]
      conv => rhs; rw [data_list hd]
      exact congrArg List.length (searcher_stream p _)
    have := sumN_congr hlen
    have hcnt := hg.count
    have e1 : sumN (fun i => (fromW s'.hist i).length) nw = s'.hist.length := b2
    have e2 : sumN (fun i => (from_ s'.e.log i).length) nw = sent.length := b3
    omega
  · exfalso
    obtain ⟨f1, f2, _⟩ := (FailInv.reach hn hr').fail h2
    obtain ⟨i, hi, hne⟩ := C57_absorb_partial hn (steady nw ci) (fun i _ => searcher_silent p) hm (good nw ci) hr' h2
    obtain ⟨sent, fr, l1, _, a1, a2, _, a4, _⟩ := left hn hr' (by rw [h2]; simp) f1 f2
    apply hne
    rw [a2 i hi, a1 i hi, List.filter_append, List.filter_eq_self.2 (a4 i)]
    simp only [Msg.isData, List.filter_cons, List.filter_nil, Bool.false_eq_true, if_false, List.append_nil]
    conv => lhs; rw [data_list (a4 i)]
    conv => rhs; rw [data_list (a4 i)]
    exact (searcher_stream p _).symm

/-- what is found, in terms of what was sent -/
theorem result_sent {nw : Nat} {ci : Nat → Nat} (hn : 0 < nw) {s : M (explorer out id start)}
    (hr : Reach (mstep (farm p nw ci)) (run0 p out id start nw ci) s) (hf : s.Final (farm p nw ci)) :
    ∃ sent fr, GOk out id start sent fr s.es s.hist s.issued (s.ph = .loop) ∧ (tasks (s.hist.map (·.m))).Perm sent ∧
      (result p nw s).Perm (sent.filter p) := by
  obtain ⟨⟨e1, e2, e3⟩, e4⟩ := hf
  obtain ⟨sent, fr, l1, hg, a1, a2, a3, a4, a5⟩ := left hn hr (by rw [e1]; simp) e2 e3
  refine ⟨sent, fr, hg, a3, ?_⟩
  obtain ⟨h, _, _⟩ := GInv.reach hn hr
  have hcons : ∀ i, i < nw → (after (searcher p) (s.consumed i)).st = (tasks (from_ l1 i)).filter p := by
    intro i hi
    have hpre : s.consumed i <+: from_ l1 i ++ [.eos] := by rw [← a1 i hi, h.inq i]; exact ⟨_, rfl⟩
    rcases List.prefix_concat_iff.1 (by simpa using hpre) with h6 | h6
    · rw [h6]
      conv => lhs; rw [data_list (a4 i)]
      simpa using searcher_found p (tasks (from_ l1 i))
    · exfalso
      have hd : ∀ m ∈ s.consumed i, m.isData = true := fun m hm => a4 i m (h6.subset hm)
      have h1 := (e4 i hi).1
      have h2 : (after (searcher p) (s.consumed i)).exited = true := h1
      rw [data_list hd, searcher_alive] at h2
      simp at h2
  have hflat : ∀ k, k ≤ nw → ((List.range k).flatMap fun i => (show List V from (after (searcher p) (s.consumed i)).st)) =
      (((List.range k).flatMap fun i => tasks (from_ l1 i))).filter p := by
    intro k
    induction k with
    | zero => intro _; rfl
    | succ k ih =>
      intro hk
      rw [List.range_succ, List.flatMap_append, List.flatMap_append, ih (by omega), List.filter_append]
      simp only [List.flatMap_cons, List.flatMap_nil, List.append_nil]
      refine congrArg _ ?_
      exact (List.append_nil _).trans (hcons k (by omega))
  have : result p nw s = ((List.range nw).flatMap fun i => tasks (from_ l1 i)).filter p := hflat nw (Nat.le_refl _)
  rw [this]
  exact (a5.filter p).symm

/-- different reachable nodes have different identifiers -/
def Distinct (out : V → List V) (id : V → Nat) (s : V) : Prop := ∀ v w, Conn out s v → Conn out s w → id v = id w → v = w

theorem sent_reach {nw : Nat} {ci : Nat → Nat} (hn : 0 < nw) {s0 : V} (hd : Distinct out id s0) {s : M (explorer out id (some s0))}
    (hr : Reach (mstep (farm p nw ci)) (run0 p out id (some s0) nw ci) s) (hf : s.Final (farm p nw ci)) :
    ∃ sent fr, GOk out id (some s0) sent fr s.es s.hist s.issued (s.ph = .loop) ∧ (result p nw s).Perm (sent.filter p) ∧
      ∀ v, v ∈ sent ↔ Conn out s0 v := by
  obtain ⟨sent, fr, hg, hp, hres⟩ := result_sent hn hr hf
  refine ⟨sent, fr, hg, hres, fun v => ⟨fun hv => ?_, fun hv => ?_⟩⟩
  · obtain ⟨s1, h1, h2⟩ := hg.conn v hv
    cases h1; exact h2
  · induction hv with
    | refl => rw [hg.sentEq]; simp [roots]
    | @step w x hw hx ih =>
      have h1 := hg.outs w (hp.mem_iff.mpr ih) x hx
      obtain ⟨y, hy, e⟩ := (hg.mask _).mp h1
      obtain ⟨s1, h2, h3⟩ := hg.conn y hy
      cases h2
      have := hd y x h3 (.step hw hx) e
      rw [← this]; exact hy

/-- **C78, the result**: when the search has ended it has found exactly the reachable nodes for which the comparison holds. -/
theorem C78_result {nw : Nat} {ci : Nat → Nat} (hn : 0 < nw) {s0 : V} (hd : Distinct out id s0) {s : M (explorer out id (some s0))}
    (hr : Reach (mstep (farm p nw ci)) (run0 p out id (some s0) nw ci) s) (hf : s.Final (farm p nw ci)) (v : V) :
    v ∈ result p nw s ↔ p v = true ∧ Conn out s0 v := by
  obtain ⟨sent, fr, _, h1, h2⟩ := sent_reach hn hd hr hf
  rw [h1.mem_iff, List.mem_filter, h2]
  exact and_comm

/-- **C78, how often**: a node is found once, unless it occurs more than once among the start and its output nodes; then as often as it occurs there. -/
theorem C78_count [DecidableEq V] {nw : Nat} {ci : Nat → Nat} (hn : 0 < nw) {s0 : V} (hd : Distinct out id s0)
    {s : M (explorer out id (some s0))} (hr : Reach (mstep (farm p nw ci)) (run0 p out id (some s0) nw ci) s)
    (hf : s.Final (farm p nw ci)) {v : V} (hp : p v = true) (hv : Conn out s0 v) :
    (result p nw s).count v = max 1 ((s0 :: out s0).count v) := by
  obtain ⟨sent, fr, hg, h1, h2⟩ := sent_reach hn hd hr hf
  have hmem := (h2 v).mpr hv
  rw [h1.count_eq, List.count_filter hp, hg.sentEq, List.count_append]
  have hfr : fr.count v ≤ 1 := List.nodup_iff_count_le_one.mp hg.nodup.of_map v
  show (s0 :: out s0).count v + _ = _
  by_cases hr0 : v ∈ s0 :: out s0
  · have h3 : fr.count v = 0 := by
      rw [List.count_eq_zero]
      intro h4
      exact hg.disj v h4 (List.mem_map_of_mem hr0)
    have := List.count_pos_iff.mpr hr0
    omega
  · have h3 := List.count_eq_zero.mpr hr0
    have h4 : v ∈ fr := by
      rw [hg.sentEq] at hmem
      rcases List.mem_append.mp hmem with h | h
      · exact absurd h hr0
      · exact h
    have := List.count_pos_iff.mpr h4
    omega

/-- **C78, once**: if the start and its output nodes are different, nothing is found twice. -/
theorem C78_once_partial {nw : Nat} {ci : Nat → Nat} (hn : 0 < nw) {s0 : V} (hd : Distinct out id s0)
    (hs0 : (s0 :: out s0).Nodup) {s : M (explorer out id (some s0))}
    (hr : Reach (mstep (farm p nw ci)) (run0 p out id (some s0) nw ci) s) (hf : s.Final (farm p nw ci)) :
    (result p nw s).Nodup := by
  classical
  rw [List.nodup_iff_count_le_one]
  intro v
  by_cases hv : v ∈ result p nw s
  · obtain ⟨hp, hc⟩ := (C78_result hn hd hr hf v).mp hv
    rw [C78_count hn hd hr hf hp hc]
    have := List.nodup_iff_count_le_one.mp hs0 v
    omega
  · rw [List.count_eq_zero.mpr hv]; omega

/-- **C78, the next search**: when the search has ended all queues are empty, so that the next one starts like the first. -/
theorem C78_clean {nw : Nat} {ci : Nat → Nat} (hn : 0 < nw) {s : M (explorer out id start)}
    (hr : Reach (mstep (farm p nw ci)) (run0 p out id start nw ci) s) (hf : s.Final (farm p nw ci)) :
    ∀ i, i < nw → s.inq i = [] ∧ s.outq i = [] :=
  C57_clean (cf := farm p nw ci) hn (steady nw ci) (explorer_master out id start nw) (good nw ci) rfl hr hf

/-- **C78, no start**: without a start nothing is found. -/
theorem C78_none {nw : Nat} {ci : Nat → Nat} (hn : 0 < nw) {s : M (explorer out id none)}
    (hr : Reach (mstep (farm p nw ci)) (run0 p out id none nw ci) s) (hf : s.Final (farm p nw ci)) : result p nw s = [] := by
  obtain ⟨sent, fr, hg, _, h1⟩ := result_sent hn hr hf
  apply List.eq_nil_iff_forall_not_mem.mpr
  intro v hv
  obtain ⟨s1, h2, _⟩ := hg.conn v (List.mem_filter.mp (h1.mem_iff.mp hv)).1
  simp at h2

/-- **C78, a node twice**: in every graph in which a node for which the comparison holds has an edge to itself, the search that starts there finds it (at least) twice,
with every number of workers and in every schedule. -/
theorem C78_once_counterexample [DecidableEq V] {N nw : Nat} {ci : Nat → Nat} (hn : 0 < nw) (hci : ∀ i, i < nw → 0 < ci i)
    (hid : ∀ v, id v < N) {s0 : V} (hd : Distinct out id s0) (hself : s0 ∈ out s0) (hp : p s0 = true) :
    (∃ s : M (explorer out id (some s0)), Reach (mstep (farm p nw ci)) (run0 p out id (some s0) nw ci) s ∧ s.Final (farm p nw ci)) ∧
    ∀ s : M (explorer out id (some s0)), Reach (mstep (farm p nw ci)) (run0 p out id (some s0) nw ci) s →
      s.Final (farm p nw ci) → 2 ≤ (result p nw s).count s0 := by
  refine ⟨C78_returns hn hci hid (.refl _ _), fun s hr hf => ?_⟩
  rw [C78_count hn hd hr hf hp .refl, List.count_cons_self]
  have := List.count_pos_iff.mpr hself
  omega

/-! ## The hypotheses can be met -/

/-- a cycle of five nodes; every node has also an edge to the node after the next -/
def ring (v : Fin 5) : List (Fin 5) := [v + 1, v + 2]

example : Distinct ring Fin.val 0 ∧ (∀ v : Fin 5, v.val < 5) ∧ (0 :: ring 0).Nodup ∧ Conn ring 0 4 :=
  ⟨fun _ _ _ _ h => Fin.ext h, fun v => v.isLt, by decide, .step (w := 2) (.step .refl (by decide)) (by decide)⟩

-- every schedule with three workers and queues of capacity 1 can be completed, and the even nodes are found
example : ∃ s : M (explorer ring Fin.val (some 0)),
    Reach (mstep (farm (fun v => decide (v.val % 2 = 0)) 3 fun _ => 1)) (run0 (fun v => decide (v.val % 2 = 0)) ring Fin.val (some 0) 3 fun _ => 1) s ∧
    s.Final (farm (fun v => decide (v.val % 2 = 0)) 3 fun _ => 1) ∧ (4 : Fin 5) ∈ result (fun v => decide (v.val % 2 = 0)) 3 s := by
  obtain ⟨s, h1, h2⟩ := C78_returns (p := fun v : Fin 5 => decide (v.val % 2 = 0)) (out := ring) (id := Fin.val) (start := some 0) (N := 5) (nw := 3)
    (ci := fun _ => 1) (by decide) (by intros; decide) (fun v => v.isLt) (.refl _ _)
  refine ⟨s, h1, h2, (C78_result (by decide) (fun _ _ _ _ h => Fin.ext h) h1 h2 4).mpr ⟨by decide, ?_⟩⟩
  exact .step (w := 2) (.step .refl (by decide)) (by decide)

end FF.Gs
