import Verif.Farm.OdfarmLive
/-!
# C76: an ordered farm combined with a second farm

Source: `/repo/ff/combine.hpp` 1175-1269 (`combine_ofarm_farm`); `/repo/ff/ordering_policies.hpp` 51-86 (`ordered_lb`),
140-162 (`OrderedWorkerWrapper`), 187-222 (`OrderedCollectorWrapper`).

The first farm loses its collector.  Its emitter schedules with an `ordered_lb` on a ring of
`nworkers * (2*ondemand + 3) + 10000` cells, its workers are wrapped, and an `OrderedCollectorWrapper` becomes the first
node of the emitter of the second farm: it puts the results back in order and hands them to the nodes behind it (the
old collector, the old emitter of the second farm, or the scheduler of the second farm).  Emitter and workers are those
of `Verif.Farm.Odfarm`; the new collector is modelled here.  `out` are the values handed to the node behind the wrapper.
Not modelled: `ff_send_out_to`, feedback, the second farm behind its emitter.
-/
namespace FF.Cofarm
open FF.Node FF.Farm FF.Odfarm
variable {D : Type}

/-! ## Model -/

/-- The state: that of the first farm (`s.Q` and `s.next` are the queue and `cnt` of the wrapper), and whether the
wrapper is in its `while` loop (ordering_policies.hpp 205-212). -/
structure C (D : Type) where
  s : S D
  drain : Bool

/-- Number of cells that `combine_ofarm_farm` reserves (combine.hpp 1200; `DEF_OFARM_ONDEMAND_MEMORY` is 10000,
config.hpp): the size that the user chose in `set_ordered` is not looked at. -/
def cells (n ondemand : Nat) : Nat := n * (2 * ondemand + 3) + 10000

inductive Act (D : Type) where
  /-- an action of the emitter or of a worker -/
  | base (a : Odfarm.Act D)
  /-- `OrderedCollectorWrapper::svc` is called with the next message of worker `i` (ordering_policies.hpp 200-204, 214-218);
  `EOS` is counted by the load balancer of the second farm -/
  | take (i : Nat)
  /-- one turn of the loop of the wrapper (ordering_policies.hpp 205-212) -/
  | turn

/-- is it an action of the collector of the ordered farm, which has been removed? -/
def isColl : Odfarm.Act D → Bool
  | .top | .cpop _ => true
  | _ => false

/-- One action; the parameters are those of `Odfarm.step`. -/
def step (n ci co sz ms : Nat) (R : Nat → D → D → Bool) (c : C D) : Act D → Option (C D)
  | .base a =>
    if isColl a then none else (Odfarm.step n ci co sz ms R c.s a).map fun s' => { c with s := s' }
  | .take i =>
    if c.drain = false ∧ c.s.ended = false ∧ i < n ∧ c.s.offline i = false then
      match c.s.outq i with
      | [] => none
      | none :: q =>
        some { c with s := { c.s with outq := upd c.s.outq i q, offline := upd c.s.offline i true
                                      neos := c.s.neos + 1, ended := decide (n ≤ c.s.neos + 1) } }
      | some k :: q =>
        if (c.s.M k).1 = c.s.next then
          some { s := { c.s with outq := upd c.s.outq i q, out := c.s.out ++ [(c.s.M k).2]
                                 next := c.s.next + 1 }
                 drain := true }
        else
          some { c with s := { c.s with outq := upd c.s.outq i q, Q := c.s.Q ++ [k]
                                        err := c.s.err || decide (ms < c.s.Q.length + 1) } }
    else none
  | .turn =>
    if c.drain then
      match c.s.top with
      | none => some { c with drain := false }
      | some k =>
        some { c with s := { c.s with out := c.s.out ++ [(c.s.M k).2], next := c.s.next + 1
                                      Q := c.s.Q.erase k } }
    else none

def C.start (M : Nat → Nat × D) : C D := { s := S.start M, drain := false }

/-- The network is run again: every node passes through `svc_init` (node.hpp 258-296), where the wrapper resets `cnt`
(ordering_policies.hpp 196-199).  The counter of the `ordered_lb` is set only by `init` (ordering_policies.hpp 53),
which `combine_ofarm_farm` calls once (combine.hpp 1202). -/
def C.again (c : C D) : C D :=
  { s := { c.s with next := 0, closed := false, eosOut := fun _ => false, w := fun _ => .idle
                    offline := fun _ => false, neos := 0, ended := false, out := [], tasks := [] }
    drain := false }

/-! ## The first run -/

/-- `Q.top()` depends only on the cells of the queue -/
theorem top_congr {s s' : S D} (hQ : s'.Q = s.Q) (hn : s'.next = s.next)
    (hM : ∀ k, k ∈ s.Q → s'.M k = s.M k) : s'.top = s.top := by
  have h1 : (s'.Q.map fun k => (s'.M k).1) = s.Q.map fun k => (s.M k).1 := by
    rw [hQ]
    exact List.map_congr_left fun k hk => by rw [hM k hk]
  have h2 : ∀ l : List Nat, (∀ k ∈ l, k ∈ s.Q) →
      (l.find? fun k => (s'.M k).1 == s'.next) = l.find? fun k => (s.M k).1 == s.next := by
    intro l hl
    induction l with
    | nil => rfl
    | cons k l ih =>
      simp only [List.find?_cons, hn, hM k (hl k (by simp))]
      have := ih fun k hk => hl k (by simp [hk])
      rw [hn] at this
      rw [this]
  unfold S.top
  rw [h1, hn, hQ]
  have := h2 s.Q fun _ h => h
  rw [hn] at this
  rw [this]

/-- an action of the emitter or of a worker does not touch the cells of the queue -/
theorem top_base {n ci co sz ms : Nat} {R : Nat → D → D → Bool} {s s' : S D} {a : Odfarm.Act D}
    (h : Inv sz R s) (hsz : 0 < sz) (ha : isColl a = false)
    (hs : Odfarm.step n ci co sz ms R s a = some s') (ho : s'.over = false) : s'.top = s.top := by
  have h' := h.step hsz hs ho
  cases a with
  | top => simp [isColl] at ha
  | cpop i => simp [isColl] at ha
  | write d =>
    simp only [Odfarm.step] at hs
    split at hs <;> simp only [Option.some.injEq, reduceCtorEq] at hs
    subst hs
    refine top_congr rfl rfl fun k hk => ?_
    have : k ≠ s.idx := by
      rintro rfl
      have := h'.placed.disj .hand .q s.idx (by simp [S.at_]) hk
      cases this
    simp [upd, this]
  | wwrite i =>
    have hs0 := hs
    simp only [Odfarm.step] at hs
    split at hs <;> simp only [Option.some.injEq, reduceCtorEq] at hs
    rename_i k r hw
    subst hs
    refine top_congr rfl rfl fun k' hk => ?_
    have : k' ≠ k := by
      rintro rfl
      have := h.placed.disj (.chan i) .q k' (mem_w (by simp [hw, WPc.msg])) hk
      cases this
    simp [upd, this]
  | push i | close | eos i | wpop i | wread i | wret i r | wpush i =>
    simp only [Odfarm.step] at hs
    revert hs
    repeat' split
    all_goals first
      | (intro hs; simp only [Option.some.injEq] at hs; subst hs; exact top_congr rfl rfl fun _ _ => rfl)
      | (intro hs; simp at hs)

/-- `over` is not reset -/
theorem over_mono {n ci co sz ms : Nat} {R : Nat → D → D → Bool} {c c' : C D} {a : Act D}
    (hs : step n ci co sz ms R c a = some c') (h : c'.s.over = false) : c.s.over = false := by
  cases a with
  | base a =>
    simp only [step] at hs
    split at hs
    · simp at hs
    · simp only [Option.map_eq_some_iff] at hs
      obtain ⟨s', h1, rfl⟩ := hs
      exact Odfarm.over_mono h1 h
  | take i | turn =>
    simp only [step] at hs
    revert hs
    repeat' split
    all_goals first
      | (intro hs; simp only [Option.some.injEq] at hs; subst hs; exact h)
      | (intro hs; simp at hs)

/-- While no cell has been reused too early, an action is an action of the ordered farm, or leaves it as it is; outside
its loop the wrapper holds back nothing that is next. -/
theorem sim_step {n ci co sz ms : Nat} {R : Nat → D → D → Bool} {c c' : C D} {a : Act D} (hsz : 0 < sz)
    (hI : Inv sz R c.s) (ht : c.drain = false → c.s.top = none) (hd : c.drain = true → c.s.ended = false)
    (hs : step n ci co sz ms R c a = some c') (ho : c'.s.over = false) :
    ((∃ b, (∀ d, a = .base (.write d) ↔ b = .write d) ∧ Odfarm.step n ci co sz ms R c.s b = some c'.s) ∨
      (a = .turn ∧ c'.s = c.s ∧ c.drain = true ∧ c'.drain = false)) ∧
    (c'.drain = false → c'.s.top = none) ∧ (c'.drain = true → c'.s.ended = false) := by
  cases a with
  | base a =>
    simp only [step] at hs
    split at hs
    · simp at hs
    · rename_i ha
      simp only [Option.map_eq_some_iff] at hs
      obtain ⟨s', h1, rfl⟩ := hs
      refine ⟨Or.inl ⟨a, by simp, h1⟩, fun h => ?_, fun h => ?_⟩
      · rw [top_base hI hsz (by simpa using ha) h1 ho]; exact ht h
      · have he : s'.ended = c.s.ended := by
          cases a with
          | top => simp [isColl] at ha
          | cpop i => simp [isColl] at ha
          | _ =>
            simp only [Odfarm.step] at h1
            revert h1
            repeat' split
            all_goals first
              | (intro hs; simp only [Option.some.injEq] at hs; subst hs; rfl)
              | (intro hs; simp at hs)
        exact he.trans (hd h)
  | take i =>
    simp only [step] at hs
    split at hs
    · rename_i hc
      obtain ⟨h1, h2, h3, h4⟩ := hc
      have htop := ht h1
      have hcp : Odfarm.step n ci co sz ms R c.s (.cpop i) = some c'.s ∧
          (c'.drain = false → c'.s.top = none) ∧ (c'.drain = true → c'.s.ended = false) := by
        simp only [Odfarm.step]
        rw [if_pos ⟨h2, htop, h3, h4⟩]
        split at hs
        · simp at hs
        · rename_i q hq
          simp only [Option.some.injEq] at hs; subst hs
          refine ⟨by rw [hq], fun _ => ?_, fun h => ?_⟩
          · rw [← htop]; exact top_congr rfl rfl fun _ _ => rfl
          · simp [h1] at h
        · rename_i k q hq
          split at hs <;> simp only [Option.some.injEq] at hs <;> subst hs
          · rename_i hk
            exact ⟨by rw [hq]; simp [hk], by simp, fun _ => h2⟩
          · rename_i hk
            refine ⟨by rw [hq]; simp [hk], fun _ => ?_, fun h => by simp [h1] at h⟩
            -- the new element is not the next one
            have hk0 : k ∈ c.s.at_ (.chan i) := mem_outq (by rw [hq]; simp)
            have hlt : c.s.next < (c.s.M k).1 := Nat.lt_of_le_of_ne (hI.ids _ _ hk0).1 (Ne.symm hk)
            cases e : S.top _ with
            | none => rfl
            | some x =>
              exfalso
              have hx := top_spec e
              simp only [List.mem_append, List.mem_singleton] at hx
              rcases hx with ⟨hx | hx, hx'⟩
              · -- it would have been the top before
                have hmin : (c.s.Q.map fun k => (c.s.M k).1).min? = some c.s.next := by
                  rw [List.min?_eq_some_iff]
                  refine ⟨List.mem_map.2 ⟨x, hx, hx'⟩, ?_⟩
                  intro y hy
                  obtain ⟨z, hz, rfl⟩ := List.mem_map.1 hy
                  exact (hI.ids .q z hz).1
                unfold S.top at htop
                rw [if_pos hmin, List.find?_eq_none] at htop
                exact htop x hx (by simp [hx'])
              · subst hx; omega
      refine ⟨Or.inl ⟨.cpop i, by simp, hcp.1⟩, hcp.2⟩
    · simp at hs
  | turn =>
    simp only [step] at hs
    split at hs
    · rename_i hdr
      split at hs
      · rename_i htop
        simp only [Option.some.injEq] at hs; subst hs
        exact ⟨Or.inr ⟨rfl, rfl, hdr, rfl⟩, fun _ => htop, by simp⟩
      · rename_i k htop
        simp only [Option.some.injEq] at hs; subst hs
        refine ⟨Or.inl ⟨.top, by simp, ?_⟩, fun h => by simp [hdr] at h, fun _ => hd hdr⟩
        simp [Odfarm.step, hd hdr, htop]
    · simp at hs

variable {n ci co sz ms : Nat} {R : Nat → D → D → Bool}

/-- what holds while no cell has been reused too early -/
structure Good (n ci co sz ms : Nat) (R : Nat → D → D → Bool) (M : Nat → Nat × D) (c : C D) : Prop where
  reach : Reach (Odfarm.step n ci co sz ms R) (S.start M) c.s
  top : c.drain = false → c.s.top = none
  ended : c.drain = true → c.s.ended = false

theorem Good.start (M : Nat → Nat × D) : Good n ci co sz ms R M (C.start M) where
  reach := Reach.refl _ _
  top := by intro _; simp [C.start, S.start, S.top]
  ended := by simp [C.start]

theorem Good.step {M : Nat → Nat × D} {c c' : C D} {a : Act D} (hsz : 0 < sz)
    (h : Good n ci co sz ms R M c) (hs : Cofarm.step n ci co sz ms R c a = some c')
    (ho : c'.s.over = false) : Good n ci co sz ms R M c' := by
  have hI := Inv.reach hsz h.reach (over_mono hs ho)
  obtain ⟨h1, h2, h3⟩ := sim_step hsz hI h.top h.ended hs ho
  refine ⟨?_, h2, h3⟩
  rcases h1 with ⟨b, _, hb⟩ | ⟨_, he, _⟩
  · exact h.reach.tail hb
  · rw [he]; exact h.reach

theorem Good.of_reach {M : Nat → Nat × D} {c : C D} (hsz : 0 < sz)
    (hr : Reach (Cofarm.step n ci co sz ms R) (C.start M) c) (ho : c.s.over = false) :
    Good n ci co sz ms R M c := by
  have : c.s.over = false → Good n ci co sz ms R M c :=
    hr.inv (Inv := fun c : C D => c.s.over = false → Good n ci co sz ms R M c) (fun _ => Good.start M)
      (fun c a c' h hs ho => (h (over_mono hs ho)).step hsz hs ho)
  exact this ho

/-- **C76, order**: for every number of workers, assignment of tasks, order of completion, capacity of the queues and
schedule: as long as no cell has been reused before its result was handed over, the second farm gets results of the
first tasks, in the order of the tasks, each once. -/
theorem C76_order_partial (hsz : 0 < sz) {M : Nat → Nat × D} {c : C D}
    (hr : Reach (Cofarm.step n ci co sz ms R) (C.start M) c) (ho : c.s.over = false) :
    InOrder R c.s.tasks c.s.out :=
  C24_order_partial hsz (Good.of_reach hsz hr ho).reach ho

/-- **C76, nothing is left at the end**: when the emitter of the second farm has got the end of stream of all the workers,
and no cell was reused too early, every task has its result handed over. -/
theorem C76_all_delivered_partial (hn : 0 < n) (hsz : 0 < sz) {M : Nat → Nat × D} {c : C D}
    (hr : Reach (Cofarm.step n ci co sz ms R) (C.start M) c) (ho : c.s.over = false)
    (he : c.s.ended = true) : c.s.out.length = c.s.tasks.length ∧ InOrder R c.s.tasks c.s.out :=
  C24_all_delivered_partial hn hsz (Good.of_reach hsz hr ho).reach ho he

theorem err_mono {c c' : C D} {a : Act D} (hs : Cofarm.step n ci co sz ms R c a = some c')
    (h : c'.s.err = false) : c.s.err = false := by
  cases a with
  | base a =>
    simp only [Cofarm.step] at hs
    split at hs
    · simp at hs
    · rename_i ha
      simp only [Option.map_eq_some_iff] at hs
      obtain ⟨s', h1, rfl⟩ := hs
      have he : s'.err = c.s.err := by
        cases a with
        | top => simp [isColl] at ha
        | cpop i => simp [isColl] at ha
        | _ =>
          simp only [Odfarm.step] at h1
          revert h1
          repeat' split
          all_goals first
            | (intro hs; simp only [Option.some.injEq] at hs; subst hs; rfl)
            | (intro hs; simp at hs)
      exact he.symm.trans h
  | turn =>
    simp only [Cofarm.step] at hs
    revert hs
    repeat' split
    all_goals first
      | (intro hs; simp only [Option.some.injEq] at hs; subst hs; exact h)
      | (intro hs; simp at hs)
  | take i =>
    simp only [Cofarm.step] at hs
    split at hs
    · split at hs
      · simp at hs
      · simp only [Option.some.injEq] at hs; subst hs; exact h
      · split at hs <;> simp only [Option.some.injEq] at hs <;> subst hs
        · exact h
        · simp only [Bool.or_eq_false_iff] at h; exact h.1
    · simp at hs

/-- **C76, when the reserved memory is enough**: an on-demand farm (input queues of `ci` entries) with output queues of at
most `ci + 1` entries reuses no cell too early as long as the wrapper has not reported "not enough memory". -/
theorem C76_no_overrun_partial (hn : 0 < n) (hco : co ≤ ci + 1) {M : Nat → Nat × D} {c : C D}
    (hr : Reach (Cofarm.step n ci co (cells n ci) 10000 R) (C.start M) c) (he : c.s.err = false) :
    c.s.over = false ∧ InOrder R c.s.tasks c.s.out := by
  have hsz : 0 < cells n ci := by unfold cells; omega
  have key : c.s.err = false → c.s.over = false ∧ Good n ci co (cells n ci) 10000 R M c := by
    refine hr.inv (Inv := fun c : C D => c.s.err = false →
      c.s.over = false ∧ Good n ci co (cells n ci) 10000 R M c) (fun _ => ⟨rfl, Good.start M⟩) ?_
    intro c a c' h hs he'
    obtain ⟨h1, h2⟩ := h (err_mono hs he')
    have hov : c'.s.over = false := by
      cases a with
      | base a =>
        simp only [Cofarm.step] at hs
        split at hs
        · simp at hs
        · simp only [Option.map_eq_some_iff] at hs
          obtain ⟨s', h3, rfl⟩ := hs
          exact C24_no_overrun_partial hn rfl hco (h2.reach.tail h3) he'
      | take i | turn =>
        simp only [Cofarm.step] at hs
        revert hs
        repeat' split
        all_goals first
          | (intro hs; simp only [Option.some.injEq] at hs; subst hs; exact h1)
          | (intro hs; simp at hs)
    exact ⟨hov, h2.step hsz hs hov⟩
  exact ⟨(key he).1, C76_order_partial hsz hr (key he).1⟩

/-! ### Progress -/

/-- does the action give a new task? -/
def Act.isWrite : Act D → Bool
  | .base a => a.isWrite
  | _ => false

/-- bound on the remaining actions when no new task comes -/
def C.work (n : Nat) (c : C D) : Nat := 2 * c.s.work n + if c.drain then 1 else 0

/-- **C76, no deadlock**: until the second farm has got the end of stream of all the workers, something else than a new
task is always possible. -/
theorem C76_progress_partial (hn : 0 < n) (hsz : 0 < sz) (hci : 0 < ci) (hco : 0 < co)
    (hR : ∀ i d, ∃ r, R i d r = true) {M : Nat → Nat × D} {c : C D}
    (hr : Reach (Cofarm.step n ci co sz ms R) (C.start M) c) (ho : c.s.over = false)
    (he : c.s.ended = false) :
    ∃ a c', a.isWrite = false ∧ Cofarm.step n ci co sz ms R c a = some c' := by
  have hg := Good.of_reach hsz hr ho
  cases hd : c.drain with
  | true =>
    cases ht : c.s.top with
    | none => exact ⟨.turn, _, rfl, by simp only [Cofarm.step, hd, ht]; rfl⟩
    | some k => exact ⟨.turn, _, rfl, by simp only [Cofarm.step, hd, ht]; rfl⟩
  | false =>
    obtain ⟨a, s', ha, hs⟩ := C24_progress hn hci hco hR hg.reach he
    cases hc : isColl a with
    | false => exact ⟨.base a, { c with s := s' }, ha, by simp [Cofarm.step, hc, hs]⟩
    | true =>
      have htop := hg.top hd
      cases a with
      | top => simp [Odfarm.step, he, htop] at hs
      | cpop i =>
        simp only [Odfarm.step] at hs
        split at hs
        · rename_i hcond
          have hif : c.drain = false ∧ c.s.ended = false ∧ i < n ∧ c.s.offline i = false :=
            ⟨hd, he, hcond.2.2.1, hcond.2.2.2⟩
          cases hq : c.s.outq i with
          | nil => rw [hq] at hs; simp at hs
          | cons m q =>
            cases m with
            | none => exact ⟨.take i, _, rfl, by simp only [Cofarm.step]; rw [if_pos hif, hq]⟩
            | some k =>
              by_cases hk : (c.s.M k).1 = c.s.next
              · exact ⟨.take i, _, rfl, by simp only [Cofarm.step]; rw [if_pos hif, hq]; simp only []; rw [if_pos hk]⟩
              · exact ⟨.take i, _, rfl, by simp only [Cofarm.step]; rw [if_pos hif, hq]; simp only []; rw [if_neg hk]⟩
        · simp at hs
      | _ => simp [isColl] at hc

/-- **C76, bounded work**: every action that gives no new task makes the remaining work smaller. -/
theorem C76_work_partial (hsz : 0 < sz) {M : Nat → Nat × D} {c c' : C D} {a : Act D}
    (hr : Reach (Cofarm.step n ci co sz ms R) (C.start M) c) (ha : a.isWrite = false)
    (hs : Cofarm.step n ci co sz ms R c a = some c') (ho : c'.s.over = false) :
    c'.work n < c.work n := by
  have hov := over_mono hs ho
  have hg := Good.of_reach hsz hr hov
  obtain ⟨h1, _, _⟩ := sim_step hsz (Inv.reach hsz hg.reach hov) hg.top hg.ended hs ho
  rcases h1 with ⟨b, hb, h1⟩ | ⟨_, h1, h2, h3⟩
  · have hbw : b.isWrite = false := by
      cases b with
      | write d => rw [(hb d).2 rfl] at ha; simp [Act.isWrite, Odfarm.Act.isWrite] at ha
      | _ => rfl
    have := work_dec (BInv.reach hg.reach) hbw h1
    unfold C.work
    split <;> split <;> omega
  · unfold C.work
    rw [h1, h2, h3]
    simp

theorem keeps {c c' : C D} {a : Act D} (ha : a.isWrite = false)
    (hs : Cofarm.step n ci co sz ms R c a = some c') :
    c'.s.over = c.s.over ∧ c'.s.tasks = c.s.tasks := by
  cases a with
  | base a =>
    simp only [Cofarm.step] at hs
    split at hs
    · simp at hs
    · simp only [Option.map_eq_some_iff] at hs
      obtain ⟨s', h1, rfl⟩ := hs
      cases a with
      | write d => simp [Act.isWrite, Odfarm.Act.isWrite] at ha
      | _ =>
        simp only [Odfarm.step] at h1
        revert h1
        repeat' split
        all_goals first
          | (intro hs; simp only [Option.some.injEq] at hs; subst hs; exact ⟨rfl, rfl⟩)
          | (intro hs; simp at hs)
  | take i | turn =>
    simp only [Cofarm.step] at hs
    revert hs
    repeat' split
    all_goals first
      | (intro hs; simp only [Option.some.injEq] at hs; subst hs; exact ⟨rfl, rfl⟩)
      | (intro hs; simp at hs)

/-- **C76, completion**: from every state without a cell reused too early the network can end; then every task has its
result handed over, in order.  (With the two theorems above: every schedule that stops giving tasks ends that way.) -/
theorem C76_completes_partial (hn : 0 < n) (hsz : 0 < sz) (hci : 0 < ci) (hco : 0 < co)
    (hR : ∀ i d, ∃ r, R i d r = true) {M : Nat → Nat × D} {c : C D}
    (hr : Reach (Cofarm.step n ci co sz ms R) (C.start M) c) (ho : c.s.over = false) :
    ∃ c', Reach (Cofarm.step n ci co sz ms R) c c' ∧ c'.s.ended = true ∧
      c'.s.out.length = c.s.tasks.length ∧ InOrder R c.s.tasks c'.s.out := by
  have key : ∀ w, ∀ c : C D, c.work n = w → Reach (Cofarm.step n ci co sz ms R) (C.start M) c →
      c.s.over = false → ∃ c', Reach (Cofarm.step n ci co sz ms R) c c' ∧ c'.s.ended = true ∧
        c'.s.tasks = c.s.tasks ∧ c'.s.over = false := by
    intro w
    induction w using Nat.strongRecOn with
    | _ w ih =>
      intro c hw hr ho
      cases he : c.s.ended with
      | true => exact ⟨c, Reach.refl _ _, he, rfl, ho⟩
      | false =>
        obtain ⟨a, c1, ha, hs⟩ := C76_progress_partial hn hsz hci hco hR hr ho he
        obtain ⟨k1, k2⟩ := keeps ha hs
        have ho1 : c1.s.over = false := by rw [k1]; exact ho
        have hd := C76_work_partial hsz hr ha hs ho1
        obtain ⟨c2, h1, h2, h3, h4⟩ := ih _ (by omega) c1 rfl (hr.tail hs) ho1
        exact ⟨c2, (Reach.tail (Reach.refl _ _) hs).trans h1, h2, by rw [h3, k2], h4⟩
  obtain ⟨c', h1, h2, h3, h4⟩ := key _ c rfl hr ho
  obtain ⟨h5, h6⟩ := C76_all_delivered_partial hn hsz (hr.trans h1) h4 h2
  rw [h3] at h5 h6
  exact ⟨c', h1, h2, h5, h6⟩

/-! ## Where the results are lost -/

/-- No message on its way has the number that the wrapper waits for, and no task will get it. -/
structure Lost (c : C D) : Prop where
  next : c.s.next < c.s.cnt
  drain : c.drain = false
  ids : ∀ l k, k ∈ c.s.at_ l → (c.s.M k).1 ≠ c.s.next

theorem Lost.step {c c' : C D} {a : Act D} (h : Lost c) (hs : Cofarm.step n ci co sz ms R c a = some c') :
    Lost c' ∧ c'.s.out = c.s.out := by
  cases a with
  | turn => simp [Cofarm.step, h.drain] at hs
  | take i =>
    simp only [Cofarm.step] at hs
    split at hs
    · split at hs
      · simp at hs
      · rename_i q hq
        simp only [Option.some.injEq] at hs; subst hs
        refine ⟨⟨h.next, h.drain, fun l k hk => ?_⟩, rfl⟩
        cases l with
        | hand => exact h.ids .hand k hk
        | q => exact h.ids .q k hk
        | chan j =>
          refine h.ids (.chan j) k ?_
          by_cases hj : j = i
          · subst hj
            simp only [S.at_, S.msgs, upd, if_true, hq] at hk ⊢
            simpa using hk
          · simpa [S.at_, S.msgs, upd, hj] using hk
      · rename_i k0 q hq
        have hk0 : (c.s.M k0).1 ≠ c.s.next := h.ids (.chan i) k0 (mem_outq (by rw [hq]; simp))
        rw [if_neg hk0] at hs
        simp only [Option.some.injEq] at hs; subst hs
        refine ⟨⟨h.next, h.drain, fun l k hk => ?_⟩, rfl⟩
        cases l with
        | hand => exact h.ids .hand k hk
        | q =>
          simp only [S.at_, List.mem_append, List.mem_singleton] at hk
          rcases hk with hk | rfl
          · exact h.ids .q k hk
          · exact hk0
        | chan j =>
          refine h.ids (.chan j) k ?_
          by_cases hj : j = i
          · subst hj
            simp only [S.at_, S.msgs, upd, if_true, hq] at hk ⊢
            simp only [List.cons_append, List.filterMap_cons, id, List.mem_cons]
            exact Or.inr hk
          · simpa [S.at_, S.msgs, upd, hj] using hk
    · simp at hs
  | base a =>
    simp only [Cofarm.step] at hs
    split at hs
    · simp at hs
    · rename_i ha
      simp only [Option.map_eq_some_iff] at hs
      obtain ⟨s', h1, rfl⟩ := hs
      cases a with
      | top => simp [isColl] at ha
      | cpop i => simp [isColl] at ha
      | write d =>
        simp only [Odfarm.step] at h1
        split at h1 <;> simp only [Option.some.injEq, reduceCtorEq] at h1
        rename_i hc
        subst h1
        refine ⟨⟨h.next, h.drain, fun l k hk => ?_⟩, rfl⟩
        by_cases hki : k = c.s.idx
        · subst hki
          have := h.next
          simp only [upd, if_true]
          omega
        · simp only [upd, hki, if_false]
          cases l with
          | hand => simp [S.at_] at hk; exact absurd hk hki
          | q => exact h.ids .q k hk
          | chan j => exact h.ids (.chan j) k hk
      | push i =>
        simp only [Odfarm.step] at h1
        split at h1 <;> simp only [Option.some.injEq, reduceCtorEq] at h1
        rename_i hc
        subst h1
        refine ⟨⟨Nat.lt_succ_of_lt h.next, h.drain, fun l k hk => ?_⟩, rfl⟩
        cases l with
        | hand => simp [S.at_] at hk
        | q => exact h.ids .q k hk
        | chan j =>
          by_cases hj : j = i
          · subst hj
            rw [mem_chan] at hk
            simp only [S.msgs, upd, if_true, ← List.append_assoc, List.mem_append, List.mem_singleton,
              Option.some.injEq] at hk
            rcases hk with hk | rfl
            · exact h.ids (.chan j) k (mem_chan.2 (by simpa [S.msgs, or_assoc] using hk))
            · exact h.ids .hand _ (by simp [S.at_, hc.1])
          · exact h.ids (.chan j) k (by simpa [S.at_, S.msgs, upd, hj] using hk)
      | close =>
        simp only [Odfarm.step] at h1
        split at h1 <;> simp only [Option.some.injEq, reduceCtorEq] at h1
        subst h1
        exact ⟨⟨h.next, h.drain, fun l k hk => h.ids l k (by cases l <;> exact hk)⟩, rfl⟩
      | eos i =>
        simp only [Odfarm.step] at h1
        split at h1 <;> simp only [Option.some.injEq, reduceCtorEq] at h1
        subst h1
        refine ⟨⟨h.next, h.drain, fun l k hk => ?_⟩, rfl⟩
        cases l with
        | hand => exact h.ids .hand k hk
        | q => exact h.ids .q k hk
        | chan j =>
          refine h.ids (.chan j) k ?_
          by_cases hj : j = i
          · subst hj
            rw [mem_chan] at hk ⊢
            simpa [S.msgs, upd] using hk
          · simpa [S.at_, S.msgs, upd, hj] using hk
      | wpop i =>
        simp only [Odfarm.step] at h1
        split at h1 <;> simp only [Option.some.injEq, reduceCtorEq] at h1 <;> subst h1
        all_goals
          rename_i hw hq
          refine ⟨⟨h.next, h.drain, fun l k hk => ?_⟩, rfl⟩
          cases l with
          | hand => exact h.ids .hand k hk
          | q => exact h.ids .q k hk
          | chan j =>
            refine h.ids (.chan j) k ?_
            by_cases hj : j = i
            · subst hj
              rw [mem_chan] at hk ⊢
              simpa [S.msgs, upd, hw, hq, WPc.msg] using hk
            · simpa [S.at_, S.msgs, upd, hj] using hk
      | wread i | wret i r | wpush i =>
        simp only [Odfarm.step] at h1
        revert h1
        repeat' split
        all_goals first
          | (intro h1; simp at h1; done)
          | skip
        all_goals
          intro h1
          simp only [Option.some.injEq] at h1
          subst h1
          rename_i hw
          refine ⟨⟨h.next, h.drain, fun l k hk => ?_⟩, rfl⟩
          cases l with
          | hand => exact h.ids .hand k hk
          | q => exact h.ids .q k hk
          | chan j =>
            refine h.ids (.chan j) k ?_
            by_cases hj : j = i
            · subst hj
              rw [mem_chan] at hk ⊢
              simp_all [S.msgs, upd, WPc.msg]
            · simpa [S.at_, S.msgs, upd, hj] using hk
      | wwrite i =>
        simp only [Odfarm.step] at h1
        split at h1 <;> simp only [Option.some.injEq, reduceCtorEq] at h1
        rename_i k0 r hw
        subst h1
        refine ⟨⟨h.next, h.drain, fun l k hk => ?_⟩, rfl⟩
        have hid : (upd c.s.M k0 ((c.s.M k0).1, r) k).1 = (c.s.M k).1 := by
          by_cases hk : k = k0
          · subst hk; simp [upd]
          · simp [upd, hk]
        simp only [hid]
        cases l with
        | hand => exact h.ids .hand k hk
        | q => exact h.ids .q k hk
        | chan j =>
          refine h.ids (.chan j) k ?_
          by_cases hj : j = i
          · subst hj
            rw [mem_chan] at hk ⊢
            simpa [S.msgs, upd, hw, WPc.msg] using hk
          · simpa [S.at_, S.msgs, upd, hj] using hk

theorem Lost.forever {c c' : C D} (h : Lost c) (hr : Reach (Cofarm.step n ci co sz ms R) c c') :
    c'.s.out = c.s.out :=
  (hr.inv (Inv := fun x : C D => Lost x ∧ x.s.out = c.s.out) ⟨h, rfl⟩
    fun _ _ _ hx hs => ⟨(hx.1.step hs).1, (hx.1.step hs).2.trans hx.2⟩).2

/-- **C76, the second run**: whatever the first run was, if it had at least one task and ended with all the results handed
over, then in a second run the second farm never gets anything, whatever the tasks and the schedule: the wrapper
counts from 0 again, the emitter of the first farm does not. -/
theorem C76_second_run_counterexample (hn : 0 < n) (hsz : 0 < sz) {M : Nat → Nat × D} {c c' : C D}
    (hr : Reach (Cofarm.step n ci co sz ms R) (C.start M) c) (ho : c.s.over = false)
    (he : c.s.ended = true) (ht : c.s.tasks ≠ [])
    (hr' : Reach (Cofarm.step n ci co sz ms R) c.again c') : c'.s.out = [] := by
  have hg := Good.of_reach hsz hr ho
  have hI := Inv.reach hsz hg.reach ho
  have hE := EInv.reach hn hg.reach
  have hb := BInv.reach hg.reach
  have hall := C76_all_delivered_partial hn hsz hr ho he
  have hlen : 0 < c.s.tasks.length := List.length_pos_of_ne_nil ht
  -- nothing is left anywhere
  have hno : ∀ l k, k ∉ c.s.at_ l := by
    intro l k hk
    have h1 := hI.ids l k hk
    have h2 := hI.len
    have h3 := hI.given
    omega
  have hcnt : 0 < c.s.cnt := by
    have h3 := hI.given
    unfold S.given at h3
    cases hh : c.s.hand with
    | true => exact absurd (by simp [S.at_, hh] : c.s.idx ∈ c.s.at_ .hand) (hno .hand _)
    | false => simp [hh] at h3; omega
  refine (Lost.forever (c := c.again) ⟨hcnt, rfl, fun l k hk => ?_⟩ hr').trans rfl
  exfalso
  cases l with
  | hand => exact hno .hand k hk
  | q => exact hno .q k hk
  | chan i =>
    refine hno (.chan i) k ?_
    rw [mem_chan] at hk ⊢
    simp only [C.again, S.msgs, WPc.msg, List.append_nil, List.mem_append] at hk ⊢
    tauto

/-- the schedule in which worker `i` processes task `d` from start to end, and the wrapper takes the result -/
def oneTask (i d : Nat) : List (Act Nat) :=
  (Odfarm.oneTask i d).map .base ++ [.take i]

/-- after `j` tasks done by worker 1 while worker 0 is busy with the first one -/
structure Slow (j : Nat) (sz : Nat) (c : C Nat) : Prop where
  hand : c.s.hand = false
  closed : c.s.closed = false
  cnt : c.s.cnt = j + 1
  idx : c.s.idx = (j + 1) % sz
  next : c.s.next = 0
  out : c.s.out = []
  tasks : c.s.tasks = List.range (j + 1)
  inq : ∀ i, c.s.inq i = []
  outq : ∀ i, c.s.outq i = []
  w0 : c.s.w 0 = .calling 0 0
  w1 : ∀ i, i ≠ 0 → c.s.w i = .idle
  drain : c.drain = false
  ended : c.s.ended = false
  offline : ∀ i, c.s.offline i = false
  q : ∀ k, k ∈ c.s.Q → (c.s.M k).1 ≠ 0
  cell : j < sz ∨ (c.s.M 0).1 ≠ 0

theorem upd_same {α : Type} (f : Nat → α) (i : Nat) (a : α) : upd f i a i = a := by simp [upd]

theorem upd_upd {α : Type} (f : Nat → α) (i : Nat) (a b : α) : upd (upd f i a) i b = upd f i b := by
  funext j; simp only [upd]; split <;> rfl

theorem upd_self {α : Type} (f : Nat → α) (i : Nat) (a : α) (h : f i = a) : upd f i a = f := by
  funext j; simp only [upd]; split
  · rename_i e; rw [e, h]
  · rfl

theorem Slow.succ {j : Nat} {c : C Nat} (hn : 1 < n) (hci : 0 < ci) (hco : 0 < co)
    (h : Slow j sz c) :
    ∃ c', exec (Cofarm.step n ci co sz ms same) c (oneTask 1 (j + 1)) = some c' ∧ Slow (j + 1) sz c' := by
  have h1 := h.w1 1 (by omega)
  have hq := h.inq 1
  have hoq := h.outq 1
  let c' : C Nat :=
    { s := { c.s with M := upd c.s.M c.s.idx (c.s.cnt, j + 1), cnt := c.s.cnt + 1, idx := (c.s.idx + 1) % sz
                      Q := c.s.Q ++ [c.s.idx], tasks := c.s.tasks ++ [j + 1]
                      err := c.s.err || decide (ms < c.s.Q.length + 1)
                      over := c.s.over || decide (c.s.next + sz ≤ c.s.cnt) }
      drain := c.drain }
  refine ⟨c', ?_, ?_⟩
  · simp only [exec, oneTask, Odfarm.oneTask, List.map_cons, List.map_nil, List.cons_append, List.nil_append,
      Cofarm.step, Odfarm.step, isColl, h.hand, h.closed, hq, hoq, h1, hn, hci, hco, h.drain, h.ended, h.offline, h.next,
      h.cnt, same, upd_same, upd_upd, and_self, if_true, Option.map_some, List.length_nil, beq_self_eq_true,
      Bool.false_eq_true, if_false, Nat.succ_ne_zero]
    rw [upd_self c.s.inq 1 [] hq, upd_self c.s.w 1 .idle h1, upd_self c.s.outq 1 [] hoq]
    simp only [c', h.hand, h.cnt, h.next, h.drain, h.closed, h.ended]
  · constructor
    · exact h.hand
    · exact h.closed
    · simp [c', h.cnt]
    · simp only [c', h.idx]
      rw [Nat.mod_add_mod]
    · exact h.next
    · exact h.out
    · simp only [c', h.tasks]
      exact List.range_succ.symm
    · exact h.inq
    · exact h.outq
    · exact h.w0
    · exact h.w1
    · exact h.drain
    · exact h.ended
    · exact h.offline
    · intro k hk
      simp only [c', List.mem_append, List.mem_singleton] at hk ⊢
      by_cases e : k = c.s.idx
      · subst e; rw [upd_same, h.cnt]; simp
      · rcases hk with hk | hk
        · simpa [upd, e] using h.q k hk
        · exact absurd hk e
    · by_cases hj : j + 1 < sz
      · exact Or.inl hj
      · right
        simp only [c']
        by_cases e : 0 = c.s.idx
        · rw [← e, upd_same, h.cnt]; simp
        · rcases h.cell with h2 | h2
          · exfalso
            have : j + 1 = sz := by omega
            rw [h.idx, this, Nat.mod_self] at e
            exact e rfl
          · simpa [upd, e] using h2

/-- **C76, the ring is too small**: for every number of workers greater than one, every capacity of the queues and every
number of cells (for the code, `cells n ondemand`) there is a run in which worker 0 is busy with the first task while worker 1
completes as many tasks as there are cells, after which the second farm never gets anything, whatever
happens.  An ordered farm that is not on-demand has no such limit before it is combined. -/
theorem C76_overrun_counterexample (hn : 1 < n) (hci : 0 < ci) (hco : 0 < co) (hsz : 0 < sz)
    (M : Nat → Nat × Nat) :
    ∃ c, Reach (Cofarm.step n ci co sz ms same) (C.start M) c ∧ c.s.tasks = List.range (sz + 1) ∧
      c.s.w 0 = .calling 0 0 ∧
      ∀ c', Reach (Cofarm.step n ci co sz ms same) c c' → c'.s.out = [] := by
  have key : ∀ j, ∃ c, Reach (Cofarm.step n ci co sz ms same) (C.start M) c ∧ Slow j sz c := by
    intro j
    induction j with
    | zero =>
      refine ⟨{ s := { (S.start M) with M := upd M 0 (0, 0), cnt := 1, idx := 1 % sz, tasks := [0]
                                        w := upd (fun _ => .idle) 0 (.calling 0 0)
                                        over := decide (sz ≤ 0) }
                drain := false },
        ⟨[.base (.write 0), .base (.push 0), .base (.wpop 0), .base (.wread 0)], ?_⟩, ?_⟩
      · simp only [exec, Cofarm.step, Odfarm.step, isColl, C.start, S.start, hci, and_self, if_true,
          Option.map_some, List.length_nil, Bool.false_eq_true, if_false, List.nil_append, Bool.false_or, Nat.zero_add]
        have h0 : (0 : Nat) < n := by omega
        simp only [h0, if_true, Option.map_some, upd_same, upd_upd, and_self]
        rw [upd_self (fun _ => []) 0 [] rfl]
      · constructor <;> simp [S.start, upd, hsz]
    | succ j ih =>
      obtain ⟨c, hr, h⟩ := ih
      obtain ⟨c', he, h'⟩ := h.succ (n := n) (ci := ci) (co := co) (ms := ms) hn hci hco
      exact ⟨c', hr.trans ⟨_, he⟩, h'⟩
  obtain ⟨c, hr, h⟩ := key sz
  refine ⟨c, hr, h.tasks, h.w0, fun c' hr' => ?_⟩
  have hM : (c.s.M 0).1 ≠ 0 := by
    rcases h.cell with h1 | h1
    · omega
    · exact h1
  refine (Lost.forever ⟨by rw [h.next, h.cnt]; omega, h.drain, fun l k hk => ?_⟩ hr').trans h.out
  rw [h.next]
  cases l with
  | hand => simp [S.at_, h.hand] at hk
  | q => exact h.q k hk
  | chan i =>
    rw [mem_chan] at hk
    by_cases hi : i = 0
    · subst hi
      simp [S.msgs, h.inq, h.outq, h.w0, WPc.msg] at hk
      subst hk; exact hM
    · simp [S.msgs, h.inq, h.outq, h.w1 i hi, WPc.msg] at hk

/-- **C76, filtering workers**: a worker that returns `GO_ON` (here `none`) for a task filters it; the collector of an ordered
farm skips it (gt.hpp 594, 635).  The wrapper sends it with `ff_send_out` (ordering_policies.hpp 203, 208): the
next node gets `GO_ON` as if it were a task. -/
theorem C76_go_on_counterexample :
    (exec (Cofarm.step 1 8 8 (cells 1 0) 10000 fun _ d r => r == if d = some 1 then none else d)
      (C.start fun _ => (0, some 0))
      ([Odfarm.Act.write (some 0), .push 0, .wpop 0, .wread 0, .wret 0 (some 0), .wwrite 0, .wpush 0,
        .write (some 1), .push 0, .wpop 0, .wread 0, .wret 0 none, .wwrite 0, .wpush 0].map Act.base ++
        [.take 0, .turn, .take 0])).map
      (fun c => c.s.out) = some [some 0, none] := by
  decide +kernel

/-- a run of two workers that finish in the opposite order: the hypotheses of the theorems hold, and the results
come in the order of the tasks -/
example : (exec (Cofarm.step 2 1 2 (cells 2 1) 10000 same) (C.start fun _ => (0, 0))
      ([Odfarm.Act.write 4, .push 0, .wpop 0, .wread 0].map .base ++ oneTask 1 5 ++
        [Odfarm.Act.wret 0 4, .wwrite 0, .wpush 0].map .base ++ [.take 0, .turn, .turn] ++
        [Odfarm.Act.close, .eos 0, .eos 1, .wpop 0, .wpop 1, .wpush 0, .wpush 1].map .base ++
        [.take 0, .take 1])).map
      (fun c => (c.s.out, c.s.err, c.s.over, c.s.ended, c.s.tasks)) = some ([4, 5], false, false, true, [4, 5]) := by
  decide +kernel

/-- the second run of that network has tasks and ends, with nothing handed over -/
example : ((exec (Cofarm.step 1 1 2 (cells 1 1) 10000 same) (C.start fun _ => (0, 0))
      (oneTask 0 5 ++ [.turn] ++ [Odfarm.Act.close, .eos 0, .wpop 0, .wpush 0].map .base ++ [.take 0])).bind
      fun c => exec (Cofarm.step 1 1 2 (cells 1 1) 10000 same) c.again
        (oneTask 0 6 ++ [Odfarm.Act.close, .eos 0, .wpop 0, .wpush 0].map .base ++ [.take 0])).map
      (fun c => (c.s.out, c.s.ended, c.s.tasks)) = some ([], true, [6]) := by
  decide +kernel

end FF.Cofarm
