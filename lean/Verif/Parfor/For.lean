import Verif.Parfor.Grain
import Verif.Parfor.SchedLive
/-!
# The parallel loops (C29, C30, C31)

`RunFor` puts the parts together as `FF_PARFOR_STOP` does (ff/parallel_for_internals.hpp 317-324): with
one worker the calling thread executes the loop, otherwise the workers do, with or without the scheduler
thread (`setF` 1168-1197, `run_then_freeze` 1078-1102).
-/
namespace FF.Parfor
open FF.Node (upd)

/-- One execution of a parallel loop that has been set up as `L`: the calls of the body, each with the
worker that made it, and the task table at the end.  `nw` is the number of workers asked for. -/
inductive RunFor (first last st : Int) (nw : Nat) (L : Loop) : List (Nat × Int) → (Nat → Range) → Prop where
  /-- 324: the caller executes the loop -/
  | seq : L.nw = 1 → RunFor first last st nw L ((seqLoop first last st).map fun i => (0, i)) L.d
  /-- the workers fetch the tasks by themselves -/
  | noSched (spin : Bool) (s : A) : 1 < L.nw →
    Reach (step (L.par st nw)) (A.start (L.par st nw) L spin) s → s.over (L.par st nw) →
    RunFor first last st nw L s.log s.d
  /-- the scheduler thread sends the tasks, `k` to each worker in advance -/
  | sched (k : Nat) (s : B) : 1 < L.nw → L.static = false →
    Reach (bstep (L.par st nw)) (B.start L k) s → s.e = .over →
    RunFor first last st nw L s.log s.d

/-- The task tables of a `ParallelFor` object: after any sequence of loops of any kind. -/
inductive Table : (Nat → Range) → Prop where
  | new : Table fun _ => ⟨0, 0, 0⟩
  | dyn {old d : Nat → Range} {first last st grain : Int} {nw : Nat} {L : Loop} {log : List (Nat × Int)} :
    Table old → 1 ≤ st → 1 ≤ grain → 1 ≤ nw → setloopDyn old first last st grain nw = some L →
    RunFor first last st nw L log d → Table d
  | static {old d : Nat → Range} {first last st : Int} {nw : Nat} {L : Loop} {log : List (Nat × Int)} :
    Table old → 1 ≤ st → 1 ≤ nw → last - first < 2 ^ 63 → setloopStatic old first last st nw = some L →
    RunFor first last st nw L log d → Table d
  | grain {old : Nat → Range} {first last st g : Int} {nw : Nat} {L : Loop} {log : List (Nat × Int)} :
    Table old → 1 ≤ st → 1 ≤ g → 1 ≤ nw → setloopGrain old first last st g nw = some L →
    RunGrain first last st g nw L log → Table (afterGrain L st)

/-! ## The pieces -/

theorem finish_nw {static : Bool} {nw : Nat} {x : (Nat → Range) × Int × Int} {L : Loop} (h : finish static nw x = some L) :
    1 ≤ L.tt ∧ L.static = static ∧ L.d = x.1 ∧ L.chunk = x.2.2 ∧ L.tt = x.2.1 ∧
      (x.2.1 ≤ nw → L.nw = x.2.1.toNat) ∧ (nw < x.2.1 → L.nw = nw) := by
  unfold finish at h
  split at h
  · simp at h
  · simp only [Option.some.injEq] at h
    subst h
    refine ⟨by simp only; omega, rfl, rfl, rfl, rfl, fun h => by simp only [if_pos h], fun h => ?_⟩
    simp only
    rw [if_neg (by omega)]

theorem dyn_static {old : Nat → Range} {first last st grain : Int} {nw : Nat} {L : Loop}
    (h : setloopDyn old first last st grain nw = some L) : L.static = false := by
  unfold setloopDyn at h
  cases hi : initData old first last st grain nw with
  | none => rw [hi] at h; simp at h
  | some x => rw [hi] at h; exact (finish_nw h).2.1

/-- one execution of a loop for which `setloop` has done what it should -/
theorem run_good {first last st : Int} {nw : Nat} {L : Loop} {log : List (Nat × Int)} {d : Nat → Range} (hs : 1 ≤ st)
    (hg : Good first last st nw L) (h : RunFor first last st nw L log d) :
    (log.map Prod.snd).Perm (indices first last st) ∧ (∀ e ∈ log, e.1 < L.nw) ∧
    (L.static = false → ∀ i, 1 ≤ i → (d i).ntask ≤ 0) := by
  cases h with
  | seq h1 =>
    refine ⟨?_, ?_, ?_⟩
    · rw [seqLoop_eq hs, List.map_map]
      have : (Prod.snd ∘ fun i : Int => ((0 : Nat), i)) = id := rfl
      rw [this, List.map_id]
    · intro e he
      rw [List.mem_map] at he
      obtain ⟨x, _, rfl⟩ := he
      simp only; omega
    · intro _ i hi
      exact hg.rest i (by omega)
  | noSched spin s h1 hr ho =>
    have hi : Inv first last (L.par st nw) s :=
      hr.inv (Inv.start hs hg spin) fun _ _ _ hi hst => hi.step hs hg.chunk hst
    obtain ⟨h3, h4⟩ := over_of (P := L.par st nw) hs hg.chunk hi ho
    exact ⟨h3, hi.who, fun hf i _ => h4 hf i⟩
  | sched k s h1 h2 hr ho =>
    have hi : BInv first last (L.par st nw) s :=
      hr.inv (BInv.start hg k) fun _ _ _ hi hst => hi.step hs hg.chunk hg.nw1 hg.nwD hst
    obtain ⟨h3, h4⟩ := bover_of (P := L.par st nw) hs hi ho
    exact ⟨h3, hi.who, fun _ i _ => h4 i⟩

/-- an empty range with the default static scheduling -/
theorem static_empty {old : Nat → Range} {first last st : Int} {nw : Nat} {L : Loop} (hs : 1 ≤ st) (hn : 1 ≤ nw)
    (hr : last ≤ first) (ho : ∀ i, 1 ≤ i → (old i).ntask ≤ 0) (h : setloopStatic old first last st nw = some L) :
    L.static = true ∧ L.nw = nw ∧ (∀ i, i < nw → (L.d i).ntask = 1 ∧ (L.d i).stop ≤ (L.d i).start) ∧
    (∀ i, nw ≤ i → (L.d i).ntask ≤ 0) := by
  have hf := finish_nw h
  simp only [initStatic] at hf
  have hq : (ceilDiv (last - first) st).tdiv nw ≤ 0 := by
    have : ceilDiv (last - first) st ≤ 0 := by
      have := ceilDiv_lt (a := last - first) hs
      by_contra hc
      have : 0 ≤ (ceilDiv (last - first) st - 1) * st := mul_nonneg (by omega) (by omega)
      omega
    have h1 : 0 ≤ (-(ceilDiv (last - first) st)).tdiv nw := Int.tdiv_nonneg (by omega) (by omega)
    rw [Int.neg_tdiv] at h1
    omega
  obtain ⟨_, h2, h3⟩ := fillS_empty (old := old) (r := ceilDiv (last - first) st % 2 ^ 64 % nw) hs hr hq nw
  refine ⟨hf.2.1, by rw [hf.2.2.2.2.2.1 (by omega)]; simp, ?_, ?_⟩
  · intro i hi; rw [hf.2.2.1]; exact h2 i hi
  · intro i hi; rw [hf.2.2.1, h3 i hi]; exact ho i (by omega)

theorem run_empty {first last st : Int} {nw : Nat} {L : Loop} {log : List (Nat × Int)} {d : Nat → Range} (hs : 1 ≤ st)
    (hn : 1 ≤ nw) (hr : last ≤ first) (hst : L.static = true) (hnw : L.nw = nw)
    (h1 : ∀ i, i < nw → (L.d i).ntask = 1 ∧ (L.d i).stop ≤ (L.d i).start) (h2 : ∀ i, nw ≤ i → (L.d i).ntask ≤ 0)
    (h : RunFor first last st nw L log d) : log = [] ∧ ∀ i, 1 ≤ i → (d i).ntask ≤ 0 := by
  cases h with
  | seq h =>
    rw [seqLoop_eq hs, indices_nil hs hr]
    exact ⟨rfl, fun i hi => h2 i (by omega)⟩
  | sched k s _ h3 => rw [hst] at h3; simp at h3
  | noSched spin s h3 hreach ho =>
    have h0 : EInv (L.par st nw) (A.start (L.par st nw) L spin) := by
      cases spin with
      | true =>
        refine ⟨rfl, ?_, ?_⟩
        · intro w hw
          have := h1 w (by have : w < L.nw := hw; omega)
          exact ⟨by omega, Or.inr ⟨Int.le_of_eq this.1, this.2⟩⟩
        · intro i hi; exact h2 i (by have : L.nw ≤ i := hi; omega)
      | false =>
        refine ⟨rfl, ?_, ?_⟩
        · intro w hw
          have hw : w < L.nw := hw
          have := h1 w (by omega)
          simp only [A.start, Bool.false_eq_true, if_false]
          rw [if_pos ⟨hw, by omega⟩, if_pos (by omega)]
          refine ⟨?_, Or.inl (by simp only; omega)⟩
          unfold Par.endOf
          rw [min_def']; split <;> omega
        · intro i hi
          have hi : L.nw ≤ i := hi
          simp only [A.start, Bool.false_eq_true, if_false]
          rw [if_neg (by omega)]
          exact h2 i (by omega)
    have hi : EInv (L.par st nw) s := hreach.inv h0 fun _ _ _ hi hst' => hi.step hst hst'
    refine ⟨hi.log, fun i _ => ?_⟩
    by_cases hin : i < L.nw
    · have := hi.ok i hin
      rw [ho i hin] at this
      exact this
    · exact hi.rest i (by show L.nw ≤ i; omega)

/-- one execution of a loop with the default static scheduling -/
theorem run_static {old : Nat → Range} {first last st : Int} {nw : Nat} {L : Loop} {log : List (Nat × Int)} {d : Nat → Range}
    (hs : 1 ≤ st) (hn : 1 ≤ nw) (hb : last - first < 2 ^ 63) (ho : ∀ i, 1 ≤ i → (old i).ntask ≤ 0)
    (h : setloopStatic old first last st nw = some L) (hrun : RunFor first last st nw L log d) :
    (List.range nw).flatMap (fun w => (log.filter fun e => e.1 = w).map Prod.snd) = indices first last st ∧
    (∀ e ∈ log, e.1 < nw) ∧ L.nw = nw ∧ ∀ i, 1 ≤ i → (d i).ntask ≤ 0 := by
  by_cases hr : first < last
  · obtain ⟨hg, hst, hnw, hone, hfl⟩ := setloopStatic_good hs hn hr hb ho h
    have hw := (run_good hs hg hrun).2.1
    rw [hnw] at hw
    refine ⟨?_, hw, hnw, ?_⟩
    · cases hrun with
      | seq h1 =>
        rw [hnw] at h1
        rw [h1, seqLoop_eq hs]
        simp only [List.range_succ, List.range_zero, List.nil_append, List.flatMap_cons, List.flatMap_nil, List.append_nil]
        rw [List.filter_eq_self.2 (by simp), List.map_map]
        exact List.map_id _
      | sched k s _ h3 => rw [hst] at h3; simp at h3
      | noSched spin s h3 hreach hov =>
        have hi : SInv (fun w => indices (L.d w).start (L.d w).stop st) (L.par st nw) s :=
          hreach.inv (SInv.start hs hg.chunk (by rw [hnw]; exact hone) spin) fun _ _ _ hi hst' => hi.step hst hs hg.chunk hst'
        have hI : Inv first last (L.par st nw) s :=
          hreach.inv (Inv.start hs hg spin) fun _ _ _ hi hst' => hi.step hs hg.chunk hst'
        rw [← hfl, List.flatMap_def, List.flatMap_def]
        congr 1
        apply List.map_congr_left
        intro w hw
        have hw : w < L.nw := by rw [hnw]; exact List.mem_range.1 hw
        have hl := hi.list w hw
        rw [hov w hw] at hl
        have he := hI.left w hw (by rw [hov w hw]; trivial)
        rw [indices_nil (step := (L.par st nw).step) hs he] at hl
        simp only [pendL, List.append_nil] at hl
        exact hl
    · cases hrun with
      | seq h1 => intro i hi; exact hg.rest i (by omega)
      | sched k s _ h3 => rw [hst] at h3; simp at h3
      | noSched spin s h3 hreach hov =>
        have hi : SInv (fun w => indices (L.d w).start (L.d w).stop st) (L.par st nw) s :=
          hreach.inv (SInv.start hs hg.chunk (by rw [hnw]; exact hone) spin) fun _ _ _ hi hst' => hi.step hst hs hg.chunk hst'
        have hI : Inv first last (L.par st nw) s :=
          hreach.inv (Inv.start hs hg spin) fun _ _ _ hi hst' => hi.step hs hg.chunk hst'
        intro i _
        by_cases hin : i < L.nw
        · exact hi.done i hin (hov i hin)
        · exact hI.rest i (by show L.nw ≤ i; omega)
  · obtain ⟨hst, hnw, h1, h2⟩ := static_empty hs hn (by omega) ho h
    obtain ⟨rfl, h3⟩ := run_empty hs hn (by omega) hst hnw h1 h2 hrun
    refine ⟨?_, by simp, hnw, h3⟩
    rw [indices_nil hs (by omega)]
    simp

/-- No task is left over in the table between two loops (except for the first entry, which is not used
up when the caller executes the loop). -/
theorem table_clean {d : Nat → Range} (h : Table d) : ∀ i, 1 ≤ i → (d i).ntask ≤ 0 := by
  induction h with
  | new => intro i _; simp
  | dyn _ hs hk hn hL hrun ih =>
    exact (run_good hs (setloopDyn_good hs hk hn ih hL) hrun).2.2 (dyn_static hL)
  | static _ hs hn hb hL hrun ih => exact (run_static hs hn hb ih hL hrun).2.2.2
  | @grain old first last st g nw L log _ hs hg hn hL hrun ih =>
    intro i hi
    have hf := finish_nw hL
    simp only at hf
    have hle : (if ceilDiv (ceilDiv (last - first) st) g < 0 then nw
      else min nw (ceilDiv (ceilDiv (last - first) st) g).toNat) ≤ nw := by split <;> omega
    generalize (if ceilDiv (ceilDiv (last - first) st) g < 0 then nw
      else min nw (ceilDiv (ceilDiv (last - first) st) g).toNat) = n at hf hle
    obtain ⟨_, _, hd, _, _, h5, h6⟩ := hf
    have hrest : ∀ j, 1 ≤ j → L.nw ≤ j → (L.d j).ntask ≤ 0 := by
      intro j hj hn
      rw [hd]
      simp only
      split
      · rename_i hjn
        by_cases hc : (n : Int) ≤ nw
        · have := h5 hc
          simp at this; omega
        · have := h6 (by omega)
          omega
      · exact ih j hj
    unfold afterGrain
    split
    · exact hrest i hi (by omega)
    · simp only
      split
      · simp
      · exact hrest i hi (by omega)

/-! ## C29: parallel_for with a grain -/

/-- **C29.** `parallel_for(first, last, step, grain, f)` on a `ParallelFor` object that has executed any
sequence of loops before: `f` is called on each index exactly once and on no other index, by one of the
workers asked for; with any number of workers, any interleaving, with or without the scheduler thread,
blocking or spinning workers. -/
theorem C29_exactly_once_partial {old d : Nat → Range} {first last st grain : Int} {nw : Nat} {L : Loop} {log : List (Nat × Int)}
    (hT : Table old) (hs : 1 ≤ st) (hk : 1 ≤ grain) (hn : 1 ≤ nw)
    (hL : setloopDyn old first last st grain nw = some L) (hrun : RunFor first last st nw L log d) :
    (log.map Prod.snd).Perm (indices first last st) ∧ (∀ e ∈ log, e.1 < nw) := by
  have hg := setloopDyn_good hs hk hn (table_clean hT) hL
  obtain ⟨h1, h2, _⟩ := run_good hs hg hrun
  exact ⟨h1, fun e he => Nat.lt_of_lt_of_le (h2 e he) hg.nwD⟩

/-- **C29.** A range that is not empty is accepted. -/
theorem C29_accepted (old : Nat → Range) {first last st grain : Int} {nw : Nat} (hs : 1 ≤ st) (hk : 1 ≤ grain)
    (hn : 1 ≤ nw) (hr : first < last) : ∃ L, setloopDyn old first last st grain nw = some L :=
  setloopDyn_some old hs hk hn hr

/-- **C29.** Workers without scheduler thread: no index is executed twice at any moment; a worker that has
not returned can go on; the number of steps is bounded, up to spurious failures of compare and exchange. -/
theorem C29_no_scheduler {old : Nat → Range} {first last st grain : Int} {nw : Nat} {L : Loop} {spin : Bool} {s : A}
    {acts : List Act} (hT : Table old) (hs : 1 ≤ st) (hk : 1 ≤ grain) (hn : 1 ≤ nw)
    (hL : setloopDyn old first last st grain nw = some L)
    (he : exec (step (L.par st nw)) (A.start (L.par st nw) L spin) acts = some s) :
    (s.calls.Nodup ∧ ∀ x ∈ s.calls, x ∈ indices first last st) ∧
    (¬ s.over (L.par st nw) → ∃ a s', a.spurious = false ∧ step (L.par st nw) s a = some s') ∧
    acts.length ≤ meas (L.par st nw) (A.start (L.par st nw) L spin) + 6 * acts.countP Act.spurious := by
  have hg := setloopDyn_good hs hk hn (table_clean hT) hL
  have hi : Inv first last (L.par st nw) s :=
    Reach.inv ⟨acts, he⟩ (Inv.start hs hg spin) fun _ _ _ hi hst => hi.step hs hg.chunk hst
  refine ⟨partial_of (P := L.par st nw) hs hi, ?_, exec_bound (P := L.par st nw) hs hg.chunk acts (Inv.start hs hg spin) he⟩
  intro ho
  have : ∃ w, w < L.nw ∧ s.pc w ≠ .out := by
    by_contra hc
    apply ho
    intro w hw
    by_contra h
    exact hc ⟨w, hw, h⟩
  obtain ⟨w, hw, hp⟩ := this
  exact progress_of (P := L.par st nw) hn hi hw hp

/-- **C29.** With the scheduler thread: no index is executed twice at any moment; some thread can go on
until the scheduler has ended and all workers have returned; the number of steps is bounded. -/
theorem C29_scheduler {old : Nat → Range} {first last st grain : Int} {nw : Nat} {L : Loop} {k : Nat} {s : B}
    {acts : List BAct} (hT : Table old) (hs : 1 ≤ st) (hk : 1 ≤ grain) (hn : 1 ≤ nw)
    (hL : setloopDyn old first last st grain nw = some L)
    (he : exec (bstep (L.par st nw)) (B.start L k) acts = some s) :
    (s.calls.Nodup ∧ ∀ x ∈ s.calls, x ∈ indices first last st) ∧
    (¬ s.finished (L.par st nw) → ∃ a s', bstep (L.par st nw) s a = some s') ∧
    acts.length ≤ bmeas (L.par st nw) (B.start L k) := by
  have hg := setloopDyn_good hs hk hn (table_clean hT) hL
  have hi : BInv first last (L.par st nw) s :=
    Reach.inv ⟨acts, he⟩ (BInv.start hg k) fun _ _ _ hi hst => hi.step hs hg.chunk hg.nw1 hg.nwD hst
  exact ⟨bpartial_of (P := L.par st nw) hs hi, bprogress_of (P := L.par st nw) hg.nw1 hi,
    bexec_bound (P := L.par st nw) hs hg.chunk hg.nw1 hg.nwD acts (BInv.start hg k) he⟩

/-- **C29, counterexample.** An empty range with a positive grain is not a loop without calls: the
assertion of `setloop` (822) fails. -/
theorem C29_empty_range_counterexample :
    setloopDyn (fun _ => ⟨0, 0, 0⟩) 5 5 1 2 4 = none := by decide

theorem exec_get {S Act : Type} {step : S → Act → Option S} {s : S} {as : List Act} (h : (exec step s as).isSome) :
    Reach step s ((exec step s as).get h) := ⟨as, (Option.some_get h).symm⟩

/-- `parallel_for(0, 9, 2, 1, f, 2)` on a new object -/
def demoL : Loop := (setloopDyn (fun _ => ⟨0, 0, 0⟩) 0 9 2 1 2).get (by decide)

/-- Worker 0 executes its own range and then steals all tasks of worker 1. -/
def demoA : A := (exec (step (demoL.par 2 2)) (A.start (demoL.par 2 2) demoL true)
  (List.replicate 14 (.go 0) ++ [.pick 0 1] ++
    List.replicate 8 (.go 0) ++ [.pick 0 1] ++ List.replicate 8 (.go 0) ++ [.pick 0 1] ++
    List.replicate 8 (.go 0) ++ [.pick 0 1, .go 0, .go 1, .go 1, .pick 1 0, .go 1])).get (by decide +kernel)

def demoB : B := (exec (bstep (demoL.par 2 2)) (B.start demoL 1)
  (List.replicate 6 .send ++
    [.get 1, .go 1, .go 1, .get 1, .go 1, .go 1, .recv 1, .get 1, .go 1, .go 1, .recv 1, .get 1, .recv 1,
     .get 0, .go 0, .go 0, .get 0, .go 0, .go 0, .recv 0, .get 0, .recv 0])).get (by decide +kernel)

theorem all_two {p : Nat → Prop} (h0 : p 0) (h1 : p 1) : ∀ w, w < 2 → p w := by
  intro w hw
  have : w = 0 ∨ w = 1 := by omega
  rcases this with rfl | rfl <;> assumption

/-- Non-vacuity: the loop without the scheduler thread, with stealing. -/
example : setloopDyn (fun _ => ⟨0, 0, 0⟩) 0 9 2 1 2 = some demoL ∧ RunFor 0 9 2 2 demoL demoA.log demoA.d ∧
    demoA.log = [(0, 0), (0, 2), (0, 4), (0, 6), (0, 8)] :=
  ⟨(Option.some_get _).symm, .noSched true demoA (by decide) (exec_get _)
    (all_two (p := fun w => demoA.pc w = .out) (by decide +kernel) (by decide +kernel)), by decide +kernel⟩

/-- Non-vacuity: the same loop with the scheduler thread. -/
example : RunFor 0 9 2 2 demoL demoB.log demoB.d ∧ demoB.log = [(1, 4), (1, 6), (1, 8), (0, 0), (0, 2)] :=
  ⟨.sched 1 demoB (by decide) (by decide) (exec_get _) (by decide +kernel), by decide +kernel⟩

/-! ## C30: the default static scheduling -/

/-- **C30.** `parallel_for` and `parallel_for_static` with grain 0, on a `ParallelFor` object that has
executed any sequence of loops before: worker 0 executes the first indices in order, worker 1 the next
ones, and so on: the lists of indices of the workers put one after the other are the list of all indices.
Empty ranges are included. -/
theorem C30_blocks {old d : Nat → Range} {first last st : Int} {nw : Nat} {L : Loop} {log : List (Nat × Int)}
    (hT : Table old) (hs : 1 ≤ st) (hn : 1 ≤ nw) (hb : last - first < 2 ^ 63)
    (hL : setloopStatic old first last st nw = some L) (hrun : RunFor first last st nw L log d) :
    (List.range nw).flatMap (fun w => (log.filter fun e => e.1 = w).map Prod.snd) = indices first last st ∧
    (∀ e ∈ log, e.1 < nw) :=
  let h := run_static hs hn hb (table_clean hT) hL hrun
  ⟨h.1, h.2.1⟩

/-- **C30.** Each index is executed exactly once, by exactly one worker. -/
theorem C30_exactly_once {old d : Nat → Range} {first last st : Int} {nw : Nat} {L : Loop} {log : List (Nat × Int)}
    (hT : Table old) (hs : 1 ≤ st) (hn : 1 ≤ nw) (hb : last - first < 2 ^ 63)
    (hL : setloopStatic old first last st nw = some L) (hrun : RunFor first last st nw L log d) :
    (log.map Prod.snd).Perm (indices first last st) ∧
    ∀ x ∈ indices first last st, ∃ w, w < nw ∧ (w, x) ∈ log ∧ ∀ v, (v, x) ∈ log → v = w := by
  obtain ⟨h1, h2⟩ := C30_blocks hT hs hn hb hL hrun
  have hp : (log.map Prod.snd).Perm (indices first last st) := by
    rw [← h1]; exact (flat_count h2).symm
  refine ⟨hp, fun x hx => ?_⟩
  have hx' := hp.mem_iff.2 hx
  rw [List.mem_map] at hx'
  obtain ⟨⟨w, y⟩, hm, rfl⟩ := hx'
  refine ⟨w, h2 _ hm, hm, fun v hv => ?_⟩
  have hnd : (log.map Prod.snd).Nodup := hp.nodup_iff.2 (nodup_indices hs)
  have := List.inj_on_of_nodup_map hnd hv hm rfl
  exact (Prod.mk.inj this).1

/-- **C30.** The loop is always accepted, also with an empty range. -/
theorem C30_accepted (old : Nat → Range) (first last st : Int) {nw : Nat} (hn : 1 ≤ nw) :
    ∃ L, setloopStatic old first last st nw = some L := by
  unfold setloopStatic finish initStatic
  simp only
  rw [if_neg (by omega)]
  exact ⟨_, rfl⟩

/-- **C30.** For a range that is not empty: a worker that has not returned can go on, and the number of
steps is bounded, up to spurious failures. -/
theorem C30_completes {old : Nat → Range} {first last st : Int} {nw : Nat} {L : Loop} {spin : Bool} {s : A}
    {acts : List Act} (hT : Table old) (hs : 1 ≤ st) (hn : 1 ≤ nw) (hr : first < last) (hb : last - first < 2 ^ 63)
    (hL : setloopStatic old first last st nw = some L)
    (he : exec (step (L.par st nw)) (A.start (L.par st nw) L spin) acts = some s) :
    (¬ s.over (L.par st nw) → ∃ a s', a.spurious = false ∧ step (L.par st nw) s a = some s') ∧
    acts.length ≤ meas (L.par st nw) (A.start (L.par st nw) L spin) + 6 * acts.countP Act.spurious := by
  have hg := (setloopStatic_good hs hn hr hb (table_clean hT) hL).1
  have hi : Inv first last (L.par st nw) s :=
    Reach.inv ⟨acts, he⟩ (Inv.start hs hg spin) fun _ _ _ hi hst => hi.step hs hg.chunk hst
  refine ⟨?_, exec_bound (P := L.par st nw) hs hg.chunk acts (Inv.start hs hg spin) he⟩
  intro ho
  have : ∃ w, w < L.nw ∧ s.pc w ≠ .out := by
    by_contra hc
    apply ho
    intro w hw
    by_contra h
    exact hc ⟨w, hw, h⟩
  obtain ⟨w, hw, hp⟩ := this
  exact progress_of (P := L.par st nw) hn hi hw hp

/-- `parallel_for(0, 9, 2, f, 2)` on a new object -/
def demoLS : Loop := (setloopStatic (fun _ => ⟨0, 0, 0⟩) 0 9 2 2).get (by decide)

def demoS : A := (exec (step (demoLS.par 2 2)) (A.start (demoLS.par 2 2) demoLS true)
  ([.go 1, .go 1] ++ List.replicate 10 (.go 0) ++ List.replicate 7 (.go 1))).get (by decide +kernel)

/-- Non-vacuity: default static scheduling. -/
example : setloopStatic (fun _ => ⟨0, 0, 0⟩) 0 9 2 2 = some demoLS ∧ RunFor 0 9 2 2 demoLS demoS.log demoS.d ∧
    demoS.log = [(0, 0), (0, 2), (0, 4), (1, 6), (1, 8)] :=
  ⟨(Option.some_get _).symm, .noSched true demoS (by decide) (exec_get _)
    (all_two (p := fun w => demoS.pc w = .out) (by decide +kernel) (by decide +kernel)), by decide +kernel⟩

/-! ## C31: static scheduling with a grain -/

/-- **C31, partial.** `parallel_for_static` with a grain executes each index exactly once, if the step is
1 and the range does not start below zero, or if one worker is used.  Missing: any other step, and
ranges that start below zero; the claim is false for them, see the counterexamples. -/
theorem C31_exactly_once_partial {old : Nat → Range} {first last st g : Int} {nw : Nat} {L : Loop} {log : List (Nat × Int)}
    (hs : 1 ≤ st) (hg : 1 ≤ g) (hL : setloopGrain old first last st g nw = some L)
    (hc : (st = 1 ∧ 0 ≤ first) ∨ L.nw = 1) (hrun : RunGrain first last st g nw L log) :
    (log.map Prod.snd).Perm (indices first last st) := by
  have hmap : ∀ l : List Int, (l.map fun i => ((0 : Nat), i)).map Prod.snd = l := by
    intro l; rw [List.map_map]; exact List.map_id l
  cases hrun with
  | plain => rw [hmap, seqLoop_eq hs]
  | one => rw [hmap, block_one hs hg]
  | par _ h1 h2 h3 =>
    rcases hc with ⟨rfl, hf⟩ | hc
    · refine (flat_count h2).symm.trans ?_
      have := grain_perm hg hf hL
      have e : (List.range L.nw).flatMap (fun w => (log.filter fun e => e.1 = w).map Prod.snd) =
          (List.range L.nw).flatMap (grainCalls L 1 g) := by
        rw [List.flatMap_def, List.flatMap_def]
        congr 1
        apply List.map_congr_left
        intro w hw
        exact h3 w (List.mem_range.1 hw)
      rw [e]
      exact this
    · omega

/-- Non-vacuity: `parallel_for_static(3, 10, 1, 2, f, 2)`. -/
example : ∃ L, setloopGrain (fun _ => ⟨0, 0, 0⟩) 3 10 1 2 2 = some L ∧
    RunGrain 3 10 1 2 2 L [(0, 3), (1, 5), (0, 4), (0, 7), (0, 8), (1, 6), (1, 9)] := by
  refine ⟨_, rfl, .par _ (by decide) (by decide) ?_⟩
  intro w hw
  have : w = 0 ∨ w = 1 := by
    have : w < 2 := hw
    omega
  rcases this with rfl | rfl
  · show _ = blockCyclic 2 1 2 3 10
    decide +kernel
  · show _ = blockCyclic 2 1 2 5 10
    decide +kernel

/-- **C31, counterexample.** `parallel_for_static(0, 8, 2, 2, f, 2)`: worker 0 executes 0 and 2, worker 1
executes 2 and 4; 6 is never executed. -/
theorem C31_step_counterexample : ∃ L log, setloopGrain (fun _ => ⟨0, 0, 0⟩) 0 8 2 2 2 = some L ∧
    RunGrain 0 8 2 2 2 L log ∧ (log.map Prod.snd).count 2 = 2 ∧ 6 ∉ log.map Prod.snd ∧ 6 ∈ indices 0 8 2 := by
  refine ⟨_, [(0, 0), (1, 2), (0, 2), (1, 4)], rfl, ?_, by decide, by decide, by decide⟩
  refine .par _ (by decide) (by decide) ?_
  intro w hw
  have : w = 0 ∨ w = 1 := by
    have : w < 2 := hw
    omega
  rcases this with rfl | rfl
  · show _ = blockCyclic 2 2 2 0 8
    decide +kernel
  · show _ = blockCyclic 2 2 2 2 8
    decide +kernel

/-- **C31, counterexample.** `parallel_for_static(-4, 4, 1, 1, f, 2)`: the end of the range of a worker is
computed as if its start were not negative; 0, 1, 2 and 3 are never executed. -/
theorem C31_negative_counterexample : ∃ L log, setloopGrain (fun _ => ⟨0, 0, 0⟩) (-4) 4 1 1 2 = some L ∧
    RunGrain (-4) 4 1 1 2 L log ∧ 3 ∉ log.map Prod.snd ∧ 3 ∈ indices (-4) 4 1 := by
  refine ⟨_, [(0, -4), (1, -3), (0, -2), (1, -1)], rfl, ?_, by decide, by decide⟩
  refine .par _ (by decide) (by decide) ?_
  intro w hw
  have : w = 0 ∨ w = 1 := by
    have : w < 2 := hw
    omega
  rcases this with rfl | rfl
  · show _ = blockCyclic 2 1 1 (-4) 0
    decide +kernel
  · show _ = blockCyclic 2 1 1 (-3) 1
    decide +kernel

end FF.Parfor
