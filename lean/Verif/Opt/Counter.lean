/-
C60: what `optimize_static` (`/repo/ff/optimize.hpp`) does not keep.  Each counterexample is a concrete pipeline; the
outcomes are those of the model for every sufficient amount of fuel.
-/
import Verif.Opt.Accept
import Verif.Opt.OrdOpt
import Mathlib.Data.List.Permutation

namespace FF.Opt

/-- A standard node that forwards its input. -/
def idN : Node Nat := { out := fun _ x => [(none, x)] }

/-- A standard node that adds one. -/
def incN : Node Nat := { out := fun _ x => [(none, x + 1)] }

/-- A standard node with state: it sends the previous item and this one as a two-digit number. -/
def pairN : Node Nat := { out := fun h x =>
  match h.getLast? with
  | none => []
  | some y => [(none, 10 * y + x)] }

/-- A farm of `k` copies of a node. -/
def farmOf (k : Nat) (n : Node Nat) (h : Hdr Nat := {}) : Sk Nat := .farm h (List.replicate k (.leaf n))

theorem stable {n m : Nat} (h : n ≤ m) {o : Opts} {ss : List (Sk Nat)} {r : Res (List (Sk Nat))}
    (e : optPipe n o ss = r) (hr : r ≠ .loop) : optPipe m o ss = r := by
  subst e; exact optPipe_fuel h hr

/-! ### `introduce_a2a` -/

/-- The `while` loop of `introduce_a2a` makes no progress when an unordered farm without user collector is followed by
an unordered farm with an emitter (optimize.hpp 650-662). -/
theorem a2aLoop_stuck {α : Type} {ss : List (Sk α)} {f : Nat} {h1 h2 : Hdr α} {w1 w2 : List (Sk α)}
    (e1 : ss[f]? = some (.farm h1 w1)) (e2 : ss[f + 1]? = some (.farm h2 w2))
    (o1 : h1.ordered = false) (o2 : h2.ordered = false) (he : h2.emitter.isSome = true) (n : Nat) :
    a2aLoop n ss (some f) = .loop := by
  induction n with
  | zero => rfl
  | succ n ih =>
    have hlt : f < ss.length - 1 := by have := get_lt e2; omega
    have hen : h2.emitter.isNone = false := by
      cases hx : h2.emitter with
      | none => rw [hx] at he; cases he
      | some _ => rfl
    simp only [a2aLoop, hlt, if_true, e1, e2, o1, o2, hen, Bool.false_eq_true, if_false]
    exact ih

/-- **Counterexample.**  Two farms, the second with an emitter: with `introduce_a2a` the call never returns. -/
theorem C60_a2a_never_returns_counterexample (n : Nat) :
    optPipe n { introduceA2A := true } [farmOf 2 idN, farmOf 2 idN { emitter := some idN }] =
      .loop := by
  cases n with
  | zero => simp [optPipe]
  | succ n =>
    have h1 : mapR (onInner (optPipe n { introduceA2A := true }))
        (flat [farmOf 2 idN, farmOf 2 idN { emitter := some idN }]) =
        .ok [farmOf 2 idN, farmOf 2 idN { emitter := some idN }] := rfl
    have h2 : a2aLoop n [farmOf 2 idN, farmOf 2 idN { emitter := some idN }] (some 0) = .loop :=
      a2aLoop_stuck rfl rfl rfl rfl rfl n
    have h3 : introduceA2A n [farmOf 2 idN, farmOf 2 idN { emitter := some idN }] = .loop := h2
    simp only [optPipe, h1, Res.bind, Bool.false_eq_true, if_false, if_true, h3]

/-- All ways of dealing a stream to `k` channels. -/
def splits {β : Type} (k : Nat) : List (Option Nat × β) → List (List (List β))
  | [] => [List.replicate k []]
  | (r, x) :: zs => (splits k zs).flatMap fun zss =>
    (List.range k).filterMap fun i =>
      if r = none ∨ r = some i then (zss[i]?).map fun l => zss.set i (x :: l) else none

theorem Split.mem_splits {β : Type} {zs : List (Option Nat × β)} {zss : List (List β)}
    (h : Split zs zss) : zss ∈ splits zss.length zs := by
  induction h with
  | nil k => simp [splits]
  | @cons r x zs zss i l h1 h2 h3 ih =>
    simp only [List.length_set, splits, List.mem_flatMap]
    refine ⟨zss, ih, List.mem_filterMap.2 ⟨i, ?_, ?_⟩⟩
    · exact List.mem_range.2 (get_lt h2)
    · rw [if_pos h3, h2]; rfl

theorem Split.of_push {β : Type} {r : Option Nat} {x : β} {zs : List (Option Nat × β)}
    {zss zss' : List (List β)} {i : Nat} {l : List β} (h : Split zs zss) (h1 : zss[i]? = some l)
    (h2 : r = none ∨ r = some i) (h3 : zss' = zss.set i (x :: l)) : Split ((r, x) :: zs) zss' := by
  subst h3; exact .cons h h1 h2

/-- Sends 1 and 2 to the first worker, other items to the second one. -/
def routeN : Node Nat := { out := fun _ x => [(some (if x ≤ 2 then 0 else 1), x)], mo := true }

/-- Two farms of two workers; the workers of the second one have state. -/
def statefulPipe : List (Sk Nat) := [farmOf 2 idN { emitter := some routeN }, farmOf 2 pairN]

/-- What `introduce_a2a` makes of it. -/
def statefulOpt : List (Sk Nat) :=
  [.farm { emitter := some routeN }
    [.a2a (List.replicate 2 (.leaf idN)) (List.replicate 2 (.leaf pairN))]]

theorem semEach_two {n : Node Nat} {zss wss : List (List Nat)}
    (h : semEach (List.replicate 2 (.leaf n)) zss wss) :
    ∃ a b, zss = [a, b] ∧ wss = [vals (n.beh a), vals (n.beh b)] := by
  have e : List.replicate 2 (Sk.leaf n) = [.leaf n, .leaf n] := rfl
  rw [e] at h
  match zss, wss with
  | [], [] => simp [semEach] at h
  | [], _ :: _ => simp [semEach] at h
  | _ :: _, [] => simp [semEach] at h
  | [a], [b] => simp [semEach] at h
  | [a], _ :: _ :: _ => simp [semEach] at h
  | _ :: _ :: _, [b] => simp [semEach] at h
  | [a, b], [c, d] =>
    simp only [semEach, sem] at h
    exact ⟨a, b, rfl, by rw [h.1, h.2.1]⟩
  | _ :: _ :: _ :: _, [_, _] => simp [semEach] at h
  | [_, _], _ :: _ :: _ :: _ => simp [semEach] at h
  | _ :: _ :: _ :: _, _ :: _ :: _ :: _ => simp [semEach] at h

theorem semFarm_two {n : Node Nat} {h : Hdr Nat} (hh : h.ordered = false) (hc : h.getColl = none)
    {xs ys : List Nat} (hs : sem (farmOf 2 n h) xs ys) :
    ∃ a b, Split (emitOut h.emitter xs) [a, b] ∧
      Shuffle [vals (n.beh a), vals (n.beh b)] ys := by
  simp only [farmOf, sem, hh] at hs
  obtain ⟨_, vs, h1, h2⟩ := hs
  rw [collOut_null hc] at h1
  subst h1
  rcases h2 with ⟨_, h2, _⟩ | ⟨_, h2⟩
  · cases h2
  · rw [show List.replicate 2 (Sk.leaf n) = [n, n].map Sk.leaf from rfl,
      semWorkers_gen (leaves_ne_a2a _)] at h2
    obtain ⟨zss, wss, h3, h4, h5⟩ := h2
    obtain ⟨a, b, rfl, rfl⟩ := semEach_two h4
    exact ⟨a, b, h3, h5⟩

/-- The interleavings of `[1, 2]` and `[3, 4]`, and what the second farm can do with them. -/
theorem no_cycle : ∀ mid ∈ ([[1, 2, 3, 4], [1, 3, 2, 4], [1, 3, 4, 2], [3, 1, 2, 4], [3, 1, 4, 2],
    [3, 4, 1, 2]] : List (List Nat)), ∀ cs ∈ splits 2 (free mid),
    cs.map (fun c => vals (pairN.beh c)) ∉ splits 2 (free [41, 23]) := by
  decide

theorem mids : ∀ mid ∈ ([1, 2, 3, 4] : List Nat).permutations',
    ([[1, 2], [3, 4]] : List (List Nat)) ∈ splits 2 (free mid) →
    mid ∈ ([[1, 2, 3, 4], [1, 3, 2, 4], [1, 3, 4, 2], [3, 1, 2, 4], [3, 1, 4, 2],
    [3, 4, 1, 2]] : List (List Nat)) := by
  decide

/-- **Counterexample.**  `introduce_a2a` is not a refinement when workers have state: from 1, 2, 3, 4 the optimised
pipeline can produce 41, 23 — the first worker of the second farm saw 4 before 1, the second one
saw 2 before 3 — and the original cannot, whatever the schedule. -/
theorem C60_a2a_stateful_counterexample :
    optPipe 10 { introduceA2A := true } statefulPipe = .ok statefulOpt ∧
    sem (.pipe statefulOpt) [1, 2, 3, 4] [41, 23] ∧
    ¬ sem (.pipe statefulPipe) [1, 2, 3, 4] [41, 23] := by
  refine ⟨rfl, ?_, ?_⟩
  · simp only [sem, statefulOpt, semPipe_single]
    refine ⟨by simp, [41, 23], rfl, Or.inr ⟨Or.inl trivial, ?_⟩⟩
    have hroute : emitOut (some routeN) [1, 2, 3, 4] =
        [(some 0, 1), (some 0, 2), (some 1, 3), (some 1, 4)] := rfl
    rw [hroute]
    simp only [semWorkers]
    have e : ∀ n : Node Nat, List.replicate 2 (Sk.leaf n) = [.leaf n, .leaf n] := fun _ => rfl
    rw [e, e]
    refine ⟨[[1, 2], [3, 4]], [free [1, 2], free [3, 4]], [[[1], [2]], [[4], [3]]],
      [[4, 1], [2, 3]], [[41], [23]], ?_, ?_, ?_, rfl, ?_, ?_, ?_⟩
    · exact .of_push (.of_push (.of_push (.of_push (.nil 2) (i := 1) rfl (Or.inr rfl) rfl)
        (i := 1) rfl (Or.inr rfl) rfl) (i := 0) rfl (Or.inr rfl) rfl) (i := 0) rfl (Or.inr rfl) rfl
    · simp only [semRouted]
      exact ⟨rfl, rfl, trivial⟩
    · simp only [SplitEach]
      refine ⟨⟨?_, rfl⟩, ⟨?_, rfl⟩, trivial⟩
      · exact .of_push (.of_push (.nil 2) (i := 1) rfl (Or.inl rfl) rfl) (i := 0) rfl (Or.inl rfl)
          rfl
      · exact .of_push (.of_push (.nil 2) (i := 0) rfl (Or.inl rfl) rfl) (i := 1) rfl (Or.inl rfl)
          rfl
    · intro j c hc
      match j with
      | 0 =>
        cases hc
        exact .of_push (.of_push (.nil 2) (i := 0) rfl (Or.inl rfl) rfl) (i := 1) rfl (Or.inl rfl)
          rfl
      | 1 =>
        cases hc
        exact .of_push (.of_push (.nil 2) (i := 1) rfl (Or.inl rfl) rfl) (i := 0) rfl (Or.inl rfl)
          rfl
      | j + 2 => simp at hc
    · simp only [semEach, sem]
      exact ⟨rfl, rfl, trivial⟩
    · exact .of_push (.of_push (.nil 2) (i := 1) rfl (Or.inl rfl) rfl) (i := 0) rfl (Or.inl rfl) rfl
  · intro h
    simp only [sem, statefulPipe, semPipe] at h
    obtain ⟨mid, h1, _, h2, rfl⟩ := h
    obtain ⟨a, b, s1, s2⟩ := semFarm_two (h := { emitter := some routeN }) rfl rfl h1
    obtain ⟨c, d, s3, s4⟩ := semFarm_two (h := {}) rfl rfl h2
    have hroute : emitOut (some routeN) [1, 2, 3, 4] =
        [(some 0, 1), (some 0, 2), (some 1, 3), (some 1, 4)] := rfl
    rw [hroute] at s1
    have m1 := s1.mem_splits
    have hab : ∀ z ∈ splits 2 [(some 0, 1), (some 0, 2), (some 1, 3), (some 1, 4)],
        z = [[1, 2], [3, 4]] := by decide
    have e := hab _ m1
    simp only [List.cons.injEq, and_true] at e
    obtain ⟨rfl, rfl⟩ := e
    have hid : ∀ x y : Nat, vals (idN.beh [x, y]) = [x, y] := fun _ _ => rfl
    rw [hid, hid] at s2
    have p := s2.perm
    have hm := mids mid ((List.mem_permutations'.2 p)) s2.mem_splits
    exact no_cycle mid hm _ s3.mem_splits s4.mem_splits

/-! ### `merge_farms` -/

/-- **Counterexample.**  farm, node, farm with `OptLevel2`: `farm_sequence` casts the node to a farm
(optimize.hpp 541-546). -/
theorem C60_merge_node_between_counterexample (n : Nat) (hn : 10 ≤ n) :
    optPipe n level2 [farmOf 2 idN, .leaf incN, farmOf 2 idN] = .ub :=
  stable hn rfl (by simp)

/-- **Counterexample.**  Farms whose workers are pipelines: `ff_comb` reports an error and leaves an empty composition
(combine.hpp 330-337). -/
theorem C60_merge_pipeline_workers_counterexample (n : Nat) (hn : 10 ≤ n) :
    optPipe n level2 [.farm {} [.pipe [.leaf idN, .leaf incN]], .farm {} [.leaf idN]] = .ub :=
  stable hn rfl (by simp)

/-- Two ordered farms, merged. -/
def orderedMerged : List (Sk Nat) :=
  [farmOf 2 (combNode incN incN) { ordered := true, ondemand := 1 }]

/-- **Counterexample.**  Two ordered farms with `OptLevel2`: the merged farm is an ordered farm whose workers are
compositions, which `prepare` refuses; before, the pipeline was accepted and worked. -/
theorem C60_merge_ordered_counterexample :
    (∀ n, 10 ≤ n → optPipe n level2 [farmOf 2 incN { ordered := true },
      farmOf 2 incN { ordered := true }] = .ok orderedMerged) ∧
    accepts [farmOf 2 incN { ordered := true }, farmOf 2 incN { ordered := true }] = true ∧
    sem (.pipe [farmOf 2 incN { ordered := true }, farmOf 2 incN { ordered := true }])
      [1, 5] [3, 7] ∧
    accepts orderedMerged = false ∧
    ∀ xs ys, ¬ sem (.pipe orderedMerged) xs ys := by
  refine ⟨fun n hn => stable hn rfl (by simp), rfl, ?_, rfl, ?_⟩
  · have one : ∀ x y : Nat, sem (farmOf 2 incN { ordered := true }) [x, y] [x + 1, y + 1] := by
      intro x y
      simp only [farmOf, sem]
      refine ⟨by simp, [x + 1, y + 1], rfl, Or.inl ⟨[incN, incN], trivial, rfl, rfl, ?_⟩⟩
      exact OrdRun.cons (i := 0) (n := incN) (h := []) rfl rfl (Or.inl rfl)
        (OrdRun.cons (i := 1) (n := incN) (h := []) rfl rfl (Or.inl rfl) .nil)
    simp only [sem, semPipe]
    exact ⟨[2, 6], one 1 5, [3, 7], one 2 6, rfl⟩
  · intro xs ys h
    simp only [sem, orderedMerged, semPipe_single, farmOf] at h
    obtain ⟨_, vs, _, h2⟩ := h
    rcases h2 with ⟨ns, _, _, h3, _⟩ | ⟨h3, _⟩
    · simp [stdNodes, combNode, List.replicate] at h3
    · simp [Coll.gathers] at h3

/-- **Counterexample.**  Merging turns round-robin scheduling into on-demand scheduling:
`set_scheduling_ondemand(0)` stores 1 (farm.hpp 1083-1091). -/
theorem C60_merge_scheduling_counterexample :
    optPipe 10 level2 [farmOf 2 incN, farmOf 2 incN] =
      .ok [farmOf 2 (combNode incN incN) { coll := .none, ondemand := 1 }] := rfl

/-! ### `merge_with_emitter` -/

/-- **Counterexample.**  An ordered farm with an emitter and no user collector, then a farm: `merge_with_emitter`
dereferences the null collector (optimize.hpp 735-750). -/
theorem C60_merge_emitter_null_counterexample (n : Nat) (hn : 10 ≤ n) :
    optPipe n level2 [farmOf 2 incN { emitter := some idN, ordered := true }, farmOf 2 incN] =
      .ub :=
  stable hn rfl (by simp)

/-- **Counterexample.**  farm with emitter, node, farm, with `remove_collector` and `merge_with_emitter`: the first step
wraps the node into a multi-input node, the second one aborts on multi-input nodes. -/
theorem C60_merge_emitter_abort_counterexample (n : Nat) (hn : 10 ≤ n) :
    optPipe n { removeColl := true, mergeEmit := true }
      [farmOf 2 incN { emitter := some idN }, .leaf incN, farmOf 2 incN] = .abort :=
  stable hn rfl (by simp)

/-! ### `remove_collector` (`OptLevel1`) -/

/-- A standard multi-output node. -/
def moN : Node Nat := { out := fun _ x => [(some (x % 2), x)], mo := true }

/-- **Counterexample.**  farm, multi-output node, all-to-all: accepted before; `OptLevel1` wraps the node and the wrapper is
not multi-output, so that `prepare` refuses to connect it to two first-set nodes. -/
theorem C60_level1_multioutput_counterexample :
    ∃ ss', (∀ n, 10 ≤ n → optPipe n level1 [farmOf 2 idN, .leaf moN,
        .a2a [.leaf idN, .leaf idN] [.leaf idN]] = .ok ss') ∧
      accepts [farmOf 2 idN, .leaf moN, .a2a [.leaf idN, .leaf idN] [.leaf idN]] = true ∧
      accepts ss' = false :=
  ⟨_, fun n hn => stable hn (r := .ok [farmOf 2 idN { coll := .none }, .leaf (miNode moN),
    .a2a [.leaf idN, .leaf idN] [.leaf idN]]) rfl (by simp), rfl, rfl⟩

/-- **Counterexample.**  A farm without collector whose two workers are farms, then an all-to-all with two first-set nodes:
`OptLevel1` removes the inner collectors, and four channels no longer match two nodes. -/
theorem C60_level1_nested_counterexample :
    ∃ ss', (∀ n, 10 ≤ n → optPipe n level1
        [.farm { coll := .none } [farmOf 2 idN, farmOf 2 idN],
          .a2a [.leaf idN, .leaf idN] [.leaf idN]] = .ok ss') ∧
      accepts [.farm { coll := .none } [farmOf 2 idN, farmOf 2 idN],
          .a2a [.leaf idN, .leaf idN] [.leaf idN]] = true ∧
      accepts ss' = false :=
  ⟨_, fun n hn => stable hn (r := .ok [.farm { coll := .none }
      [farmOf 2 idN { coll := .none }, farmOf 2 idN { coll := .none }],
    .a2a [.leaf idN, .leaf idN] [.leaf idN]]) rfl (by simp), rfl, rfl⟩

/-- Does an accelerator pipeline get a queue for `load_result`?  The queue is that of the last stage (pipeline.hpp
1641-1650); a farm without collector creates none of its own (farm.hpp 1994-2017). -/
def resultQueue : List (Sk Nat) → Bool
  | [] => false
  | [.leaf _] => true
  | [.farm h _] => h.hasColl
  | [.a2a _ _] => false
  | [.pipe _] => false
  | _ :: ss => resultQueue ss

/-- **Counterexample.**  An accelerator whose last stage is a farm: after `OptLevel1` there is no queue any more and
`load_result` (pipeline.hpp 1444-1455) always returns false. -/
theorem C60_level1_accelerator_counterexample (n : Nat) (hn : 10 ≤ n) :
    optPipe n level1 [.leaf incN, farmOf 2 incN] =
      .ok [.leaf incN, farmOf 2 incN { coll := .none }] ∧
    resultQueue [.leaf incN, farmOf 2 incN] = true ∧
    resultQueue [.leaf incN, farmOf 2 incN { coll := .none }] = false :=
  ⟨stable hn rfl (by simp), rfl, rfl⟩

/-- How often `eosnotify` of a sequential stage is called: a standard node once (node.hpp 1455-1470); a multi-input node once
per input channel, unless it is a wrapped standard node (gt.hpp 579-583, multinode.hpp 1193-1201).  `prev` is the
stage before; compositions are not considered. -/
def eosStage (prev : Sk Nat) (n : Node Nat) : Nat :=
  if n.mi && !n.once then (outs prev).length else 1

/-- The same for the collector of a farm: it reads one channel per worker (gt.hpp 579-600). -/
def eosColl (ws : List (Sk Nat)) : Nat := (outsAll ws).length

/-- **Counterexample.**  With `OptLevel1` a node after an ordered farm of three workers becomes its collector: `eosnotify` is called
three times instead of once. -/
theorem C60_level1_eosnotify_counterexample (n : Nat) (hn : 10 ≤ n) :
    optPipe n level1 [farmOf 3 incN { ordered := true }, .leaf incN] =
      .ok [farmOf 3 incN { ordered := true, coll := .node incN }] ∧
    eosStage (farmOf 3 incN { ordered := true }) incN = 1 ∧
    eosColl (List.replicate 3 (.leaf incN)) = 3 :=
  ⟨stable hn rfl (by simp), rfl, rfl⟩

/-- **Counterexample.**  The same for a multi-input node after an unordered farm of three workers. -/
theorem C60_level1_eosnotify_mi_counterexample (n : Nat) (hn : 10 ≤ n) (m : Node Nat)
    (hm : m.mi = true) (ho : m.once = false) :
    optPipe n level1 [farmOf 3 incN, .leaf m] = .ok [farmOf 3 incN { coll := .none }, .leaf m] ∧
    eosStage (farmOf 3 incN) m = 1 ∧
    eosStage (farmOf 3 incN { coll := .none }) m = 3 := by
  refine ⟨stable hn ?_ (by simp), ?_, ?_⟩
  · have : (if m.mi then m else miNode m) = m := by rw [hm]; rfl
    show Res.ok [farmOf 3 incN { coll := .none }, .leaf (if m.mi then m else miNode m)] = _
    rw [this]
  · simp only [eosStage, hm, ho]; rfl
  · simp only [eosStage, hm, ho]; rfl

/-- A standard node after an unordered farm is notified once before and after. -/
theorem eosnotify_std (prev prev' : Sk Nat) (m : Node Nat) (hm : m.mi = false) :
    eosStage prev m = 1 ∧ eosStage prev' (miNode m) = 1 := by
  simp [eosStage, hm, miNode]

/-- Why nodes are wrapped when the collector in front of them goes (optimize.hpp 700-712): without the wrapper `prepare`
refuses the pipeline, with it the pipeline is accepted. -/
theorem C60_level1_wrapper :
    accepts [farmOf 2 incN { coll := .none }, .leaf idN] = false ∧
    accepts [farmOf 2 incN { coll := .none }, .leaf (miNode idN)] = true ∧
    optPipe 10 level1 [farmOf 2 incN, .leaf idN] =
      .ok [farmOf 2 incN { coll := .none }, .leaf (miNode idN)] := ⟨rfl, rfl, rfl⟩

/-- A multi-input node. -/
def miN : Node Nat := { out := fun _ x => [(none, x)], mi := true }

/-- A composition is multi-output exactly when its last node is: merging two farms in front of an all-to-all with
multi-input first set still gives an accepted pipeline. -/
theorem C60_merge_multioutput :
    accepts [farmOf 2 idN, farmOf 2 moN { coll := .none }, .a2a [.leaf miN] [.leaf idN]] = true ∧
    ∃ ss', optPipe 10 { mergeFarms := true }
        [farmOf 2 idN, farmOf 2 moN { coll := .none }, .a2a [.leaf miN] [.leaf idN]] = .ok ss' ∧
      ss'.length = 2 ∧ accepts ss' = true := ⟨rfl, _, rfl, rfl, rfl⟩

/-! ### The theorems' hypotheses are met -/

/-- A pipeline with two farms and nodes between. -/
def sample : List (Sk Nat) :=
  [.leaf incN, farmOf 2 incN, farmOf 2 idN, .pipe [.leaf idN, farmOf 3 incN { ordered := true }],
    .leaf incN]

example : ∃ ss', optPipe 12 level1 sample = .ok ss' ∧ ss'.length = 5 := ⟨_, rfl, rfl⟩

example : Pure (.pipe sample) (fun x => [x + 4]) := by
  have hi : ∀ k, PureAll (List.replicate k (.leaf incN)) (fun x => [x + 1]) := fun k =>
    pureAll_of_mem fun s hs => by
      rw [List.eq_of_mem_replicate hs]; simp only [Pure]; intro h x; rfl
  have hd : ∀ k, PureAll (List.replicate k (.leaf idN)) (fun x => [x]) := fun k =>
    pureAll_of_mem fun s hs => by
      rw [List.eq_of_mem_replicate hs]; simp only [Pure]; intro h x; rfl
  simp only [Pure, sample, PurePipe, farmOf]
  refine ⟨fun x => [x + 1], fun x => [x + 3], fun _ _ => rfl, ⟨fun x => [x + 1], fun x => [x + 2],
    ⟨ret, _, ret, rfl, hi 2, rfl, rfl⟩, ⟨fun x => [x], fun x => [x + 2],
    ⟨ret, _, ret, rfl, hd 2, rfl, rfl⟩, ⟨fun x => [x + 1], fun x => [x + 1],
    ⟨fun x => [x], fun x => [x + 1], fun _ _ => rfl, ⟨_, ret, ⟨ret, _, ret, rfl, hi 3, rfl, rfl⟩,
      rfl, rfl⟩, rfl⟩,
    ⟨_, ret, fun _ _ => rfl, rfl, rfl⟩, rfl⟩, rfl⟩, rfl⟩, rfl⟩

example : ∃ ss', optPipe 12 { introduceA2A := true, removeColl := true } sample = .ok ss' :=
  ⟨_, rfl⟩

example : Ord (.pipe [.leaf incN, farmOf 2 incN { ordered := true }]) := by
  simp only [Ord, OrdAll, farmOf]
  exact ⟨trivial, ⟨trivial, rfl, trivial, trivial, trivial⟩, trivial⟩

example : [farmOf 2 incN, .leaf incN, farmOf 3 idN, .a2a [.leaf idN] [.leaf idN, .leaf incN]].all
      shallow = true ∧
    safeChain [farmOf 2 incN, .leaf incN, farmOf 3 idN,
      .a2a [.leaf idN] [.leaf idN, .leaf incN]] = true ∧
    accepts [farmOf 2 incN, .leaf incN, farmOf 3 idN,
      .a2a [.leaf idN] [.leaf idN, .leaf incN]] = true := ⟨rfl, rfl, rfl⟩

/-- Two unordered farms are merged into one, and what it does is what they could do. -/
example : Refines (.pipe [farmOf 2 (combNode incN idN) { coll := .none, ondemand := 1 }])
    (.pipe [farmOf 2 incN, farmOf 2 idN]) :=
  C60_refines_partial 10 level2 _ _ rfl rfl

end FF.Opt
