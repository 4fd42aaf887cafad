/-
C64: networks for which the two ends disagree, and networks whose distributed channels differ from the channels in
shared memory.
-/
import Verif.Dist.Groups

namespace FF.Dist

/-- A sequential node. -/
abbrev sq (i : Nat) : Net := .seq i false false

/-! ### The hypotheses are met -/

/-- A source, an all-to-all with a nested pipeline and a combination, and a farm with emitter and collector. -/
def sample : Net :=
  .pipe 0 false [sq 1, .a2a 2 true [sq 3, .pipe 4 false [sq 5, .comb 6 (sq 7) (sq 8)]] [sq 9, sq 10],
    .farm 11 (some 12) [sq 13, sq 14] (.user 15), sq 16]

example : (ids sample).Nodup := by decide

example : Good sample := by
  simp [sample, Good, GoodL, LinksOk, LinkOk]

/-- The consumers of the combination are those of its last node; the second set also feeds back. -/
example : getConsumers 40 sample 8 = some ([9, 10], []) := by decide
example : getConsumers 40 sample 9 = some ([11], [3, 5]) := by decide
example : getFeeders 40 sample 5 = some ([1], [9, 10]) := by decide
example : 8 ∈ senders sample ∧ 5 ∈ receivers sample ∧ 11 ∈ receivers sample := by decide

/-- Four groups: the all-to-all is split. -/
def sampleAnn : List (Net × Nat) :=
  [(sq 1, 0), (sq 3, 1), (.pipe 4 false [sq 5, .comb 6 (sq 7) (sq 8)], 0), (sq 9, 1), (sq 10, 2),
    (.farm 11 (some 12) [sq 13, sq 14] (.user 15), 3), (sq 16, 3)]

example : Parts sample sampleAnn := by
  refine ⟨?_, ?_⟩
  · intro p hp
    simp only [sampleAnn, List.mem_cons, List.not_mem_nil, or_false] at hp
    rcases hp with rfl | rfl | rfl | rfl | rfl | rfl | rfl
    · exact ⟨[.pipeF 0 false [] [.a2a 2 true [sq 3, .pipe 4 false [sq 5, .comb 6 (sq 7) (sq 8)]] [sq 9, sq 10],
        .farm 11 (some 12) [sq 13, sq 14] (.user 15), sq 16]], rfl⟩
    · exact ⟨[.a2a1F 2 true [] [.pipe 4 false [sq 5, .comb 6 (sq 7) (sq 8)]] [sq 9, sq 10],
        .pipeF 0 false [sq 1] [.farm 11 (some 12) [sq 13, sq 14] (.user 15), sq 16]], rfl⟩
    · exact ⟨[.a2a1F 2 true [sq 3] [] [sq 9, sq 10],
        .pipeF 0 false [sq 1] [.farm 11 (some 12) [sq 13, sq 14] (.user 15), sq 16]], rfl⟩
    · exact ⟨[.a2a2F 2 true [sq 3, .pipe 4 false [sq 5, .comb 6 (sq 7) (sq 8)]] [] [sq 10],
        .pipeF 0 false [sq 1] [.farm 11 (some 12) [sq 13, sq 14] (.user 15), sq 16]], rfl⟩
    · exact ⟨[.a2a2F 2 true [sq 3, .pipe 4 false [sq 5, .comb 6 (sq 7) (sq 8)]] [sq 9] [],
        .pipeF 0 false [sq 1] [.farm 11 (some 12) [sq 13, sq 14] (.user 15), sq 16]], rfl⟩
    · exact ⟨[.pipeF 0 false [sq 1, .a2a 2 true [sq 3, .pipe 4 false [sq 5, .comb 6 (sq 7) (sq 8)]] [sq 9, sq 10]]
        [sq 16]], rfl⟩
    · exact ⟨[.pipeF 0 false [sq 1, .a2a 2 true [sq 3, .pipe 4 false [sq 5, .comb 6 (sq 7) (sq 8)]] [sq 9, sq 10],
        .farm 11 (some 12) [sq 13, sq 14] (.user 15)] []], rfl⟩
  · simp only [sampleAnn, List.pairwise_cons]
    decide

/-- Group 0 connects to groups 1 and 2; group 2 waits for groups 0 and 1. -/
example : egress 40 sample sampleAnn 0 = [1, 1, 2] ∧ ingress 40 sample sampleAnn 2 = [1, 0] := by decide

/-! ### Counterexamples -/

/-- A collectorless farm, then an all-to-all of the same size that wraps around. -/
def wrapNet : Net :=
  .pipe 0 false [.farm 1 none [sq 2, sq 3] .none, .a2a 4 true [sq 5, sq 6] [sq 7, sq 8]]

/-- Farm, first set and second set in three groups. -/
def wrapAnn : List (Net × Nat) :=
  [(.farm 1 none [sq 2, sq 3] .none, 0), (sq 5, 1), (sq 6, 1), (sq 7, 2), (sq 8, 2)]

/-- **C64, counterexample.** `getFeeders` returns before it looks at the wrap-around (ff_dutils.hpp 249-252 before
259): the second set sends its feedback to the first set, which does not know of it; group 2 connects to group 1,
which does not wait for it. -/
theorem C64_wrap_counterexample :
    (ids wrapNet).Nodup ∧ getConsumers 20 wrapNet 7 = some ([], [5, 6]) ∧ getFeeders 20 wrapNet 5 = some ([2], []) ∧
    1 ∈ egress 20 wrapNet wrapAnn 2 ∧ 2 ∉ ingress 20 wrapNet wrapAnn 1 := by decide

/-- A farm whose only worker is an all-to-all with two outputs, then an all-to-all with a first set of two. -/
def multiNet : Net :=
  .pipe 0 false [.farm 1 none [.a2a 2 false [sq 3] [sq 4, sq 5]] .none, .a2a 6 false [sq 7, sq 8] [sq 9]]

/-- **C64, counterexample.** The consumer side compares the number of workers with the first set (line 184), the
feeder side the number of their outputs (line 249).  Here node 5 sends to node 7, which expects node 4 only. -/
theorem C64_multi_counterexample :
    (ids multiNet).Nodup ∧ getConsumers 20 multiNet 5 = some ([7, 8], []) ∧ getFeeders 20 multiNet 7 = some ([4], []) :=
  by decide

/-- A combination of three nodes, built from the left, as second stage. -/
def leftNet : Net := .pipe 0 false [sq 1, .comb 2 (.comb 3 (sq 4) (sq 5)) (sq 6)]

/-- **C64, counterexample.** In a combination of three nodes `getBB` returns the inner combination as the block of
itself and the search for its stage fails: the second stage believes it has no feeder.  Group 0 connects to group 1,
which does not wait for it and runs as a source. -/
theorem C64_comb_left_counterexample :
    (ids leftNet).Nodup ∧ getConsumers 20 leftNet 1 = some ([4], []) ∧ getFeeders 20 leftNet 4 = some ([], []) ∧
    egress 20 leftNet [(sq 1, 0), (.comb 2 (.comb 3 (sq 4) (sq 5)) (sq 6), 1)] 0 = [1] ∧
    ingress 20 leftNet [(sq 1, 0), (.comb 2 (.comb 3 (sq 4) (sq 5)) (sq 6), 1)] 1 = [] := by decide

/-- A combination of three nodes, built from the right, as first stage. -/
def rightNet : Net := .pipe 0 false [.comb 2 (sq 4) (.comb 3 (sq 5) (sq 6)), sq 7]

/-- **C64, counterexample.** The first stage believes it has no consumer: group 1 waits for a connection from group 0
that never comes. -/
theorem C64_comb_right_counterexample :
    (ids rightNet).Nodup ∧ getConsumers 20 rightNet 6 = some ([], []) ∧ getFeeders 20 rightNet 7 = some ([6], []) ∧
    egress 20 rightNet [(.comb 2 (sq 4) (.comb 3 (sq 5) (sq 6)), 0), (sq 7, 1)] 0 = [] ∧
    ingress 20 rightNet [(.comb 2 (sq 4) (.comb 3 (sq 5) (sq 6)), 0), (sq 7, 1)] 1 = [0] := by decide

/-! ### Shared memory -/

/-- `isMultiInput` of a set member.  Simplified: members are sequential nodes, others count as standard. -/
def isMI : Net → Bool
  | .seq _ mi _ => mi
  | _ => false

/-- `isMultiOutput` of a set member. -/
def isMO : Net → Bool
  | .seq _ _ mo => mo
  | _ => false

/-- Does the previous stage send with multi-output nodes (`prev_multi_multioutput`, pipeline.hpp 469-481)?  The first
node decides. -/
def prevMO : Net → Bool
  | .farm _ _ ws .none => (ws.map isMO).headD false
  | .a2a _ _ _ ss => (ss.map isMO).headD false
  | _ => false

/-- How `ff_pipeline::prepare` connects a collectorless farm or an all-to-all with a following all-to-all
(pipeline.hpp 624-646 and 688-722): one to one, unless the first set is multi-input and the previous nodes are
multi-output, in which case every pair is connected.  `none` is the cardinality error. -/
def sharedLink (s t : Net) : Option (List (Nat × Nat)) :=
  if (firstSet t).any isMI && prevMO s then some (pairs (outs s) (insL (firstSet t)))
  else if (outs s).length = (firstSet t).length then some ((outs s).zip ((firstSet t).map Net.id))
  else none

theorem zipLink_seq : ∀ (ws fs : List Net), (∀ t ∈ ws, ∃ i a b, t = .seq i a b) → (∀ t ∈ fs, ∃ i a b, t = .seq i a b) →
    zipLink ws fs = (outsL ws).zip (fs.map Net.id)
  | [], _, _, _ => by simp [zipLink, outsL]
  | w :: ws, [], _, _ => by simp [zipLink]
  | w :: ws, f :: fs, hw, hf => by
    obtain ⟨i, a, b, rfl⟩ := hw w (by simp)
    obtain ⟨j, c, d, rfl⟩ := hf f (by simp)
    have := zipLink_seq ws fs (fun t h => hw t (by simp [h])) (fun t h => hf t (by simp [h]))
    simp [zipLink, outsL, outs, ins, pairs, Net.id, this]

theorem outsL_seq_len : ∀ (ws : List Net), (∀ t ∈ ws, ∃ i a b, t = .seq i a b) → (outsL ws).length = ws.length
  | [], _ => rfl
  | w :: ws, hw => by
    obtain ⟨i, a, b, rfl⟩ := hw w (by simp)
    have := outsL_seq_len ws (fun t h => hw t (by simp [h]))
    simp [outsL, outs, this]

/-- **C64.** For a collectorless farm of sequential workers before an all-to-all whose first set is standard, whenever
shared memory accepts the pipeline its channels are those of the distributed run. -/
theorem C64_shared_partial {i j : Nat} {em : Option Nat} {w : Bool} {ws fs ss : List Net}
    (hw : ∀ t ∈ ws, ∃ i a b, t = .seq i a b) (hf : ∀ t ∈ fs, ∃ i b, t = .seq i false b) {l : List (Nat × Nat)}
    (h : sharedLink (.farm i em ws .none) (.a2a j w fs ss) = some l) :
    l = link (.farm i em ws .none) (.a2a j w fs ss) := by
  have hmi : fs.any isMI = false := by
    rw [List.any_eq_false]
    intro t ht
    obtain ⟨i, b, rfl⟩ := hf t ht
    simp [isMI]
  by_cases hl : (outsL ws).length = fs.length
  · have e : sharedLink (.farm i em ws .none) (.a2a j w fs ss) = some ((outsL ws).zip (fs.map Net.id)) := by
      unfold sharedLink
      rw [if_neg (by simp [firstSet, hmi]), if_pos (by simpa [outs, firstSet] using hl)]
      rfl
    rw [e] at h
    obtain rfl := Option.some.inj h
    rw [outsL_seq_len ws hw] at hl
    have hp : p2p (.farm i em ws .none) (.a2a j w fs ss) = true := by simp [p2p, hl]
    rw [link, if_pos hp]
    simp only [workers, firstSet]
    exact (zipLink_seq ws fs hw (fun t h => by obtain ⟨i, b, rfl⟩ := hf t h; exact ⟨_, _, _, rfl⟩)).symm
  · have e : sharedLink (.farm i em ws .none) (.a2a j w fs ss) = none := by
      unfold sharedLink
      rw [if_neg (by simp [firstSet, hmi]), if_neg (by simpa [outs, firstSet] using hl)]
    rw [e] at h
    simp at h

example : sharedLink (.farm 1 none [sq 2, sq 3] .none) (.a2a 4 false [sq 5, sq 6] [sq 7]) = some [(2, 5), (3, 6)] := by
  decide

/-- Two all-to-alls in a row. -/
def twoA2a : Net :=
  .pipe 0 false [.a2a 1 false [.seq 2 false true, .seq 3 false true] [.seq 4 true false, .seq 5 true false],
    .a2a 6 false [.seq 7 false true, .seq 8 false true] [.seq 9 true false, .seq 10 true false]]

/-- **C64, counterexample.** In shared memory node 4 sends to node 7 and node 5 to node 8.  Distributed, both send to
both: what a node of the second all-to-all receives changes. -/
theorem C64_a2a_counterexample :
    sharedLink (.a2a 1 false [.seq 2 false true, .seq 3 false true] [.seq 4 true false, .seq 5 true false])
      (.a2a 6 false [.seq 7 false true, .seq 8 false true] [.seq 9 true false, .seq 10 true false]) =
      some [(4, 7), (5, 8)] ∧
    getConsumers 20 twoA2a 4 = some ([7, 8], []) ∧ getFeeders 20 twoA2a 8 = some ([4, 5], []) := by decide

/-- A collectorless farm of multi-output workers and an all-to-all with a multi-input first set. -/
def moNet : Net :=
  .pipe 0 false [.farm 1 none [.seq 2 false true, .seq 3 false true] .none,
    .a2a 4 false [.seq 5 true true, .seq 6 true true] [sq 7]]

/-- **C64, counterexample.** In shared memory every worker is connected to every first-set node; distributed, worker
`i` is connected to first-set node `i` only, so a worker that addresses output 1 has no such channel. -/
theorem C64_mo_counterexample :
    sharedLink (.farm 1 none [.seq 2 false true, .seq 3 false true] .none)
      (.a2a 4 false [.seq 5 true true, .seq 6 true true] [sq 7]) = some [(2, 5), (2, 6), (3, 5), (3, 6)] ∧
    getConsumers 20 moNet 2 = some ([5], []) ∧ getFeeders 20 moNet 6 = some ([3], []) := by decide

end FF.Dist
