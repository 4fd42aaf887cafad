/-
C65: how the adapters of a group map channels to the nodes of the neighbouring level (ff_dadapters.hpp 70-105,
153-183, 243-267), and groups for which the levels or the maps are wrong.
-/
import Verif.Dist.LevelsThm

namespace FF.Dist

/-- A sequential node. -/
abbrev sqn (i : Nat) : Net := .seq i false false

mutual
/-- `custom_get_in_nodes` (ff_dutils.hpp 398-417).  It goes to the emitter of a farm, or nowhere if there is none. -/
def cIns : Net → List Nat
  | .seq i _ _ => [i]
  | .comb _ l _ => cIns l
  | .pipe _ _ ss => cInsHd ss
  | .a2a _ _ fs _ => cInsL fs
  | .farm _ em _ _ => em.toList
/-- Of the first stage of a pipeline. -/
def cInsHd : List Net → List Nat
  | [] => []
  | t :: _ => cIns t
/-- Of all members of a set. -/
def cInsL : List Net → List Nat
  | [] => []
  | t :: ts => cIns t ++ cInsL ts
end

mutual
/-- `custom_get_out_nodes` (ff_dutils.hpp 419-445).  Of a pipeline it takes the first stage (423). -/
def cOuts : Net → List Nat
  | .seq i _ _ => [i]
  | .comb _ _ r => cOuts r
  | .pipe _ _ ss => cOutsHd ss
  | .a2a _ _ _ ss => cOutsL ss
  | .farm _ _ ws co =>
    match co with
    | .none => cOutsL ws
    | .dflt => []
    | .user c => [c]
/-- Of the first stage of a pipeline. -/
def cOutsHd : List Net → List Nat
  | [] => []
  | t :: _ => cOuts t
/-- Of all members of a set. -/
def cOutsL : List Net → List Nat
  | [] => []
  | t :: ts => cOuts t ++ cOutsL ts
end

/-- `getIndex` (ff_dadapters.hpp 44-49). -/
def getIndex : List Nat → Nat → Option Nat
  | [], _ => none
  | a :: l, v => if a = v then some 0 else (getIndex l v).map (· + 1)

/-- `localDest` of `EmitterAdapter2` (79-99): the positions, in the next level, of the consumers. -/
def localDest (next : List Net) (consumers : List Nat) : List Nat := consumers.filterMap (getIndex (cInsL next))

/-- `forward` without a destination (153-183) tries the local destinations in turn, then the router if there are
remote destinations, until one accepts.  It can return only if there is something to try. -/
def canSend (next : List Net) (consumers : List Nat) (hasRemote : Bool) : Bool :=
  !(localDest next consumers).isEmpty || hasRemote

/-- `localInputMap` of `CollectorAdapter2` (247-264): the logical channel for the local input `k`; `none` stands for
the initial value -1. -/
def localChan (prev : List Net) (feeders : List Nat) (k : Nat) : Option Nat :=
  match (cOutsL prev)[k]? with
  | some n => getIndex feeders n
  | none => none

/-! ### When the maps are right -/

mutual
/-- No farm where messages enter. -/
def EntryOk : Net → Prop
  | .seq _ _ _ => True
  | .comb _ l _ => EntryOk l
  | .pipe _ _ ss => EntryOkHd ss
  | .a2a _ _ fs _ => EntryOkL fs
  | .farm _ _ _ _ => False
/-- Of the first stage. -/
def EntryOkHd : List Net → Prop
  | [] => True
  | t :: _ => EntryOk t
/-- Of all members. -/
def EntryOkL : List Net → Prop
  | [] => True
  | t :: ts => EntryOk t ∧ EntryOkL ts
end

mutual
/-- Where messages leave, pipelines have one stage, and collectors are none or given by the user. -/
def ExitOk : Net → Prop
  | .seq _ _ _ => True
  | .comb _ _ r => ExitOk r
  | .pipe _ _ ss => ExitOkOne ss
  | .a2a _ _ _ ss => ExitOkL ss
  | .farm _ _ ws co => co ≠ .dflt ∧ ExitOkL ws
/-- Exactly one stage. -/
def ExitOkOne : List Net → Prop
  | [] => True
  | [t] => ExitOk t
  | _ :: _ :: _ => False
/-- Of all members. -/
def ExitOkL : List Net → Prop
  | [] => True
  | t :: ts => ExitOk t ∧ ExitOkL ts
end

mutual
theorem cIns_eq : ∀ t, EntryOk t → cIns t = ins t
  | .seq _ _ _, _ => rfl
  | .comb _ l _, h => by rw [cIns, ins]; exact cIns_eq l h
  | .pipe _ _ ss, h => by rw [cIns, ins]; exact cInsHd_eq ss h
  | .a2a _ _ fs _, h => by rw [cIns, ins]; exact cInsL_eq fs h
  | .farm _ _ _ _, h => by simp [EntryOk] at h
theorem cInsHd_eq : ∀ ts, EntryOkHd ts → cInsHd ts = insHd ts
  | [], _ => rfl
  | t :: _, h => by rw [cInsHd, insHd]; exact cIns_eq t h
theorem cInsL_eq : ∀ ts, EntryOkL ts → cInsL ts = insL ts
  | [], _ => rfl
  | t :: ts, h => by rw [cInsL, insL, cIns_eq t h.1, cInsL_eq ts h.2]
end

mutual
theorem cOuts_eq : ∀ t, ExitOk t → cOuts t = outs t
  | .seq _ _ _, _ => rfl
  | .comb _ _ r, h => by rw [cOuts, outs]; exact cOuts_eq r h
  | .pipe _ _ ss, h => by rw [cOuts, outs]; exact cOutsHd_eq ss h
  | .a2a _ _ _ ss, h => by rw [cOuts, outs]; exact cOutsL_eq ss h
  | .farm _ _ ws .none, h => by rw [cOuts, outs]; exact cOutsL_eq ws h.2
  | .farm _ _ _ .dflt, h => absurd rfl h.1
  | .farm _ _ _ (.user _), _ => rfl
theorem cOutsHd_eq : ∀ ts, ExitOkOne ts → cOutsHd ts = outsLast ts
  | [], _ => rfl
  | [t], h => by rw [cOutsHd, outsLast]; exact cOuts_eq t h
  | _ :: _ :: _, h => by simp [ExitOkOne] at h
theorem cOutsL_eq : ∀ ts, ExitOkL ts → cOutsL ts = outsL ts
  | [], _ => rfl
  | t :: ts, h => by rw [cOutsL, outsL, cOuts_eq t h.1, cOutsL_eq ts h.2]
end

theorem getIndex_some : ∀ {l : List Nat} {v k : Nat}, getIndex l v = some k → l[k]? = some v
  | [], _, _, h => by simp [getIndex] at h
  | a :: l, v, k, h => by
    rw [getIndex] at h
    split at h
    · rename_i e; obtain rfl := Option.some.inj h; simp [e]
    · obtain ⟨m, h1, rfl⟩ := Option.map_eq_some_iff.1 h
      simpa using getIndex_some h1

theorem getIndex_mem : ∀ {l : List Nat} {v : Nat}, v ∈ l → ∃ k, getIndex l v = some k
  | [], _, h => by simp at h
  | a :: l, v, h => by
    rw [getIndex]; split
    · exact ⟨0, rfl⟩
    · rename_i hne
      obtain ⟨k, hk⟩ := getIndex_mem (l := l) (v := v) (by
        rcases List.mem_cons.1 h with h | h
        · exact absurd h.symm hne
        · exact h)
      exact ⟨k + 1, by simp [hk]⟩

/-- **C65.** If messages do not enter the next level through a farm, a node with a local consumer there has a local
destination, every local destination is the position of one of its consumers among the inputs of that level, and a
message without a destination can be sent. -/
theorem C65_send_partial {next : List Net} {consumers : List Nat} (h : EntryOkL next) {y : Nat} (hy : y ∈ consumers)
    (hl : y ∈ insL next) (hasRemote : Bool) :
    (∃ k ∈ localDest next consumers, (insL next)[k]? = some y) ∧
    (∀ k ∈ localDest next consumers, ∃ z ∈ consumers, (insL next)[k]? = some z) ∧ canSend next consumers hasRemote = true := by
  have e := cInsL_eq next h
  have h1 : ∃ k ∈ localDest next consumers, (insL next)[k]? = some y := by
    obtain ⟨k, hk⟩ := getIndex_mem (e ▸ hl)
    exact ⟨k, List.mem_filterMap.2 ⟨y, hy, hk⟩, e ▸ getIndex_some hk⟩
  refine ⟨h1, fun k hk => ?_, ?_⟩
  · obtain ⟨z, hz, hk⟩ := List.mem_filterMap.1 hk
    exact ⟨z, hz, e ▸ getIndex_some hk⟩
  · obtain ⟨k, hk, -⟩ := h1
    simp only [canSend, Bool.or_eq_true, Bool.not_eq_true', List.isEmpty_eq_false_iff]
    exact .inl (List.ne_nil_of_mem hk)

example : EntryOkL [.pipe 4 false [sqn 5, sqn 6], sqn 7] ∧ localDest [.pipe 4 false [sqn 5, sqn 6], sqn 7] [7, 5] = [1, 0] := by
  constructor
  · simp [EntryOkL, EntryOk, EntryOkHd]
  · decide

/-- **C65.** If the pipelines through which messages leave the previous level have one stage, the local input `k`
carries the logical channel of the node it comes from. -/
theorem C65_receive_partial {prev : List Net} {feeders : List Nat} (h : ExitOkL prev) {k x : Nat}
    (hk : (outsL prev)[k]? = some x) (hx : x ∈ feeders) : ∃ c, localChan prev feeders k = some c ∧ feeders[c]? = some x := by
  obtain ⟨c, hc⟩ := getIndex_mem hx
  refine ⟨c, ?_, getIndex_some hc⟩
  rw [localChan, cOutsL_eq prev h, hk]
  exact hc

example : ExitOkL [.a2a 1 false [sqn 2] [sqn 3, sqn 4], sqn 5] ∧
    localChan [.a2a 1 false [sqn 2] [sqn 3, sqn 4], sqn 5] [5, 3, 4] 1 = some 2 := by
  constructor
  · simp [ExitOkL, ExitOk]
  · decide

/-! ### Counterexamples -/

/-- The addresses of the levels of a group. -/
def levelIds (arr : List (Net × Lab)) : Option (List (List Nat)) :=
  (levels (fun a b : Net × Lab => cmp a.2 b.2) arr).map fun bs => bs.map fun l => l.map fun a => a.1.id

/-- A pipeline with an all-to-all; a group with its stage 0, its first set and its second set, out of order. -/
example : levelIds [(sqn 6, [(.P, 1), (.D, 0)]), (sqn 1, [(.P, 0)]), (sqn 4, [(.P, 1), (.S, 1)]), (sqn 3, [(.P, 1), (.S, 0)])] =
    some [[1], [4, 3], [6]] := by decide

example : (sqn 4, ([(.P, 1), (.S, 1)] : Lab)) ∈ parts [] (.pipe 0 false [sqn 1, .a2a 2 false [sqn 3, sqn 4] [sqn 5, sqn 6]]) := by
  simp [parts, partsI]

/-- An all-to-all whose first set mixes a node and a pipeline. -/
def mixedNet : Net := .pipe 0 false [.a2a 1 false [sqn 2, .pipe 3 false [sqn 4, sqn 5]] [sqn 6]]

/-- **C65, counterexample.** The comparison is not transitive: "P0S0" equals both "P0S1P0" and "P0S1P1".  In the group
of nodes 2, 4 and 5 the channel from 4 to 5 lies inside one level, or leads to the next, depending on the order in
which the map of addresses lists the nodes. -/
theorem C65_mixed_counterexample :
    (4, 5) ∈ fwd mixedNet ∧
    (∀ a ∈ ([(sqn 2, [(.P, 0), (.S, 0)]), (sqn 4, [(.P, 0), (.S, 1), (.P, 0)]), (sqn 5, [(.P, 0), (.S, 1), (.P, 1)])] :
      List (Net × Lab)), a ∈ parts [] mixedNet) ∧
    levelIds [(sqn 5, [(.P, 0), (.S, 1), (.P, 1)]), (sqn 2, [(.P, 0), (.S, 0)]), (sqn 4, [(.P, 0), (.S, 1), (.P, 0)])] =
      some [[5, 2, 4]] ∧
    levelIds [(sqn 5, [(.P, 0), (.S, 1), (.P, 1)]), (sqn 4, [(.P, 0), (.S, 1), (.P, 0)]), (sqn 2, [(.P, 0), (.S, 0)])] =
      some [[4], [5, 2]] := by
  refine ⟨by simp [mixedNet, fwd, fwdL, links, link, p2p, pairs, outs, ins], ?_, by decide, by decide⟩
  intro a ha
  simp only [List.mem_cons, List.not_mem_nil, or_false] at ha
  rcases ha with rfl | rfl | rfl <;> simp [mixedNet, parts, partsI]

/-- **C65, counterexample.** A group without nodes reads past the end of an empty vector. -/
theorem C65_empty_counterexample : levels (fun a b : Net × Lab => cmp a.2 b.2) [] = none := rfl

/-- **C65, counterexample.** A source and a farm in one group.  The consumer of the source is the farm, but the
adapter looks for its emitter: there is no local destination, and as there is no remote one either the first send of
the source never returns.  The same with and without an emitter. -/
theorem C65_farm_counterexample (em : Option Nat) (h : em ≠ some 2) :
    (1, 2) ∈ fwd (.pipe 0 false [sqn 1, .farm 2 em [sqn 3, sqn 4] .none]) ∧
    levelIds [(sqn 1, [(.P, 0)]), (.farm 2 em [sqn 3, sqn 4] .none, [(.P, 1)])] = some [[1], [2]] ∧
    canSend [.farm 2 em [sqn 3, sqn 4] .none] [2] false = false := by
  refine ⟨by simp [fwd, fwdL, links, link, p2p, pairs, outs, ins], rfl, ?_⟩
  cases em with
  | none => rfl
  | some e =>
    have : e ≠ 2 := fun h' => h (by rw [h'])
    simp [canSend, localDest, cInsL, cIns, getIndex, this]

/-- **C65, counterexample.** A pipeline and a node in one group.  The adapter looks for the first stage of the pipeline
instead of the last one: what arrives from it gets no logical channel. -/
theorem C65_pipe_counterexample :
    (2, 3) ∈ fwd (.pipe 0 false [.pipe 4 false [sqn 1, sqn 2], sqn 3]) ∧
    levelIds [(.pipe 4 false [sqn 1, sqn 2], [(.P, 0)]), (sqn 3, [(.P, 1)])] = some [[4], [3]] ∧
    localChan [.pipe 4 false [sqn 1, sqn 2]] [2] 0 = none := by
  refine ⟨by simp [fwd, fwdL, links, link, p2p, pairs, outs, ins, outsLast], by decide, by decide⟩

/-- **C65, counterexample.** A source and an all-to-all that wraps around in one group.  The next level of the last
level is the first one (ff_dgroup.hpp 294), the source, but the feedback goes to the first set: the second set has no
local destination and its first send never returns. -/
theorem C65_feedback_counterexample :
    (4, 3) ∈ fbk (.pipe 0 false [sqn 1, .a2a 2 true [sqn 3] [sqn 4]]) ∧
    levelIds [(sqn 1, [(.P, 0)]), (sqn 3, [(.P, 1), (.S, 0)]), (sqn 4, [(.P, 1), (.D, 0)])] = some [[1], [3], [4]] ∧
    canSend [sqn 1] [3] false = false := by
  refine ⟨by simp [fbk, fbkL, pairs, outs, ins, outsL, insL], by decide, by decide⟩

end FF.Dist
