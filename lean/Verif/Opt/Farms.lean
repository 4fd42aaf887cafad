/-
Model of the functions that combine two blocks into a pipeline (`/repo/ff/combine.hpp` 879-1593):
`combine_nodes_in_pipeline`, `combine_farms_a2a`, `combine_farms_nf` and `combine_farms`, on the networks of
`Verif.Opt.Spec`.

A call gives the stages of the returned pipeline, or `none` when it reports an error and returns an empty pipeline.
`combine_farms_a2a` and `combine_farms_nf` report errors by returning a farm without workers, which cannot be run.
A copy `new T(*node)` behaves as the node does at the beginning of a stream (copies of an `ff_comb` share the
nodes they are made of; that is not represented).  Not modelled here: who deletes the nodes; what
`combine_ofarm_farm` returns, which is the parameter `ofarm`; the memory size of ordered farms.
-/
import Verif.Opt.Combine

namespace FF.Opt

variable {α : Type}

/-- `ff_farm newfarm;` returned after an error (combine.hpp 976-985, 1096-1126): it has no workers. -/
def emptyFarm : Sk α := .farm { coll := .none } []

/-- `change_emitter` (farm.hpp 999-1022); `add_emitter(nullptr)` does nothing (farm.hpp 956). -/
def Hdr.changeEmit (h : Hdr α) : Option (Node α) → Res (Hdr α)
  | none => .ok { h with emitter := none }
  | some e => Hdr.addEmit { h with emitter := none } e

/-- The new farm gets the emitter of the first farm, the collector and the scheduling (combine.hpp 999-1013,
1054-1057, 1133-1148, 1448-1463, 1527-1542; 1025-1026, 1084-1085, 1162-1163, 1492-1493, 1588-1589). -/
def newHdr (h1 h2 : Hdr α) : Res (Hdr α) :=
  let h0 : Hdr α := { emitter := none, coll := .none }
  (match h1.emitter with
    | none => Res.ok h0
    | some e => h0.addEmit e).bind fun h' =>
  let h'' := if h2.hasColl then h'.addColl h2.getColl else h'
  .ok (if h1.ondemand = 0 then h'' else h''.setOndemand h1.ondemand)

/-- `combine_farms_a2a(farm1, farm2)` (combine.hpp 975-1030). -/
def farmsA2A (h1 : Hdr α) (ws1 : List (Sk α)) (h2 : Hdr α) (ws2 : List (Sk α)) : Res (Sk α) :=
  if h1.getColl.isSome || h2.emitter.isSome then .ok emptyFarm
  else (newHdr h1 h2).bind fun h => .ok (.farm h [.a2a ws1 ws2])

/-- The node put after each worker of the first set: a copy of it, made multi-output if it is not
(combine.hpp 1059-1075, 1465-1482, 1544-1559). -/
def afterEach (node : Node α) (ws : List (Sk α)) : Res (List (Sk α)) :=
  mapR (fun w => combSk w (.leaf (if node.mo then node else moNode node))) ws

/-- The node put before each worker of the second set: a copy of it, made multi-input if it is not
(combine.hpp 1563-1580). -/
def beforeEach (node : Node α) (ws : List (Sk α)) : Res (List (Sk α)) :=
  mapR (fun w => combSk (.leaf (if node.mi then node else miNode node)) w) ws

/-- `combine_farms_a2a(farm1, node, farm2)` (combine.hpp 1040-1088): the collector of the first farm and the emitter of
the second one are not looked at. -/
def farmsA2ANode (h1 : Hdr α) (ws1 : List (Sk α)) (node : Node α) (h2 : Hdr α) (ws2 : List (Sk α)) :
    Res (Sk α) :=
  (newHdr h1 h2).bind fun h => (afterEach node ws1).bind fun l => .ok (.farm h [.a2a l ws2])

/-- `combine_farms_nf` (combine.hpp 1095-1167): the collector of the first farm and the emitter of the second one are
not looked at.  Simplification: ordered farms are taken to have the same memory size. -/
def farmsNF (h1 : Hdr α) (ws1 : List (Sk α)) (h2 : Hdr α) (ws2 : List (Sk α)) : Res (Sk α) :=
  if ws1.length ≠ ws2.length then .ok emptyFarm
  else if h1.ordered != h2.ordered then .ok emptyFarm
  else if h1.ordered && h2.ordered && h1.ondemand != h2.ondemand then .ok emptyFarm
  else match ws1, ws2 with
    | w1 :: _, w2 :: _ =>
      if w1.isMO || w2.isMI then .ok emptyFarm
      else if w1.kind = 1 ∨ w2.kind = 1 then .ok emptyFarm
      else (newHdr h1 h2).bind fun h => (combRow ws1 ws2).bind fun ws =>
        .ok (.farm { h with ordered := h1.ordered } ws)
    | _, _ => .ub

/-- The helper node that passes everything on (combine.hpp 910-912, 1401-1403). -/
def passNode : Node α := { out := fun _ x => [(none, x)], mo := true }

/-- `combine_farms` (combine.hpp 1312-1593). -/
def combineFarms (ofarm : Hdr α → List (Sk α) → Hdr α → List (Sk α) → Res (Option (List (Sk α))))
    (h1 : Hdr α) (ws1 : List (Sk α)) (node1 : Option (Node α))
    (h2 : Hdr α) (ws2 : List (Sk α)) (node2 : Option (Node α)) (mergeCE : Bool) :
    Res (Option (List (Sk α))) :=
  if mergeCE then
    if h1.ordered || h2.ordered then
      if node1.isSome || node2.isSome then .ok none
      else if ws1.length = ws2.length then .ok none
      else if h1.ordered then ofarm h1 ws1 h2 ws2
      else .ok (some [.farm h1.removeColl ws1, .farm h2 ws2])
    else match node1, node2 with
      | none, none =>
        if ws1.length = ws2.length then (farmsNF h1 ws1 h2 ws2).bind fun f => .ok (some [f])
        else (h2.changeEmit none).bind fun h2' =>
          (farmsA2A h1.removeColl ws1 h2' ws2).bind fun f => .ok (some [f])
      | some n1, some n2 =>
        if n2.comp && !n2.mo then .ok none
        else if !n2.mo && n2.mi then .ok none
        else (h2.changeEmit (some (combNode n1 (if n2.mo then n2 else moNode n2)))).bind fun h2' =>
          .ok (some [.farm h1.removeColl ws1, .farm h2' ws2])
      | none, some _ => (h2.changeEmit none).bind fun h2' =>
          .ok (some [.farm h1.removeColl ws1, .farm h2' ws2])
      | some n1, none =>
        (h2.changeEmit (some (if n1.mi then combNode n1 passNode else n1))).bind fun h2' =>
          .ok (some [.farm h1.removeColl ws1, .farm h2' ws2])
  else
    if h1.ordered || h2.ordered then .ok none
    else match node1, node2 with
      | none, none => (h2.changeEmit none).bind fun h2' =>
          (farmsA2A h1.removeColl ws1 h2' ws2).bind fun f => .ok (some [f])
      | none, some n2 => (farmsA2ANode h1 ws1 n2 h2 ws2).bind fun f => .ok (some [f])
      | some n1, none =>
        (newHdr h1 h2).bind fun h => (afterEach n1 ws1).bind fun l => .ok (some [.farm h [.a2a l ws2]])
      | some n1, some n2 =>
        if n1.mi then .ok none
        else if n2.mo then .ok none
        else (newHdr h1 h2).bind fun h => (afterEach n1 ws1).bind fun l =>
          (beforeEach n2 ws2).bind fun r => .ok (some [.farm h [.a2a l r]])

/-- A sequential node put before a farm (combine.hpp 901-932). -/
def seqFarm (n : Node α) (h : Hdr α) : Res (Hdr α) :=
  match h.emitter with
  | none => h.addEmit n
  | some e =>
    h.changeEmit (some (combNode n
      (if e.mo then e else if e.mi then combNode e passNode else moNode e)))

/-- `combine_nodes_in_pipeline` (combine.hpp 879-965).  A pipeline given with a farm is refused by `add_emitter` and
`add_collector`, whose results are not looked at, and by `ff_comb`. -/
def combineNodes (ofarm : Hdr α → List (Sk α) → Hdr α → List (Sk α) → Res (Option (List (Sk α)))) :
    Sk α → Sk α → Res (Option (List (Sk α)))
  | .a2a _ _, _ => .ok none
  | _, .a2a _ _ => .ok none
  | .farm h1 ws1, .farm h2 ws2 =>
    if h1.ordered then ofarm h1 ws1 h2 ws2
    else match h1.getColl, h2.emitter with
      | none, _ => .ok (some [.farm h1.removeColl ws1, .farm h2 ws2])
      | some _, none => .ub
      | some c, some e => (h2.changeEmit (some (combNode c e))).bind fun h2' =>
          .ok (some [.farm h1.removeColl ws1, .farm h2' ws2])
  | .farm h ws, .leaf n =>
    if h.ordered then .abort
    else match h.getColl with
      | none => .ok (some [.farm (h.addColl (some n)) ws])
      | some c => .ok (some [.farm (h.removeColl.addColl (some (combNode c n))) ws])
  | .farm h ws, .pipe _ =>
    if h.ordered then .abort
    else if h.getColl.isSome then .ub else .ok (some [.farm h ws])
  | .leaf n, .farm h ws => (seqFarm n h).bind fun h' => .ok (some [.farm h' ws])
  | .pipe _, .farm h ws => if h.emitter.isSome then .ub else .ok (some [.farm h ws])
  | s1, s2 => .ok (some [s1, s2])

/-! ### What the caller asked for -/

/-- The collector the caller asked for. -/
def collOf : Option (Node α) → Coll α
  | none => .dflt
  | some n => .node n

/-- The pipeline that `combine_farms` stands for: the first farm with `node1` as its collector, then the second one
with `node2` as its emitter. -/
def asked (h1 : Hdr α) (ws1 : List (Sk α)) (node1 : Option (Node α))
    (h2 : Hdr α) (ws2 : List (Sk α)) (node2 : Option (Node α)) : Sk α :=
  .pipe [.farm { h1 with coll := collOf node1 } ws1, .farm { h2 with emitter := node2 } ws2]

end FF.Opt
