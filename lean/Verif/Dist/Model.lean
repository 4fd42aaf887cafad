/-
How a network is cut into distributed groups (C64): `/repo/ff/distributed/ff_dutils.hpp` 118-445,
`/repo/ff/distributed/ff_dgroups.hpp` 331-450, `/repo/ff/graph_utils.hpp` 104-160.

Every process of a distributed run holds the whole network and works out, for the nodes of its own group, from
which nodes they receive (`getFeeders`) and to which nodes they send (`getConsumers`).  From these it derives the
groups to connect to and the groups to wait for.

Simplifications: a node is known by a number that stands for its address; the buffer lengths of on-demand
scheduling (third component of the results) are left out; ordered farms, on which `getBB` aborts, are left out.
The network has not been prepared yet, so `get_in_nodes`/`get_out_nodes` of sequential nodes give the node itself.
-/
import Mathlib.Data.List.Basic
import Mathlib.Data.List.Nodup
import Mathlib.Tactic.Common

namespace FF.Dist

/-- The collector of a farm (farm.hpp 1185-1200, 1281, 1693): none, the default one (`add_collector(nullptr)`),
or a node of the user. -/
inductive Coll
  | none
  | dflt
  | user (id : Nat)
  deriving DecidableEq, Repr

/-- A network before it is prepared.  `seq id mi mo` is a sequential node (`mi`: multi-input, `mo`: multi-output);
`comb` is `ff_comb` with its left and right components (combine.hpp 93-108, 207-212); `pipe` and `a2a` carry the
wrap-around flag; a farm has an optional emitter of the user. -/
inductive Net
  | seq (id : Nat) (mi mo : Bool)
  | comb (id : Nat) (l r : Net)
  | pipe (id : Nat) (wrap : Bool) (ss : List Net)
  | a2a (id : Nat) (wrap : Bool) (fs ss : List Net)
  | farm (id : Nat) (em : Option Nat) (ws : List Net) (co : Coll)

namespace Net

/-- The address of a node. -/
def id : Net → Nat
  | seq i _ _ => i
  | comb i _ _ => i
  | pipe i _ _ => i
  | a2a i _ _ _ => i
  | farm i _ _ _ => i

/-- `isComp` (combine.hpp 193). -/
def isComb : Net → Bool
  | comb _ _ _ => true
  | _ => false

end Net

/-- The address of the collector, if the user gave one: `getCollector` (farm.hpp 1693-1696). -/
def Coll.node : Coll → List Nat
  | .user c => [c]
  | _ => []

mutual
/-- All addresses in a network. -/
def ids : Net → List Nat
  | .seq i _ _ => [i]
  | .comb i l r => i :: (ids l ++ ids r)
  | .pipe i _ ss => i :: idsL ss
  | .a2a i _ fs ss => i :: (idsL fs ++ idsL ss)
  | .farm i em ws co => i :: (em.toList ++ (idsL ws ++ co.node))
/-- All addresses in a list of networks. -/
def idsL : List Net → List Nat
  | [] => []
  | t :: ts => ids t ++ idsL ts
end

mutual
/-- `get_in_nodes`: node.hpp 1080, combine.hpp 647-652, pipeline.hpp 1157-1160 (first stage), all2all.hpp 689-695
(first set), farm.hpp 1751-1753 (the farm itself). -/
def ins : Net → List Nat
  | .seq i _ _ => [i]
  | .comb _ l _ => ins l
  | .pipe _ _ ss => insHd ss
  | .a2a _ _ fs _ => insL fs
  | .farm i _ _ _ => [i]
/-- Of the first stage of a pipeline. -/
def insHd : List Net → List Nat
  | [] => []
  | t :: _ => ins t
/-- Of all members of a set. -/
def insL : List Net → List Nat
  | [] => []
  | t :: ts => ins t ++ insL ts
end

mutual
/-- `get_out_nodes`: node.hpp 1079, combine.hpp 640-645, pipeline.hpp 1144-1148 (last stage), all2all.hpp 671-682
(second set), farm.hpp 1728-1744 (the collector, else the workers; for the default collector the farm itself, after
an assertion that holds only once the farm is prepared). -/
def outs : Net → List Nat
  | .seq i _ _ => [i]
  | .comb _ _ r => outs r
  | .pipe _ _ ss => outsLast ss
  | .a2a _ _ _ ss => outsL ss
  | .farm i _ ws co =>
    match co with
    | .none => outsL ws
    | .dflt => [i]
    | .user c => [c]
/-- Of the last stage of a pipeline. -/
def outsLast : List Net → List Nat
  | [] => []
  | [t] => outs t
  | _ :: t :: ts => outsLast (t :: ts)
/-- Of all members of a set. -/
def outsL : List Net → List Nat
  | [] => []
  | t :: ts => outs t ++ outsL ts
end

/-- `ff_comb::getFirst` (combine.hpp 196-200): the first sequential node of a combination. -/
def firstId : Net → Nat
  | .comb _ l _ => firstId l
  | t => t.id

/-- `ff_comb::getLast` (combine.hpp 202-206). -/
def lastId : Net → Nat
  | .comb _ _ r => lastId r
  | t => t.id

mutual
/-- `getBB(startnode, n)` (graph_utils.hpp 104-160): the innermost building block that contains `n`; `n` itself if
the search starts there.  In a combination whose component is a combination too, the search returns the component
(lines 144 and 150), where everywhere else the enclosing block is returned. -/
def getBB : Net → Nat → Option Net
  | .seq i mi mo, n => if i = n then some (.seq i mi mo) else none
  | .comb i l r, n =>
    if i = n then some (.comb i l r)
    else
      match (if l.isComb then (getBB l n).map (fun b => if b.id = n then l else b)
             else if firstId l = n then some (.comb i l r) else none) with
      | some b => some b
      | none =>
        if r.isComb then (getBB r n).map (fun b => if b.id = n then r else b)
        else if lastId r = n then some (.comb i l r) else none
  | .pipe i w ss, n => if i = n then some (.pipe i w ss) else getBBL (.pipe i w ss) ss n
  | .a2a i w fs ss, n =>
    if i = n then some (.a2a i w fs ss)
    else
      match getBBL (.a2a i w fs ss) fs n with
      | some b => some b
      | none => getBBL (.a2a i w fs ss) ss n
  | .farm i em ws co, n =>
    if i = n then some (.farm i em ws co)
    else if em = some n then some (.farm i em ws co)
    else if co = .user n then some (.farm i em ws co)
    else getBBL (.farm i em ws co) ws n
/-- The loops `for (...) { r = getBB(V[i], n); if (r) return (r==n) ? bb : r; }` of `getBB`. -/
def getBBL (bb : Net) : List Net → Nat → Option Net
  | [], _ => none
  | t :: ts, n =>
    match getBB t n with
    | some b => some (if b.id = n then bb else b)
    | none => getBBL bb ts n
end

/-- `get_nextstage` (pipeline.hpp 1131-1136). -/
def nextStage : List Net → Nat → Option Net
  | [], _ => none
  | t :: ts, n => if t.id = n then ts.head? else nextStage ts n

/-- `get_prevstage` (pipeline.hpp 1138-1142). -/
def prevStage : List Net → Nat → Option Net
  | [], _ => none
  | t :: ts, n =>
    if t.id = n then none
    else
      match ts with
      | [] => none
      | u :: us => if u.id = n then some t else prevStage (u :: us) n

/-- The position of a node in a set: the loops over `workers` and `firstSet` in ff_dutils.hpp 165-166, 234-235. -/
def index : List Net → Nat → Option Nat
  | [], _ => none
  | t :: ts, n => if t.id = n then some 0 else (index ts n).map (· + 1)

/-- `out += rec` (ff_dutils.hpp 113-118): feedback channels found here, then those found further out. -/
def addFb (fb : List Nat) (r : List Nat × List Nat) : List Nat × List Nat := (r.1, fb ++ r.2)

/-- `getConsumers(n, root)` (ff_dutils.hpp 121-204): forward and feedback consumers of `n`.  The first argument
bounds the depth of the recursion; `none` is returned when it is used up. -/
def getConsumers : Nat → Net → Nat → Option (List Nat × List Nat)
  | 0, _, _ => none
  | f + 1, root, n =>
    if n = root.id then some ([], [])
    else
      match getBB root n with
      | none => some ([], [])
      | some (.pipe i w ss) =>
        match nextStage ss n with
        | some s => some (ins s, [])
        | none => (getConsumers f root i).map (addFb (if w then ins (.pipe i w ss) else []))
      | some (.a2a i w fs ss) =>
        if (index fs n).isSome then some (insL ss, [])
        else (getConsumers f root i).map (addFb (if w then ins (.a2a i w fs ss) else []))
      | some (.farm i em ws co) =>
        if em = some n then some (insL ws, [])
        else
          match index ws n with
          | some k =>
            match co with
            | .user c => some ([c], [])
            | _ =>
              match getBB root i with
              | some (.pipe _ _ ss') =>
                match nextStage ss' i with
                | some (.a2a _ _ fs' _) =>
                  if ws.length = fs'.length then
                    match fs'[k]? with
                    | some u => some (ins u, [])
                    | none => some ([], [])
                  else getConsumers f root i
                | _ => getConsumers f root i
              | _ => getConsumers f root i
          | none => if co = .user n then getConsumers f root i else some ([], [])
      | some (.comb i _ _) => getConsumers f root i
      | some (.seq _ _ _) => some ([], [])

/-- `getFeeders(n, root)` (ff_dutils.hpp 206-293). -/
def getFeeders : Nat → Net → Nat → Option (List Nat × List Nat)
  | 0, _, _ => none
  | f + 1, root, n =>
    if n = root.id then some ([], [])
    else
      match getBB root n with
      | none => some ([], [])
      | some (.pipe i w ss) =>
        match prevStage ss n with
        | some s => some (outs s, [])
        | none => (getFeeders f root i).map (addFb (if w then outs (.pipe i w ss) else []))
      | some (.a2a i w fs ss) =>
        if (index ss n).isSome then some (outsL fs, [])
        else
          let dflt := (getFeeders f root i).map (addFb (if w then outs (.a2a i w fs ss) else []))
          match index fs n with
          | some k =>
            match getBB root i with
            | some (.pipe _ _ ss') =>
              match prevStage ss' i with
              | some (.farm _ _ ws .none) =>
                if (outsL ws).length = fs.length then
                  match (outsL ws)[k]? with
                  | some x => some ([x], [])
                  | none => some ([], [])
                else dflt
              | _ => dflt
            | _ => dflt
          | none => dflt
      | some (.farm i em ws co) =>
        if em = some n then getFeeders f root i
        else if (index ws n).isSome then some (em.toList, [])
        else if co = .user n then some (outsL ws, [])
        else some ([], [])
      | some (.comb i _ _) => getFeeders f root i
      | some (.seq _ _ _) => some ([], [])

end FF.Dist
