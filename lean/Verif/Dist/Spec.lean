/-
Specification for C64: the channels of a network, read off its structure, without any search.
-/
import Verif.Dist.Model

namespace FF.Dist

/-- Every node of `a` sends to every node of `b`. -/
def pairs (a b : List Nat) : List (Nat × Nat) := a.flatMap fun x => b.map fun y => (x, y)

/-- A collectorless farm followed by an all-to-all with as many first-set nodes as the farm has workers: worker
`i` sends to first-set node `i` only. -/
def p2p : Net → Net → Bool
  | .farm _ _ ws .none, .a2a _ _ fs _ => ws.length == fs.length
  | _, _ => false

/-- The workers of a building block. -/
def workers : Net → List Net
  | .farm _ _ ws _ => ws
  | _ => []

/-- The first set of a building block. -/
def firstSet : Net → List Net
  | .a2a _ _ fs _ => fs
  | _ => []

/-- One-to-one channels. -/
def zipLink : List Net → List Net → List (Nat × Nat)
  | w :: ws, f :: fs => pairs (outs w) (ins f) ++ zipLink ws fs
  | _, _ => []

/-- The channels between two consecutive stages. -/
def link (s t : Net) : List (Nat × Nat) :=
  if p2p s t then zipLink (workers s) (firstSet t) else pairs (outs s) (ins t)

/-- The channels between the consecutive stages of a pipeline. -/
def links : List Net → List (Nat × Nat)
  | [] => []
  | [_] => []
  | s :: t :: ts => link s t ++ links (t :: ts)

mutual
/-- All forward channels of a network, as pairs (sender, receiver). -/
def fwd : Net → List (Nat × Nat)
  | .seq _ _ _ => []
  | .comb _ _ _ => []
  | .pipe _ _ ss => fwdL ss ++ links ss
  | .a2a _ _ fs ss => fwdL fs ++ (fwdL ss ++ pairs (outsL fs) (insL ss))
  | .farm _ em ws co => fwdL ws ++ (pairs em.toList (insL ws) ++ pairs (outsL ws) co.node)
/-- Of all members. -/
def fwdL : List Net → List (Nat × Nat)
  | [] => []
  | t :: ts => fwd t ++ fwdL ts
end

mutual
/-- All feedback channels of a network: a pipeline or an all-to-all with wrap-around sends back to its own
beginning. -/
def fbk : Net → List (Nat × Nat)
  | .seq _ _ _ => []
  | .comb _ _ _ => []
  | .pipe _ w ss => fbkL ss ++ (if w then pairs (outsLast ss) (insHd ss) else [])
  | .a2a _ w fs ss => fbkL fs ++ (fbkL ss ++ (if w then pairs (outsL ss) (insL fs) else []))
  | .farm _ _ ws _ => fbkL ws
/-- Of all members. -/
def fbkL : List Net → List (Nat × Nat)
  | [] => []
  | t :: ts => fbk t ++ fbkL ts
end

mutual
/-- The nodes that send: every sequential node, the last component of a combination, the emitter and the collector
of a farm. -/
def senders : Net → List Nat
  | .seq i _ _ => [i]
  | .comb _ _ r => outs r
  | .pipe _ _ ss => sendersL ss
  | .a2a _ _ fs ss => sendersL fs ++ sendersL ss
  | .farm _ em ws co => em.toList ++ (sendersL ws ++ co.node)
/-- Of all members. -/
def sendersL : List Net → List Nat
  | [] => []
  | t :: ts => senders t ++ sendersL ts
end

mutual
/-- The nodes that receive: every sequential node, the first component of a combination, a farm (for its emitter)
and its collector. -/
def receivers : Net → List Nat
  | .seq i _ _ => [i]
  | .comb _ l _ => ins l
  | .pipe _ _ ss => receiversL ss
  | .a2a _ _ fs ss => receiversL fs ++ receiversL ss
  | .farm i _ ws co => i :: (receiversL ws ++ co.node)
/-- Of all members. -/
def receiversL : List Net → List Nat
  | [] => []
  | t :: ts => receivers t ++ receiversL ts
end

/-- Consecutive stages whose channels both sides compute alike: when a collectorless farm precedes an all-to-all,
each of its workers has one output, and if the numbers match the all-to-all does not wrap around. -/
def LinkOk : Net → Net → Prop
  | .farm _ _ ws .none, .a2a _ w fs _ => (∀ t ∈ ws, (outs t).length = 1) ∧ (ws.length = fs.length → w = false)
  | _, _ => True

/-- All consecutive stages. -/
def LinksOk : List Net → Prop
  | [] => True
  | [_] => True
  | s :: t :: ts => LinkOk s t ∧ LinksOk (t :: ts)

mutual
/-- The networks for which the cut works: combinations of two sequential nodes, no default collector, and
`LinkOk` for all consecutive stages. -/
def Good : Net → Prop
  | .seq _ _ _ => True
  | .comb _ l r => (∃ i a b, l = .seq i a b) ∧ (∃ i a b, r = .seq i a b)
  | .pipe _ _ ss => LinksOk ss ∧ GoodL ss
  | .a2a _ _ fs ss => GoodL fs ∧ GoodL ss
  | .farm _ _ ws co => co ≠ .dflt ∧ GoodL ws
/-- All members. -/
def GoodL : List Net → Prop
  | [] => True
  | t :: ts => Good t ∧ GoodL ts
end

end FF.Dist
