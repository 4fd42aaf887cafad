/-
Model of the functions that put a sequential node at an end of a network
(`/repo/ff/optimize.hpp` 110-328): `combine_with_emitter`, `combine_with_collector`,
`combine_with_firststage`, `combine_with_laststage`, `combine_right_with_farm`,
`combine_right_with_a2a` and `combine_left_with_a2a`, on the networks of `Verif.Opt.Spec`.

A call gives the returned code (`true` for 0, `false` for -1) and the network as the call left it.
The node is sequential (the functions refuse parallel blocks).  A copy `new T(*node)` behaves as the node
does at the beginning of a stream.  Not modelled here: who deletes the nodes (`Verif.Own`).
Recursion takes fuel; `loop` is returned when it runs out.
-/
import Verif.Opt.Refine

namespace FF.Opt

variable {α : Type}

/-- `internal_mo_transformer(e)` (multinode.hpp): a standard node made multi-output; what it sends
names no destination. -/
def moNode (e : Node α) : Node α :=
  { e with out := fun h x => free (vals (e.out h x)), mo := true, comp := false }

/-- `combine_with_emitter` (optimize.hpp 115-142): the node becomes the emitter, or is put before it. -/
def combEmit (h : Hdr α) (node : Node α) : Res (Hdr α) :=
  match h.emitter with
  | none => h.addEmit node
  | some e =>
    Hdr.addEmit { h with emitter := none } (combNode node (if e.mo then e else moNode e))

/-- `combine_with_collector` (optimize.hpp 149-166): refused when `getCollector` is null, which is also so for the
default collector. -/
def combColl (h : Hdr α) (node : Node α) : Bool × Hdr α :=
  match h.getColl with
  | none => (false, h)
  | some c => (true, h.removeColl.addColl (some (combNode c node)))

/-- The kind of a building block (`isPipe`, `isFarm`, `isAll2All`). -/
def Sk.kind : Sk α → Nat
  | .leaf _ => 0
  | .pipe _ => 1
  | .farm _ _ => 2
  | .a2a _ _ => 3

/-- The loops over the workers (optimize.hpp 209-246, 252-272, 278-299): the first worker gets the node, and its
failure is the failure of the call; the others get copies.  What the calls on the others return is added to `r`, and
`r>0?-1:0` is 0 whatever they return (they return 0 or -1).  The others are cast to the kind of the first one. -/
def overWorkers (f : Sk α → Res (Bool × Sk α)) : List (Sk α) → Res (Bool × List (Sk α))
  | [] => .ub
  | w0 :: ws =>
    (f w0).bind fun p =>
    if p.1 then
      (mapR (fun w => if w.kind = w0.kind then (f w).bind fun q => .ok q.2 else .ub) ws).bind
        fun ws' => .ok (true, p.2 :: ws')
    else .ok (false, p.2 :: ws)

/-- The node after a network: `combine_with_laststage` on a pipeline (optimize.hpp 307-328; `flatten` first),
`combine_right_with_farm` (optimize.hpp 200-248), `combine_right_with_a2a` (optimize.hpp 249-274: second-set nodes that
are not pipelines are given to `ff_comb`, which takes only sequential nodes). -/
def combRight : Nat → Node α → Sk α → Res (Bool × Sk α)
  | 0, _, _ => .loop
  | _ + 1, node, .leaf m => .ok (true, .leaf (combNode m node))
  | n + 1, node, .pipe ss =>
    match (flat ss).getLast? with
    | none => .ok (false, .pipe (flat ss))
    | some last =>
      (combRight n node last).bind fun p => .ok (p.1, .pipe ((flat ss).dropLast ++ [p.2]))
  | n + 1, node, .farm h ws =>
    if h.hasColl then .ok ((combColl h node).1, .farm (combColl h node).2 ws)
    else (overWorkers (combRight n node) ws).bind fun p => .ok (p.1, .farm h p.2)
  | n + 1, node, .a2a l r =>
    if (r.head?.map Sk.kind) = some 1 then
      (overWorkers (combRight n node) r).bind fun p => .ok (p.1, .a2a l p.2)
    else
      (overWorkers (fun w => (combSk w (.leaf node)).bind fun c => .ok (true, c)) r).bind
        fun p => .ok (p.1, .a2a l p.2)

/-- The node before a network: `combine_with_firststage` on a pipeline (optimize.hpp 173-197),
`combine_with_emitter` on a farm, `combine_left_with_a2a` (optimize.hpp 275-301). -/
def combLeft : Nat → Node α → Sk α → Res (Bool × Sk α)
  | 0, _, _ => .loop
  | _ + 1, node, .leaf m => .ok (true, .leaf (combNode node m))
  | n + 1, node, .pipe ss =>
    match flat ss with
    | [] => .ok (false, .pipe [])
    | first :: rest => (combLeft n node first).bind fun p => .ok (p.1, .pipe (p.2 :: rest))
  | _ + 1, node, .farm h ws => (combEmit h node).bind fun h' => .ok (true, .farm h' ws)
  | n + 1, node, .a2a l r =>
    if (l.head?.map Sk.kind) = some 1 then
      (overWorkers (combLeft n node) l).bind fun p => .ok (p.1, .a2a p.2 r)
    else
      (overWorkers (fun w => (combSk (.leaf node) w).bind fun c => .ok (true, c)) l).bind
        fun p => .ok (p.1, .a2a p.2 r)

/-! ### What is claimed -/

/-- Two networks allow the same outputs for every input. -/
def Same (s' s : Sk α) : Prop := ∀ xs ys, sem s' xs ys ↔ sem s xs ys

/-- The node has no state and sends at most one item for an item: a map or a filter. -/
def Node.Maps (n : Node α) (f : α → Option α) : Prop := ∀ h x, vals (n.out h x) = (f x).toList

/-- The node has no state. -/
def Node.Stateless (n : Node α) (f : α → List α) : Prop := ∀ h x, vals (n.out h x) = f x

/-- Networks at whose end a node can be put: every end is a sequential node or the user's collector of a farm,
and workers are of the same kind. -/
inductive CanRight : Sk α → Prop
  | leaf (m : Node α) : CanRight (.leaf m)
  | pipe {ss a : List (Sk α)} {last : Sk α} : flat ss = a ++ [last] → CanRight last →
      CanRight (.pipe ss)
  | coll {h : Hdr α} {c : Node α} (ws : List (Sk α)) : h.getColl = some c → CanRight (.farm h ws)
  | workers {h : Hdr α} {w0 : Sk α} {ws : List (Sk α)} : h.hasColl = false →
      (∀ w ∈ ws, w.kind = w0.kind) → (∀ w ∈ w0 :: ws, CanRight w) → CanRight (.farm h (w0 :: ws))
  | a2a {l r : List (Sk α)} : r ≠ [] → (∀ w ∈ r, w.kind = 0) ∨ (∀ w ∈ r, w.kind = 1) →
      (∀ w ∈ r, CanRight w) → CanRight (.a2a l r)

/-- The node can be the first filter of a farm with that emitter: a composition that does not end with a multi-output
node cannot be an emitter. -/
def EmitOk (node : Node α) (h : Hdr α) : Prop :=
  h.emitter.isSome = true ∨ (node.mo = false ∧ node.comp = false)

/-- Networks before which the node can be put. -/
inductive CanLeft (node : Node α) : Sk α → Prop
  | leaf (m : Node α) : CanLeft node (.leaf m)
  | pipe {ss rest : List (Sk α)} {first : Sk α} : flat ss = first :: rest → CanLeft node first →
      CanLeft node (.pipe ss)
  | farm {h : Hdr α} (ws : List (Sk α)) : EmitOk node h → CanLeft node (.farm h ws)
  | a2a {l r : List (Sk α)} : l ≠ [] → (∀ w ∈ l, w.kind = 0) ∨ (∀ w ∈ l, w.kind = 1) →
      (∀ w ∈ l, CanLeft node w) → CanLeft node (.a2a l r)

/-- The network ends with one sequential node. -/
inductive OneEnd : Sk α → Prop
  | leaf (m : Node α) : OneEnd (.leaf m)
  | pipe {ss a : List (Sk α)} {last : Sk α} : flat ss = a ++ [last] → OneEnd last →
      OneEnd (.pipe ss)
  | coll {h : Hdr α} {c : Node α} (ws : List (Sk α)) : h.getColl = some c → OneEnd (.farm h ws)

/-- The network starts with one sequential node. -/
inductive OneStart (node : Node α) : Sk α → Prop
  | leaf (m : Node α) : OneStart node (.leaf m)
  | pipe {ss rest : List (Sk α)} {first : Sk α} : flat ss = first :: rest → OneStart node first →
      OneStart node (.pipe ss)
  | farm {h : Hdr α} (ws : List (Sk α)) : EmitOk node h → OneStart node (.farm h ws)

end FF.Opt
