/-
Specification side of C60 (`optimize_static`, `ff/optimize.hpp`).

A *network* is a tree of building blocks: sequential nodes, pipelines, farms and
all-to-alls (`/repo/ff/node.hpp`, `pipeline.hpp`, `farm.hpp`, `all2all.hpp`).  This file
says which output streams a network may produce for a given input stream.  It mentions no
part of the optimiser.

* A sequential node is a deterministic stream function: what it emits for an item may
  depend on every item it has received before.
* A pipeline composes its stages.
* A farm applies its emitter, deals the items to its workers in an arbitrary way (unless the
  emitter is a multi-output node that names the worker), and merges the workers' outputs in an
  arbitrary interleaving; an ordered farm with a collector merges them in the order of
  the items that caused them.  The collector is then applied.  `prepare` refuses a farm without workers
  (farm.hpp 217-220) and an ordered farm whose workers are not standard nodes (farm.hpp 243-247):
  these have no behaviour.
* An all-to-all deals its input over the first set, every first-set worker deals its
  output over the second set, the second set's outputs are interleaved.

Simplifications: what a node sends from `eosnotify` is not represented here (how often it is
called is the subject of `Verif.Opt.Counter`); feedback channels are not represented; a multi-input node sees one
stream and cannot ask from which channel an item came; only a sequential first-set worker
of an all-to-all chooses destinations, other first-set workers deal arbitrarily; in a farm with
several workers that are all-to-alls the emitter names workers, not first-set nodes.
-/
import Verif.Common.Trans

namespace FF.Opt

/-- A sequential node, `ff_node`/`ff_minode`/`ff_monode`/`ff_comb` (`node.hpp`, `multinode.hpp`,
`combine.hpp`).  `out h x`: what `svc` sends for `x` after the inputs `h` (oldest first);
an output may name the destination channel (`ff_send_out_to`).  `mi`, `mo`, `comp`:
`isMultiInput`, `isMultiOutput`, `isComp` (node.hpp 1232-1237).  `once`: the node has been wrapped by
`internal_mi_transformer`, so that its `eosnotify` is called once however many channels it
reads (gt.hpp 579-583, multinode.hpp 1193-1201). -/
structure Node (α : Type) where
  out : List α → α → List (Option Nat × α)
  mi : Bool := false
  mo : Bool := false
  comp : Bool := false
  once : Bool := false

/-- The items of a routed stream. -/
def vals {α : Type} (zs : List (Option Nat × α)) : List α := zs.map Prod.snd

/-- A stream whose items name no destination. -/
def free {α : Type} (xs : List α) : List (Option Nat × α) := xs.map (fun x => (none, x))

variable {α : Type}

/-- What a node that has already received `h` sends for the items `xs`. -/
def Node.run (n : Node α) : List α → List α → List (Option Nat × α)
  | _, [] => []
  | h, x :: xs => n.out h x ++ n.run (h ++ [x]) xs

/-- What a node sends in a whole stream. -/
def Node.beh (n : Node α) (xs : List α) : List (Option Nat × α) :=
  n.run [] xs

/-- What a node sends when it is used as emitter or first-set worker: only a multi-output node names
destinations (a standard node is wrapped by `internal_mo_transformer`, multinode.hpp). -/
def Node.emits (n : Node α) (xs : List α) : List (Option Nat × α) :=
  if n.mo then n.beh xs else free (vals (n.beh xs))

/-- The collector of a farm, `ff_farm::collector` and `collector_removed` (farm.hpp 1255-1285,
1693-1696): absent or removed, the default gatherer, a user node. -/
inductive Coll (α : Type) where
  | none
  | dflt
  | node (n : Node α)

/-- The parts of a farm other than its workers (farm.hpp). -/
structure Hdr (α : Type) where
  emitter : Option (Node α) := none
  coll : Coll α := .dflt
  ordered : Bool := false
  ondemand : Nat := 0

/-- Networks. -/
inductive Sk (α : Type) where
  | leaf (n : Node α)
  | pipe (ss : List (Sk α))
  | farm (h : Hdr α) (ws : List (Sk α))
  | a2a (l r : List (Sk α))

/-- `Split zs zss`: the stream `zs` is dealt to the channels `zss`, each item going to one
channel, in order, and to the channel it names if it names one. -/
inductive Split {β : Type} : List (Option Nat × β) → List (List β) → Prop
  | nil (k : Nat) : Split [] (List.replicate k [])
  | cons {r : Option Nat} {x : β} {zs : List (Option Nat × β)} {zss : List (List β)} {i : Nat}
      {l : List β} : Split zs zss → zss[i]? = some l → (r = none ∨ r = some i) →
      Split ((r, x) :: zs) (zss.set i (x :: l))

/-- `vs` is an interleaving of the streams `wss`. -/
def Shuffle (wss : List (List α)) (vs : List α) : Prop := Split (free vs) wss

/-- The workers of an ordered farm as plain nodes.  `prepare` (farm.hpp 243-247) refuses ordered farms
whose (first) worker is not a standard node. -/
def stdNodes : List (Sk α) → Option (List (Node α))
  | [] => some []
  | .leaf n :: ws => if n.mi || n.mo || n.comp then none else (stdNodes ws).map (n :: ·)
  | _ :: _ => none

/-- Ordered processing: every item is given to one worker, and the outputs appear in the order
of the items.  `hs` holds what each worker has received. -/
inductive OrdRun (ns : List (Node α)) : List (List α) → List (Option Nat × α) → List α → Prop
  | nil {hs : List (List α)} : OrdRun ns hs [] []
  | cons {hs : List (List α)} {r : Option Nat} {x : α} {zs : List (Option Nat × α)} {ys : List α}
      {i : Nat} {n : Node α} {h : List α} : ns[i]? = some n → hs[i]? = some h →
      (r = none ∨ r = some i) → OrdRun ns (hs.set i (h ++ [x])) zs ys →
      OrdRun ns hs ((r, x) :: zs) (vals (n.out h x) ++ ys)

/-- The stream entering the workers. -/
def emitOut (e : Option (Node α)) (xs : List α) : List (Option Nat × α) :=
  match e with
  | none => free xs
  | some n => n.emits xs

/-- The stream leaving the farm. -/
def collOut (c : Coll α) (vs : List α) : List α :=
  match c with
  | .none => vs
  | .dflt => vs
  | .node n => vals (n.beh vs)

/-- An ordered farm keeps the order only if somebody gathers. -/
def Coll.gathers : Coll α → Bool
  | .none => false
  | _ => true

/-- The streams received by the second set: `rows i` lists what first-set worker `i` sends to each
second-set worker. -/
def Cols (rows : List (List (List α))) (cs : List (List α)) : Prop :=
  ∀ j c, cs[j]? = some c → Shuffle (rows.map (fun row => row.getD j [])) c

/-- Every stream of a list is dealt over `k` channels. -/
def SplitEach (k : Nat) : List (List (Option Nat × α)) → List (List (List α)) → Prop
  | [], [] => True
  | o :: os, row :: rows => (Split o row ∧ row.length = k) ∧ SplitEach k os rows
  | _, _ => False

mutual
/-- `sem s xs ys`: the network `s` may turn the input stream `xs` into the output stream `ys`. -/
def sem : Sk α → List α → List α → Prop
  | .leaf n, xs, ys => ys = vals (n.beh xs)
  | .pipe ss, xs, ys => semPipe ss xs ys
  | .farm h ws, xs, ys =>
    ws ≠ [] ∧ ∃ vs, ys = collOut h.coll vs ∧
      ((∃ ns, h.ordered = true ∧ h.coll.gathers = true ∧ stdNodes ws = some ns ∧
          OrdRun ns (ns.map fun _ => []) (emitOut h.emitter xs) vs) ∨
       ((h.ordered = false ∨ (h.coll.gathers = false ∧ (stdNodes ws).isSome)) ∧
          semWorkers ws (emitOut h.emitter xs) vs))
  | .a2a l r, xs, ys =>
    ∃ zss os rows cs wss, Split (free xs) zss ∧ semRouted l zss os ∧ SplitEach r.length os rows ∧
      cs.length = r.length ∧ Cols rows cs ∧ semEach r cs wss ∧ Shuffle wss ys
/-- The workers of a farm, fed with the stream its emitter sends.  A farm whose only worker is an
all-to-all feeds the first set directly (farm.hpp 292-325), so its emitter names first-set
workers. -/
def semWorkers : List (Sk α) → List (Option Nat × α) → List α → Prop
  | [.a2a l r], zs, ys =>
    ∃ zss os rows cs wss, Split zs zss ∧ semRouted l zss os ∧ SplitEach r.length os rows ∧
      cs.length = r.length ∧ Cols rows cs ∧ semEach r cs wss ∧ Shuffle wss ys
  | ws, zs, ys => ∃ zss wss, Split zs zss ∧ semEach ws zss wss ∧ Shuffle wss ys
/-- Pipelines compose. -/
def semPipe : List (Sk α) → List α → List α → Prop
  | [], xs, ys => ys = xs
  | s :: ss, xs, ys => ∃ zs, sem s xs zs ∧ semPipe ss zs ys
/-- Workers work each on its own stream. -/
def semEach : List (Sk α) → List (List α) → List (List α) → Prop
  | [], [], [] => True
  | s :: ss, x :: xs, y :: ys => sem s x y ∧ semEach ss xs ys
  | _, _, _ => False
/-- First-set workers: the same, with destinations. -/
def semRouted : List (Sk α) → List (List α) → List (List (Option Nat × α)) → Prop
  | [], [], [] => True
  | .leaf n :: ss, x :: xs, o :: os => o = n.emits x ∧ semRouted ss xs os
  | s :: ss, x :: xs, o :: os => (∃ y, sem s x y ∧ o = free y) ∧ semRouted ss xs os
  | _, _, _ => False
end

/-- `s'` does nothing `s` could not have done. -/
def Refines (s' s : Sk α) : Prop := ∀ xs ys, sem s' xs ys → sem s xs ys

end FF.Opt
