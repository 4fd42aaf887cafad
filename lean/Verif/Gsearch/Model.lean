import Verif.Farm.MasterEnd
/-!
# C78: searching all nodes of a graph

Source: `/repo/ff/gsearch.hpp` (`ff_graphsearch`, lines 74-283): a master-worker farm (the model of C57) whose emitter visits a graph and whose workers compare.  Here
the search for all nodes (`search` with a deque, 249-270; `all` is true): the flag `found` is not read by the emitter and the workers.

Simplifications: graph nodes are values of `V`; `out` is `out_nodes`, which does not change during the search, `id` is `getId()`; an identifier that is
not below `N` makes `bitset::set` throw, the theorems ask for smaller ones; the first run of the farm after `resetqueues` (the channels are empty), with all workers.
-/
namespace FF.Gs
open FF.Node FF.Farm
variable {V : Type}

/-- A worker (gsearch.hpp 78-105) with `all`: it keeps the nodes for which the comparison holds, and sends every node back. -/
def searcher (p : V → Bool) : Node V where
  σ := List V
  init := []
  comp := false
  src := false
  svc := fun st t => match t with
    | .data v => (if p v then st ++ [v] else st, [], .data v)
    | _ => (st, [], .goon)
  eosn := fun st => (st, [])

/-- The loop over the output nodes (gsearch.hpp 149-158): the bits set, the nodes sent. -/
def fresh (id : V → Nat) : (Nat → Bool) → List V → (Nat → Bool) × List V
  | mask, [] => (mask, [])
  | mask, v :: vs =>
    if mask (id v) then fresh id mask vs
    else
      let r := fresh id (fun i => mask i || decide (i = id v)) vs
      (r.1, v :: r.2)

/-- The nodes sent by the first call (gsearch.hpp 128-140): the start and its output nodes; `none` is `NULL`. -/
def roots (out : V → List V) : Option V → List V
  | none => []
  | some v => v :: out v

/-- The members of the emitter; `started` is only used to describe calls that do not occur. -/
structure St where
  started : Bool
  /-- `mask` -/
  mask : Nat → Bool
  /-- `counter`: nodes sent and not yet back -/
  counter : Nat

/-- The emitter (gsearch.hpp 108-170) with `all`; `svc_init` (121-125) gives the initial state.  A second call on `NULL`, and a call on a node when `counter` is 0
(the code would wrap around), do not occur and do nothing here. -/
def explorer (out : V → List V) (id : V → Nat) (start : Option V) : Em V where
  σ := St
  init := ⟨false, fun _ => false, 0⟩
  svc := fun st _ m =>
    if st.started then
      match m with
      | .data v =>
        if st.counter = 0 then (st, [], .goon)
        else
          let r := fresh id st.mask (out v)
          let c := st.counter - 1 + r.2.length
          (⟨true, r.1, c⟩, r.2.map (fun w => Cmd.sched (.data w)), if c = 0 then .nul else .goon)
      | _ => (st, [], .goon)
    else
      match m with
      | .nul =>
        (⟨true, fun i => decide (i ∈ (roots out start).map id), (roots out start).length⟩,
          (roots out start).map (fun w => Cmd.sched (.data w)), if (roots out start).length = 0 then .nul else .goon)
      | _ => (st, [], .goon)
  eosn := fun st _ => (st, [])

/-- The farm of the search: `nw` workers, queues of any capacity `ci`, started by `run_then_freeze` (gsearch.hpp 184-195, 257-258). -/
def farm (p : V → Bool) (nw : Nat) (ci : Nat → Nat) : Cfg V :=
  { n := nw, w := fun _ => searcher p, ci, inpresent := false, frozen := true }

/-- What the workers have found, in the order in which `search` collects it (gsearch.hpp 260-266). -/
def result (p : V → Bool) (nw : Nat) {em : Em V} (s : M em) : List V :=
  (List.range nw).flatMap fun i => (after (searcher p) (s.consumed i)).st

/-! ## Specification -/

/-- `w` can be reached from `v`. -/
inductive Conn (out : V → List V) (v : V) : V → Prop where
  | refl : Conn out v v
  | step {w x : V} : Conn out v w → x ∈ out w → Conn out v x

end FF.Gs
