import Verif.Common.Trans
/-!
# The service loop of a node, combined nodes, and pipelines

Source: `/repo/ff/node.hpp` 73-82 (tags), 1438-1514 (`thWorker::svc`),
`/repo/ff/combine.hpp` 515-536 (`ff_comb::svc`), 545-558 (`push_comp_local`), 613-638
(`eosnotify`, `propagateEOS`), `/repo/ff/pipeline.hpp` 391-560 (stages connected by one queue each).

The user's code is arbitrary: a node is a state, a function `svc` that returns the new state, the
list of messages it sent with `ff_send_out` during the call and its return value, and `eosnotify`.
Queues between stages are atomic bounded FIFO queues (this is what C01/C08/C10 prove of them).
Not modelled: tracing, timers, `FF_TASK_CALLBACK`, blocking mode (condition variables), multi-input
and multi-output nodes (see the farm models), feedback channels.
-/
namespace FF.Node

/-- What travels on a channel or is returned by `svc`: `NULL`, a task, or one of the reserved
values (node.hpp 73-82). -/
inductive Msg (D : Type) where
  | nul
  | data (d : D)
  | eos
  | eosw
  | eosnf
  | goon
  | goout
  | flush
deriving DecidableEq, Repr

variable {D : Type}

/-- end-of-stream marks as tested at node.hpp 1461-1462 -/
def Msg.isMark : Msg D → Bool
  | .eos | .eosw | .eosnf => true
  | _ => false

def Msg.isData : Msg D → Bool
  | .data _ => true
  | _ => false

/-- A user node. -/
structure Node (D : Type) where
  σ : Type
  init : σ
  /-- `isComp()` -/
  comp : Bool
  /-- `skipfirstpop()`: the node is a source (combine.hpp 524) -/
  src : Bool
  /-- new state, messages sent during the call, return value -/
  svc : σ → Msg D → σ × List (Msg D) × Msg D
  /-- `eosnotify`: new state and messages sent -/
  eosn : σ → σ × List (Msg D)

/-- State of the service loop. -/
structure L (n : Node D) where
  st : n.σ
  /-- end-of-stream marks still expected (node.hpp 1446) -/
  neos : Nat
  exited : Bool
  /-- ghost: the tasks `svc` was called on -/
  calls : List (Msg D)

def L.start (n : Node D) (neos : Nat) : L n := { st := n.init, neos, exited := false, calls := [] }

/-- What the loop pushes for a return value (node.hpp 1487-1503): nothing for `GO_ON`,
`EOS_NOFREEZE`, `FLUSH` and `GO_OUT`; `NULL` is turned into `EOS`. -/
def visible : Msg D → List (Msg D)
  | .goon | .eosnf | .flush | .goout => []
  | .nul => [.eos]
  | m => [m]

/-- Does the loop go on after this return value (node.hpp 1487-1496)? -/
def continues : Msg D → Bool
  | .nul | .eos | .eosw | .eosnf | .goout => false
  | _ => true

/-- An end-of-stream mark was popped (node.hpp 1461-1473); `fwd` is what is propagated. -/
def markBody (n : Node D) (l : L n) (fwd : List (Msg D)) : L n × List (Msg D) :=
  -- if (--neos > 0) continue;
  if l.neos - 1 > 0 then ({ l with neos := l.neos - 1 }, [])
  else ({ l with st := (n.eosn l.st).1, neos := l.neos - 1, exited := true },
    (n.eosn l.st).2 ++ fwd)

/-- `svc` is called on `task` (node.hpp 1483-1503). -/
def svcBody (n : Node D) (l : L n) (task : Msg D) : L n × List (Msg D) :=
  ({ l with
      st := (n.svc l.st task).1
      exited := !continues (n.svc l.st task).2.2
      calls := l.calls ++ [task] },
    (n.svc l.st task).2.1 ++ visible (n.svc l.st task).2.2)

/-- One iteration of `do { … } while(!exit)` on a task popped from the input (node.hpp 1454-1504);
the second component is what goes downstream, in order. -/
def body (n : Node D) (l : L n) : Msg D → L n × List (Msg D)
  | .eos => markBody n l [.eos]
  | .eosw => markBody n l [.eosw]
  | .eosnf => markBody n l []
  | .goout => ({ l with exited := true }, [])
  | task => svcBody n l task

/-- The loop on the messages of its input channel, until it exits or the channel has nothing left
(then the thread waits).  A source node (no input channel) is the case in which every message is
`NULL` (node.hpp 1454: `svc(NULL)` again and again). -/
def run (n : Node D) (l : L n) : List (Msg D) → L n × List (Msg D)
  | [] => (l, [])
  | m :: ms =>
    if l.exited then (l, [])
    else
      let r := body n l m
      let r' := run n r.1 ms
      (r'.1, r.2 ++ r'.2)

/-- The stream function of a node that expects one end-of-stream mark. -/
def stream (n : Node D) (inp : List (Msg D)) : List (Msg D) := (run n (L.start n 1) inp).2

/-! ## Combined nodes -/

/-- return values that `ff_comb::svc` and `push_comp_local` do not forward (combine.hpp 527, 552) -/
def dropped : Msg D → Bool
  | .goon | .goout | .eosnf | .flush => true
  | _ => false

/-- `push_comp_local` (combine.hpp 545-558): a message sent by the first node reaches the second.
An `EOS` runs the second node's `eosnotify` and is propagated; anything else is given to `svc`,
whose result is sent on (an `EOS` result is propagated). -/
def feed (b : Node D) (s : b.σ) : Msg D → b.σ × List (Msg D)
  | .eos => ((b.eosn s).1, (b.eosn s).2 ++ [.eos])
  | m => ((b.svc s m).1,
      (b.svc s m).2.1 ++ (if dropped (b.svc s m).2.2 then [] else [(b.svc s m).2.2]))

def feedAll (b : Node D) (s : b.σ) : List (Msg D) → b.σ × List (Msg D)
  | [] => (s, [])
  | m :: ms =>
    let r := feed b s m
    let r' := feedAll b r.1 ms
    (r'.1, r.2 ++ r'.2)

/-- The first node's call (combine.hpp 519-525): a standard node is not called on `NULL` unless it is
a source; `ret` stays `GO_ON` then. -/
def callFirst (a : Node D) (s : a.σ) (task : Msg D) : a.σ × List (Msg D) × Msg D :=
  if a.comp || a.src then a.svc s task
  else match task with
    | .nul => (s, [], .goon)
    | t => a.svc s t

/-- What the first node emits in one call, in order (combine.hpp 519-529): what it sent, then its
return value unless it is itself a combined node or the value is not forwarded. -/
def firstOut (a : Node D) (sends : List (Msg D)) (r : Msg D) : List (Msg D) :=
  sends ++ (if a.comp || dropped r then [] else [r])

/-- The value `ff_comb::svc` returns (combine.hpp 515-536). -/
def combRet (a : Node D) (r : Msg D) : Msg D :=
  if a.comp then r
  else
    match r with
    | .eos => .goout
    | _ => .goon

/-- `ff_comb` of two nodes (combine.hpp 515-638; the first node is a standard node with an input
channel, or a source). -/
def comb (a b : Node D) : Node D where
  σ := a.σ × b.σ
  init := (a.init, b.init)
  comp := true
  src := a.src
  svc := fun s task =>
    let r := callFirst a s.1 task
    let f := feedAll b s.2 (firstOut a r.2.1 r.2.2)
    ((r.1, f.1), f.2, combRet a r.2.2)
  eosn := fun s =>
    let e := a.eosn s.1
    let f := feedAll b s.2 e.2
    let e' := b.eosn f.1
    ((e.1, e'.1), f.2 ++ e'.2)

/-! ## Pipelines -/

/-- State of a pipeline.  The local state of a stage is a function of what it has consumed, so only
that is kept. -/
structure P (D : Type) where
  /-- content of the input channel of each stage; channel `n` is the output -/
  chan : Nat → List (Msg D)
  /-- messages each stage has popped so far -/
  consumed : Nat → List (Msg D)
  /-- messages each stage has produced and not pushed yet -/
  pending : Nat → List (Msg D)
  /-- ghost: what has been pushed so far by each stage -/
  pushed : Nat → List (Msg D)

def upd {α : Type} (f : Nat → α) (i : Nat) (v : α) : Nat → α := fun j => if j = i then v else f j

/-- `n` stages; `inp` is already in the first channel. -/
def P.start (inp : List (Msg D)) : P D :=
  { chan := upd (fun _ => []) 0 inp, consumed := fun _ => [], pending := fun _ => [],
    pushed := fun _ => [] }

inductive PAct where
  /-- stage `i` pops and executes one iteration of its loop -/
  | pop (i : Nat)
  /-- stage `i` pushes its next produced message -/
  | push (i : Nat)

/-- the loop state of a node after consuming `ms` -/
def after (n : Node D) (ms : List (Msg D)) : L n := (run n (L.start n 1) ms).1

/-- One action of a pipeline of `n` stages `nd 0 … nd (n-1)` whose channels have capacities `cap`. -/
def pstep (n : Nat) (nd : Nat → Node D) (cap : Nat → Nat) (s : P D) : PAct → Option (P D)
  | .pop i =>
    if i < n ∧ s.pending i = [] ∧ (after (nd i) (s.consumed i)).exited = false then
      match s.chan i with
      | [] => none
      | m :: ms => some { s with
          chan := upd s.chan i ms
          consumed := upd s.consumed i (s.consumed i ++ [m])
          pending := upd s.pending i (body (nd i) (after (nd i) (s.consumed i)) m).2 }
    else none
  | .push i =>
    if i < n ∧ (i + 1 = n ∨ (s.chan (i + 1)).length < cap (i + 1)) then
      match s.pending i with
      | [] => none
      | m :: ms => some { s with
          pending := upd s.pending i ms
          pushed := upd s.pushed i (s.pushed i ++ [m])
          chan := upd s.chan (i + 1) (s.chan (i + 1) ++ [m]) }
    else none

end FF.Node
