import Verif.Common.Trans
/-!
# C67: the end of stream of a distributed run

A network of sequential nodes, cut into distributed groups of one level each (`dGroup`,
`distributed/ff_dgroup.hpp` 229-285, 362-371).  Each group is a process with these threads:

* a receiver (`ff_dreceiverMTCL.hpp` 158-292) combined with a `SquareBox` (`ff_dadapters.hpp` 340-404):
  takes messages from the connections and puts them into the queues of the nodes;
* one thread for each node, wrapped by a `WrapperINOUT` (`ff_wrappers.hpp` 43-215), which calls the node;
* a sender (`ff_dsenderMTCL.hpp` 160-362), which is the collector of the wrappers: puts their messages
  on the connections.

The real end mark of a stream does not cross a connection: each node sends a *logical* end mark, a
message of size 0, which reaches all its consumers; a wrapper ends when it has those of all its feeders.

Simplifications.  A connection is a FIFO queue of messages (C42, C43, C46, C52, C53 prove this of the
wire format, the batches, the transfers and the receiver; a message of size 0 flushes its batch) of
bounded capacity (credits, C45).  Where the code chooses by its cursors (which queue the sender looks at,
which possible connection or consumer gets a message without destination) the model allows every
choice.  A message without destination goes to a connection that reaches a consumer of its source; the
case without credit in which the code uses another one is `C54_no_credit_counterexample`.  Every group
has a receiver and a sender; in a group without connections in that direction they only take part in the
termination.  Not modelled: feedback channels, groups of several levels, `FLUSH`, an end mark sent with
`ff_send_out_to`, serialisation (messages carry their data).
-/
namespace FF.Grp
variable {D : Type}

/-- `message2_t`: source, destination (`none`: -1), contents (`none`: size 0, the logical end mark) -/
structure M (D : Type) where
  src : Nat
  dest : Option Nat
  body : Option D
deriving DecidableEq

/-- `MessageAllocator::make_logical_EOS(src)` (`ff_messageAllocator.hpp` 38-43) -/
abbrev leos (y : Nat) : M D := ⟨y, none, none⟩

/-- What a wrapper puts into its queue to the sender: a message or the real end mark. -/
inductive O (D : Type) where
  | msg (m : M D)
  | fin
deriving DecidableEq

/-- return value of `svc` -/
inductive Ret (D : Type) where
  | goon
  | out (d : D)
  | eos

/-- A user node.  What it sends is a list: `(none, d)` is `ff_send_out(d)`, `(some i, d)` is
`ff_send_out_to(d, i)`. -/
structure UNode (D : Type) where
  σ : Type
  init : σ
  /-- `svc(nullptr)`, for a node without input channels -/
  first : σ → σ × List (Option Nat × D) × Ret D
  /-- `svc(d)` with `d` from the input channel with that number -/
  svc : σ → Nat → D → σ × List (Option Nat × D) × Ret D
  /-- `eosnotify(id)` -/
  eosn : σ → Nat → σ × List (Option Nat × D)

/-- The network and its cut into groups. -/
structure Net (D : Type) where
  /-- the nodes are `0, …, n-1`, the groups `0, …, k-1` -/
  n : Nat
  k : Nat
  node : Nat → UNode D
  grp : Nat → Nat
  /-- input and output channels of each node (`channelsDictionary`, C64) -/
  ing : Nat → List Nat
  eg : Nat → List Nat
  /-- capacity of the queue from the receiver to a node (`none`: unbounded, the default), of the queue
  from a node to the sender, of a connection -/
  capI : Nat → Option Nat
  capO : Nat → Nat
  capW : Nat → Nat → Nat

/-- State of a wrapper. -/
structure W (u : UNode D) where
  st : u.σ
  /-- feeders whose logical end mark has been received (`record.eos_received`); their number is
  `eos_received` -/
  seen : List Nat
  exited : Bool

section
variable (N : Net D)

/-- `serialize` (58-97) of what the node sends during a call: dropped by a node without output
channels; `outMap[id].identifier` is the node at the end of output channel `id` (out of bounds otherwise,
excluded by `Good.idx0`, `idx1`, `idx2`). -/
def ser (x : Nat) (outs : List (Option Nat × D)) : List (O D) :=
  if N.eg x = [] then [] else
    outs.map fun p => .msg ⟨x, p.1.map fun i => (N.eg x).getD i 0, some p.2⟩

/-- `serialize(out, -1, true)` (58-97) of the return value: `EOS` becomes the logical and the real end
mark. -/
def serRet (x : Nat) : Ret D → List (O D)
  | .goon => []
  | .out d => if N.eg x = [] then [] else [.msg ⟨x, none, some d⟩]
  | .eos => if N.eg x = [] then [] else [.msg (leos x), .fin]

/-- `inputMap[src].index` (114-117) -/
def chan (x src : Nat) : Nat := (N.ing x).idxOf src

/-- One call of `WrapperINOUT::svc` with a message (145-190).  When all logical end marks are there the
wrapper sends its own, and returns `EOS`: the loop of the gatherer ends and puts the real one
(`gt.hpp` 636-665). -/
def wstep (x : Nat) (w : W (N.node x)) (m : M D) : W (N.node x) × List (O D) :=
  match m.body with
  | none =>
    if m.src ∈ w.seen then (w, []) else
      let r := (N.node x).eosn w.st (chan N x m.src)
      if (N.ing x).length ≤ (m.src :: w.seen).length then
        ({ st := r.1, seen := m.src :: w.seen, exited := true },
          ser N x r.2 ++ (if N.eg x = [] then [] else [.msg (leos x)]) ++ [.fin])
      else ({ st := r.1, seen := m.src :: w.seen, exited := w.exited }, ser N x r.2)
  | some d =>
    let r := (N.node x).svc w.st (chan N x m.src) d
    ({ w with st := r.1 }, ser N x r.2.1 ++ serRet N x r.2.2)

/-- What the wrapper of a node without input channels sends: the first pop is skipped (122-123), so
`svc(nullptr)` is called once; then come `GO_ON` and the real end mark from the load balancer
(`lb.hpp` 973-977), and the gatherer puts the real one (`gt.hpp` 590-594, 604-609, 655-665). -/
def srcOut (x : Nat) : List (O D) :=
  let r := (N.node x).first (N.node x).init
  ser N x r.2.1 ++ serRet N x r.2.2 ++ [.fin]

/-- Connections that reach a consumer of `y` (`src2PossibleDestConnID`, an ordered set,
`ff_dsenderMTCL.hpp` 307-311); connections are named by the group at their other end. -/
def conns (y : Nat) : List Nat := (List.range N.k).filter fun g => (N.eg y).any fun x => N.grp x == g

/-- Nodes of group `g` that are consumers of `y` (`localLBMap`, `ff_dadapters.hpp` 351-365). -/
def poss (g y : Nat) : List Nat :=
  (List.range N.n).filter fun x => N.grp x == g && (N.ing x).contains y

/-- The threads of all the groups. -/
structure S where
  /-- the wrappers; for each, what it has still to put into its queue to the sender, this queue, and
  whether the sender has taken a real end mark from it (`offline`) -/
  w : (x : Nat) → W (N.node x)
  pend : Nat → List (O D)
  outq : Nat → List (O D)
  off : Nat → Bool
  /-- messages the sender of a group has still to put on connections -/
  stodo : Nat → List (Nat × M D)
  /-- the connection from a group to another one -/
  wire : Nat → Nat → List (M D)
  /-- messages the receiver of a group has still to put into queues of nodes -/
  rtodo : Nat → List (Nat × M D)
  inq : Nat → List (M D)
  /-- recorded: what each node has consumed, what each sender has taken from each node, what each
  receiver has taken from each connection -/
  cons : Nat → List (M D)
  oproc : Nat → List (O D)
  cproc : Nat → Nat → List (M D)

def S.start : S N where
  w := fun x => { st := (N.node x).init, seen := [], exited := false }
  pend := fun _ => []
  outq := fun _ => []
  off := fun _ => false
  stodo := fun _ => []
  wire := fun _ _ => []
  rtodo := fun _ => []
  inq := fun _ => []
  cons := fun _ => []
  oproc := fun _ => []
  cproc := fun _ _ => []

def upd {β : Type} (f : Nat → β) (i : Nat) (b : β) : Nat → β := fun j => if j = i then b else f j

def upd2 {β : Type} (f : Nat → Nat → β) (i j : Nat) (b : β) : Nat → Nat → β :=
  fun a c => if a = i ∧ c = j then b else f a c

/-- replaces the state of one wrapper -/
def updW (w : (x : Nat) → W (N.node x)) (i : Nat) (b : W (N.node i)) : (x : Nat) → W (N.node x) :=
  fun x => if h : x = i then h ▸ b else w x

/-- all threads of group `g` other than the receiver have ended (`termination_counter` is 0:
`ff_dgroup.hpp` 375, `node.hpp` 307): the wrappers, and the sender, which ends when it has the real end
mark of every wrapper -/
def S.ended {N : Net D} (s : S N) (g : Nat) : Bool :=
  (List.range N.n).all (fun x => N.grp x != g || ((s.w x).exited && (s.pend x).isEmpty && s.off x)) &&
  (s.stodo g).isEmpty

inductive Act where
  /-- the wrapper of a source calls `svc(nullptr)` -/
  | first (x : Nat)
  /-- a wrapper takes a message and calls the node -/
  | pop (x : Nat)
  /-- a wrapper puts a message into its queue to the sender -/
  | push (x : Nat)
  /-- the sender takes something from the queue of `x`; `c` is the connection for a message without
  destination -/
  | gather (x c : Nat)
  /-- the sender of `g` puts a message on a connection -/
  | send (g : Nat)
  /-- the receiver of `g` takes a message from the connection from `g'`; `x` is the node for a message
  without destination -/
  | recv (g' g x : Nat)
  /-- the receiver of `g` puts a message into the queue of a node -/
  | deliver (g : Nat)

/-- is there room for one more? -/
def room : Option Nat → Nat → Bool
  | none, _ => true
  | some c, l => l < c

/-- What the sender does with a message of `y` (`svc`, `ff_dsenderMTCL.hpp` 319-342). -/
def senderRoute (m : M D) (c : Nat) : Option (List (Nat × M D)) :=
  match m.dest, m.body with
  | some d, _ => some [(N.grp d, m)]
  | none, none => some ((conns N m.src).map fun c => (c, leos m.src))
  | none, some _ => if c ∈ conns N m.src then some [(c, m)] else none

/-- What the receiver of `g` does with a message (`SquareBox::svc`, `ff_dadapters.hpp` 374-403).  (A
destination that is not in the group, which the code takes to be behind the last node, does not occur:
`Inv.conn`.) -/
def boxRoute (g : Nat) (m : M D) (x : Nat) : Option (List (Nat × M D)) :=
  match m.dest, m.body with
  | some d, _ => if N.grp d = g then some [(d, m)] else none
  | none, none => some ((poss N g m.src).map fun x => (x, leos m.src))
  | none, some _ =>
    if poss N g m.src = [] then some []          -- LOST MESSAGE!!!!!
    else if x ∈ poss N g m.src then some [(x, m)] else none

def step (s : S N) : Act → Option (S N)
  | .first x =>
    if x < N.n ∧ N.ing x = [] ∧ (s.w x).exited = false then
      some { s with
        w := updW N s.w x { st := ((N.node x).first (N.node x).init).1, seen := [], exited := true }
        pend := upd s.pend x (srcOut N x) }
    else none
  | .pop x =>
    match s.inq x with
    | [] => none
    | m :: ms =>
      if x < N.n ∧ N.ing x ≠ [] ∧ (s.w x).exited = false ∧ s.pend x = [] then
        some { s with
          inq := upd s.inq x ms
          cons := upd s.cons x (s.cons x ++ [m])
          w := updW N s.w x (wstep N x (s.w x) m).1
          pend := upd s.pend x (wstep N x (s.w x) m).2 }
      else none
  | .push x =>
    match s.pend x with
    | [] => none
    | o :: os =>
      if (s.outq x).length < N.capO x then
        some { s with pend := upd s.pend x os, outq := upd s.outq x (s.outq x ++ [o]) }
      else none
  | .gather x c =>
    match s.outq x with
    | [] => none
    | o :: os =>
      if x < N.n ∧ s.off x = false ∧ s.stodo (N.grp x) = [] then
        match o with
        | .fin => some { s with
            outq := upd s.outq x os
            oproc := upd s.oproc x (s.oproc x ++ [.fin])
            off := upd s.off x true }
        | .msg m =>
          (senderRoute N m c).map fun l => { s with
            outq := upd s.outq x os
            oproc := upd s.oproc x (s.oproc x ++ [.msg m])
            stodo := upd s.stodo (N.grp x) l }
      else none
  | .send g =>
    match s.stodo g with
    | [] => none
    | (c, m) :: l =>
      if (s.wire g c).length < N.capW g c then
        some { s with stodo := upd s.stodo g l, wire := upd2 s.wire g c (s.wire g c ++ [m]) }
      else none
  | .recv g' g x =>
    match s.wire g' g with
    | [] => none
    | m :: ms =>
      if s.rtodo g = [] ∧ s.ended g = false then
        (boxRoute N g m x).map fun l => { s with
          wire := upd2 s.wire g' g ms
          cproc := upd2 s.cproc g' g (s.cproc g' g ++ [m])
          rtodo := upd s.rtodo g l }
      else none
  | .deliver g =>
    match s.rtodo g with
    | [] => none
    | (x, m) :: l =>
      if room (N.capI x) (s.inq x).length then
        some { s with rtodo := upd s.rtodo g l, inq := upd s.inq x (s.inq x ++ [m]) }
      else none

end
end FF.Grp
