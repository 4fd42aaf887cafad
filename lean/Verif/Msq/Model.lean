import Verif.Msq.Spec
import Verif.Common.Trans
/-!
# C59: the list based queue of Michael and Scott

Source: `/repo/ff/mpmc/MPMCqueues.hpp` 576-767 (`MSqueue`).

Any number of threads call `push` and `pop`; every access to shared memory is one action.  Accesses
are sequentially consistent: nodes are initialised before the compare-and-swap that publishes them,
which is a full barrier on the machines the library supports.

The allocator is an action that returns any address that is not in use; which addresses an allocator
may return while other threads still hold pointers to freed nodes is the subject of the theorems.
Memory that was freed can still be read (the allocator keeps it, allocator.hpp), and `free` does not
change it.
-/
namespace FF.Msq
open FF

abbrev Addr := Nat

/-- Program counters, with the local variables that are still needed. -/
inductive Pc where
  | idle
  /-- push 713: `allocnode(node,data)` -/
  | pAlloc (v : Nat)
  /-- push 716: `tailptr = tail` -/
  | pTail (node : Addr)
  /-- push 717: `next = tailptr.getNodeNext()` -/
  | pNext (node t : Addr)
  /-- push 719: `if (tailptr == tail)` -/
  | pChk (node t : Addr) (nx : Option Addr)
  /-- push 721: `CAS(tailptr.next, node, next)`, with `next` = NULL -/
  | pLink (node t : Addr)
  /-- push 725: `CAS(tail, next, tailptr)` -/
  | pHelp (node t x : Addr)
  /-- push 729: `CAS(tail, node, tailptr)` -/
  | pSwing (node t : Addr)
  | pRet
  /-- pop 742: `headptr = head` -/
  | cHead
  /-- pop 743: `tailptr = tail` -/
  | cTail (h : Addr)
  /-- pop 744: `next = headptr.getNodeNext()` -/
  | cNext (h t : Addr)
  /-- pop 746: `if (head == headptr)` -/
  | cChk (h t : Addr) (nx : Option Addr)
  /-- pop 749: `CAS(tail, next, tailptr)` -/
  | cHelp (t x : Addr)
  /-- pop 751: `*data = next.getData()` -/
  | cData (h : Addr) (nx : Option Addr)
  /-- pop 752: `CAS(head, next, headptr)` -/
  | cCas (h x d : Nat)
  /-- pop 757: `deallocnode(headptr.getNode())` -/
  | cFree (h : Addr) (d : Nat)
  /-- pop 748 or 758: `return` -/
  | cRet (r : Option Nat)
  /-- a null pointer was dereferenced -/
  | crash
  deriving DecidableEq, Repr

/-- ghost: what an address is used for -/
inductive Role where
  | unused
  /-- allocated by a push that has not linked it yet -/
  | priv (t : Nat)
  /-- in the list -/
  | inq
  /-- taken out of the list by a pop that has not freed it yet -/
  | out (t : Nat)
  | free
  deriving DecidableEq, Repr

structure S where
  next : Addr → Option Addr
  data : Addr → Nat
  head : Addr
  tail : Addr
  pc : Nat → Pc
  role : Addr → Role
  /-- calls and returns, newest first -/
  vis : List Ev
  /-- ghost: the same with the instants at which the operations take effect -/
  full : List Ev

def upd {α : Type} (f : Nat → α) (i : Nat) (v : α) : Nat → α := fun j => if j = i then v else f j

/-- `init` (688-704): one node, to which `head` and `tail` point. -/
def S.init : S :=
  { next := fun _ => none, data := fun _ => 0, head := 0, tail := 0, pc := fun _ => .idle,
    role := fun a => if a = 0 then .inq else .unused, vis := [], full := [] }

/-- ghost: a pop that has seen an empty queue and starts again takes back its effect -/
def retract (t : Nat) : List Ev → List Ev
  | [] => []
  | e :: h => if e.thread = t then (if e = .effPop t none then h else e :: h) else e :: retract t h

inductive Act where
  | callPush (t v : Nat)
  | callPop (t : Nat)
  /-- `allocnode` returns address `a` to thread `t` -/
  | alloc (t : Nat) (a : Addr)
  /-- thread `t` makes its next step -/
  | go (t : Nat)

/-- The next step of thread `t` inside an operation. -/
def goStep (s : S) (t : Nat) : Option S :=
  match s.pc t with
  | .idle | .pAlloc _ | .crash => none
  -- tailptr = tail;
  | .pTail node => some { s with pc := upd s.pc t (.pNext node s.tail) }
  -- next = tailptr.getNodeNext();
  | .pNext node tl => some { s with pc := upd s.pc t (.pChk node tl (s.next tl)) }
  -- if (tailptr == tail) { if (!next) … else … }
  | .pChk node tl nx =>
    if s.tail = tl then
      match nx with
      | none => some { s with pc := upd s.pc t (.pLink node tl) }
      | some x => some { s with pc := upd s.pc t (.pHelp node tl x) }
    else some { s with pc := upd s.pc t (.pTail node) }
  -- done = (CAS(tailptr.getNodeNext(), node, next) == next);
  | .pLink node tl =>
    if s.next tl = none then
      some { s with next := upd s.next tl (some node), role := upd s.role node .inq
                    pc := upd s.pc t (.pSwing node tl), full := .effPush t (s.data node) :: s.full }
    else some { s with pc := upd s.pc t (.pTail node) }
  -- CAS(tail, next, tailptr);
  | .pHelp node tl x =>
    if s.tail = tl then some { s with tail := x, pc := upd s.pc t (.pTail node) }
    else some { s with pc := upd s.pc t (.pTail node) }
  -- CAS(tail, node, tailptr);
  | .pSwing node tl =>
    if s.tail = tl then some { s with tail := node, pc := upd s.pc t .pRet }
    else some { s with pc := upd s.pc t .pRet }
  | .pRet => some { s with pc := upd s.pc t .idle, vis := .retPush t :: s.vis
                           full := .retPush t :: s.full }
  -- headptr = head;
  | .cHead => some { s with pc := upd s.pc t (.cTail s.head) }
  -- tailptr = tail;
  | .cTail h => some { s with pc := upd s.pc t (.cNext h s.tail) }
  -- next = headptr.getNodeNext();  (ghost: if the queue is empty now, this may be the effect)
  | .cNext h tl =>
    some { s with pc := upd s.pc t (.cChk h tl (s.next h))
                  full := if s.head = h ∧ s.next h = none then .effPop t none :: s.full else s.full }
  -- if (head == headptr) { if (headptr == tailptr) { if (!next) return false; … } else … }
  | .cChk h tl nx =>
    if s.head = h then
      if h = tl then
        match nx with
        | none => some { s with pc := upd s.pc t (.cRet none) }
        | some x => some { s with pc := upd s.pc t (.cHelp tl x) }
      else some { s with pc := upd s.pc t (.cData h nx) }
    else some { s with pc := upd s.pc t .cHead, full := retract t s.full }
  -- CAS(tail, next, tailptr);
  | .cHelp tl x =>
    if s.tail = tl then some { s with tail := x, pc := upd s.pc t .cHead }
    else some { s with pc := upd s.pc t .cHead }
  -- *data = next.getData();
  | .cData h nx =>
    match nx with
    | none => some { s with pc := upd s.pc t .crash }
    | some x => some { s with pc := upd s.pc t (.cCas h x (s.data x)) }
  -- done = (CAS(head, next, headptr) == headptr);
  | .cCas h x d =>
    if s.head = h then
      some { s with head := x, role := upd s.role h (.out t), pc := upd s.pc t (.cFree h d)
                    full := .effPop t (some d) :: s.full }
    else some { s with pc := upd s.pc t .cHead }
  -- deallocnode(headptr.getNode());
  | .cFree h d => some { s with role := upd s.role h .free, pc := upd s.pc t (.cRet (some d)) }
  | .cRet r => some { s with pc := upd s.pc t .idle, vis := .retPop t r :: s.vis
                             full := .retPop t r :: s.full }

/-- One action of the queue used by threads `0 … n-1`. -/
def mstep (n : Nat) (s : S) : Act → Option S
  | .callPush t v =>
    if t < n ∧ s.pc t = .idle then
      some { s with pc := upd s.pc t (.pAlloc v), vis := .callPush t v :: s.vis
                    full := .callPush t v :: s.full }
    else none
  | .callPop t =>
    if t < n ∧ s.pc t = .idle then
      some { s with pc := upd s.pc t .cHead, vis := .callPop t :: s.vis
                    full := .callPop t :: s.full }
    else none
  -- allocnode (656-664): the address is one that is not in use; `new (p) Node(data)`
  | .alloc t a =>
    match s.pc t with
    | .pAlloc v =>
      if s.role a = .unused ∨ s.role a = .free then
        some { s with next := upd s.next a none, data := upd s.data a v
                      role := upd s.role a (.priv t), pc := upd s.pc t (.pTail a) }
      else none
    | _ => none
  | .go t => if t < n then goStep s t else none

/-- The node a thread has read from `tail` (in `push`) or from `head` (in `pop`) and still uses. -/
def Pc.holds : Pc → Option Addr
  | .pNext _ t | .pChk _ t _ | .pLink _ t | .pHelp _ t _ | .pSwing _ t => some t
  | .cTail h | .cNext h _ | .cChk h _ _ | .cData h _ | .cCas h _ _ => some h
  | .cHelp t _ => some t
  | _ => none

/-- An allocator that defers the reuse of a freed node until no thread holds it. -/
def qstep (n : Nat) (s : S) (a : Act) : Option S :=
  match a with
  | .alloc _ x => if (List.range n).all (fun u => decide ((s.pc u).holds ≠ some x)) then mstep n s a else none
  | _ => mstep n s a

end FF.Msq
