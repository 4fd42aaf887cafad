/-
Model of the queues made of several queues, `multiSWSR` and `scalableMPMCqueue` (`multiMSqueue`),
`/repo/ff/mpmc/MPMCqueues.hpp` 774-990.

One atomic action per access to `enqueue`, `dequeue` and `count`.  The operations of the inner queues are atomic:
`MSqueue` is linearizable (C59), and `multiSWSR` takes a lock (C14) around each end of an unbounded FIFO queue (C08).  The
counters are unbounded here (`long` in the code).  Null pointers are not pushed (`uSWSR_Ptr_Buffer::push` asserts this, ubuffer.hpp 346).
-/
import Verif.Common.Trans

namespace FF.Pool

/-- The three queues: `multiSWSR` (774-854), `scalableMPMCqueue` as it is (872-970) and compiled with
`MULTI_MPMC_RELAX_FIFO_ORDERING`. -/
inductive Kind where
  | multi
  | fifo
  | relax
  deriving DecidableEq, Repr

/-- What happens, newest first in a history.  `callPush … retPop` is what users see, the others
are steps inside the calls. -/
inductive Ev where
  | callPush (t v : Nat)
  /-- the `enqueue` ticket is drawn -/
  | tick (t q : Nat)
  /-- the datum goes to the inner queue `q` -/
  | put (t q v : Nat)
  | counted (t v : Nat)
  | retPush (t v : Nat)
  | callPop (t : Nat)
  /-- the `dequeue` ticket is drawn -/
  | claim (t q : Nat)
  /-- the inner queue `q` gives `v` -/
  | took (t q v : Nat)
  | discounted (t v : Nat)
  | retPop (t : Nat) (r : Option Nat)
  deriving DecidableEq, Repr

/-- Where a thread is. -/
inductive Pc where
  | idle
  | pTick (v : Nat)
  | pPut (v q : Nat)
  | pCnt (v : Nat)
  | pRet (v : Nat)
  | cCnt
  | cTick
  | cDeq
  | cEnq (q : Nat)
  | cCas (q : Nat)
  | cTake (q : Nat)
  | cDec (v : Nat)
  | cRet (r : Option Nat)
  deriving DecidableEq, Repr

structure S where
  enq : Nat
  deq : Nat
  cnt : Int
  /-- contents of the inner queues -/
  sub : Nat → List Nat
  pc : Nat → Pc
  /-- ghost: everything that happened, newest first -/
  log : List Ev

def upd {β : Type} (f : Nat → β) (i : Nat) (x : β) : Nat → β := fun j => if j = i then x else f j

/-- After the constructors and `init` (792-812, 876-902). -/
def init (k : Kind) : S :=
  { enq := 0, deq := if k = .fifo then 1 else 0, cnt := 0, sub := fun _ => [], pc := fun _ => .idle,
    log := [] }

/-- The next step of thread `t`; `n` is the number of inner queues (`mask + 1`, a power of two, for `multiSWSR`). -/
def go (k : Kind) (n : Nat) (s : S) (t : Nat) : Option S :=
  match s.pc t with
  | .idle => none
  /- 816, 907: `atomic_long_inc_return(&enqueue)` -/
  | .pTick v => some { s with enq := s.enq + 1, pc := upd s.pc t (.pPut v ((s.enq + 1) % n)),
                              log := .tick t ((s.enq + 1) % n) :: s.log }
  /- 817-819, 908 -/
  | .pPut v q => some { s with sub := upd s.sub q (s.sub q ++ [v]),
                               pc := upd s.pc t (.pCnt v), log := .put t q v :: s.log }
  /- 820, 909: the inner queues always accept -/
  | .pCnt v => some { s with cnt := s.cnt + 1, pc := upd s.pc t (.pRet v),
                             log := .counted t v :: s.log }
  | .pRet v => some { s with pc := upd s.pc t .idle, log := .retPush t v :: s.log }
  /- 826, 916 -/
  | .cCnt => some { s with pc := upd s.pc t (if s.cnt = 0 then .cRet none
                                    else if k = .fifo then .cDeq else .cTick) }
  /- 828, 945: `atomic_long_inc_return(&dequeue)` -/
  | .cTick => some { s with deq := s.deq + 1, pc := upd s.pc t (.cTake ((s.deq + 1) % n)),
                            log := .claim t ((s.deq + 1) % n) :: s.log }
  /- 925 -/
  | .cDeq => some { s with pc := upd s.pc t (.cEnq s.deq) }
  /- 925-927 -/
  | .cEnq q => some { s with pc := upd s.pc t (if q > s.enq then .cRet none else .cCas q) }
  /- 928 -/
  | .cCas q =>
    if s.deq = q then
      some { s with deq := q + 1, pc := upd s.pc t (.cTake (q % n)), log := .claim t (q % n) :: s.log }
    else some { s with pc := upd s.pc t .cDeq }
  /- 829-831, 937, 946 -/
  | .cTake q =>
    match s.sub q with
    | [] => some { s with pc := upd s.pc t (.cRet none) }
    | v :: l => some { s with sub := upd s.sub q l, pc := upd s.pc t (.cDec v),
                              log := .took t q v :: s.log }
  /- 832, 938, 947 -/
  | .cDec v => some { s with cnt := s.cnt - 1, pc := upd s.pc t (.cRet (some v)),
                             log := .discounted t v :: s.log }
  | .cRet r => some { s with pc := upd s.pc t .idle, log := .retPop t r :: s.log }

/-- What the scheduler can choose. -/
inductive Act where
  | callPush (t v : Nat)
  | callPop (t : Nat)
  | go (t : Nat)
  deriving DecidableEq, Repr

/-- One action of any thread. -/
def step (k : Kind) (n : Nat) (s : S) : Act → Option S
  | .callPush t v =>
    if s.pc t = .idle then
      some { s with pc := upd s.pc t (.pTick v), log := .callPush t v :: s.log }
    else none
  | .callPop t =>
    if s.pc t = .idle then some { s with pc := upd s.pc t .cCnt, log := .callPop t :: s.log }
    else none
  | .go t => go k n s t

/-- Nobody is inside a call. -/
def Quiet (s : S) : Prop := ∀ t, s.pc t = .idle

/-- The arguments of all calls of `push`. -/
def pushed : List Ev → List Nat
  | [] => []
  | .callPush _ v :: h => v :: pushed h
  | _ :: h => pushed h

/-- What the calls of `pop` returned. -/
def popped : List Ev → List Nat
  | [] => []
  | .retPop _ (some v) :: h => v :: popped h
  | _ :: h => popped h

/-! ### One call after the other -/

/-- A call and its answer. -/
inductive Op where
  | push (v : Nat)
  | pop (r : Option Nat)
  deriving DecidableEq, Repr

def Op.call (t : Nat) : Op → Act
  | .push v => .callPush t v
  | .pop _ => .callPop t

def Op.ret (t : Nat) : Op → Ev
  | .push v => .retPush t v
  | .pop r => .retPop t r

/-- From `s`, thread `t` makes the call `o`, runs alone until it returns with the answer in `o`, and leaves the
state `s'`. -/
def Alone (k : Kind) (n : Nat) (s : S) (t : Nat) (o : Op) (s' : S) : Prop :=
  ∃ m, exec (step k n) s (o.call t :: List.replicate m (.go t)) = some s' ∧
    s'.pc t = .idle ∧ s'.log.head? = some (o.ret t)

/-- A sequence of calls (oldest first) that do not overlap, by any threads. -/
inductive Seq (k : Kind) (n : Nat) : S → List Op → S → Prop
  | nil (s : S) : Seq k n s [] s
  | cons {s s1 s2 : S} {t : Nat} {o : Op} {os : List Op} : Alone k n s t o s1 → Seq k n s1 os s2 →
      Seq k n s (o :: os) s2

/-- A FIFO queue used sequentially: contents after the calls, `none` if an answer is wrong. -/
def fifo : List Nat → List Op → Option (List Nat)
  | l, [] => some l
  | l, .push v :: os => fifo (l ++ [v]) os
  | [], .pop r :: os => if r = none then fifo [] os else none
  | x :: l, .pop r :: os => if r = some x then fifo l os else none

end FF.Pool
