/-
Model of `uMPMC_Ptr_Queue`, the unbounded queue for many producers and consumers,
`/repo/ff/mpmc/MPMCqueues.hpp` 409-554.

One atomic action per access to a shared variable; accesses are sequentially consistent (`atomic_long_read`, `atomic_long_set`
and `abstraction_cas` on volatile variables).  A call of `push` or `pop` on an inner `uSWSR_Ptr_Buffer` takes effect at some
point (C08) *provided* no other thread is inside the same end of the same buffer; that this is so is theorem
`C61_exclusive`.  `n` is `mask + 1`, so `& mask` is `% n` (C41).  Counters do not overflow here.  The delay loops are left out.
Ghost components: `tickets`, `log`.
-/
import Verif.Common.Trans

namespace FF.Umpmc

variable {T A : Type}

/-- Where a thread is inside `push` (484-505) or `pop` (510-535). -/
inductive Pc (A : Type) where
  | idle
  /-- top of the loop of `push` -/
  | pTop (a : A)
  /-- `preadP` read -/
  | pSeq (a : A) (pw : Nat)
  /-- `seqP[idx]` read and equal to `pw` -/
  | pCas (a : A) (pw : Nat)
  /-- inside `buf[idx]->push`, before its effect -/
  | pIn (a : A) (pw : Nat)
  /-- inside `buf[idx]->push` after its effect, or before the store to `seqP[idx]` -/
  | pSt (a : A) (pw : Nat)
  | cTop
  /-- `preadC` read -/
  | cSeq (pr : Nat)
  /-- `seqC[idx]` read and equal to `pr` -/
  | cTest (pr : Nat)
  /-- `seqP[idx]` read and greater -/
  | cCas (pr : Nat)
  /-- inside `buf[idx]->pop`, before its effect -/
  | cIn (pr : Nat)
  /-- after its effect, before the store to `seqC[idx]`; `x` is what was returned -/
  | cSt (pr : Nat) (x : Option A)
deriving DecidableEq, Repr

/-- Outcome of a completed call. -/
inductive Ev (T A : Type) where
  /-- `push(a)` returned true; `p` is the position it took -/
  | pushed (t : T) (p : Nat) (a : A)
  /-- `pop` returned true with `x` (nothing if the inner `pop` failed); `p` is the position it took -/
  | popped (t : T) (p : Nat) (x : Option A)
  /-- `pop` returned false -/
  | empty (t : T)
deriving DecidableEq, Repr

structure St (T A : Type) where
  preadP : Nat
  preadC : Nat
  seqP : Nat → Nat
  seqC : Nat → Nat
  /-- contents of the inner queues -/
  sub : Nat → List A
  pc : T → Pc A
  /-- ghost: `tickets[k]` is the value whose push took position `k` -/
  tickets : List A
  /-- ghost: completed calls, newest first -/
  log : List (Ev T A)

/-- After `init` (457-477). -/
def init (T A : Type) : St T A :=
  { preadP := 0, preadC := 0, seqP := id, seqC := id, sub := fun _ => [], pc := fun _ => .idle,
    tickets := [], log := [] }

def upd {I V : Type} [DecidableEq I] (f : I → V) (i : I) (v : V) : I → V :=
  fun j => if j = i then v else f j

inductive Act (T A : Type) where
  /-- thread `t` calls `push(a)` -/
  | push (t : T) (a : A)
  /-- thread `t` calls `pop` -/
  | pop (t : T)
  /-- the next step of thread `t` -/
  | go (t : T)

/-- The next step of a thread. -/
def go [DecidableEq T] (n : Nat) (s : St T A) (t : T) : Option (St T A) :=
  match s.pc t with
  | .idle => none
  /- 488-489 -/
  | .pTop a => some { s with pc := upd s.pc t (.pSeq a s.preadP) }
  /- 490-491 -/
  | .pSeq a pw => some { s with pc := upd s.pc t (if s.seqP (pw % n) = pw then .pCas a pw else .pTop a) }
  /- 492-493 -/
  | .pCas a pw =>
    if s.preadP = pw then
      some { s with preadP := pw + 1, tickets := s.tickets ++ [a], pc := upd s.pc t (.pIn a pw) }
    else some { s with pc := upd s.pc t (.pTop a) }
  /- 501 -/
  | .pIn a pw =>
    some { s with sub := upd s.sub (pw % n) (s.sub (pw % n) ++ [a]), pc := upd s.pc t (.pSt a pw) }
  /- 502-503 -/
  | .pSt a pw =>
    some { s with seqP := upd s.seqP (pw % n) (pw + n), pc := upd s.pc t .idle,
                  log := .pushed t pw a :: s.log }
  /- 516-517 -/
  | .cTop => some { s with pc := upd s.pc t (.cSeq s.preadC) }
  /- 518-519 -/
  | .cSeq pr => some { s with pc := upd s.pc t (if s.seqC (pr % n) = pr then .cTest pr else .cTop) }
  /- 520 -/
  | .cTest pr =>
    if s.seqP (pr % n) ≤ pr then some { s with pc := upd s.pc t .idle, log := .empty t :: s.log }
    else some { s with pc := upd s.pc t (.cCas pr) }
  /- 521-522 -/
  | .cCas pr =>
    if s.preadC = pr then some { s with preadC := pr + 1, pc := upd s.pc t (.cIn pr) }
    else some { s with pc := upd s.pc t .cTop }
  /- 530 -/
  | .cIn pr =>
    match s.sub (pr % n) with
    | [] => some { s with pc := upd s.pc t (.cSt pr none) }
    | a :: l => some { s with sub := upd s.sub (pr % n) l, pc := upd s.pc t (.cSt pr (some a)) }
  /- 531-532 -/
  | .cSt pr x =>
    some { s with seqC := upd s.seqC (pr % n) (pr + n), pc := upd s.pc t .idle,
                  log := .popped t pr x :: s.log }

def step [DecidableEq T] (n : Nat) (s : St T A) : Act T A → Option (St T A)
  | .push t a =>
    match s.pc t with
    | .idle => some { s with pc := upd s.pc t (.pTop a) }
    | _ => none
  | .pop t =>
    match s.pc t with
    | .idle => some { s with pc := upd s.pc t .cTop }
    | _ => none
  | .go t => go n s t

/-! ### What users see -/

/-- Positions and values of the pushes that have returned. -/
def accepted : List (Ev T A) → List (Nat × A)
  | [] => []
  | .pushed _ p a :: l => (p, a) :: accepted l
  | _ :: l => accepted l

/-- Positions and values of the pops that have returned true. -/
def popped : List (Ev T A) → List (Nat × Option A)
  | [] => []
  | .popped _ p x :: l => (p, x) :: popped l
  | _ :: l => popped l

/-- The inner queue a thread is pushing to. -/
def Pc.pushing (n : Nat) : Pc A → Option Nat
  | .pIn _ pw | .pSt _ pw => some (pw % n)
  | _ => none

/-- The inner queue a thread is popping from. -/
def Pc.popping (n : Nat) : Pc A → Option Nat
  | .cIn pr | .cSt pr _ => some (pr % n)
  | _ => none

end FF.Umpmc
