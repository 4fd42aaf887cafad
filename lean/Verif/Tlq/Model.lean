import Verif.Msq.Spec
import Verif.Common.Trans
/-!
# C68: the dynamic queue used by many producers and many consumers

Source: `/repo/ff/dynqueue.hpp` 56-72 (`Node`, `head`, `tail`), 119-131 (`mp_allocnode`), 136-152 (the
constructor), 156-165 (the destructor), 202-234 (`mp_push`, `mp_pop`).

Any number of threads call `mp_push` and `mp_pop`; every access to shared memory is one action.
Accesses are sequentially consistent.  The two spin locks are atomic: taking one is possible when it
is free (C13).  The cache of nodes is a bounded FIFO queue whose `push` and `pop` are atomic: all its
pushes are made under `C_lock` and all its pops under `P_lock`, so it has one producer and one
consumer at a time (C01).  `malloc` returns any address that is not allocated, with any contents; it
does not fail.
-/
namespace FF.Tlq
open FF
open FF.Msq (Ev)

abbrev Addr := Nat

/-- Program counters, with the local variables that are still needed. -/
inductive Pc where
  | idle
  /-- mp_allocnode 122: `spin_lock(P_lock)` -/
  | aLock (v : Nat)
  /-- mp_allocnode 123: `cache.pop(&p.n2)` -/
  | aPop (v : Nat)
  /-- mp_allocnode 124-125: `spin_unlock(P_lock); return p.n;` -/
  | aGot (v : Nat) (n : Addr)
  /-- mp_allocnode 127: `spin_unlock(P_lock)` -/
  | aNone (v : Nat)
  /-- mp_allocnode 129: `malloc(sizeof(Node))` -/
  | aMalloc (v : Nat)
  /-- mp_push 208: `n->data = data` -/
  | wData (v : Nat) (n : Addr)
  /-- mp_push 208: `n->next = NULL` -/
  | wNext (v : Nat) (n : Addr)
  /-- mp_push 209: `spin_lock(P_lock)` -/
  | pLock (v : Nat) (n : Addr)
  /-- mp_push 210: `tail->next = n` -/
  | pLink (v : Nat) (n : Addr)
  /-- mp_push 211: `tail = n` -/
  | pTail (n : Addr)
  /-- mp_push 212: `spin_unlock(P_lock)` -/
  | pUnlock
  /-- mp_push 213: `return true` -/
  | pRet
  /-- mp_pop 221: `spin_lock(C_lock)` -/
  | cLock
  /-- mp_pop 222: `if (head->next)` -/
  | cTest
  /-- mp_pop 223-224: `n = head; *data = (head->next)->data` -/
  | cData
  /-- mp_pop 225: `head = head->next` -/
  | cHead (d : Nat) (n : Addr)
  /-- mp_pop 226: `f = cache.push(n)` -/
  | cCache (d : Nat) (n : Addr)
  /-- mp_pop 227: `spin_unlock(C_lock)` with `f` true -/
  | cKept (d : Nat)
  /-- mp_pop 227: `spin_unlock(C_lock)` with `f` false -/
  | cLeft (d : Nat) (n : Addr)
  /-- mp_pop 228: `free(n)` -/
  | cFree (d : Nat) (n : Addr)
  /-- mp_pop 231: `spin_unlock(C_lock)`, nothing found -/
  | cEmpty
  /-- mp_pop 229 or 232: `return` -/
  | cRet (r : Option Nat)
  /-- a null pointer or memory that is not allocated was accessed or freed -/
  | crash
  deriving DecidableEq, Repr

structure S where
  next : Addr → Option Addr
  data : Addr → Nat
  /-- is the address allocated -/
  live : Addr → Bool
  head : Addr
  tail : Addr
  /-- the nodes in the cache, the next one to be taken first -/
  cache : List Addr
  /-- the threads that hold `P_lock` and `C_lock` -/
  P : Option Nat
  C : Option Nat
  pc : Nat → Pc
  /-- calls and returns, newest first -/
  vis : List Ev
  /-- ghost: the same with the instants at which the operations take effect -/
  full : List Ev

def upd {α : Type} (f : Nat → α) (i : Nat) (v : α) : Nat → α := fun j => if j = i then v else f j

/-- The constructor (136-152): one node, to which `head` and `tail` point; with `fillcache` as many
nodes as the cache has room for (`k`; none otherwise).  The addresses are chosen. -/
def S.init (k : Nat) : S :=
  { next := fun _ => none, data := fun _ => 0, live := fun a => decide (a ≤ k), head := 0, tail := 0
    cache := (List.range k).map (· + 1), P := none, C := none, pc := fun _ => .idle, vis := [], full := [] }

inductive Act where
  | callPush (t v : Nat)
  | callPop (t : Nat)
  /-- `malloc` returns address `a`, which holds `x` and `d`, to thread `t` -/
  | malloc (t : Nat) (a : Addr) (x : Option Addr) (d : Nat)
  /-- thread `t` makes its next step -/
  | go (t : Nat)

/-- The next step of thread `t` inside an operation; `cap` is the size of the cache. -/
def goStep (cap : Nat) (s : S) (t : Nat) : Option S :=
  match s.pc t with
  | .idle | .aMalloc _ | .crash => none
  -- spin_lock(P_lock);
  | .aLock v => if s.P = none then some { s with P := some t, pc := upd s.pc t (.aPop v) } else none
  -- if (cache.pop(&p.n2))
  | .aPop v =>
    match s.cache with
    | [] => some { s with pc := upd s.pc t (.aNone v) }
    | a :: c => some { s with cache := c, pc := upd s.pc t (.aGot v a) }
  -- spin_unlock(P_lock); return p.n;
  | .aGot v n => some { s with P := none, pc := upd s.pc t (.wData v n) }
  -- spin_unlock(P_lock);
  | .aNone v => some { s with P := none, pc := upd s.pc t (.aMalloc v) }
  -- n->data = data;
  | .wData v n =>
    if s.live n then some { s with data := upd s.data n v, pc := upd s.pc t (.wNext v n) }
    else some { s with pc := upd s.pc t .crash }
  -- n->next = NULL;
  | .wNext v n =>
    if s.live n then some { s with next := upd s.next n none, pc := upd s.pc t (.pLock v n) }
    else some { s with pc := upd s.pc t .crash }
  -- spin_lock(P_lock);
  | .pLock v n => if s.P = none then some { s with P := some t, pc := upd s.pc t (.pLink v n) } else none
  -- tail->next = n;
  | .pLink v n =>
    if s.live s.tail then
      some { s with next := upd s.next s.tail (some n), pc := upd s.pc t (.pTail n)
                    full := .effPush t v :: s.full }
    else some { s with pc := upd s.pc t .crash }
  -- tail = n;
  | .pTail n => some { s with tail := n, pc := upd s.pc t .pUnlock }
  -- spin_unlock(P_lock);
  | .pUnlock => some { s with P := none, pc := upd s.pc t .pRet }
  -- return true;
  | .pRet => some { s with pc := upd s.pc t .idle, vis := .retPush t :: s.vis
                           full := .retPush t :: s.full }
  -- spin_lock(C_lock);
  | .cLock => if s.C = none then some { s with C := some t, pc := upd s.pc t .cTest } else none
  -- if (head->next)
  | .cTest =>
    if s.live s.head then
      match s.next s.head with
      | none => some { s with pc := upd s.pc t .cEmpty, full := .effPop t none :: s.full }
      | some _ => some { s with pc := upd s.pc t .cData }
    else some { s with pc := upd s.pc t .crash }
  -- Node * n = (Node *)head; *data = (head->next)->data;
  | .cData =>
    if s.live s.head then
      match s.next s.head with
      | none => some { s with pc := upd s.pc t .crash }
      | some x =>
        if s.live x then some { s with pc := upd s.pc t (.cHead (s.data x) s.head) }
        else some { s with pc := upd s.pc t .crash }
    else some { s with pc := upd s.pc t .crash }
  -- head = head->next;
  | .cHead d n =>
    if s.live s.head then
      match s.next s.head with
      | none => some { s with pc := upd s.pc t .crash }
      | some x => some { s with head := x, pc := upd s.pc t (.cCache d n)
                                full := .effPop t (some d) :: s.full }
    else some { s with pc := upd s.pc t .crash }
  -- bool f = cache.push(n);
  | .cCache d n =>
    if s.cache.length < cap then some { s with cache := s.cache ++ [n], pc := upd s.pc t (.cKept d) }
    else some { s with pc := upd s.pc t (.cLeft d n) }
  -- spin_unlock(C_lock);
  | .cKept d => some { s with C := none, pc := upd s.pc t (.cRet (some d)) }
  | .cLeft d n => some { s with C := none, pc := upd s.pc t (.cFree d n) }
  -- if (!f) ::free(n);
  | .cFree d n =>
    if s.live n then some { s with live := upd s.live n false, pc := upd s.pc t (.cRet (some d)) }
    else some { s with pc := upd s.pc t .crash }
  -- spin_unlock(C_lock);
  | .cEmpty => some { s with C := none, pc := upd s.pc t (.cRet none) }
  -- return true; or return false;
  | .cRet r => some { s with pc := upd s.pc t .idle, vis := .retPop t r :: s.vis
                             full := .retPop t r :: s.full }

/-- One action of the queue used by threads `0 … n-1`. -/
def tstep (cap n : Nat) (s : S) : Act → Option S
  | .callPush t v =>
    if t < n ∧ s.pc t = .idle then
      some { s with pc := upd s.pc t (.aLock v), vis := .callPush t v :: s.vis
                    full := .callPush t v :: s.full }
    else none
  | .callPop t =>
    if t < n ∧ s.pc t = .idle then
      some { s with pc := upd s.pc t .cLock, vis := .callPop t :: s.vis
                    full := .callPop t :: s.full }
    else none
  | .malloc t a x d =>
    match s.pc t with
    | .aMalloc v =>
      if s.live a = false then
        some { s with live := upd s.live a true, next := upd s.next a x, data := upd s.data a d
                      pc := upd s.pc t (.wData v a) }
      else none
    | _ => none
  | .go t => if t < n then goStep cap s t else none

/-- `while(cache.pop(&p.n2)) free(p.n)` (158); `none` if something is freed that is not allocated -/
def freeAll : List Addr → (Addr → Bool) → Option (Addr → Bool)
  | [], live => some live
  | a :: c, live => if live a then freeAll c (upd live a false) else none

/-- `while(head != tail) { p.n = head; head = head->next; free(p.n); } if (head) free(head)` (159-164),
with at most `fuel` rounds; `none` if memory is accessed that is not allocated or a pointer is null -/
def freeList (next : Addr → Option Addr) (tail : Addr) : Nat → Addr → (Addr → Bool) → Option (Addr → Bool)
  | 0, _, _ => none
  | fuel + 1, h, live =>
    if h = tail then (if live h then some (upd live h false) else none)
    else if live h then
      match next h with
      | none => none
      | some x => freeList next tail fuel x (upd live h false)
    else none

/-- The destructor (156-165). -/
def destroy (fuel : Nat) (s : S) : Option (Addr → Bool) :=
  (freeAll s.cache s.live).bind (freeList s.next s.tail fuel s.head)

end FF.Tlq
