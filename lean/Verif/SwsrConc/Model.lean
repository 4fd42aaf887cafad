import Verif.Common.Trans
import Verif.Swsr.Model
/-!
# `ff::SWSR_Ptr_Buffer` used by one producer and one consumer, access by access

Source: `/repo/ff/buffer.hpp` 185-202, 241-260, 333-350.

Memory model: each thread has a store buffer.  A store is appended to the issuing thread's buffer
and becomes visible to the other thread when it is *committed*.  A thread's loads see its own
pending stores.  Pending stores of one thread may be committed in any order, except that stores to
the same location keep their order, and that a store issued after a `WMB()` is committed only after
all the stores issued before it (`/repo/ff/sysdep.h`, `WMB`).  This is PSO with write fences; TSO
(x86) and sequentially consistent executions are special cases.  Loads are performed in program
order.

Stored pointers have type `A` (`none` is `NULL`); each address `a : A` designates an object with a
content of type `V` (the payload the producer fills before pushing).

Ghost components (never read by the code): the histories `pushed`, `popped`, `obs`, the set `held`
and the stream positions in store-buffer entries.
-/
namespace FF.SwsrConc
open FF.Swsr (next)

variable {A V : Type}

/-- A pending store of the producer, tagged with the number of `WMB()` executed before it. -/
inductive PEnt (A V : Type) where
  /-- `object a = v` -/
  | pay (ep : Nat) (a : A) (v : V)
  /-- `buf[i] = a`; `k` (ghost) is the position of this element in the stream of pushes -/
  | slot (ep : Nat) (i : Nat) (a : A) (k : Nat)
deriving DecidableEq, Repr

def PEnt.ep : PEnt A V → Nat
  | .pay ep _ _ => ep
  | .slot ep _ _ _ => ep

/-- Do two stores write the same location? -/
def PEnt.sameLoc [DecidableEq A] : PEnt A V → PEnt A V → Bool
  | .pay _ a _, .pay _ b _ => a = b
  | .slot _ i _ _, .slot _ j _ _ => i = j
  | _, _ => false

/-- Where the producer is inside `push(a)` (buffer.hpp 241-260). -/
inductive PPc (A : Type) where
  | idle
  /-- `available()` answered true -/
  | checked (a : A)
  /-- `WMB()` executed -/
  | fenced (a : A)
deriving DecidableEq, Repr

/-- Where the consumer is inside `pop` (buffer.hpp 345-350, 333-337). -/
inductive CPc (A : Type) where
  | idle
  /-- `empty()` answered false -/
  | seen
  /-- `*data = buf[pread]` executed -/
  | loaded (x : Option A)
deriving DecidableEq, Repr

structure St (A V : Type) where
  /-- field `size` -/
  n : Nat
  /-- field `pwrite` (written by the producer only) -/
  pw : Nat
  /-- field `pread` (written by the consumer only) -/
  pr : Nat
  /-- committed content of `buf[0..n)` -/
  buf : Nat → Option A
  /-- committed content of the objects -/
  mem : A → V
  /-- number of `WMB()` executed by the producer -/
  ep : Nat
  /-- producer's store buffer, oldest first -/
  sb : List (PEnt A V)
  /-- consumer's store buffer: pending `buf[i] = NULL`, with the (ghost) stream position -/
  csb : List (Nat × Nat)
  ppc : PPc A
  cpc : CPc A
  /-- ghost: accepted pushes, with the content the producer sees in the object at that moment -/
  pushed : List (A × V)
  /-- ghost: pointers returned by successful pops -/
  popped : List (Option A)
  /-- ghost: positions popped whose object the consumer has not released yet -/
  held : List Nat
  /-- ghost: for each read of an object by the consumer, the position and the content read -/
  obs : List (Nat × V)

/-- Freshly initialised queue (`init`, buffer.hpp 167-180) and arbitrary object contents. -/
def init (n : Nat) (mem : A → V) : St A V :=
  { n, pw := 0, pr := 0, buf := fun _ => none, mem, ep := 0, sb := [], csb := [], ppc := .idle,
    cpc := .idle, pushed := [], popped := [], held := [], obs := [] }

/-- The value the producer's own pending stores give to slot `i`. -/
def slotFwd (sb : List (PEnt A V)) (i : Nat) : Option A :=
  sb.foldl (fun r e => match e with
    | .slot _ j a _ => if j = i then some a else r
    | _ => r) none

/-- The value the producer's own pending stores give to object `a`. -/
def payFwd [DecidableEq A] (sb : List (PEnt A V)) (a : A) : Option V :=
  sb.foldl (fun r e => match e with
    | .pay _ b v => if b = a then some v else r
    | _ => r) none

/-- Load of `buf[pwrite]` by the producer (all its pending slot stores are non-null). -/
def St.prodLoad (s : St A V) : Option A :=
  match slotFwd s.sb s.pw with
  | some a => some a
  | none => s.buf s.pw

/-- Load of `buf[pread]` by the consumer (all its pending stores are `NULL`). -/
def St.consLoad (s : St A V) : Option A :=
  if s.csb.any (fun e => e.1 = s.pr) then none else s.buf s.pr

/-- The content of object `a` as seen by the producer. -/
def St.prodView [DecidableEq A] (s : St A V) (a : A) : V :=
  match payFwd s.sb a with
  | some v => v
  | none => s.mem a

/-- Ownership discipline of the client: the producer writes an object only while it is neither
in the queue nor being used by the consumer. -/
def St.writable [DecidableEq A] (s : St A V) (a : A) : Prop :=
  ∀ k, k < s.pushed.length → s.pushed[k]?.map Prod.fst = some a →
    k < s.popped.length ∧ k ∉ s.held

instance [DecidableEq A] (s : St A V) (a : A) : Decidable (s.writable a) := by
  unfold St.writable; infer_instance

inductive Act (A V : Type) where
  /-- the producer writes content `v` into object `a` -/
  | pStore (a : A) (v : V)
  /-- the producer calls `push(a)`: `available()` -/
  | pCheck (a : A)
  /-- `WMB()` in `push` -/
  | pFence
  /-- `buf[pwrite] = data; pwrite += ...; return true` -/
  | pPut
  /-- the `m`-th pending store of the producer becomes visible -/
  | pCommit (m : Nat)
  /-- the consumer calls `pop`: `empty()` -/
  | cCheck
  /-- `*data = buf[pread]` -/
  | cLoad
  /-- `inc()`: `buf[pread] = NULL; pread += ...; return true` -/
  | cClear
  /-- the `m`-th pending store of the consumer becomes visible -/
  | cCommit (m : Nat)
  /-- the consumer reads the object it popped at position `k` -/
  | cRead (k : Nat)
  /-- the consumer is done with the object it popped at position `k` -/
  | cRelease (k : Nat)

/-- One action. -/
def step [DecidableEq A] (s : St A V) : Act A V → Option (St A V)
  | .pStore a v =>
    if s.ppc = .idle ∧ s.writable a then some { s with sb := s.sb ++ [.pay s.ep a v] } else none
  -- available(): buffer.hpp 196-202; when it answers false, push returns false (259)
  | .pCheck a =>
    if s.ppc = .idle then
      if s.prodLoad = none then some { s with ppc := .checked a } else some s
    else none
  -- buffer.hpp 253
  | .pFence =>
    match s.ppc with
    | .checked a => some { s with ep := s.ep + 1, ppc := .fenced a }
    | _ => none
  -- buffer.hpp 254-257
  | .pPut =>
    match s.ppc with
    | .fenced a => some { s with
        sb := s.sb ++ [.slot s.ep s.pw a s.pushed.length]
        pw := next s.n s.pw
        ppc := .idle
        pushed := s.pushed ++ [(a, s.prodView a)] }
    | _ => none
  | .pCommit m =>
    match s.sb[m]? with
    | none => none
    | some e =>
      if (s.sb.all fun x => decide (e.ep ≤ x.ep)) = true ∧
          ((s.sb.take m).all fun x => !x.sameLoc e) = true then
        match e with
        | .pay _ a v => some { s with
            sb := s.sb.eraseIdx m
            mem := fun b => if b = a then v else s.mem b }
        | .slot _ i a _ => some { s with
            sb := s.sb.eraseIdx m
            buf := fun j => if j = i then some a else s.buf j }
      else none
  -- empty(): buffer.hpp 185-191; when it answers true, pop returns false (346)
  | .cCheck =>
    if s.cpc = .idle then
      if s.consLoad = none then some s else some { s with cpc := .seen }
    else none
  -- buffer.hpp 347
  | .cLoad => if s.cpc = .seen then some { s with cpc := .loaded s.consLoad } else none
  -- inc(): buffer.hpp 333-337
  | .cClear =>
    match s.cpc with
    | .loaded x => some { s with
        csb := s.csb ++ [(s.pr, s.popped.length)]
        pr := next s.n s.pr
        cpc := .idle
        popped := s.popped ++ [x]
        held := s.popped.length :: s.held }
    | _ => none
  | .cCommit m =>
    match s.csb[m]? with
    | none => none
    | some e =>
      if ((s.csb.take m).all fun x => x.1 != e.1) = true then
        some { s with
          csb := s.csb.eraseIdx m
          buf := fun j => if j = e.1 then none else s.buf j }
      else none
  | .cRead k =>
    match s.popped[k]? with
    | some (some a) => if k ∈ s.held then some { s with obs := s.obs ++ [(k, s.mem a)] } else none
    | _ => none
  | .cRelease k => some { s with held := s.held.filter (· ≠ k) }

end FF.SwsrConc
