import Verif.Common.Trans
import Verif.Swsr.Model
/-!
# `ff::uSWSR_Ptr_Buffer` used by one producer and one consumer

Source: `/repo/ff/ubuffer.hpp` 88-215 (`BufferPool`), 233-433 (`uSWSR_Ptr_Buffer`).

A segment is an `SWSR_Ptr_Buffer`, represented by the call-by-call model `FF.Swsr.Q`; segments live
in a heap `segs : Nat → Option (Q A)` indexed by address, `none` meaning *not allocated* (or freed).
Every access to a segment's slots, to `buf_r`, `buf_w` and every operation on the two pool queues is
one action of the schedule.  `bad` becomes true on an access to unallocated memory, out of bounds,
or a failed assertion.

Simplifications: interleavings are sequentially consistent at this level (the store-buffer level
behaviour of one bounded segment is `Verif.SwsrConc`); the two pool queues `inuse` (`dynqueue`, see
C11) and `bufcache` (bounded SPSC queue, see C01) are atomic FIFO queues, except that `bufcache` is
allowed to answer "empty"/"full" even if it is not (which only makes the model more general);
`release` resets a segment in one action (it is private at that moment, see C09); `in_use_buffers`,
used only by `length()`, is not part of this model; the `uSWSR_MULTIPUSH` variant is not modelled.
-/
namespace FF.Uswsr
open FF.Swsr (Q next)

variable {A : Type}

/-- Where the producer is inside `push(a)` (ubuffer.hpp 344-367). -/
inductive PPc (A : Type) where
  | idle
  /-- `available()` was false (and the queue is not fixed-size): about to call `pool.next_w` -/
  | full (a : A)
  /-- inside `next_w`: has segment `t`, about to push it into `inuse` -/
  | got (a : A) (t : Nat)
  /-- about to execute `buf_w = t` -/
  | queued (a : A) (t : Nat)
  /-- about to call `buf_w->push(data)` -/
  | chk (a : A)
  /-- inside `buf_w->push`: `available()` was true -/
  | put (a : A)
deriving DecidableEq, Repr

/-- Where the consumer is inside `pop` (ubuffer.hpp 411-433). -/
inductive CPc (A : Type) where
  | idle
  /-- `buf_r->empty()` was true (line 414) -/
  | e1
  /-- `buf_r == buf_w` was false (415) -/
  | e2
  /-- the second `buf_r->empty()` was true (416) -/
  | e3
  /-- `next_r` returned `t`; about to reset the current segment (420, 157) -/
  | rel (t : Nat)
  /-- reset done, about to put it in the cache or free it (158-161) -/
  | rel2 (t : Nat)
  /-- about to execute `buf_r = tmp` (422) -/
  | sw (t : Nat)
  /-- about to call `buf_r->pop(data)` (432) -/
  | p1
  /-- inside it: `empty()` was false -/
  | p2
  /-- inside it: `*data = v` done -/
  | p3 (v : Option A)
deriving DecidableEq, Repr

structure St (A : Type) where
  /-- `size` of each segment -/
  n : Nat
  /-- capacity of `bufcache` (`CACHE_SIZE` = 32 in the code) -/
  cap : Nat
  /-- field `fixedsize` -/
  fixed : Bool
  segs : Nat → Option (Q A)
  /-- next fresh address -/
  nid : Nat
  bufr : Nat
  bufw : Nat
  inuse : List Nat
  cache : List Nat
  ppc : PPc A
  cpc : CPc A
  /-- undefined behaviour happened -/
  bad : Bool
  /-- ghost: a push returned true without storing its element -/
  lost : Bool
  /-- ghost: accepted pushes, in order -/
  pushed : List A
  /-- ghost: values returned by successful pops -/
  popped : List (Option A)
  /-- ghost: at some moment of the current `pop` call every accepted element had been popped -/
  saw : Bool
  /-- ghost: for each `pop` that returned false, the value of `saw` -/
  fails : List Bool

def upd (f : Nat → Option (Q A)) (i : Nat) (v : Option (Q A)) : Nat → Option (Q A) :=
  fun j => if j = i then v else f j

/-- constructor (without `fillcache`) and `init` (ubuffer.hpp 265-312); `Q.init n` is `none` only if
`n = 0`. -/
def init (n cap : Nat) (fixed : Bool) : St A :=
  { n, cap, fixed, segs := fun i => if i = 0 then Q.init n else none, nid := 1, bufr := 0, bufw := 0,
    inuse := [], cache := [], ppc := .idle, cpc := .idle, bad := false, lost := false, pushed := [],
    popped := [], saw := false, fails := [] }

inductive Act (A : Type) where
  | pBegin (a : A)
  | pNext (fromCache : Bool)
  | pQueue
  | pSwitch
  | pCheck
  | pStore
  | cBegin
  | cCmp
  | cEmpty2
  | cNext
  | cReset
  | cRecycle (toCache : Bool)
  | cSwitch
  | cPopCheck
  | cPopLoad
  | cPopClear

def St.allPopped (s : St A) : Bool := s.pushed.length == s.popped.length

def step (s : St A) : Act A → Option (St A)
  -- `available()` (325-327, 350); fixed-size queues answer false (352)
  | .pBegin a =>
    match s.ppc with
    | .idle =>
      match (s.segs s.bufw).bind Q.available with
      | none => some { s with bad := true }
      | some true => some { s with ppc := .chk a }
      | some false => if s.fixed then some s else some { s with ppc := .full a }
    | _ => none
  -- `next_w`: `bufcache.pop` or a new segment (128-142)
  | .pNext fromCache =>
    match s.ppc with
    | .full a =>
      match s.cache, fromCache with
      | t :: rest, true => some { s with cache := rest, ppc := .got a t }
      | _, _ => some { s with segs := upd s.segs s.nid (Q.init s.n), nid := s.nid + 1,
                              ppc := .got a s.nid }
    | _ => none
  -- `inuse.push(p.buf)` (145)
  | .pQueue =>
    match s.ppc with
    | .got a t => some { s with inuse := s.inuse ++ [t], ppc := .queued a t }
    | _ => none
  -- `buf_w = t` (357)
  | .pSwitch =>
    match s.ppc with
    | .queued a t => some { s with bufw := t, ppc := .chk a }
    | _ => none
  -- `buf_w->push(data)`: `available()`; its answer is ignored by the caller (365-366)
  | .pCheck =>
    match s.ppc with
    | .chk a =>
      match (s.segs s.bufw).bind Q.available with
      | none => some { s with bad := true }
      | some true => some { s with ppc := .put a }
      | some false => some { s with ppc := .idle, lost := true }
    | _ => none
  -- `buf[pwrite] = data; pwrite = ...` (buffer.hpp 254-256)
  | .pStore =>
    match s.ppc with
    | .put a =>
      match (s.segs s.bufw).bind fun q => q.wr q.pwrite (some a) with
      | none => some { s with bad := true }
      | some q => some { s with
          segs := upd s.segs s.bufw (some { q with pwrite := next q.size q.pwrite })
          ppc := .idle
          pushed := s.pushed ++ [a] }
    | _ => none
  -- `buf_r->empty()` (414)
  | .cBegin =>
    match s.cpc with
    | .idle =>
      match (s.segs s.bufr).bind Q.empty with
      | none => some { s with bad := true }
      | some true => some { s with cpc := .e1, saw := s.allPopped }
      | some false => some { s with cpc := .p1, saw := s.allPopped }
    | _ => none
  -- `buf_r == buf_w` (415)
  | .cCmp =>
    match s.cpc with
    | .e1 =>
      if s.bufr = s.bufw then
        some { s with cpc := .idle, fails := s.fails ++ [s.saw || s.allPopped] }
      else some { s with cpc := .e2, saw := s.saw || s.allPopped }
    | _ => none
  -- second `buf_r->empty()` (416)
  | .cEmpty2 =>
    match s.cpc with
    | .e2 =>
      match (s.segs s.bufr).bind Q.empty with
      | none => some { s with bad := true }
      | some true => some { s with cpc := .e3, saw := s.saw || s.allPopped }
      | some false => some { s with cpc := .p1, saw := s.saw || s.allPopped }
    | _ => none
  -- `pool.next_r()` (417, 150-153)
  | .cNext =>
    match s.cpc with
    | .e3 =>
      match s.inuse with
      | t :: rest => some { s with inuse := rest, cpc := .rel t, saw := s.saw || s.allPopped }
      | [] => some { s with cpc := .p1, saw := s.saw || s.allPopped }
    | _ => none
  -- `buf->reset()` (157)
  | .cReset =>
    match s.cpc with
    | .rel t =>
      match (s.segs s.bufr).bind fun q => q.reset false with
      | none => some { s with bad := true }
      | some q => some { s with segs := upd s.segs s.bufr (some q), cpc := .rel2 t }
    | _ => none
  -- `if (!bufcache.push(buf)) free(buf)` (158-161)
  | .cRecycle toCache =>
    match s.cpc with
    | .rel2 t =>
      if toCache && decide (s.cache.length < s.cap) then
        some { s with cache := s.cache ++ [s.bufr], cpc := .sw t }
      else some { s with segs := upd s.segs s.bufr none, cpc := .sw t }
    | _ => none
  -- `buf_r = tmp` (422)
  | .cSwitch =>
    match s.cpc with
    | .sw t => some { s with bufr := t, cpc := .p1 }
    | _ => none
  -- `buf_r->pop(data)`: `empty()` (432, buffer.hpp 346)
  | .cPopCheck =>
    match s.cpc with
    | .p1 =>
      match (s.segs s.bufr).bind Q.empty with
      | none => some { s with bad := true }
      | some true => some { s with cpc := .idle, fails := s.fails ++ [s.saw || s.allPopped] }
      | some false => some { s with cpc := .p2 }
    | _ => none
  -- `*data = buf[pread]` (buffer.hpp 347)
  | .cPopLoad =>
    match s.cpc with
    | .p2 =>
      match (s.segs s.bufr).bind fun q => q.rd q.pread with
      | none => some { s with bad := true }
      | some v => some { s with cpc := .p3 v }
    | _ => none
  -- `inc()` (buffer.hpp 333-337)
  | .cPopClear =>
    match s.cpc with
    | .p3 v =>
      match (s.segs s.bufr).bind Q.inc with
      | none => some { s with bad := true }
      | some q => some { s with
          segs := upd s.segs s.bufr (some q), cpc := .idle, popped := s.popped ++ [v] }
    | _ => none

end FF.Uswsr
