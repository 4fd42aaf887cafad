import Verif.Common.Trans
import Verif.Swsr.Model
/-!
# `ff::Lamport_Buffer` used by one producer and one consumer, access by access

Source: `/repo/ff/buffer.hpp` 468-513.  Memory model as in `Verif.SwsrConc.Model`: per-thread store
buffers, stores to different locations may become visible out of order unless a `WMB()` separates
them.  Ghost components: `pushed`, `popped`, `cw`, `cr` and the counters in store-buffer entries.
-/
namespace FF.Lamport
open FF.Swsr (next)

variable {A : Type}

/-- A pending store of the producer, tagged with the number of `WMB()` executed before it. -/
inductive PEnt (A : Type) where
  /-- `buf[i] = a`; ghost `k` = stream position -/
  | slot (ep : Nat) (i : Nat) (a : A) (k : Nat)
  /-- `pwrite = v`; ghost `j` = number of accepted elements it publishes -/
  | idx (ep : Nat) (v : Nat) (j : Nat)
deriving DecidableEq, Repr

def PEnt.ep : PEnt A → Nat
  | .slot ep _ _ _ => ep
  | .idx ep _ _ => ep

def PEnt.sameLoc : PEnt A → PEnt A → Bool
  | .slot _ i _ _, .slot _ j _ _ => i = j
  | .idx .., .idx .. => true
  | _, _ => false

/-- Where the producer is inside `push(a)` (buffer.hpp 486-501). -/
inductive PPc (A : Type) where
  | idle
  /-- `next != pread` was true -/
  | room (a : A)
  /-- `buf[pwrite] = data` executed -/
  | stored
  /-- `WMB()` executed -/
  | fenced
deriving DecidableEq, Repr

/-- Where the consumer is inside `pop` (buffer.hpp 506-513). -/
inductive CPc (A : Type) where
  | idle
  /-- `empty()` answered false -/
  | seen
  /-- `*data = buf[pread]` executed -/
  | loaded (x : Option A)
deriving DecidableEq, Repr

structure St (A : Type) where
  /-- field `size` -/
  n : Nat
  /-- `pwrite` as seen by the producer, its only writer -/
  pw : Nat
  /-- `pread` as seen by the consumer, its only writer -/
  pr : Nat
  /-- committed `pwrite` -/
  mpw : Nat
  /-- committed `pread` -/
  mpr : Nat
  /-- committed content of `buf` -/
  buf : Nat → Option A
  /-- number of `WMB()` executed -/
  ep : Nat
  sb : List (PEnt A)
  /-- pending `pread = v` stores of the consumer -/
  csb : List Nat
  ppc : PPc A
  cpc : CPc A
  /-- ghost: accepted pushes (from the store of the element on, `push` is bound to return true) -/
  pushed : List A
  /-- ghost: values returned by successful pops -/
  popped : List (Option A)
  /-- ghost: number of elements published by the committed `pwrite` -/
  cw : Nat
  /-- ghost: number of pops published by the committed `pread` -/
  cr : Nat

/-- buffer.hpp 437-463, 518-523 -/
def init (n : Nat) : St A :=
  { n, pw := 0, pr := 0, mpw := 0, mpr := 0, buf := fun _ => none, ep := 0, sb := [], csb := [],
    ppc := .idle, cpc := .idle, pushed := [], popped := [], cw := 0, cr := 0 }

inductive Act (A : Type) where
  /-- `push(a)`: compute `next`, load `pread`, compare -/
  | pCheck (a : A)
  /-- `buf[pwrite] = data` -/
  | pStore
  /-- `WMB()` -/
  | pFence
  /-- `pwrite = next; return true` -/
  | pIndex
  /-- the `m`-th pending store of the producer becomes visible -/
  | pCommit (m : Nat)
  /-- `pop`: `empty()`, loads `pwrite` -/
  | cCheck
  /-- `*data = buf[pread]` -/
  | cLoad
  /-- `pread = ...; return true` -/
  | cIndex
  /-- the oldest pending store of the consumer becomes visible -/
  | cCommit

def step (s : St A) : Act A → Option (St A)
  -- buffer.hpp 489-490; `push` returns false (500) when the queue looks full
  | .pCheck a =>
    match s.ppc with
    | .idle => if next s.n s.pw ≠ s.mpr then some { s with ppc := .room a } else some s
    | _ => none
  -- buffer.hpp 491
  | .pStore =>
    match s.ppc with
    | .room a => some { s with
        sb := s.sb ++ [.slot s.ep s.pw a s.pushed.length]
        ppc := .stored
        pushed := s.pushed ++ [a] }
    | _ => none
  -- buffer.hpp 496
  | .pFence =>
    match s.ppc with
    | .stored => some { s with ep := s.ep + 1, ppc := .fenced }
    | _ => none
  -- buffer.hpp 497-498
  | .pIndex =>
    match s.ppc with
    | .fenced => some { s with
        sb := s.sb ++ [.idx s.ep (next s.n s.pw) s.pushed.length]
        pw := next s.n s.pw
        ppc := .idle }
    | _ => none
  | .pCommit m =>
    match s.sb[m]? with
    | none => none
    | some e =>
      if (s.sb.all fun x => decide (e.ep ≤ x.ep)) = true ∧
          ((s.sb.take m).all fun x => !x.sameLoc e) = true then
        match e with
        | .slot _ i a _ => some { s with
            sb := s.sb.eraseIdx m
            buf := fun j => if j = i then some a else s.buf j }
        | .idx _ v j => some { s with sb := s.sb.eraseIdx m, mpw := v, cw := j }
      else none
  -- buffer.hpp 468, 509
  | .cCheck =>
    match s.cpc with
    | .idle => if s.mpw = s.pr then some s else some { s with cpc := .seen }
    | _ => none
  -- buffer.hpp 510
  | .cLoad =>
    match s.cpc with
    | .seen => some { s with cpc := .loaded (s.buf s.pr) }
    | _ => none
  -- buffer.hpp 511-512
  | .cIndex =>
    match s.cpc with
    | .loaded x => some { s with
        csb := s.csb ++ [next s.n s.pr]
        pr := next s.n s.pr
        cpc := .idle
        popped := s.popped ++ [x] }
    | _ => none
  | .cCommit =>
    match s.csb with
    | [] => none
    | v :: rest => some { s with csb := rest, mpr := v, cr := s.cr + 1 }

end FF.Lamport
