import Verif.Common.Trans
import Verif.Pow2.Model
/-!
# `ff::MPMC_Ptr_Queue` with any number of threads, access by access

Source: `/repo/ff/mpmc/MPMCqueues.hpp` 122-266 (the C++11 atomics version).

Memory model.  `compare_exchange` acts on the newest value (read-modify-write atomicity).  A plain
load of `pwrite` or `pread` may return *any* value the variable has ever had and a load of a `seq`
field *any* value ever stored there: this over-approximates `memory_order_relaxed`/`acquire`.  The
plain `data` field is accessed directly; that this is legitimate (no two threads are ever about to
access the same `data` field, one of them writing) is theorem `C12_no_race`.

Simplifications: counters are natural numbers (no wrap-around after 2^64 operations); the back-off
loops are dropped (they have no effect on shared state).
Ghost components: `tickets`, `log`, `pub`, `rel`.
-/
namespace FF.Mpmc
open FF.Pow2

variable {T A : Type}

/-- Size actually allocated by `init(size)` (MPMCqueues.hpp 160-164); `none` when `nextPowerOf2`
does not return normally. -/
def initSize (size : Nat) : Option Nat :=
  let size := if size < 2 then 2 else size
  if isPowerOf2Long size then some size else (nextPowerOf2 64 size).join

/-- Where a thread is inside `push` (192-219) or `pop` (227-253). -/
inductive Pc (A : Type) where
  | idle
  /-- top of the `do` loop of `push(a)` -/
  | pTop (a : A)
  /-- `pw` loaded -/
  | pSeq (a : A) (pw : Nat)
  /-- `seq` loaded and equal to `pw` -/
  | pCas (a : A) (pw : Nat)
  /-- the exchange succeeded; `node->data = data` next -/
  | pWr (a : A) (pw : Nat)
  /-- `node->seq.store(seq+1)` next -/
  | pSt (a : A) (pw : Nat)
  /-- top of the `do` loop of `pop` -/
  | cTop
  | cSeq (pr : Nat)
  | cCas (pr : Nat)
  /-- `*data = node->data` next -/
  | cRd (pr : Nat)
  /-- `node->seq.store(pr+mask+1)` next -/
  | cSt (pr : Nat) (x : Option A)
deriving DecidableEq, Repr

/-- Outcome of a completed call. -/
inductive Ev (T A : Type) where
  /-- `push(a)` returned true; `p` is the position it took -/
  | pushed (t : T) (p : Nat) (a : A)
  /-- `push` returned false -/
  | full (t : T)
  /-- `pop` returned true with `x`; `p` is the position it took -/
  | popped (t : T) (p : Nat) (x : Option A)
  /-- `pop` returned false -/
  | empty (t : T)
deriving DecidableEq, Repr

structure St (T A : Type) where
  mask : Nat
  pwrite : Nat
  pread : Nat
  /-- all values ever stored in `buf[i].seq`, newest first -/
  hist : Nat → List Nat
  /-- `buf[i].data` -/
  dat : Nat → Option A
  pc : T → Pc A
  /-- ghost: `tickets[k]` is the value whose push took position `k` -/
  tickets : List A
  /-- ghost: completed calls, newest first -/
  log : List (Ev T A)
  /-- ghost: the push that took position `k` has published it -/
  pub : Nat → Bool
  /-- ghost: the pop that took position `k` has released the slot -/
  rel : Nat → Bool

/-- State after `init` (MPMCqueues.hpp 160-185) when `n` slots were allocated. -/
def init (T A : Type) (n : Nat) : St T A :=
  { mask := n - 1, pwrite := 0, pread := 0, hist := fun i => [i], dat := fun _ => none,
    pc := fun _ => .idle, tickets := [], log := [], pub := fun _ => false, rel := fun _ => false }

def upd {I V : Type} [DecidableEq I] (f : I → V) (i : I) (v : V) : I → V :=
  fun j => if j = i then v else f j

inductive Act (T A : Type) where
  /-- thread `t` calls `push(a)` -/
  | push (t : T) (a : A)
  /-- thread `t` calls `pop` -/
  | pop (t : T)
  /-- load of `pwrite`/`pread` returning `v` -/
  | loadIdx (t : T) (v : Nat)
  /-- load of `seq` returning the `m`-th newest value, and the comparisons on it -/
  | loadSeq (t : T) (m : Nat)
  /-- `compare_exchange_weak` succeeds -/
  | casOk (t : T)
  /-- `compare_exchange_weak` fails (possibly spuriously) -/
  | casFail (t : T)
  /-- access to `node->data` -/
  | data (t : T)
  /-- store to `node->seq`, return true -/
  | store (t : T)

def step [DecidableEq T] (s : St T A) : Act T A → Option (St T A)
  | .push t a =>
    match s.pc t with
    | .idle => some { s with pc := upd s.pc t (.pTop a) }
    | _ => none
  | .pop t =>
    match s.pc t with
    | .idle => some { s with pc := upd s.pc t .cTop }
    | _ => none
  | .loadIdx t v =>
    match s.pc t with
    -- MPMCqueues.hpp 197
    | .pTop a => if v ≤ s.pwrite then some { s with pc := upd s.pc t (.pSeq a v) } else none
    -- MPMCqueues.hpp 233
    | .cTop => if v ≤ s.pread then some { s with pc := upd s.pc t (.cSeq v) } else none
    | _ => none
  | .loadSeq t m =>
    match s.pc t with
    -- MPMCqueues.hpp 198-199, 205, 213-214
    | .pSeq a pw =>
      match (s.hist (pw &&& s.mask))[m]? with
      | none => none
      | some v =>
        if pw = v then some { s with pc := upd s.pc t (.pCas a pw) }
        else if pw > v then some { s with pc := upd s.pc t .idle, log := .full t :: s.log }
        else some { s with pc := upd s.pc t (.pTop a) }
    -- MPMCqueues.hpp 234-238, 246-247
    | .cSeq pr =>
      match (s.hist (pr &&& s.mask))[m]? with
      | none => none
      | some v =>
        if v = pr + 1 then some { s with pc := upd s.pc t (.cCas pr) }
        else if v < pr + 1 then some { s with pc := upd s.pc t .idle, log := .empty t :: s.log }
        else some { s with pc := upd s.pc t .cTop }
    | _ => none
  | .casOk t =>
    match s.pc t with
    -- MPMCqueues.hpp 206-207
    | .pCas a pw =>
      if s.pwrite = pw then some { s with
        pwrite := pw + 1, pc := upd s.pc t (.pWr a pw), tickets := s.tickets ++ [a] }
      else none
    -- MPMCqueues.hpp 239-240
    | .cCas pr =>
      if s.pread = pr then some { s with pread := pr + 1, pc := upd s.pc t (.cRd pr) } else none
    | _ => none
  | .casFail t =>
    match s.pc t with
    | .pCas a _ => some { s with pc := upd s.pc t (.pTop a) }
    | .cCas _ => some { s with pc := upd s.pc t .cTop }
    | _ => none
  | .data t =>
    match s.pc t with
    -- MPMCqueues.hpp 216
    | .pWr a pw => some { s with
        dat := upd s.dat (pw &&& s.mask) (some a), pc := upd s.pc t (.pSt a pw) }
    -- MPMCqueues.hpp 250
    | .cRd pr => some { s with pc := upd s.pc t (.cSt pr (s.dat (pr &&& s.mask))) }
    | _ => none
  | .store t =>
    match s.pc t with
    -- MPMCqueues.hpp 217-218 (`seq` equals `pw` here)
    | .pSt a pw => some { s with
        hist := upd s.hist (pw &&& s.mask) ((pw + 1) :: s.hist (pw &&& s.mask))
        pc := upd s.pc t .idle
        log := .pushed t pw a :: s.log
        pub := upd s.pub pw true }
    -- MPMCqueues.hpp 251-252
    | .cSt pr x => some { s with
        hist := upd s.hist (pr &&& s.mask) ((pr + s.mask + 1) :: s.hist (pr &&& s.mask))
        pc := upd s.pc t .idle
        log := .popped t pr x :: s.log
        rel := upd s.rel pr true }
    | _ => none

end FF.Mpmc
