/-!
# Model of `ff::SWSR_Ptr_Buffer` and `ff::Lamport_Buffer`, call by call

Source: `/repo/ff/buffer.hpp`.

Pointers stored in the queue are `Option α`: `none` is `NULL`, `some a` a non-null pointer.
Every operation returns `Option _`; the outer `none` is *undefined behaviour* (access outside
`buf`) or a failed `assert`.
-/
namespace FF.Swsr

/-- Fields of `SWSR_Ptr_Buffer` (buffer.hpp 111, 115, 118, 119, 127, 128).  `buf` has the length
that was allocated by `init`; `size` is the field `size` (the two can differ after `changesize`).
`mbuf` is `multipush_buf[0..mcnt)` (so `mcnt = mbuf.length`).  Simplification: `unsigned long`
is `Nat`. -/
structure Q (α : Type) where
  size : Nat
  pread : Nat
  pwrite : Nat
  buf : List (Option α)
  mbuf : List (Option α)
deriving Repr

/-- `MULTIPUSH_BUFFER_SIZE` (buffer.hpp 99). -/
def multipushBufferSize : Nat := 16

/-- `longxCacheLine` (`CACHE_LINE_SIZE/sizeof(long)` = 64/8), used by `reset` (buffer.hpp 372). -/
def longxCacheLine : Nat := 8

variable {α : Type}

/-- read `buf[i]`; `none` = out of bounds. -/
def Q.rd (q : Q α) (i : Nat) : Option (Option α) := q.buf[i]?

/-- write `buf[i] = v`; `none` = out of bounds. -/
def Q.wr (q : Q α) (i : Nat) (v : Option α) : Option (Q α) :=
  if i < q.buf.length then some { q with buf := q.buf.set i v } else none

/-- `p + ((p+1 >= size) ? (1-size) : 1)` in unsigned arithmetic (buffer.hpp 256, 335, 489, 511). -/
def next (size p : Nat) : Nat := if p + 1 ≥ size then p + 1 - size else p + 1

/-- `reset` (buffer.hpp 366-383): both indices back to 0 (or to the end of the first cache line),
`size` slots cleared (`none` if that runs past the allocation). -/
def Q.reset (q : Q α) (startatlineend : Bool) : Option (Q α) :=
  if q.size ≤ q.buf.length then
    some { q with
      pread := if startatlineend then longxCacheLine - 1 else 0
      pwrite := if startatlineend then longxCacheLine - 1 else 0
      buf := List.replicate q.size none ++ q.buf.drop q.size
      mbuf := [] }
  else none

/-- constructor followed by `init(startatlineend)` (buffer.hpp 143-180); `none` when `init` returns
`false` (size 0).  Simplification: allocation never fails. -/
def Q.init (n : Nat) (startatlineend : Bool := false) : Option (Q α) :=
  if n = 0 then none
  else Q.reset { size := n, pread := 0, pwrite := 0, buf := List.replicate n none, mbuf := [] }
        startatlineend

/-- `empty` (buffer.hpp 185-191). -/
def Q.empty (q : Q α) : Option Bool := (q.rd q.pread).map (·.isNone)

/-- `available` (buffer.hpp 196-202). -/
def Q.available (q : Q α) : Option Bool := (q.rd q.pwrite).map (·.isNone)

/-- `buffersize` (buffer.hpp 209). -/
def Q.buffersize (q : Q α) : Nat := q.size

/-- `changesize` (buffer.hpp 222-226): changes the field only. -/
def Q.changesize (q : Q α) (n : Nat) : Q α × Nat := ({ q with size := n }, q.size)

/-- `push` (buffer.hpp 241-260).  `assert(data != NULL)` failing is `none`. -/
def Q.push (q : Q α) (data : Option α) : Option (Q α × Bool) :=
  if data.isNone then none
  else do
    if (← q.available) then
      let q ← q.wr q.pwrite data
      some ({ q with pwrite := next q.size q.pwrite }, true)
    else some (q, false)

/-- `inc` (buffer.hpp 333-337). -/
def Q.inc (q : Q α) : Option (Q α) := do
  let q ← q.wr q.pread none
  some { q with pread := next q.size q.pread }

/-- `pop` (buffer.hpp 345-350); the result is `some v` when `pop` returns true having stored `v`
in `*data`. -/
def Q.pop (q : Q α) : Option (Q α × Option (Option α)) := do
  if (← q.empty) then some (q, none)
  else
    let v ← q.rd q.pread
    let q ← q.inc
    some (q, some v)

/-- `top` (buffer.hpp 359). -/
def Q.top (q : Q α) : Option (Option α) := q.rd q.pread

/-- `length` (buffer.hpp 389-396). -/
def Q.length (q : Q α) : Option Nat :=
  if q.pwrite > q.pread then some (q.pwrite - q.pread)
  else if q.pwrite < q.pread then some (q.size + q.pwrite - q.pread)
  else (q.rd q.pwrite).map fun v => if v.isNone then 0 else q.size

/-- A list of stores `buf[i] = v` performed in order. -/
def Q.wrs (q : Q α) : List (Nat × Option α) → Option (Q α)
  | [] => some q
  | (i, v) :: rest => do (← q.wr i v).wrs rest

/-- `data[i]` of the argument array of `multipush`; reading outside it is `none`. -/
def argAt (data : List (Option α)) (i : Nat) : Option (Option α) := data[i]?

/-- The pairs `(index, data)` stored by a loop executing `buf[l-k] = data[i-k]` for `k = 0..cnt-1`
(the three loops of `multipush`, buffer.hpp 276-283). -/
def downLoop (data : List (Option α)) (l i cnt : Nat) : Option (List (Nat × Option α)) :=
  (List.range cnt).mapM fun k => (argAt data (i - k)).map fun v => (l - k, v)

/-- The store loops of `multipush` (buffer.hpp 275-283); `len` is the argument already decremented.
If `pwrite < size` then `last < len` in the first branch; otherwise (only after an earlier
`multipush` has left `pwrite` out of range) `r` wraps to a huge unsigned value, and neither loop
executes an iteration. -/
def Q.multiStores (q : Q α) (data : List (Option α)) (len last : Nat) : Option (Q α) :=
  if last < q.pwrite then
    if len < last + 1 then some q
    else do
      let r := len - (last + 1)
      let w1 ← downLoop data last len (len - r)
      let w2 ← downLoop data (q.size - 1) r (q.size - q.pwrite)
      (← q.wrs w1).wrs w2
  else do
    let w ← downLoop data (q.pwrite + len) len (len + 1)
    q.wrs w

/-- `multipush` (buffer.hpp 267-293); `data.length` is the argument `len`.  `len = 0` makes `--len`
negative and the index computed from it falls outside `buf`: `none`. -/
def Q.multipush (q : Q α) (data : List (Option α)) : Option (Q α × Bool) :=
  if data.length ≥ q.size then some (q, false)
  else if data.length = 0 then none
  else do
    let len := data.length - 1
    let last := if q.pwrite + len ≥ q.size then q.pwrite + len - q.size else q.pwrite + len
    if (← q.rd last).isNone then
      let q' ← q.multiStores data len last
      some ({ q' with
        pwrite := q.pwrite + (if last + 1 ≥ q.size then 0 else last + 1)
        mbuf := [] }, true)
    else some (q, false)

/-- `mpush` (buffer.hpp 307-319). -/
def Q.mpush (q : Q α) (data : Option α) : Option (Q α × Bool) :=
  if data.isNone then none
  else if q.mbuf.length = multipushBufferSize then q.multipush q.mbuf
  else
    let q := { q with mbuf := q.mbuf ++ [data] }
    if q.mbuf.length = multipushBufferSize then q.multipush q.mbuf else some (q, true)

/-- `flush` (buffer.hpp 322-324). -/
def Q.flush (q : Q α) : Option (Q α × Bool) :=
  if q.mbuf.length ≠ 0 then q.multipush q.mbuf else some (q, true)

/-! ## Lamport_Buffer -/

/-- Fields of `Lamport_Buffer` (buffer.hpp 425-431). -/
structure L (α : Type) where
  size : Nat
  pread : Nat
  pwrite : Nat
  buf : List (Option α)
deriving Repr

def L.rd (q : L α) (i : Nat) : Option (Option α) := q.buf[i]?

def L.wr (q : L α) (i : Nat) (v : Option α) : Option (L α) :=
  if i < q.buf.length then some { q with buf := q.buf.set i v } else none

/-- constructor, `init` and `reset` (buffer.hpp 437-463, 518-523). -/
def L.init (n : Nat) : L α := { size := n, pread := 0, pwrite := 0, buf := List.replicate n none }

/-- `reset` (buffer.hpp 518-523). -/
def L.reset (q : L α) : L α := { q with pread := 0, pwrite := 0, buf := List.replicate q.size none }

/-- `empty` (buffer.hpp 468). -/
def L.empty (q : L α) : Bool := q.pwrite == q.pread

/-- `available` (buffer.hpp 473-476). -/
def L.available (q : L α) : Bool := next q.size q.pwrite != q.pread

/-- `push` (buffer.hpp 486-501). -/
def L.push (q : L α) (data : Option α) : Option (L α × Bool) :=
  if data.isNone then none
  else
    let nxt := next q.size q.pwrite
    if nxt ≠ q.pread then do
      let q ← q.wr q.pwrite data
      some ({ q with pwrite := nxt }, true)
    else some (q, false)

/-- `pop` (buffer.hpp 506-513). -/
def L.pop (q : L α) : Option (L α × Option (Option α)) :=
  if q.empty then some (q, none)
  else do
    let v ← q.rd q.pread
    some ({ q with pread := next q.size q.pread }, some v)

/-- `length` (buffer.hpp 528-538). -/
def L.length (q : L α) : Option Nat :=
  if q.pwrite > q.pread then some (q.pwrite - q.pread)
  else if q.pwrite < q.pread then some (q.size + q.pwrite - q.pread)
  else (q.rd q.pwrite).map fun v => if v.isNone then 0 else q.size

end FF.Swsr
