import Verif.Swsr.Lemmas
/-!
# `ff::uSWSR_Ptr_Buffer`, call by call (push, pop, length, reset)

Source: `/repo/ff/ubuffer.hpp`.  Used for the claims about `length()` (C06) and `reset()`.
Simplification: the segments between `buf_r` and `buf_w` are a list (oldest first: `buf_r` is the
first, `buf_w` the last, `inuse` holds all but the first); segment addresses and the cache of empty
segments are left out (that a recycled segment is as good as a new one is C09).
-/
namespace FF.Uswsr.Seq
open FF.Swsr (Q next Rep)
variable {A : Type}

/-- Fields of `uSWSR_Ptr_Buffer` (ubuffer.hpp 519-560): `segs` as above, `inUse` is
`in_use_buffers`, an `unsigned long`; the code only increments, decrements and subtracts 2 from it,
reading the result as signed, so an `Int` here. -/
structure U (A : Type) where
  size : Nat
  fixed : Bool
  segs : List (Q A)
  inUse : Int

/-- constructor and `init` (ubuffer.hpp 265-318). -/
def U.init (n : Nat) (fixed : Bool) : Option (U A) :=
  (Q.init n).map fun q => { size := n, fixed, segs := [q], inUse := 1 }

/-- `push` (ubuffer.hpp 344-367); the answer of `buf_w->push` is ignored by the code. -/
def U.push (u : U A) (a : A) : Option (U A × Bool) :=
  match u.segs.getLast? with
  | none => none
  | some w => do
    if (← w.available) then
      let (w', _) ← w.push (some a)
      some ({ u with segs := u.segs.dropLast ++ [w'] }, true)
    else if u.fixed then some (u, false)
    else
      let q ← Q.init u.size
      let (q', _) ← q.push (some a)
      some ({ u with segs := u.segs ++ [q'], inUse := u.inUse + 1 }, true)

/-- `pop` (ubuffer.hpp 411-433). -/
def U.pop (u : U A) : Option (U A × Option (Option A)) :=
  match u.segs with
  | [] => none
  | r :: rest => do
    if (← r.empty) then
      match rest with
      | [] => some (u, none)            -- buf_r == buf_w
      | t :: rest' =>
        let (t', v) ← t.pop
        some ({ u with segs := t' :: rest', inUse := u.inUse - 1 }, v)
    else
      let (r', v) ← r.pop
      some ({ u with segs := r' :: rest }, v)

/-- `length` (ubuffer.hpp 500-505). -/
def U.length (u : U A) : Option Int :=
  match u.segs with
  | [] => none
  | [r] => r.length.map Int.ofNat
  | r :: t :: rest => do
    let len ← r.length
    let w ← (t :: rest).getLast?
    let lw ← w.length
    let inUse := u.inUse - 2
    some (len + (if inUse > 0 then inUse else 0) * u.size + lw)

/-- `reset` (ubuffer.hpp 509-514): both ends reset, `buf_w = buf_r`, the others released;
`in_use_buffers` keeps its value. -/
def U.reset (u : U A) : Option (U A) :=
  match u.segs with
  | [] => none
  | r :: _ => do
    let r' ← r.reset false
    some { u with segs := [r'] }

end FF.Uswsr.Seq
