/-!
# `ff::squeue<T>`

Source: `/repo/ff/squeue.hpp` 50-185.

`data` is the array of chunk descriptors up to index `tail` (`tail = data.length - 1`); entries past
`tail` are never read, only overwritten by `data[++tail] = …`, so they are not represented.  A chunk
is a list of `chunk` cells (`none`: nothing stored yet); a freed chunk is `none`.  The outer `none`
of an operation is undefined behaviour: an access outside a chunk, through a null chunk pointer, or
to a descriptor that does not exist.
Simplifications: `int` and `unsigned` counters do not wrap (`chunk` and the number of chunks fit);
allocation never fails; the growth of `data` (100-103) only enlarges the array.
-/
namespace FF.Squeue

variable {A : Type}

/-- `data_type` (squeue.hpp 53-60) -/
structure Ck (A : Type) where
  h : Nat
  t : Int
  entry : Option (List (Option A))
deriving Repr, DecidableEq

structure Q (A : Type) where
  data : List (Ck A)
  nel : Nat
  head : Nat
  chunk : Nat
deriving Repr, DecidableEq

def Q.tail (q : Q A) : Nat := q.data.length - 1

/-- `newchunk` (67-70) -/
def newchunk (chunk : Nat) : Option (List (Option A)) := some (List.replicate chunk none)

/-- constructor (80-85) -/
def Q.mk0 (chunk : Nat) : Q A :=
  { data := [{ h := 0, t := -1, entry := newchunk chunk }], nel := 0, head := 0, chunk := chunk }

/-- `current[i] = x` where `current = data[j].entry` -/
def wr (d : List (Ck A)) (j : Nat) (i : Int) (a : A) : Option (List (Ck A)) :=
  match d[j]? with
  | some { h := h, t := t, entry := some c } =>
    if 0 ≤ i ∧ i < c.length then
      some (d.set j { h := h, t := t, entry := some (c.set i.toNat (some a)) })
    else none
  | _ => none

/-- `current[i]` where `current = data[j].entry` -/
def rd (d : List (Ck A)) (j : Nat) (i : Int) : Option A :=
  match d[j]? with
  | some { h := _, t := _, entry := some c } => if 0 ≤ i ∧ i < c.length then (c[i.toNat]?).join else none
  | _ => none

/-- `push_back` (96-112) -/
def Q.pushBack (q : Q A) (a : A) : Option (Q A) :=
  match q.data[q.tail]? with
  | none => none
  | some ck =>
    let d := q.data.set q.tail { ck with t := ck.t + 1 }
    if ck.t = (q.chunk : Int) - 1 then
      (wr (d ++ [{ h := 0, t := 0, entry := newchunk q.chunk }]) (q.tail + 1) 0 a).map
        fun d => { q with data := d, nel := q.nel + 1 }
    else
      (wr d q.tail (ck.t + 1) a).map fun d => { q with data := d, nel := q.nel + 1 }

/-- `pop_back` (115-130); the destructor needs a live element at `current[current_tail]`. -/
def Q.popBack (q : Q A) : Option (Q A) :=
  if q.nel = 0 then some q
  else
    match q.data[q.tail]? with
    | none => none
    | some ck =>
      match rd q.data q.tail ck.t with
      | none => none
      | some _ =>
        if ck.t = 0 ∧ q.tail > 0 then
          -- deletechunk(tail); --tail; data[tail].t = chunk-1
          let d := q.data.dropLast
          match d[q.tail - 1]? with
          | none => none
          | some ck' =>
            some { q with
              data := d.set (q.tail - 1) { ck' with t := (q.chunk : Int) - 1 }
              nel := q.nel - 1 }
        else
          some { q with data := q.data.set q.tail { ck with t := ck.t - 1 }, nel := q.nel - 1 }

/-- `back` (132-138) -/
def Q.back (q : Q A) : Option A :=
  if q.nel = 0 then none
  else
    match q.data[q.tail]? with
    | none => none
    | some ck => rd q.data q.tail ck.t

/-- `pop_front` (141-154) -/
def Q.popFront (q : Q A) : Option (Q A) :=
  if q.nel = 0 then some q
  else
    match q.data[q.head]? with
    | none => none
    | some ck =>
      match rd q.data q.head ck.h with
      | none => none
      | some _ =>
        let d := q.data.set q.head { ck with h := ck.h + 1 }
        if ck.h = q.chunk - 1 ∧ q.tail > q.head then
          some { q with
            data := q.data.set q.head { ck with h := ck.h + 1, entry := none }
            nel := q.nel - 1
            head := q.head + 1 }
        else some { q with data := d, nel := q.nel - 1 }

/-- `front` (157-163) -/
def Q.front (q : Q A) : Option A :=
  if q.nel = 0 then none
  else
    match q.data[q.head]? with
    | none => none
    | some ck => rd q.data q.head ck.h

/-- `at` (166-172) -/
def Q.at (q : Q A) (idx : Nat) : Option A :=
  if q.nel = 0 ∨ idx > q.nel then none
  else
    match q.data[q.head]? with
    | none => none
    | some ck => rd q.data q.head ((ck.h : Int) + idx)

inductive Op (A : Type) where
  | pushBack (a : A)
  | popBack
  | popFront

def step (q : Q A) : Op A → Option (Q A)
  | .pushBack a => q.pushBack a
  | .popBack => q.popBack
  | .popFront => q.popFront

def run : Q A → List (Op A) → Option (Q A)
  | q, [] => some q
  | q, o :: os => (step q o).bind fun q => run q os

end FF.Squeue
