/-!
# `ff::svector<T>`

Source: `/repo/ff/svector.hpp` 63-325.

The allocated block is a list of `cap` cells; a cell is `none` while no object lives in it.  The
outer `none` of every operation is undefined behaviour: an access outside the block, through a null
`first`, through an iterator into a block that has been reallocated, or the use as a value of a cell
in which no object was constructed.
Simplifications: `size_t` is `Nat`; allocation never fails; destroying an object leaves the cell as
it was (the destructor of `T` is not modelled), so a leaked or doubly assigned object is not seen.
-/
namespace FF.Svector

variable {A : Type}

structure V (A : Type) where
  /-- `first`: `none` is NULL, otherwise the block -/
  first : Option (List (Option A))
  len : Nat
  cap : Nat
  chunk : Nat
deriving Repr, DecidableEq

/-- read `first[i]` -/
def V.rd (v : V A) (i : Nat) : Option (Option A) := v.first.bind fun c => c[i]?

/-- write `first[i]` -/
def V.wr (v : V A) (i : Nat) (x : Option A) : Option (V A) :=
  match v.first with
  | none => none
  | some c => if i < c.length then some { v with first := some (c.set i x) } else none

/-- `reserve` (svector.hpp 166-173): `malloc`, or `realloc` which keeps the old cells. -/
def V.reserve (v : V A) (n : Nat) : V A :=
  if n ≤ v.cap then v
  else
    match v.first with
    | none => { v with first := some (List.replicate n none), cap := n }
    | some c => { v with first := some (c.take n ++ List.replicate (n - c.length) none), cap := n }

/-- `svector(size_t chunk)` (svector.hpp 75-77). -/
def V.mk0 (chunk : Nat) : V A :=
  V.reserve { first := none, len := 0, cap := 0, chunk := if chunk = 0 then 1 else chunk } chunk

/-- `push_back` (svector.hpp 191-194); `elem` does not live inside the vector. -/
def V.pushBack (v : V A) (a : A) : Option (V A) :=
  let v := if v.len = v.cap then v.reserve (v.cap + v.chunk) else v
  (v.wr v.len (some a)).map fun v => { v with len := v.len + 1 }

/-- `push_back(v[i])`: the argument is a reference into the block, which `reserve` may have moved
(`moves`) before the element is copied (svector.hpp 192-193). -/
def V.pushBackSelf (v : V A) (i : Nat) (moves : Bool) : Option (V A) :=
  if v.len = v.cap ∧ moves = true then none
  else
    match v.rd i with
    | some (some a) => v.pushBack a
    | _ => none

/-- `pop_back` (svector.hpp 199-201): `--len` then the destructor of the cell. -/
def V.popBack (v : V A) : Option (V A) :=
  if v.len = 0 then none
  else
    match v.rd (v.len - 1) with
    | some (some _) => some { v with len := v.len - 1 }
    | _ => none

/-- `while(len > n) pop_back();` (svector.hpp 180, 285). -/
def V.popTo (n : Nat) : (fuel : Nat) → V A → Option (V A)
  | 0, v => some v
  | fuel + 1, v => if v.len > n then (v.popBack).bind (V.popTo n fuel) else some v

/-- `while(len < n) new (first + len++) T();` (svector.hpp 184-185). -/
def V.growTo (dflt : A) (n : Nat) : (fuel : Nat) → V A → Option (V A)
  | 0, v => some v
  | fuel + 1, v =>
    if v.len < n then
      ((v.wr v.len (some dflt)).map fun v => { v with len := v.len + 1 }).bind (V.growTo dflt n fuel)
    else some v

/-- `resize` (svector.hpp 178-186); the loops run at most `len` and `n` times. -/
def V.resize (v : V A) (dflt : A) (n : Nat) : Option (V A) :=
  if v.len ≥ n then V.popTo n v.len v
  else V.growTo dflt n n (v.reserve n)

/-- `clear` (svector.hpp 285). -/
def V.clear (v : V A) : Option (V A) := V.popTo 0 v.len v

/-- `back` (svector.hpp 206-209). -/
def V.back (v : V A) : Option A := if v.len = 0 then none else (v.rd (v.len - 1)).join

/-- `front` (svector.hpp 214-223). -/
def V.front (v : V A) : Option A := if v.len = 0 then none else (v.rd 0).join

/-- value of `v[n]` through the const `operator[]` (svector.hpp 321). -/
def V.get (v : V A) (n : Nat) : Option A := (v.rd n).join

/-- `v[n] = a` through the non-const `operator[]` (svector.hpp 313-316): reserves, then assigns. -/
def V.set (v : V A) (n : Nat) (a : A) : Option (V A) := (v.reserve (n + 1)).wr n (some a)

/-- a list of assignments `*i3 = *i1` between cells -/
def V.moves (v : V A) : List (Nat × Nat) → Option (V A)
  | [] => some v
  | (dst, src) :: rest =>
    match v.rd src with
    | none => none
    | some x => (v.wr dst x).bind fun v => v.moves rest

/-- `erase(begin()+i)` (svector.hpp 228-240).  When `i` is not a position of the vector the second
loop starts past the end and does not stop at it: undefined. -/
def V.erase (v : V A) (i : Nat) : Option (V A) :=
  if i < v.len then
    V.moves { v with len := v.len - 1 }
      ((List.range (v.len - 1 - i)).map fun k => (i + k, i + k + 1))
  else none

/-- `insert(begin()+i, elem)` (svector.hpp 244-264).  `moves`: whether the `realloc` inside
`reserve` moved the block (the iterators `i1`, `i2` then dangle). -/
def V.insert (v : V A) (i : Nat) (a : A) (moves : Bool) : Option (V A) :=
  if i = v.len then v.pushBack a
  else if i < v.len then
    let w := { v with len := v.len + 1 }
    let grow := decide (w.len = w.cap)
    let w := if grow then w.reserve (w.cap + w.chunk) else w
    if grow ∧ moves = true then none
    else
      -- for(i3=i2+1; i2>=i1; --i2,--i3) *i3 = *i2, with i2 the old end
      (V.moves w ((List.range (v.len + 1 - i)).map fun k => (v.len + 1 - k, v.len - k))).bind
        fun w => w.wr i (some a)
  else none

/-- A loop of `push_back` over the elements of another vector. -/
def V.pushAll : V A → List A → Option (V A)
  | v, [] => some v
  | v, a :: l => (v.pushBack a).bind fun v => v.pushAll l

/-- Copy constructor from a vector with elements `l` and chunk `ch` (svector.hpp 83-92); also the
constructor from a pair of iterators (98-101) with `ch = SVECTOR_CHUNK`: the block allocated first
has `l.length` cells while `cap` is 0. -/
def V.copyOf (l : List A) (ch : Nat) : Option (V A) :=
  if l = [] then some (V.reserve { first := none, len := 0, cap := 0, chunk := ch } ch)
  else V.pushAll
    { first := some (List.replicate l.length none), len := 0, cap := 0, chunk := ch } l

/-- `operator=(const svector&)` from another vector with elements `l` (svector.hpp 131-139). -/
def V.assign (v : V A) (l : List A) : Option (V A) := v.clear.bind fun v => v.pushAll l

/-- `operator+=` (svector.hpp 156-161). -/
def V.append (v : V A) (l : List A) : Option (V A) := v.pushAll l

/-- The state in which a move leaves its source (svector.hpp 108-115, 140-151): only `first` is
reset. -/
def V.movedFrom (v : V A) : V A := { v with first := none }

/-- Operations of a history. -/
inductive Op (A : Type) where
  | pushBack (a : A)
  | popBack
  | resize (n : Nat)
  | reserve (n : Nat)
  | clear
  | erase (i : Nat)
  | insertEnd (a : A)
  | set (i : Nat) (a : A)
  | assign (l : List A)
  | append (l : List A)

def step (dflt : A) (v : V A) : Op A → Option (V A)
  | .pushBack a => v.pushBack a
  | .popBack => v.popBack
  | .resize n => v.resize dflt n
  | .reserve n => some (v.reserve n)
  | .clear => v.clear
  | .erase i => v.erase i
  | .insertEnd a => v.insert v.len a true
  | .set i a => v.set i a
  | .assign l => v.assign l
  | .append l => v.append l

end FF.Svector
