import Mathlib.Data.List.Nodup
import Mathlib.Data.List.Perm.Basic
import Mathlib.Data.List.Range
/-!
# Stencil with reduction (`ff/stencilReduce.hpp`, `stencil2D`)

Two buffers of `Xsize * Ysize` elements.  The parallel loop over the rows executes every row exactly once
(C29); the cells of different rows are computed by different threads at the same time, so a sweep is a
list of cells in any order.  A write outside the `Xsize * Ysize` elements is the outcome `none`.
-/
namespace FF.Stencil

/-- A buffer of elements. -/
abbrev Buf (T : Type) := Nat → T

/-- `M[i*Xsize+j]` (ff/stencilReduce.hpp:270, 283, 317). -/
def idx (X i j : Nat) : Nat := i * X + j

/-- One assignment `M[i*Xsize+j] = v`. -/
def wr {T : Type} (X Y : Nat) (m : Buf T) (i j : Nat) (v : T) : Option (Buf T) :=
  if idx X i j < X * Y then some fun a => if a = idx X i j then v else m a else none

/-- The assignments of one parallel loop, in the order of execution; `f` is the user's function, which
reads the input buffer (ff/stencilReduce.hpp:268-271, 281-284, 314-319). -/
def sweep {T : Type} (X Y : Nat) (f : Nat → Nat → Buf T → T) (inp : Buf T) :
    Buf T → List (Nat × Nat) → Option (Buf T)
  | out, [] => some out
  | out, (i, j) :: cs =>
    match wr X Y out i j (f i j inp) with
    | some out' => sweep X Y f inp out' cs
    | none => none

/-- `for(k=start; k<stop; k+=step)`; `step ≥ 1`. -/
def steps (start stop step : Nat) : List Nat :=
  (List.range ((stop - start + step - 1) / step)).map fun k => start + k * step

/-- The cells of a loop over rows and columns, in sequential order. -/
def cells (xs ys : List Nat) : List (Nat × Nat) := xs.flatMap fun i => ys.map fun j => (i, j)

/-- What the user gives: the function of a cell `f`, its contribution `g` to the reduction, the reduction
`op`, the functions before and after the loop, the condition (ff/stencilReduce.hpp:219-252). -/
structure Prog (T R : Type) where
  f : Nat → Nat → Buf T → T
  g : Nat → Nat → Buf T → R
  op : R → R → R
  ident : R
  before : Buf T → R → Buf T × R
  after : Buf T → R → Buf T × R
  cond : R → Nat → Bool
  maxIter : Nat

/-- The two buffers, the one `getInPtr()` points to, the reduction variable and the counter.  `buf false`
is the `Min` of the user, `buf true` is `Mout`. -/
structure S (T R : Type) where
  buf : Bool → Buf T
  inp : Bool
  r : R
  iter : Nat

variable {T R : Type}

/-- `Task.swap()` (ff/stencilReduce.hpp:125, 255). -/
def S.swap (s : S T R) : S T R := { s with inp := !s.inp }

/-- Replaces one buffer. -/
def S.put (s : S T R) (b : Bool) (m : Buf T) : S T R :=
  { s with buf := fun x => if x = b then m else s.buf x }

/-- One round of the loop (ff/stencilReduce.hpp:309-323); `order` is the order in which the threads
compute the cells.  The reduction is the fold over that order, which is what `parallel_reduce` computes
(C32).  The user's function is split in its result `f` and its contribution `g`. -/
def S.round (P : Prog T R) (X Y : Nat) (s : S T R) (order : List (Nat × Nat)) : Option (S T R) :=
  let s := s.swap
  let (m, r) := P.before (s.buf s.inp) s.r
  let s := s.put s.inp m
  match sweep X Y P.f m (s.buf !s.inp) order with
  | none => none
  | some out =>
    let r := order.foldl (fun r c => P.op r (P.g c.1 c.2 m)) r
    let (out, r) := P.after out r
    some { s.put (!s.inp) out with r := r, iter := s.iter + 1 }

/-- `do … while(++iter<maxIter && iterCondition(rVar, iter))` (ff/stencilReduce.hpp:308-325). -/
def S.loop (P : Prog T R) (X Y : Nat) (orders : Nat → List (Nat × Nat)) (s : S T R) :
    Option (S T R) :=
  match h : s.round P X Y (orders s.iter) with
  | none => none
  | some s' =>
    if hc : s'.iter < P.maxIter ∧ P.cond s'.r s'.iter then S.loop P X Y orders s' else some s'
termination_by P.maxIter - s.iter
decreasing_by
  have : s'.iter = s.iter + 1 := by
    unfold S.round at h
    dsimp only at h
    split at h
    · cases h
    · simp only [Option.some.injEq] at h
      subst h
      rfl
  omega

/-- `svc` of a stencil created with two matrices (ff/stencilReduce.hpp:257-340): initialization of the
input and of the output (`none`: no function was given), then the rounds.  `o1`, `o2`: order of the
cells in the initializations. -/
def svc (P : Prog T R) (X Y : Nat) (initIn initOut : Option (Nat → Nat → T))
    (o1 o2 : List (Nat × Nat)) (orders : Nat → List (Nat × Nat)) (bin bout : Buf T) :
    Option (S T R) :=
  let go (fi : Option (Nat → Nat → T)) (m : Buf T) (o : List (Nat × Nat)) : Option (Buf T) :=
    match fi with
    | none => some m
    | some fi => sweep X Y (fun i j _ => fi i j) m m o
  match go initIn bin o1, go initOut bout o2 with
  | some a, some b =>
    (S.mk (fun x => if x then b else a) false P.ident 0).swap.loop P X Y orders
  | _, _ => none

end FF.Stencil
