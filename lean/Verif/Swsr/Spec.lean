/-!
# Specification: a bounded first-in first-out queue

`xs` lists the stored elements, oldest first.  Nothing here mentions the implementation.
-/
namespace FF.Swsr

/-- Calls a client can make. -/
inductive Op (α : Type) where
  | push (a : α)
  | pop
  | empty
  | available
  | top
  | length
  | buffersize
  | reset
deriving Repr

/-- What a call returns: a boolean, possibly an element, a number, or nothing. -/
inductive Out (α : Type) where
  | bool (b : Bool)
  | item (a : Option α)
  | num (n : Nat)
  | unit
deriving Repr, DecidableEq

variable {α : Type}

/-- Bounded FIFO of capacity `cap`. -/
def Spec.step (cap : Nat) (xs : List α) : Op α → List α × Out α
  | .push a => if xs.length < cap then (xs ++ [a], .bool true) else (xs, .bool false)
  | .pop =>
    match xs with
    | [] => ([], .item none)
    | x :: rest => (rest, .item (some x))
  | .empty => (xs, .bool xs.isEmpty)
  | .available => (xs, .bool (decide (xs.length < cap)))
  | .top => (xs, .item xs.head?)
  | .length => (xs, .num xs.length)
  | .buffersize => (xs, .num cap)
  | .reset => ([], .unit)

/-- Outputs of a whole history of calls, starting from contents `xs`. -/
def Spec.run (cap : Nat) (xs : List α) : List (Op α) → List (Out α)
  | [] => []
  | op :: ops => (Spec.step cap xs op).2 :: Spec.run cap (Spec.step cap xs op).1 ops

/-- Contents after a whole history of calls. -/
def Spec.final (cap : Nat) (xs : List α) : List (Op α) → List α
  | [] => xs
  | op :: ops => Spec.final cap (Spec.step cap xs op).1 ops

/-! ## Histories that also push batches -/

/-- A call of the plain interface, or one `multipush` of a batch. -/
inductive MOp (α : Type) where
  | op (o : Op α)
  | multi (as : List α)

/-- A batch is accepted as a whole exactly when it is shorter than the capacity and fits in the
free space; it is then as if its elements had been pushed in order. -/
def Spec.mstep (cap : Nat) (xs : List α) : MOp α → List α × Out α
  | .op o => Spec.step cap xs o
  | .multi as =>
    if as.length < cap ∧ xs.length + as.length ≤ cap then (xs ++ as, .bool true)
    else (xs, .bool false)

def Spec.mrun (cap : Nat) (xs : List α) : List (MOp α) → List (Out α)
  | [] => []
  | op :: ops => (Spec.mstep cap xs op).2 :: Spec.mrun cap (Spec.mstep cap xs op).1 ops

/-- How many elements have been accepted since creation or the last `reset`, after one more
call. -/
def Spec.accepted (cap : Nat) (xs : List α) (cnt : Nat) : MOp α → Nat
  | .op (.push _) => if xs.length < cap then cnt + 1 else cnt
  | .op .reset => 0
  | .op _ => cnt
  | .multi as => if as.length < cap ∧ xs.length + as.length ≤ cap then cnt + as.length else cnt

/-- The histories in which every batch is non-empty and is issued when the number of elements
accepted so far is a multiple of the capacity. -/
def Spec.aligned (cap : Nat) (xs : List α) (cnt : Nat) : List (MOp α) → Prop
  | [] => True
  | op :: ops =>
    (∀ as, op = .multi as → as ≠ [] ∧ cnt % cap = 0) ∧
      Spec.aligned cap (Spec.mstep cap xs op).1 (Spec.accepted cap xs cnt op) ops

end FF.Swsr
