import Verif.Dc.Model
/-!
# Divide and conquer: what the result must be

The sequential recursion: a base case is solved by `seq`, any other operand is divided, the parts are solved in the
same way, and the results are combined in the order of the parts.  `solve` also counts the calls of the recursion.
The first argument bounds the depth of the recursion; without a result the recursion is deeper.
-/
namespace FF.Dc

variable {Op R : Type}

def allSome {α : Type} : List (Option α) → Option (List α)
  | [] => some []
  | none :: _ => none
  | some a :: l => (allSome l).map (a :: ·)

def solve (P : Prob Op R) : Nat → Op → Option (R × Nat)
  | 0, _ => none
  | d + 1, op =>
    if P.cond op then some (P.seq op, 1)
    else (allSome ((P.divide op).map (solve P d))).map fun l => (P.comb (l.map (·.1)), 1 + (l.map (·.2)).sum)

/-- the recursion ends with result `r` after `n` calls -/
def Sol (P : Prob Op R) (op : Op) (r : R) (n : Nat) : Prop := ∃ d, solve P d op = some (r, n)

/-- the operands of the recursion below the first one -/
inductive Below (P : Prob Op R) (op : Op) : Op → Prop
  | part {o : Op} : P.cond op = false → o ∈ P.divide op → Below P op o
  | deeper {o o' : Op} : Below P op o → P.cond o = false → o' ∈ P.divide o → Below P op o'

/-- below the first operand, only base cases have no parts -/
def Solid (P : Prob Op R) (op : Op) : Prop := ∀ o, Below P op o → P.cond o = false → P.divide o ≠ []

end FF.Dc
