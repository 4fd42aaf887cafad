import Verif.Evolution.Model
/-!
# The pool evolution pattern (C72): specification

The sequential algorithm, for any function `ev` that evolves a list of individuals.
-/
namespace FF.Evolution

variable {T E : Type}

/-- `while (!t(P)) { N = ev(s(P)); P = f(P, N); }`, from the population `P` and the environment `e`; what
the pattern computes on one population. -/
inductive Algo (f : Fns T E) (ev : List T → E → List T) : List T → E → List T → E → Prop where
  | stop {P : List T} {e e' : E} : f.termination P e = (true, e') → Algo f ev P e P e'
  | round {P P1 P2 N R Q : List T} {e e1 e2 e3 e4 : E} :
    f.termination P e = (false, e1) → f.selection P [] e1 = (P1, N, e2) →
    f.filter P1 (ev N e2) e2 = (P2, Q, e3) → Algo f ev Q e3 R e4 → Algo f ev P e R e4

/-- The algorithm on a stream of populations: the environment is kept. -/
inductive AlgoStream (f : Fns T E) (ev : List T → E → List T) : List (List T) → E → List (List T) → E → Prop where
  | nil (e : E) : AlgoStream f ev [] e [] e
  | cons {P R : List T} {ts outs : List (List T)} {e e1 e2 : E} :
    Algo f ev P e R e1 → AlgoStream f ev ts e1 outs e2 → AlgoStream f ev (P :: ts) e (R :: outs) e2

/-- The algorithm in the documentation (ff/poolEvolution.hpp 45-48, 77-80): what the filter leaves is added
to the population. -/
inductive DocAlgo (f : Fns T E) (ev : List T → E → List T) : List T → E → List T → E → Prop where
  | stop {P : List T} {e e' : E} : f.termination P e = (true, e') → DocAlgo f ev P e P e'
  | round {P P1 P2 N R Q : List T} {e e1 e2 e3 e4 : E} :
    f.termination P e = (false, e1) → f.selection P [] e1 = (P1, N, e2) →
    f.filter P1 (ev N e2) e2 = (P2, Q, e3) → DocAlgo f ev (P1 ++ Q) e3 R e4 → DocAlgo f ev P e R e4

/-- The worker that evolves individual `i` of `n` with `nw` workers: the individuals are dealt out in
consecutive blocks of `n / nw`, the first `n % nw` workers get one more. -/
def owner (n nw i : Nat) : Nat :=
  if i < n % nw * (n / nw + 1) then i / (n / nw + 1) else n % nw + (i - n % nw * (n / nw + 1)) / (n / nw)

end FF.Evolution
