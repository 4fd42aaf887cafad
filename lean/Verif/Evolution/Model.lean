import Verif.Parfor.Owner
/-!
# The pool evolution pattern (C72): model

Models `poolEvolution` (ff/poolEvolution.hpp 85-190).  The parallel loop is the one of `Verif.Parfor`:
`parallel_for_thid(0, buffer.size(), 1, PARFOR_STATIC(0), E, pE)` (182-183) calls `setloop` with grain
`PARFOR_DYNAMIC(PARFOR_STATIC(0))`, which is 0 (ff/parallel_for.hpp 268-273, parallel_for_internals.hpp
408-409): the default static scheduling.

Simplifications.  The four functions of the user are total functions of what they are given, the
environment and the worker id; they do not throw.  What `selection` and `filter` do with the
`ParallelForReduce` they are given is not modelled beyond this: afterwards its task table is that of an
object that has executed some sequence of loops (`Table`).  A vector holds less than 2^63 elements.
`threadPause` (188) is not modelled.
-/
namespace FF.Evolution
open FF.Parfor

variable {T E : Type}

/-- The functions given to the constructor (ff/poolEvolution.hpp 88-91).  Arguments passed by reference
that are not `const` are also results: of `selection` and `filter` the population, the buffer and the
environment. -/
structure Fns (T E : Type) where
  selection : List T → List T → E → List T × List T × E
  evolution : T → E → Nat → T
  filter : List T → List T → E → List T × List T × E
  termination : List T → E → Bool × E

/-- `setParEvolution` (138-142): the new value of `pE` -/
def setParEvolution (maxp pE n : Nat) : Nat := if n > maxp then pE else n

/-- The number of workers of `loopevol` (parallel_for_internals.hpp 1005; `cores` is the number of cores). -/
def nworkers (maxp cores : Nat) : Nat := if maxp = 0 then cores else maxp

/-- The number of workers used for a loop called with `pE` (parallel_for_internals.hpp 1208-1216). -/
def degree (maxp cores pE : Nat) : Nat :=
  if pE > nworkers maxp cores then nworkers maxp cores
  else if pE = 0 then nworkers maxp cores else pE

/-- The evolution phase while it is executed: the calls of the body that have not begun (worker and
index), those that have read their individual and not yet written the result (with the result), and the
buffer. -/
structure Ev (T : Type) where
  todo : List (Nat × Int)
  busy : List (Nat × Int × T)
  buf : List T

/-- One step of the body `buffer[i] = evolution(buffer[i], env, thid)` (178-180): a worker reads
`buffer[i]` and evolves it, or stores the result.  A call of the body with an index outside of the buffer
has no step.  Any order of the calls, and any interleaving of reads and writes, is allowed. -/
inductive EvStep (f : Fns T E) (env : E) : Ev T → Ev T → Prop where
  | read {pre post : List (Nat × Int)} {busy : List (Nat × Int × T)} {buf : List T} {w : Nat} {i : Int} {x : T} :
    0 ≤ i → buf[i.toNat]? = some x →
    EvStep f env ⟨pre ++ (w, i) :: post, busy, buf⟩ ⟨pre ++ post, (w, i, f.evolution x env w) :: busy, buf⟩
  | write {todo : List (Nat × Int)} {pre post : List (Nat × Int × T)} {buf : List T} {w : Nat} {i : Int} {v : T} :
    EvStep f env ⟨todo, pre ++ (w, i, v) :: post, buf⟩ ⟨todo, pre ++ post, buf.set i.toNat v⟩

inductive EvSteps (f : Fns T E) (env : E) : Ev T → Ev T → Prop where
  | refl (s : Ev T) : EvSteps f env s s
  | tail {s t u : Ev T} : EvSteps f env s t → EvStep f env t u → EvSteps f env s u

/-- The evolution phase (178-183) with `nw` workers: `old` and `d` are the task tables of `loopevol` before
and after, `b` and `b'` the buffer.  The calls of the body are those of a run of the parallel loop. -/
inductive Evolve (f : Fns T E) (nw : Nat) (env : E) (old : Nat → Range) (b : List T) : (Nat → Range) → List T → Prop where
  | mk {L : Loop} {log : List (Nat × Int)} {d : Nat → Range} {b' : List T} :
    (b.length : Int) < 2 ^ 63 → setloopStatic old 0 b.length 1 nw = some L → RunFor 0 b.length 1 nw L log d →
    EvSteps f env ⟨log, [], b⟩ ⟨[], [], b'⟩ → Evolve f nw env old b d b'

/-- what the object owns: the task table of `loopevol`, the buffer, the environment -/
structure Obj (T E : Type) where
  table : Nat → Range
  buffer : List T
  env : E

/-- `svc` (167-190) from the test of the loop: `Svc f par o P o' P'`: with the population `P` in `*input` it
returns, and `*input` is then `P'`.  `par` are the values of the number of workers that may be in force
(`setParEvolution` may be called between two rounds). -/
inductive Svc (f : Fns T E) (par : Nat → Prop) : Obj T E → List T → Obj T E → List T → Prop where
  /-- 170: the loop ends -/
  | stop {o : Obj T E} {P : List T} {e : E} : f.termination P o.env = (true, e) →
    Svc f par o P { o with env := e } P
  /-- 170-187: one round -/
  | round {o o' : Obj T E} {P P1 P2 P' b b1 b2 : List T} {e1 e2 e3 : E} {nw : Nat} {t1 t2 t3 : Nat → Range} :
    f.termination P o.env = (false, e1) →
    f.selection P [] e1 = (P1, b, e2) → Table t1 →
    par nw → Evolve f nw e2 t1 b t2 b1 →
    f.filter P1 b1 e2 = (P2, b2, e3) → Table t3 →
    Svc f par ⟨t3, P2, e3⟩ b2 o' P' →
    Svc f par o P o' P'

/-- The stream version (131-136): one call of `svc` for each task; the task itself is returned (189), with
the final population in it. -/
inductive Stream (f : Fns T E) (par : Nat → Prop) : Obj T E → List (List T) → Obj T E → List (List T) → Prop where
  | nil (o : Obj T E) : Stream f par o [] o []
  | cons {o o1 o2 : Obj T E} {P P' : List T} {ts outs : List (List T)} :
    Svc f par o P o1 P' → Stream f par o1 ts o2 outs → Stream f par o (P :: ts) o2 (P' :: outs)

end FF.Evolution
