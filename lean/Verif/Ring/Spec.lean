import Verif.Ring.Model
/-!
# Specification: what a ring of stages computes

Independent of schedules and queues: each stage is a function from the messages it reads to the
messages it writes; the ring computes the least streams that satisfy these equations.
-/
namespace FF.Ring
open FF.Node
variable {D : Type}

/-- What has arrived in front of stage `i` after the messages went through `m` stages; `init` is what
the first stage finds at the start. -/
def turns (n : Nat) (nd : Nat → Node D) (init : List (Msg D)) : Nat → Nat → List (Msg D)
  | 0, i => if i = 0 then init else []
  | m + 1, i =>
    match i with
    | 0 => init ++ stream (nd n) (turns n nd init m n)
    | j + 1 => stream (nd j) (turns n nd init m j)

/-- Stages that end only because they are told to: `svc` never returns an end mark. -/
def Obedient (n : Node D) : Prop := ∀ s t, continues (n.svc s t).2.2 = true

/-- A stage that applies a function to each task, gives back one result for each, and says nothing
at the end of the stream. -/
structure Maps (n : Node D) (f : D → D) : Prop where
  svc : ∀ s d, (n.svc s (.data d)).2 = ([], .data (f d))
  eosn : ∀ s, (n.eosn s).2 = []

/-- a function applied to a message that is a task -/
def onMsg (f : D → D) : Msg D → Msg D
  | .data d => .data (f d)
  | m => m

/-- the functions of stages `1 … k`, one after the other -/
def through (f : Nat → D → D) : Nat → D → D
  | 0, d => d
  | k + 1, d => f (k + 1) (through f k d)

/-- The first stage stops when `k` tasks at most have come back, whatever they are. -/
def StopsWithin (n : Node D) (k : Nat) : Prop :=
  ∀ ds : List D, k ≤ ds.length → (after n (.nul :: ds.map .data)).exited = true

end FF.Ring
