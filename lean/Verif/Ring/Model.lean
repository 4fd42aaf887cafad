import Verif.Node.Pipe
/-!
# A pipeline with feedback (`wrap_around`)

Source: `/repo/ff/pipeline.hpp` 153-166 (`prepare_wraparound`, first and last stage standard nodes:
the input queue of the first stage is created unbounded and is also the output queue of the last
stage), 391-402 (`prepare`), 420-560 (the other queues), 1162-1166 (`skipfirstpop`: only the first stage), 1193-1262
(`run`), 1290-1305 (`run_then_freeze`), `/repo/ff/node.hpp` 1438-1514 (`thWorker::svc`).

The loop of a stage is the one of `Verif/Node/Model.lean` (`body`): a state, a function `svc`, any
number of messages sent in a call.  `skipfirstpop` (node.hpp 1443, 1460-1461): the first stage does not
pop before its first call; it is called with `NULL`.  This is written here as a `NULL` in front of what
the first stage pops: the loop handles a `NULL` exactly as the first iteration does.

Queues are atomic FIFO queues, bounded or not (C01, C08, C10, C18 are about them).  Not modelled:
blocking mode, a multi-input first stage or a multi-output last stage (pipeline.hpp 167-389).
-/
namespace FF.Ring
open FF.Node
variable {D : Type}

/-- the stage (and the channel in front of it) that follows stage `i` of a ring of `n + 1` stages
(pipeline.hpp 157: the last stage's output is the first stage's input) -/
def nxt (n i : Nat) : Nat := if i = n then 0 else i + 1

/-- room in a queue of a capacity, or in an unbounded queue -/
def room : Option Nat → Nat → Prop
  | none, _ => True
  | some c, len => len < c

instance (c : Option Nat) (len : Nat) : Decidable (room c len) := by
  cases c <;> unfold room <;> infer_instance

/-- The capacities `ff_pipeline` gives to the queues (pipeline.hpp 155: `create_input_buffer(…, false)`:
the queue that closes the ring is unbounded; the others are as the user wants, not of capacity 0). -/
structure RingCaps (cap : Nat → Option Nat) : Prop where
  feedback : cap 0 = none
  inner : ∀ i, room (cap i) 0

/-- One action of a ring of `n + 1` stages `nd 0 … nd n`; channel `i` is in front of stage `i`
(node.hpp 1454-1504). -/
def rstep (n : Nat) (nd : Nat → Node D) (cap : Nat → Option Nat) (s : P D) : PAct → Option (P D)
  | .pop i =>
    if i ≤ n ∧ s.pending i = [] ∧ (after (nd i) (s.consumed i)).exited = false then
      match s.chan i with
      | [] => none
      | m :: ms => some { s with
          chan := upd s.chan i ms
          consumed := upd s.consumed i (s.consumed i ++ [m])
          pending := upd s.pending i (body (nd i) (after (nd i) (s.consumed i)) m).2 }
    else none
  | .push i =>
    if i ≤ n ∧ room (cap (nxt n i)) (s.chan (nxt n i)).length then
      match s.pending i with
      | [] => none
      | m :: ms => some { s with
          pending := upd s.pending i ms
          pushed := upd s.pushed i (s.pushed i ++ [m])
          chan := upd s.chan (nxt n i) (s.chan (nxt n i) ++ [m]) }
    else none

/-- The start of a run: the first stage is going to be called with `NULL`; `left` is what is in the
feedback queue already (nothing, the first time). -/
def start (left : List (Msg D)) : P D := P.start (.nul :: left)

/-- The stages when the pipeline is run again (`run` 1193-1262, or `thaw` for `run_then_freeze`
1290-1305): the user's objects are as the previous run left them, the loops start anew. -/
def again (nd : Nat → Node D) (s : P D) (i : Nat) : Node D :=
  { nd i with init := (after (nd i) (s.consumed i)).st }

/-- The start of another run: nothing empties the queues in between (pipeline.hpp 1193-1262 and
1290-1305 do not touch them), so what is in the feedback queue stays there. -/
def restart (s : P D) : P D := start (s.chan 0)

end FF.Ring
