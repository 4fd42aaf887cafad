import Verif.Farm.Farm
/-!
# The farm with feedback channels from the workers (master-worker)

Source: `/repo/ff/farm.hpp` 1209-1215 (`wrap_around` without collector), 398-416
(`create_feedback_buffers`: the feedback channels are unbounded), 1345-1405 (`run`: `skipfirstpop`),
`/repo/ff/lb.hpp` 305-362 (`collect_task`), 446-452 (`absorb_eos`), 985-1103 (`svc` with feedback).

An emitter, `n` sequential workers and an optional input channel.  The emitter sends tasks to the
workers and receives what they produce.  Non-blocking mode, no manager, no multi-input, the emitter
stays active (`in_active`), first run of the farm (the channels are empty).
-/
namespace FF.Farm
open FF.Node
variable {D : Type}

/-- The user's emitter: `svc` receives the channel (`get_channel_id`, `none` for -1: the input channel
or the first call) and a message; it returns the commands executed during the call and its return
value.  `eosnotify` receives the channel of an end mark. -/
structure Em (D : Type) where
  σ : Type
  init : σ
  svc : σ → Option Nat → Msg D → σ × List (Cmd D) × Msg D
  eosn : σ → Option Nat → σ × List (Cmd D)

/-- Where the emitter thread is when it has no command left. -/
inductive Ph where
  /-- in the loop of lb.hpp 1020-1103 -/
  | loop
  /-- has left the loop; next it takes one message from each of the workers `k`, `k + 1`, …
  (`absorb_eos`, lb.hpp 448) -/
  | leave (k : Nat)
  /-- the assertion of lb.hpp 450 has failed -/
  | fail
deriving DecidableEq

/-- An entry of the history of the emitter: where the message came from (a worker, or the input
channel), the channel reported to the user, and the message. -/
structure Ev (D : Type) where
  src : Option Nat
  ch : Option Nat
  m : Msg D

structure M (em : Em D) where
  e : E D
  es : em.σ
  /-- `skipfirstpop` -/
  first : Bool
  /-- `availworkers` (lb.hpp 988-992) -/
  avail : List Nat
  /-- `start - availworkers.begin()` -/
  start : Nat
  /-- `cnt` of `collect_task` (lb.hpp 311) -/
  cnt : Nat
  /-- `nw` (lb.hpp 986): end marks still expected -/
  nw : Nat
  ph : Ph
  inq : Nat → List (Msg D)
  consumed : Nat → List (Msg D)
  pending : Nat → List (Msg D)
  pushed : Nat → List (Msg D)
  /-- the feedback channels -/
  outq : Nat → List (Msg D)
  /-- the input channel of the farm -/
  inb : List (Msg D)
  /-- what the previous stage has still to send -/
  inp : List (Msg D)
  /-- ghost: what the loop of the emitter has received, in order -/
  hist : List (Ev D)
  /-- ghost: what `absorb_eos` has removed -/
  absd : Nat → List (Msg D)
  /-- ghost: the commands issued so far -/
  issued : List (Cmd D)

/-- Parameters of a run. -/
structure Cfg (D : Type) where
  /-- number of workers -/
  n : Nat
  w : Nat → Node D
  /-- capacity of the input queue of a worker -/
  ci : Nat → Nat
  /-- the farm has an input channel -/
  inpresent : Bool
  /-- `isfrozen()`: started by `run_then_freeze` -/
  frozen : Bool

/-- Start of `svc` (lb.hpp 985-1019; `skipfirstpop(!has_input_channel)`, farm.hpp 1359). -/
def M.init (cf : Cfg D) (em : Em D) (inp : List (Msg D)) : M em :=
  { e := E.start [], es := em.init, first := !cf.inpresent, avail := List.range cf.n, start := 0
    cnt := 0, nw := cf.n + (if cf.inpresent then 1 else 0), ph := .loop
    inq := fun _ => [], consumed := fun _ => [], pending := fun _ => [], pushed := fun _ => []
    outq := fun _ => [], inb := [], inp, hist := [], absd := fun _ => [], issued := [] }

/-- `push_eos(task)` and what follows it (lb.hpp 1085-1095): `absorb_eos` if the farm has an input
channel or is going to freeze. -/
def leaving (cf : Cfg D) : Ph := .leave (if cf.inpresent || cf.frozen then 0 else cf.n)

/-- the commands are those of the call, then what the return value asks for (lb.hpp 1078-1098) -/
def retCmds : Msg D → List (Cmd D)
  | .goon | .flush | .goout | .eosnf => []
  | .nul | .eos => [.bcast .eos]
  | .eosw => [.bcast .eosw]
  | .data d => [.sched (.data d)]

/-- where the loop goes after a return value (lb.hpp 1078-1098) -/
def retPh (cf : Cfg D) : Msg D → Ph
  | .goon | .flush | .data _ => .loop
  | .goout | .eosnf => .leave cf.n
  | .nul | .eos | .eosw => leaving cf

/-- the emitter issues commands -/
def M.issue {em : Em D} (s : M em) (es : em.σ) (cs : List (Cmd D)) : M em :=
  { s with es, e := { s.e with cmds := s.e.cmds ++ cs }, issued := s.issued ++ cs }

/-- `task = filter->svc(task)` and its result (lb.hpp 1069-1098). -/
def M.task (cf : Cfg D) {em : Em D} (s : M em) (ch : Option Nat) (m : Msg D) : M em :=
  let r := em.svc s.es ch m
  { s.issue r.1 (r.2.1 ++ retCmds r.2.2) with ph := retPh cf r.2.2 }

/-- is the victim removed from `availworkers` (lb.hpp 1036-1037)? -/
def erases (cf : Cfg D) : Msg D → Option Nat → Bool
  | .eos, some k => decide (0 < k) && decide (k < cf.n) && !cf.frozen
  | _, _ => false

/-- An end mark was received (lb.hpp 1030-1061). -/
def M.mark (cf : Cfg D) {em : Em D} (s : M em) (ch : Option Nat) (m : Msg D) : M em :=
  let s := s.issue (em.eosn s.es ch).1 (em.eosn s.es ch).2
  let s := if erases cf m ch then
      { s with avail := s.avail.eraseIdx (ch.getD 0), start := 0 } else s
  { s with nw := s.nw - 1, ph := if s.nw - 1 = 0 then .leave cf.n else .loop }

/-- A message was received (lb.hpp 1024-1102). -/
def M.handle (cf : Cfg D) {em : Em D} (s : M em) (ch : Option Nat) (m : Msg D) : M em :=
  match m with
  | .goout => { s with ph := .leave cf.n }
  | .eosw => s
  | .eos => s.mark cf ch .eos
  | .eosnf => s.mark cf ch .eosnf
  | m => s.task cf ch m

/-- `if (++start == ite) start = availworkers.begin();` (lb.hpp 313) -/
def M.next {em : Em D} (s : M em) : Nat := if s.start + 1 = s.avail.length then 0 else s.start + 1

/-- One attempt of `collect_task` on the next channel (lb.hpp 312-349): a worker's feedback channel,
and, when a whole round has found nothing, the input channel. -/
def M.poll (cf : Cfg D) {em : Em D} (s : M em) : Option (M em) :=
  match s.avail[s.next]? with
  | none => none
  | some i =>
    match s.outq i with
    | m :: ms => some (M.handle cf { s with
        start := s.next, cnt := 0, outq := upd s.outq i ms
        hist := s.hist ++ [⟨some i, some s.next, m⟩] } (some s.next) m)
    | [] =>
      if s.cnt + 1 = s.avail.length then
        match s.inb with
        | m :: ms => some (M.handle cf { s with
            start := s.next, cnt := 0, inb := ms, hist := s.hist ++ [⟨none, none, m⟩] } none m)
        | [] => some { s with start := s.next, cnt := 0 }
      else some { s with start := s.next, cnt := s.cnt + 1 }

/-- no command is being executed -/
def E.free (e : E D) : Bool :=
  match e.pc, e.cmds with
  | .idle, [] => true
  | _, _ => false

inductive MAct where
  /-- one attempt of the emitter to put a message in a queue -/
  | emit
  /-- one attempt of `collect_task` -/
  | collect
  /-- `absorb_eos` takes a message -/
  | absorb
  /-- worker `i` pops a message and executes one iteration of its loop -/
  | pop (i : Nat)
  /-- worker `i` pushes its next produced message in its feedback channel -/
  | push (i : Nat)
  /-- the previous stage sends a message -/
  | arrive

/-- One action of a master-worker farm. -/
def mstep (cf : Cfg D) {em : Em D} (s : M em) : MAct → Option (M em)
  | .emit =>
    match s.e.attempt cf.n (fun i => decide (cf.ci i ≤ (s.inq i).length)) with
    | none => none
    | some (e', none) => some { s with e := e' }
    | some (e', some (i, m)) => some { s with e := e', inq := upd s.inq i (s.inq i ++ [m]) }
  | .collect =>
    if s.e.free && decide (s.ph = .loop) then
      if s.first then some (M.task cf { s with first := false } none .nul)
      else s.poll cf
    else none
  | .absorb =>
    match s.ph with
    | .leave k =>
      if s.e.free && decide (k < cf.n) then
        match s.outq k with
        | [] => none
        | m :: ms => some { s with
            outq := upd s.outq k ms
            absd := upd s.absd k (s.absd k ++ [m])
            ph := match m with | .eos | .eosnf => .leave (k + 1) | _ => .fail }
      else none
    | _ => none
  | .pop i =>
    if i < cf.n ∧ s.pending i = [] ∧ (after (cf.w i) (s.consumed i)).exited = false then
      match s.inq i with
      | [] => none
      | m :: ms => some { s with
          inq := upd s.inq i ms
          consumed := upd s.consumed i (s.consumed i ++ [m])
          pending := upd s.pending i (body (cf.w i) (after (cf.w i) (s.consumed i)) m).2 }
    else none
  | .push i =>
    if i < cf.n then
      match s.pending i with
      | [] => none
      | m :: ms => some { s with
          pending := upd s.pending i ms
          pushed := upd s.pushed i (s.pushed i ++ [m])
          outq := upd s.outq i (s.outq i ++ [m]) }
    else none
  | .arrive =>
    match s.inp with
    | [] => none
    | m :: ms => some { s with inp := ms, inb := s.inb ++ [m] }

/-- the emitter thread has left its loop and done everything that follows -/
def M.Ended (cf : Cfg D) {em : Em D} (s : M em) : Prop := s.ph = .leave cf.n ∧ s.e.pc = .idle ∧ s.e.cmds = []

/-! ## Specification -/

/-- what came from worker `i` -/
def fromW (h : List (Ev D)) (i : Nat) : List (Msg D) :=
  (h.filter fun x => decide (x.src = some i)).map (·.m)

/-- what came from the input channel -/
def fromIn (h : List (Ev D)) : List (Msg D) := (h.filter fun x => decide (x.src = none)).map (·.m)

/-- what the emitter makes of one received message: its new state and the commands it issues -/
def react (em : Em D) (st : em.σ) (x : Ev D) : em.σ × List (Cmd D) :=
  match x.m with
  | .goout | .eosw => (st, [])
  | .eos | .eosnf => em.eosn st x.ch
  | m => ((em.svc st x.ch m).1, (em.svc st x.ch m).2.1 ++ retCmds (em.svc st x.ch m).2.2)

/-- what the emitter makes of a sequence of received messages -/
def replay (em : Em D) : em.σ → List (Ev D) → em.σ × List (Cmd D)
  | st, [] => (st, [])
  | st, x :: xs => ((replay em (react em st x).1 xs).1, (react em st x).2 ++ (replay em (react em st x).1 xs).2)

/-- the same, with the first call on `NULL` when there is no input channel -/
def behaviour (em : Em D) (started : Bool) (h : List (Ev D)) : em.σ × List (Cmd D) :=
  if started then replay em em.init (⟨none, none, .nul⟩ :: h) else replay em em.init h

end FF.Farm
