import Verif.Farm.FarmLive
import Verif.Node.Accel
/-!
# C66: a farm used as an accelerator, in rounds, with a number of workers chosen for each round

`farm.hpp` 1349-1403 (`run`), 1436-1445 (`run_then_freeze`), 1483-1495 (`wait_freezing`), 1549-1578
(`offload`), 1592-1624 (`load_result`), 1930-1933 (`thaw`); `lb.hpp` 872-976 (`svc` of the emitter),
1398-1403 (`thaw`); `gt.hpp` 537-556 (`svc_init`), 563-675 (`svc`), 728-732 (`wait_freezing`), 807-812
(`thaw`); `node.hpp` 246-305 (`thread_routine`: a thread that leaves its loop calls `svc_end`, goes to
sleep, and when it is woken calls `svc_init` and enters the loop again).

In each round the main thread wakes the emitter, some of the workers and the collector, offloads the
tasks and an end mark, loads results until the end mark, and waits until all threads sleep.  Inside a
round the threads are those of C21 (`F`, `fstep`).  Queues, the cursors of the emitter and of the
collector, the counters of the collector and the states of all the nodes survive from one round to the
next.  Not modelled: blocking mode, feedback channels, a farm without collector (nothing to load),
nodes that leave their loop with `EOS_NOFREEZE` or `GO_OUT`.
-/
namespace FF.Farm
open FF.Node
variable {D : Type}

/-- the node, entering its loop in state `st` -/
abbrev reinit (n : Node D) (st : n.σ) : Node D := { n with init := st }

/-- Number of workers that run in a round (`farm.hpp` 1436-1445, `lb.hpp` 1398-1400, `gt.hpp`
808-810): all of them in the first round, whatever was asked for, and in a later round if no number
(`-1`) or too big a number is given. -/
def running (N : Nat) (first : Bool) (nw : Option Nat) : Nat :=
  if first then N else
    match nw with
    | none => N
    | some k => if N < k then N else k

/-- Where the main thread is in its current round. -/
inductive MPc (D : Type) where
  /-- `run_then_freeze`: wake the emitter -/
  | wakeE
  /-- wake the workers, from number `j` on -/
  | wakeW (j : Nat)
  /-- wake the collector -/
  | wakeG
  /-- `offload` these -/
  | off (ms : List (Msg D))
  /-- `while(load_result(&r)) …` -/
  | load
  /-- `wait_freezing`: wait for the workers, from number `j` on -/
  | waitW (j : Nat)
  /-- wait for the emitter -/
  | waitE
  /-- wait for the collector -/
  | waitG

/-- The farm and its user. -/
structure FA (w : Nat → RNode D) (c : RNode D) where
  /-- emitter, workers, collector and their queues; `consumed`, `pushed`, `e.log`, `e.dn`, `g.got` and
  `g.out` record what happened since the thread concerned was last woken -/
  f : F D c.toNode
  /-- state in which each worker entered its loop when it was last woken -/
  st : (i : Nat) → (w i).σ
  /-- workers that are in their loop -/
  up : Nat → Bool
  /-- the emitter has received the end mark; it sleeps once it has executed its last command -/
  eEos : Bool
  /-- what the emitter has received, in all rounds; the state of its filter is a function of it -/
  hist : List (Msg D)
  /-- `running` of the emitter and of the collector -/
  rl : Nat
  rg : Nat
  /-- input queue of the farm -/
  inp : List (Msg D)
  /-- queue from the collector to the main thread -/
  res : List (Msg D)
  /-- this is the first round -/
  first : Bool
  /-- the current round and those that follow -/
  todo : List (Option Nat × List D)
  mpc : MPc D
  /-- results of the current `while(load_result(&r))` -/
  cur : List (Msg D)
  /-- results of the finished ones -/
  got : List (List (Msg D))

/-- Before the first `run_then_freeze` no thread runs. -/
def FA.start (w : Nat → RNode D) (c : RNode D) (rounds : List (Option Nat × List D)) : FA w c :=
  { f := { F.start c.toNode [] with g := { G.start c.toNode with exited := true } },
    st := fun i => (w i).init, up := fun _ => false, eEos := true, hist := [], rl := 0, rg := 0,
    inp := [], res := [], first := true, todo := rounds, mpc := .wakeE, cur := [], got := [] }

/-- the workers, as they entered their loops -/
abbrev FA.nodes {w : Nat → RNode D} {c : RNode D} (s : FA w c) : Nat → Node D :=
  fun i => reinit (w i).toNode (s.st i)

/-- What the emitter puts for a message it takes from the input queue (`lb.hpp` 899-963): what its
filter (any function `em` of what it has received so far; the default emitter schedules the task)
asks for, and, for an end mark, what `eosnotify` asks for and then the end mark for every worker. -/
def emOne (em : List (Msg D) → Msg D → List (Cmd D)) (h : List (Msg D)) : Msg D → List (Cmd D)
  | .eos => em h .eos ++ [.bcast .eos]
  | m => em h m

/-- the state in which worker `i` will enter its loop when it is woken (`node.hpp` 259-268): `svc_init`
is called after `svc_end`, except the first time -/
def FA.next {w : Nat → RNode D} {c : RNode D} (s : FA w c) (i : Nat) : (w i).σ :=
  if s.first then s.st i else (w i).renew (after (s.nodes i) (s.f.consumed i)).st

/-- The collector is woken with `k` channels: `svc` had, when it returned, reset each of the two
counters if it had reached `running` (`gt.hpp` 671-672); `svc_init` puts the channels on line again
(545: those below `running`; the others are never looked at).  The cursor stays where it was. -/
def G.rewake {c : RNode D} (first : Bool) (rg : Nat) (g : G c.toNode) : G c.toNode :=
  { st := if first then g.st else c.renew g.st
    nextr1 := g.nextr1
    offline := fun _ => false
    neos := if rg ≤ g.neos then 0 else g.neos
    neosnf := if rg ≤ g.neosnf then 0 else g.neosnf
    exited := false, out := [], got := [] }

inductive FAAct where
  /-- the emitter takes a message from the input queue -/
  | take
  /-- a step of the emitter, a worker or the collector -/
  | farm (a : FAct)
  /-- a step of the main thread -/
  | user

/-- The main thread (`farm.hpp`, see above). -/
def fauser (N cap : Nat) {w : Nat → RNode D} {c : RNode D} (s : FA w c) : Option (FA w c) :=
  match s.todo with
  | [] => none
  | (nw, ts) :: rs =>
    match s.mpc with
    | .wakeE =>
      match s.eEos, s.f.e.pc, s.f.e.cmds with
      | true, .idle, [] =>
        some { s with f := { s.f with e := { s.f.e with log := [], dn := [] } }, eEos := false,
                      rl := running N s.first nw, mpc := .wakeW 0 }
      | _, _, _ => none
    | .wakeW j =>
      if j < running N s.first nw then
        if s.up j = false ∧ s.f.pending j = [] then
          some { s with
            f := { s.f with consumed := upd s.f.consumed j [], pushed := upd s.f.pushed j [] }
            st := fun i => if i = j then s.next i else s.st i
            up := upd s.up j true
            mpc := .wakeW (j + 1) }
        else none
      else some { s with mpc := .wakeG }
    | .wakeG =>
      if s.f.g.exited then
        some { s with f := { s.f with g := s.f.g.rewake s.first s.rg }, rg := running N s.first nw,
                      mpc := .off (ts.map .data ++ [.eos]) }
      else none
    | .off [] => some { s with mpc := .load }
    | .off (m :: ms) =>
      if s.inp.length < cap then some { s with inp := s.inp ++ [m], mpc := .off ms } else none
    | .load =>
      match s.res with
      | [] => none
      | .eos :: ms => some { s with res := ms, got := s.got ++ [s.cur], cur := [], mpc := .waitW 0 }
      | m :: ms => some { s with res := ms, cur := s.cur ++ [m] }
    | .waitW j =>
      if j < N then
        if s.up j = false ∧ s.f.pending j = [] then some { s with mpc := .waitW (j + 1) } else none
      else some { s with mpc := .waitE }
    | .waitE =>
      match s.eEos, s.f.e.pc, s.f.e.cmds with
      | true, .idle, [] => some { s with mpc := .waitG }
      | _, _, _ => none
    | .waitG =>
      if s.f.g.exited then some { s with todo := rs, first := false, mpc := .wakeE } else none

/-- One action of a farm of `N` workers used as an accelerator: capacities `ci`, `co` of the queues of
the workers and `cap` of the input queue; the queue from the collector to the main thread is unbounded
(`farm.hpp` 274-284). -/
def fastep (N : Nat) (ci co : Nat → Nat) (cap : Nat) (em : List (Msg D) → Msg D → List (Cmd D))
    {w : Nat → RNode D} {c : RNode D} (s : FA w c) : FAAct → Option (FA w c)
  | .take =>
    match s.eEos, s.f.e.pc, s.f.e.cmds, s.inp with
    | false, .idle, [], m :: ms =>
      some { s with inp := ms, hist := s.hist ++ [m]
                    eEos := (match m with | .eos => true | _ => false)
                    f := { s.f with e := { s.f.e with cmds := emOne em s.hist m } } }
    | _, _, _, _ => none
  | .farm .emit => (fstep s.rl s.nodes ci co s.f .emit).map fun f' => { s with f := f' }
  | .farm (.pop i) =>
    if s.up i then
      (fstep N s.nodes ci co s.f (.pop i)).map fun f' =>
        { s with f := f', up := upd s.up i (!(after (s.nodes i) (f'.consumed i)).exited) }
    else none
  | .farm (.push i) => (fstep N s.nodes ci co s.f (.push i)).map fun f' => { s with f := f' }
  | .farm .gather =>
    (fstep s.rg s.nodes ci co s.f .gather).map fun f' =>
      { s with f := f', res := s.res ++ f'.g.out.drop s.f.g.out.length }
  | .user => fauser N cap s

/-! ## Specification -/

/-- the commands of the emitter for the messages `ms`, received after `h` -/
def emAll (em : List (Msg D) → Msg D → List (Cmd D)) : List (Msg D) → List (Msg D) → List (Cmd D)
  | _, [] => []
  | h, m :: ms => emOne em h m ++ emAll em (h ++ [m]) ms

/-- What the rounds may return.  In each round: the emitter puts (`log`) what its commands ask for;
the collector receives (`rec`), from each running worker, in order, what this worker makes of all that
was put in its queue, in any interleaving; the results of the round are what the filter of the
collector makes of that.  The nodes that ran start the next round in the state in which they ended
this one, renewed by `svc_end` and `svc_init`. -/
def Runs (N : Nat) (w : Nat → RNode D) (c : RNode D) (em : List (Msg D) → Msg D → List (Cmd D)) :
    Bool → List (Msg D) → ((i : Nat) → (w i).σ) → c.σ →
    List (Option Nat × List D) → List (List (Msg D)) → Prop
  | _, _, _, _, [], outs => outs = []
  | first, h, st, cst, (nw, ts) :: rs, outs =>
    ∃ log rec o outs', outs = o :: outs' ∧
      Explains (running N first nw) (emAll em h (ts.map .data ++ [.eos])) log ∧
      (∀ r m, (r, m) ∈ rec → r < running N first nw) ∧
      (∀ i, i < running N first nw →
        from_ rec i = stream (reinit (w i).toNode (st i)) (from_ log i)) ∧
      o = collected c.toNode cst (rec.map Prod.snd) ∧
      Runs N w c em false (h ++ (ts.map .data ++ [.eos]))
        (fun i => if i < running N first nw then
          (w i).renew (after (reinit (w i).toNode (st i)) (from_ log i)).st else st i)
        (c.renew (cstate c.toNode cst (rec.map Prod.snd))) rs outs'

/-- A filter of the collector that sends tasks only and never ends the stream by itself. -/
structure Filter (c : Node D) : Prop where
  sends : ∀ s d, AllData (c.svc s (.data d)).2.1
  eosn : ∀ s, AllData (c.eosn s).2
  stays : StaysOn c

/-- The filter of the emitter sends tasks only, to workers that run in every round. -/
structure GoodEm (N : Nat) (rounds : List (Option Nat × List D))
    (em : List (Msg D) → Msg D → List (Cmd D)) : Prop where
  data : ∀ h m, ∀ x ∈ em h m, x.msg.isData = true
  valid : ∀ h m, ∀ r ∈ rounds, ∀ first, Valid (running N first r.1) (em h m)

end FF.Farm
