import Verif.Mdf.Queues
/-!
# Divide and conquer (C56)

Models ff/dc.hpp: `CombineFunction` (138-152), `DACFunction` (169-222), `DACWorker` (226-264),
`Scheduler::insertTask` (290-396), `Scheduler::svc` (423-509), `AddTaskScheduler` (526-541), on top of the
scheduler of ff/task_internals.hpp (`Verif.Mdf.Sched`, `Verif.Mdf.Core`: `createTask`, `schedule_task`,
`handleTask`, which `ff_DC` shares with `ff_mdf`).

The threads are the scheduler and `n` workers.  A call of `svc` of the scheduler for one message is one
action; the calls of `AddTaskScheduler` in its first call are one action each, and no message is received
before the last of them (row `n` of `chan` holds what remains to be inserted).  In a worker, the start of a
task, a call of `DACFunction` up to its first message, a call of the combine function, the writing of a
result, and every message are actions of their own.

Memory: the vectors `ops` and `ress` of one call of `DACFunction` are a block; blocks are numbered in the
order of their creation (a name, not an address); a cell is the address of an element of `ress`.  The
addresses of a new block are chosen by the environment: any different non-null addresses that are not in
use, in particular those of freed blocks.  Reading or writing outside the live blocks sets `bad`.

Simplifications:
* the four functions of the user are functions of their arguments (the previous content of the result
  parameter is not used);
* reading all results is one action, and the write of the combined result and the two `delete` are one action;
* the queues of the workers never block (a worker never has more than two tasks, `Qi.few`), the channel from
  a worker to the scheduler has `cap` places and its sender waits while it is full;
* `branch_factor` (an `int`) is a natural number;
* a priority queue is a list with any choice of the first element, as in `Verif.Mdf.Sched`.
-/
namespace FF.Dc
open FF.Mdf (Core Rec Cfg)
open FF.Node (upd)

/-- the functions given to the constructor of `ff_DC` (554-559) -/
structure Prob (Op R : Type) where
  cond : Op → Bool
  divide : Op → List Op
  seq : Op → R
  comb : List R → R

/-- `ops` and (the addresses of the elements of) `ress`, 178-183 -/
structure Block (Op : Type) where
  ops : List Op
  cells : List Nat

/-- what a task, or a part of one, does: `DACFunction` on element `i` of block `b`; `CombineFunction` on
block `b` whose cells are its INPUT parameters; the last part of either: write `v` and then delete the block -/
inductive Kind (R : Type) where
  | dac (b i : Nat)
  | comb (b : Nat) (cells : List Nat)
  | put (b : Option Nat) (v : R)

/-- what a worker still has to do, and the messages: send the task with the given kind and OUTPUT parameter
to the scheduler; do the work itself; give the completed task `t` back -/
inductive Tok (R : Type) where
  | new (k : Kind R) (a : Nat)
  | act (k : Kind R) (a : Nat)
  | done (t : Nat)

/-- ghost: where the obligation to write a cell is: in the stream of thread `w`, or task `t` in the table -/
inductive Place where
  | st (w : Nat) | tk (t : Nat)
  deriving DecidableEq

structure S (Op R : Type) where
  /-- the scheduler (282-515, task_internals.hpp 200-458) -/
  s : Mdf.S
  /-- `wtask` of every task: its kind and the address of its result -/
  task : Nat → Option (Kind R × Nat)
  /-- channels to the scheduler; row `n`: the tasks still to be inserted by the first call of `svc` -/
  chan : Nat → List (Tok R)
  /-- rest of the program of the task that the worker executes -/
  prog : Nat → List (Tok R)
  mem : Nat → R
  heap : Nat → Option (Block Op)
  nb : Nat
  root : Nat
  /-- memory that is not allocated has been accessed -/
  bad : Bool
  /-- ghosts: what remains to be done for a cell, and where; the operand whose solution a cell receives;
  the cell into which the results of a block are combined -/
  duty : Nat → Option (Kind R)
  place : Nat → Place
  goal : Nat → Op
  up : Nat → Nat

/-! ## `insertTask` of `ff_DC` -/

/-- 298-317: an INPUT parameter -/
def inPar (act : Nat) (c : Core) (d : Nat) : Core :=
  match c.look d with
  | none => c
  | some r => if r.st ≠ .done then c.link act (c.ad d) else c.note act (c.ad d)

/-- 340-363: element `i` of the list of the current writer `t`; the task in it is moved to the list of the new
task, and its index is remembered (`todelete`) -/
def moveOne (act t : Nat) (x : Core × List Nat) (i : Nat) : Core × List Nat :=
  match x.1.tk t with
  | none => x
  | some r =>
    match r.ubl[i]? with
    | none => x
    | some y =>
      match x.1.tk y with
      | none => x
      | some r2 =>
        if y ≠ act ∧ r2.st ≠ .done ∧ r2.st ≠ .ready then
          ((x.1.md act fun r => { r with ubl := r.ubl ++ [y] }).md t fun r => { r with ubl := r.ubl.set i 0 }, x.2 ++ [i])
        else x

/-- 365-368: the element is overwritten with the one after the last (any value `junk`), the length is decreased -/
def cutOne (t junk : Nat) (c : Core) (i : Nat) : Core := c.md t fun r => { r with ubl := (r.ubl.set i junk).dropLast }

/-- 325-379: the current writer `t` of the OUTPUT parameter -/
def writer (act t junk : Nat) (r : Rec) (c : Core) : Core :=
  if r.ubl ≠ [] then
    let x := (List.range r.ubl.length).foldl (moveOne act t) (c, [])
    x.2.foldl (cutOne t junk) x.1
  else if r.st ≠ .done then c.link act t else c

/-- 381-384: the new task becomes the writer of address `d` -/
def setAd (c : Core) (act d : Nat) : Core :=
  let c1 := if c.ad d ≠ 0 then { c with ad := fun k => if k = d then 0 else c.ad k } else c
  c1.insAd d act

/-- 319-386: an OUTPUT parameter -/
def outPar (act junk : Nat) (c : Core) (d : Nat) : Core :=
  match c.look d with
  | none => setAd c act d
  | some r => setAd (writer act (c.ad d) junk r c) act d

/-- INPUT parameters of a task: none for `DACFunction` (191-193), the cells for `CombineFunction` (203-208) -/
def ins {R : Type} : Kind R → List Nat
  | .comb _ cs => cs
  | _ => []

/-- 290-396; the identifier of the new task is the value of `next` before -/
def insertTask {R : Type} (junk : Nat) (c : Core) (k : Kind R) (a : Nat) : Core :=
  (outPar c.next junk ((ins k).foldl (inPar c.next) c.create) a).mark c.next

/-! ## The threads -/

variable {Op R : Type}

/-- the address is that of the user's result or of an element of an allocated vector -/
def S.live (x : S Op R) (a : Nat) : Bool :=
  a == x.root || (List.range x.nb).any fun b => (x.heap b).any fun blk => blk.cells.contains a

/-- what the environment guarantees for the addresses of a new vector of `n` elements -/
def S.fresh (x : S Op R) (n : Nat) (cells : List Nat) : Bool :=
  cells.length == n && decide cells.Nodup && cells.all fun a => a != 0 && !x.live a

/-- 187-200: messages for all sub-operands but the last, and the recursive call -/
def spawn (b : Nat) : Nat → List Nat → List (Tok R)
  | _, [] => []
  | i, [c] => [.act (.dac b i) c]
  | i, c :: cs => .new (.dac b i) c :: spawn b (i + 1) cs

/-- 447-455: the first call of `svc` creates a task for every sub-operand -/
def seeds (b : Nat) : Nat → List Nat → List (Tok R)
  | _, [] => []
  | i, c :: cs => .new (.dac b i) c :: seeds b (i + 1) cs

/-- ghost: the cells of a new block are to receive the solutions of the operands -/
def aim (goal : Nat → Op) : List Nat → List Op → Nat → Op
  | c :: cs, o :: os => upd (aim goal cs os) c o
  | _, _ => goal

/-- ghost: the obligations of a new block -/
def owe (b : Nat) (duty : Nat → Option (Kind R)) : Nat → List Nat → Nat → Option (Kind R)
  | i, c :: cs => upd (owe b duty (i + 1) cs) c (some (.dac b i))
  | _, [] => duty

/-- memory that is not allocated has been accessed -/
def S.fail (x : S Op R) : S Op R := { x with bad := true }

/-- 389-394, and 484-486 or 536-538: a new task is inserted and the scheduler tries to send tasks -/
def S.insert (G : Cfg) (o : List Nat → Nat) (junk : Nat) (x : S Op R) (k : Kind R) (a : Nat) : S Op R :=
  let s1 := { x.s with c := insertTask junk x.s.c k a, numb := x.s.numb + 1 }
  let s2 := if s1.c.isReady x.s.c.next then { s1.push x.s.m x.s.c.next with m := (x.s.m + 1) % G.n } else s1
  { x with s := s2.schedule G o 0, task := upd x.task x.s.c.next (some (k, a)), place := upd x.place a (.tk x.s.c.next) }

/-- 494-506: a completed task -/
def S.complete (G : Cfg) (o : List Nat → Nat) (x : S Op R) (w t : Nat) : S Op R :=
  { x with s := Mdf.S.done G o { x.s with back := upd x.s.back w (x.s.back w).tail } w t }

/-- 173-215 for a call that is not a base case: the new block, the messages, the recursive call, the combine task -/
def S.split (x : S Op R) (w a : Nat) (subs : List Op) (cells : List Nat) (rest : List (Tok R)) : S Op R :=
  { x with
    heap := upd x.heap x.nb (some ⟨subs, cells⟩)
    nb := x.nb + 1
    prog := upd x.prog w (spawn x.nb 0 cells ++ .new (.comb x.nb cells) a :: rest)
    duty := upd (owe x.nb x.duty 0 cells) a (some (.comb x.nb cells))
    place := fun c => if c ∈ cells then .st w else x.place c
    goal := aim x.goal cells subs
    up := upd x.up x.nb a }

/-- one action of worker `w` on its own data; `cells` are the addresses of the vector it may allocate -/
def S.work (P : Prob Op R) (x : S Op R) (w : Nat) (cells : List Nat) : Option (S Op R) :=
  match x.prog w with
  | .act (.dac b i) a :: rest =>
    match (x.heap b).bind fun blk => blk.ops[i]? with
    | none => some x.fail
    | some op =>
      if P.cond op then
        some { x with prog := upd x.prog w (.act (.put none (P.seq op)) a :: rest),
                      duty := upd x.duty a (some (.put none (P.seq op))) }
      else if P.divide op = [] then some x.fail
      else if x.fresh (P.divide op).length cells then some (x.split w a (P.divide op) cells rest)
      else none
  | .act (.comb b _) a :: rest =>
    match x.heap b with
    | none => some x.fail
    | some blk =>
      some { x with prog := upd x.prog w (.act (.put (some b) (P.comb (blk.cells.map x.mem))) a :: rest),
                    duty := upd x.duty a (some (.put (some b) (P.comb (blk.cells.map x.mem)))) }
  | .act (.put none v) a :: rest =>
    if x.live a then
      some { x with prog := upd x.prog w rest, mem := upd x.mem a v, duty := upd x.duty a none }
    else some x.fail
  | .act (.put (some b) v) a :: rest =>
    if x.live a ∧ (x.heap b).isSome then
      some { x with prog := upd x.prog w rest, mem := upd x.mem a v, duty := upd x.duty a none, heap := upd x.heap b none }
    else some x.fail
  | _ => none

inductive Act where
  /-- the scheduler handles the next message of channel `w` (or, for `w = n`, inserts the next initial task) -/
  | recv (w : Nat) (o : List Nat → Nat) (junk : Nat)
  /-- worker `w` takes a task from its queue (231-238) -/
  | start (w : Nat)
  | work (w : Nat) (cells : List Nat)
  /-- worker `w` sends its next message (261, 246-249) -/
  | send (w : Nat)

def step (P : Prob Op R) (G : Cfg) (x : S Op R) : Act → Option (S Op R)
  | .recv w o junk =>
    if x.s.over = false ∧ w ≤ G.n ∧ (w = G.n ∨ x.chan G.n = []) then
      match x.chan w with
      | .new k a :: rest => some (S.insert G o junk { x with chan := upd x.chan w rest } k a)
      | .done t :: rest => some (S.complete G o { x with chan := upd x.chan w rest } w t)
      | _ => none
    else none
  | .start w =>
    if w < G.n then
      match x.s.cur w, x.s.q w with
      | none, t :: rest =>
        match x.task t with
        | none => some x.fail
        | some (k, a) =>
          some { x with
            s := { x.s with cur := upd x.s.cur w (some t), q := upd x.s.q w rest, loc := upd x.s.loc t (.cur w) }
            prog := upd x.prog w [.act k a, .done t]
            place := upd x.place a (.st w) }
      | _, _ => none
    else none
  | .work w cells => if w < G.n then x.work P w cells else none
  | .send w =>
    if w < G.n ∧ (x.chan w).length < G.cap then
      match x.prog w with
      | .new k a :: rest => some { x with prog := upd x.prog w rest, chan := upd x.chan w (x.chan w ++ [.new k a]) }
      | .done t :: rest =>
        some { x with
          s := { x.s with cur := upd x.s.cur w none, back := upd x.s.back w (x.s.back w ++ [t]), loc := upd x.s.loc t (.back w) }
          prog := upd x.prog w rest, chan := upd x.chan w (x.chan w ++ [.done t]) }
      | _ => none
    else none

/-- the scheduler before the first message: `svc_init` (410-417) and task_internals.hpp 432-447; `ended` is the
condition of mdf.hpp 171 that `ff_DC` does not have -/
def sched0 : Mdf.S := { Mdf.S.init [] with ended := true }

/-- the beginning of the first call of `svc`, 428-476, with operand `op` and result address `root`; `cells` are the
addresses of the results of the first level -/
def init (P : Prob Op R) (G : Cfg) (op : Op) (root : Nat) (mem : Nat → R) (cells : List Nat) : S Op R :=
  if P.cond op then
    { s := { sched0 with over := true }, task := fun _ => none, chan := fun _ => [], prog := fun _ => []
      mem := upd mem root (P.seq op), heap := fun _ => none, nb := 0, root := root, bad := false
      duty := fun _ => none, place := fun _ => .st G.n, goal := fun _ => op, up := fun _ => root }
  else
    { s := sched0, task := fun _ => none
      chan := upd (fun _ => []) G.n (seeds 0 0 cells ++ [.new (.comb 0 cells) root]), prog := fun _ => []
      mem := mem, heap := upd (fun _ => none) 0 (some ⟨P.divide op, cells⟩), nb := 1, root := root, bad := false
      duty := upd (owe 0 (fun _ => none) 0 cells) root (some (.comb 0 cells))
      place := fun _ => .st G.n, goal := aim (fun _ => op) cells (P.divide op), up := fun _ => root }

end FF.Dc
