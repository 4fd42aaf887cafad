import Verif.Parfor.Range
import Verif.Farm.Farm
import Mathlib.Logic.Relation
/-!
# The dependency table of the macro data flow executor (C33-C35)

Models `TaskFScheduler::insertTask` (ff/task_internals.hpp 233-317) and `handleTask` (354-374), with the
records `hash_task_t` (142-158), `createTask` (222-231) and `task_hash_delete` (208-211).

Simplifications: the two hash tables are maps (their implementation is the subject of C12);
`icl_hash_insert` does not replace an entry, as in the code; the key 0 is not stored in `address_set`,
as in the code (`icl_hash_find` and `icl_hash_insert` refuse a NULL key).  The statuses `PENDING` and
`PENDING_DONE` are only used by `ff_dac`, not by `ff_mdf`.  Integers are unbounded.  The array of
unblocked tasks is a list (the reallocation in steps of 16 is not modelled).
-/
namespace FF.Mdf
open FF.Farm (sumN)

/-- `data_direction_t` (84) -/
inductive Dir where
  | inp | out | val
  deriving DecidableEq, Repr

/-- `param_info` (86-89) -/
structure Param where
  tag : Nat
  dir : Dir
  deriving DecidableEq, Repr

/-- `task_status_t` (139) -/
inductive St where
  | notReady | ready | done
  deriving DecidableEq, Repr

/-- `hash_task_t` (142-158).  `dtag` is a ghost: the tag for which a dummy task stands. -/
structure Rec where
  st : St
  rdep : Int
  ubl : List Nat
  nout : Int
  dummy : Bool
  dtag : Nat
  deriving DecidableEq, Repr

/-- `task_set`, `address_set` (0: no entry) and `task_id`; ghosts: the parameters of the submitted tasks
processed so far, and which tasks have been handled as completed. -/
structure Core where
  tk : Nat → Option Rec
  ad : Nat → Nat
  next : Nat
  par : Nat → Option (List Param)
  fin : Nat → Bool

/-- the state after `svc_init` (420-434): `task_id = 1` -/
def Core.init : Core := ⟨fun _ => none, fun _ => 0, 1, fun _ => none, fun _ => false⟩

/-- change a record -/
def Core.md (c : Core) (i : Nat) (f : Rec → Rec) : Core :=
  { c with tk := fun k => if k = i then (c.tk i).map f else c.tk k }

/-- 267-272 and `icl_hash_insert` on `address_set`: an existing entry is kept, key 0 is refused -/
def Core.insAd (c : Core) (d i : Nat) : Core :=
  if d = 0 ∨ c.ad d ≠ 0 then c else { c with ad := fun k => if k = d then i else c.ad k }

/-- task `act` has to be unblocked by the completion of task `i`: 272-273 and 274, 291-293, 298-300 -/
def Core.link (c : Core) (act i : Nat) : Core :=
  (c.md i fun r => { r with ubl := r.ubl ++ [act] }).md act fun r => { r with rdep := r.rdep + 1 }

/-- task `act` is recorded as a reader of what the completed task `i` has written: 272-273 -/
def Core.note (c : Core) (act i : Nat) : Core := c.md i fun r => { r with ubl := r.ubl ++ [act] }

/-- the task recorded for tag `d`: 244-247, 279-281 -/
def Core.look (c : Core) (d : Nat) : Option Rec := if c.ad d = 0 then none else c.tk (c.ad d)

/-- 251-262: no writer for this tag; a dummy task stands for it -/
def Core.dummy (c : Core) (act d : Nat) : Core :=
  let c1 := c.insAd d c.next
  { c1 with
    tk := fun k => if k = c.next then some ⟨.done, 0, [act], 1, true, d⟩ else c1.tk k
    next := c.next + 1 }

/-- 286-295: one element of the list of the current writer -/
def Core.war (act : Nat) (c : Core) (i : Nat) : Core :=
  match c.tk i with
  | some r => if i ≠ act ∧ r.st ≠ .done then c.link act i else c
  | none => c

/-- 303-305 -/
def Core.lessOut (c : Core) (t : Nat) : Core :=
  let c1 := c.md t fun r => { r with nout := r.nout - 1 }
  match c1.tk t with
  | some r => if r.st = St.done ∧ r.nout = 0 then { c1 with tk := fun k => if k = t then none else c1.tk k } else c1
  | none => c1

/-- 307-309 -/
def Core.setWriter (c : Core) (act d : Nat) : Core :=
  let c1 := if c.ad d ≠ 0 then { c with ad := fun k => if k = d then 0 else c.ad k } else c
  (c1.insAd d act).md act fun r => { r with nout := r.nout + 1 }

/-- 283-306: dependencies on the current writer `t` and on the tasks that it unblocks -/
def Core.waw (c : Core) (act t : Nat) (r : Rec) : Core :=
  (if r.ubl ≠ [] then r.ubl.foldl (Core.war act) c
   else if r.st ≠ St.done then c.link act t else c).lessOut t

/-- ghost: the parameter has been processed -/
def Core.seen (c : Core) (act : Nat) (p : Param) : Core :=
  { c with par := fun k => if k = act then some ((c.par act).getD [] ++ [p]) else c.par k }

/-- 239-311: one parameter -/
def Core.depend (act : Nat) (c : Core) (p : Param) : Core :=
  match p.dir with
  | .inp =>
    match c.look p.tag with
    | none => c.dummy act p.tag
    | some r => if r.st ≠ .done then c.link act (c.ad p.tag) else c.note act (c.ad p.tag)
  | .out =>
    match c.look p.tag with
    | none => c.setWriter act p.tag
    | some r => (c.waw act (c.ad p.tag) r).setWriter act p.tag
  | .val => c

/-- one parameter, with the ghost -/
def Core.param (act : Nat) (c : Core) (p : Param) : Core := (c.depend act p).seen act p

/-- 235-237: the new record -/
def Core.create (c : Core) : Core :=
  { c with
    tk := fun k => if k = c.next then some ⟨.notReady, 0, [], 0, false, 0⟩ else c.tk k
    par := fun k => if k = c.next then some [] else c.par k
    next := c.next + 1 }

/-- 312-313: the task is ready if it has no dependencies -/
def Core.mark (c : Core) (act : Nat) : Core :=
  c.md act fun r => if r.rdep = 0 then { r with st := .ready } else r

/-- `insertTask`, 233-317; the identifier of the new task is the value of `next` before -/
def Core.insert (c : Core) (ps : List Param) : Core :=
  (ps.foldl (Core.param c.next) c.create).mark c.next

/-- 355-367: one element of the list of the completed task; `none` if the assertion (357) fails -/
def Core.dec : Option (Core × List Nat) → Nat → Option (Core × List Nat)
  | none, _ => none
  | some (c, rd), i =>
    match c.tk i with
    | none => none
    | some r =>
      if r.rdep - 1 = 0 ∧ r.st = .notReady then
        some (c.md i fun r => { r with rdep := r.rdep - 1, st := .ready }, rd ++ [i])
      else some (c.md i fun r => { r with rdep := r.rdep - 1 }, rd)

/-- 370-373: the task is done; it is removed if it is not the current writer of any tag -/
def Core.retire (c : Core) (t : Nat) : Core :=
  let c1 := { c.md t (fun r => { r with st := St.done }) with fin := fun k => if k = t then true else c.fin k }
  match c1.tk t with
  | some r => if r.nout = 0 then { c1 with tk := fun k => if k = t then none else c1.tk k } else c1
  | none => c1

/-- `handleTask`, 354-374: the new table and the tasks that have become ready, in order -/
def Core.handle (c : Core) (t : Nat) : Option (Core × List Nat) :=
  match c.tk t with
  | none => none
  | some r => (r.ubl.foldl Core.dec (some (c, []))).map fun x => (x.1.retire t, x.2)

/-! ## Invariant -/

def reads (p : List Param) (d : Nat) : Prop := ⟨d, .inp⟩ ∈ p
def writes (p : List Param) (d : Nat) : Prop := ⟨d, .out⟩ ∈ p

/-- two tasks access a common parameter, at least one as OUTPUT -/
def Conf (p q : List Param) : Prop :=
  ∃ d, (writes p d ∧ (reads q d ∨ writes q d)) ∨ (reads p d ∧ writes q d)

/-- what is required from the parameters of a task: tags are not 0, and a tag is not used again after it
has been given as OUTPUT -/
def WF (ps : List Param) : Prop :=
  (∀ p ∈ ps, p.tag ≠ 0) ∧ ps.Pairwise fun p q => p.dir = .out → q.dir ≠ .val → p.tag ≠ q.tag

def outTags (p : List Param) : List Nat := (p.filter fun x => x.dir = .out).map Param.tag

def outs (c : Core) (t : Nat) (r : Rec) : List Nat := if r.dummy then [r.dtag] else outTags ((c.par t).getD [])

def ecount (c : Core) (i j : Nat) : Nat :=
  match c.tk i with
  | some r => if r.st = .done then 0 else r.ubl.count j
  | none => 0

def esum (c : Core) (j : Nat) : Nat := sumN (fun i => ecount c i j) c.next

/-- task `j` waits for task `i`, which has not been completed -/
def Edge (c : Core) (i j : Nat) : Prop := ∃ r, c.tk i = some r ∧ r.st ≠ .done ∧ j ∈ r.ubl

abbrev Path (c : Core) := Relation.TransGen (Edge c)

structure Base (c : Core) : Prop where
  pos : 1 ≤ c.next
  idt : ∀ i r, c.tk i = some r → 1 ≤ i ∧ i < c.next
  idp : ∀ i p, c.par i = some p → 1 ≤ i ∧ i < c.next
  idf : ∀ i, c.fin i = true → i < c.next
  real : ∀ i r, c.tk i = some r → (r.dummy = false ↔ ∃ p, c.par i = some p)
  dum : ∀ i r, c.tk i = some r → r.dummy = true → r.st = .done
  live : ∀ i p, c.par i = some p → c.fin i = false → ∃ r, c.tk i = some r ∧ r.st ≠ .done
  dead : ∀ i r, c.tk i = some r → r.st ≠ .done → c.fin i = false
  rdep : ∀ j r, c.tk j = some r → r.st ≠ .done → r.rdep = esum c j
  edge : ∀ i r j, c.tk i = some r → r.st ≠ .done → j ∈ r.ubl → i < j ∧ ∃ r', c.tk j = some r' ∧ r'.st ≠ .done
  rdy : ∀ j r, c.tk j = some r → r.st = .ready → r.rdep = 0

structure Addr (c : Core) : Prop where
  zero : c.ad 0 = 0
  tab : ∀ d, c.ad d ≠ 0 → ∃ r, c.tk (c.ad d) = some r ∧ d ∈ outs c (c.ad d) r
  wr : ∀ i p d, c.par i = some p → writes p d → c.ad d ≠ 0 ∧ i ≤ c.ad d ∧ ∃ q, c.par (c.ad d) = some q ∧ writes q d
  rd : ∀ i p d, c.par i = some p → reads p d → c.ad d ≠ 0 ∧
    ((∃ r, c.tk (c.ad d) = some r ∧ i ∈ r.ubl) ∨ (i ≤ c.ad d ∧ ∃ q, c.par (c.ad d) = some q ∧ writes q d))
  nout : ∀ t r, c.tk t = some r → r.nout = ((outs c t r).countP (fun d => c.ad d = t) : Nat)
  nod : ∀ t r, c.tk t = some r → (outs c t r).Nodup

def Ord (c : Core) : Prop :=
  ∀ i j p q, c.par i = some p → c.par j = some q → i < j → Conf p q → c.fin i = false → Path c i j

/-- the task that is being inserted -/
structure Act (c : Core) (act : Nat) (ps : List Param) : Prop where
  row : ∃ r, c.tk act = some r ∧ r.st = .notReady ∧ r.ubl = [] ∧ r.dummy = false
  par : c.par act = some ps
  top : ∀ i p, c.par i = some p → i ≤ act
  wait : ∀ i r, i ≠ act → c.tk i = some r → r.st = .notReady → 1 ≤ r.rdep

/-! ## Paths -/

theorem edge_live {c : Core} (hb : Base c) {i j : Nat} (h : Edge c i j) :
    ∃ r, c.tk j = some r ∧ r.st = .notReady ∧ 1 ≤ r.rdep := by
  obtain ⟨r, h1, h2, h3⟩ := h
  obtain ⟨_, r', h4, h5⟩ := hb.edge i r j h1 h2 h3
  have hd := hb.rdep j r' h4 h5
  have hle : ecount c i j ≤ esum c j := Parfor.sumN_ge (f := fun i => ecount c i j) (hb.idt i r h1).2
  have h1' : 1 ≤ ecount c i j := by
    unfold ecount
    rw [h1]
    simp only [h2, if_false]
    exact List.count_pos_iff.2 h3
  have hpos : 1 ≤ r'.rdep := by omega
  refine ⟨r', h4, ?_, hpos⟩
  cases hst : r'.st with
  | notReady => rfl
  | ready => have := hb.rdy j r' h4 hst; omega
  | done => exact absurd hst h5

/-- the end of a path has not been started -/
theorem path_live {c : Core} (hb : Base c) {i j : Nat} (h : Path c i j) :
    ∃ r, c.tk j = some r ∧ r.st = .notReady ∧ 1 ≤ r.rdep := by
  cases h with
  | single h => exact edge_live hb h
  | tail _ h => exact edge_live hb h

theorem path_start {c : Core} {i j : Nat} (h : Path c i j) : ∃ r, c.tk i = some r ∧ r.st ≠ .done := by
  induction h with
  | single h => obtain ⟨r, h1, h2, _⟩ := h; exact ⟨r, h1, h2⟩
  | tail _ _ ih => exact ih

theorem path_mono {c c' : Core} (h : ∀ i j, Edge c i j → Edge c' i j) {i j : Nat} (hp : Path c i j) : Path c' i j :=
  Relation.TransGen.mono h _ _ hp

end FF.Mdf
