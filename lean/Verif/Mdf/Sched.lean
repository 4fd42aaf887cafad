import Verif.Mdf.Handle
import Verif.Node.Model
import Verif.Common.Trans
/-!
# The run of a macro data flow program (C33-C35)

Models ff/mdf.hpp: `GD` (79-113, the stage that runs the user's function: every `AddTask` sends a
descriptor, at the end an END descriptor), `Scheduler::svc_init` and `svc` (132-174), the workers
(190-195), and ff/task_internals.hpp: `schedule_task` (320-352), `handleCompletedTask` (375-380).

The threads are the first stage, the scheduler and `n` workers.  A call of `svc` of the scheduler is one
action (the data it touches is private to the scheduler; the channels are the queues of C01, C07); every
`ff_send_out`, start, internal operation and end of a task is an action of its own.

Simplifications:
* the first stage blocks while its output queue is full (`cap` entries);
* the queues of the workers never block (a worker never has more than two tasks, `Inv.few`; the queues
  have 640 times the number of workers entries, mdf.hpp 223);
* a priority queue is a list with any choice of the first element (the priorities of ff/task_internals.hpp
  160-195 depend on counters that change while the task is in the queue);
* the scheduler calls `svc` with a null task (lb.hpp 344) at any time while its input is inactive;
* the start of the threads and the end of stream after the end are the subject of C15, C25, C28.
-/
namespace FF.Mdf
open FF.Farm (sumN)
open FF.Node (upd)

/-- observable events of a run: task number `k` (in submission order) starts, performs one of its
internal operations, ends -/
inductive Ev where
  | start (k : Nat) | op (k : Nat) | fin (k : Nat)
  deriving DecidableEq, Repr

/-- ghost: where a ready task is -/
inductive Loc where
  | no | rq (w : Nat) | q (w : Nat) | cur (w : Nat) | back (w : Nat)
  deriving DecidableEq, Repr

structure S where
  c : Core
  /-- tasks not yet submitted by the user's function, and whether END has been sent -/
  todo : List (List Param)
  endSent : Bool
  /-- input channel of the scheduler; `none` is END -/
  inq : List (Option (List Param))
  inact : Bool
  rq : Nat → List Nat
  nrd : Nat
  nsch : Nat → Nat
  mmax : Nat
  m : Nat
  q : Nat → List Nat
  cur : Nat → Option Nat
  pos : Nat → Nat
  back : Nat → List Nat
  numb : Nat
  compl : Nat
  ended : Bool
  over : Bool
  /-- an assertion has failed (327, 340 or 357) -/
  bad : Bool
  /-- ghosts -/
  num : Nat → Nat
  loc : Nat → Loc
  log : List Ev

/-- constants of a run: number of workers, number of internal operations of every task, `LOWER_TH` (395),
length of the input channel -/
structure Cfg where
  n : Nat
  len : Nat → Nat
  lower : Nat
  cap : Nat

def S.init (P : List (List Param)) : S :=
  ⟨Core.init, P, false, [], true, fun _ => [], 0, fun _ => 0, 0, 0, fun _ => [], fun _ => none, fun _ => 0,
   fun _ => [], 0, 0, false, false, false, fun _ => 0, fun _ => .no, []⟩

def Core.isReady (c : Core) (k : Nat) : Bool := (c.tk k).any fun r => r.st = .ready

/-- the element on top of a priority queue: any one -/
def pick (o : List Nat → Nat) (l : List Nat) : Nat := if o l ∈ l then o l else l.headD 0

/-- 325-333, 338-345: a task of queue `k` is sent to worker `i` -/
def S.send (o : List Nat → Nat) (s : S) (i k : Nat) : S :=
  { s with
    bad := s.bad || !(s.c.isReady (pick o (s.rq k)))
    rq := upd s.rq k ((s.rq k).erase (pick o (s.rq k)))
    q := upd s.q i (s.q i ++ [pick o (s.rq k)])
    nsch := upd s.nsch i (s.nsch i + 1)
    nrd := s.nrd - 1
    loc := upd s.loc (pick o (s.rq k)) (.q i) }

/-- 336-349: look for a non empty queue, beginning with `mmax` -/
def S.search (G : Cfg) (o : List Nat → Nat) (s : S) (i : Nat) : Nat → S
  | 0 => s
  | j + 1 =>
    if s.rq s.mmax ≠ [] then
      { s.send o i s.mmax with mmax := (s.mmax + 1) % G.n }
    else S.search G o { s with mmax := (s.mmax + 1) % G.n } i j

/-- 322-351: one iteration of the loop over the workers -/
def S.sched1 (G : Cfg) (o : List Nat → Nat) (th : Nat) (s : S) (i : Nat) : S :=
  if 0 < s.nrd ∧ s.nsch i ≤ th then
    if s.rq i ≠ [] then s.send o i i else s.search G o i G.n
  else s

/-- `schedule_task`, 320-352 -/
def S.schedule (G : Cfg) (o : List Nat → Nat) (th : Nat) (s : S) : S := (List.range G.n).foldl (S.sched1 G o th) s

/-- a task that has become ready is put in queue `w` (`++readytasks; ready_queues[w].push`, 314-315, 363-364) -/
def S.push (w : Nat) (s : S) (k : Nat) : S :=
  { s with rq := upd s.rq w (s.rq w ++ [k]), nrd := s.nrd + 1, loc := upd s.loc k (.rq w) }

/-- `insertTask` seen from the scheduler: mdf.hpp 159-160, task_internals.hpp 312-317 -/
def S.insert (G : Cfg) (s : S) (ps : List Param) : S :=
  let s1 := { s with c := s.c.insert ps, num := upd s.num s.c.next s.numb, numb := s.numb + 1 }
  if s1.c.isReady s.c.next then { s1.push s.m s.c.next with m := (s.m + 1) % G.n } else s1

/-- a task from the input channel, mdf.hpp 159-165 -/
def S.task (G : Cfg) (o : List Nat → Nat) (s : S) (ps : List Param) : S :=
  let s1 := (s.insert G ps).schedule G o 0
  if G.lower < s1.numb - s1.compl then { s1 with inact := false } else s1

/-- the END descriptor, mdf.hpp 152-158 -/
def S.theEnd (s : S) : S := { s with ended := true, inact := false, over := decide (s.numb = s.compl) }

/-- a completed task from worker `w`, mdf.hpp 167-173, task_internals.hpp 354-380.  The call
`schedule_task(0)` (369) is before the change of the status (371-374), which it does not look at. -/
def S.done (G : Cfg) (o : List Nat → Nat) (s : S) (w t : Nat) : S :=
  let s1 := { s with compl := s.compl + 1, nsch := upd s.nsch w (s.nsch w - 1), loc := upd s.loc t .no }
  match s.c.handle t with
  | none => { s1 with bad := true }
  | some (c', rd) =>
    let s2 := ((rd.foldl (S.push w) { s1 with c := c' }).schedule G o 0).schedule G o 1
    if s2.numb = s2.compl ∧ s2.ended then { s2 with over := true } else s2

inductive Step where
  | submit
  | submitEnd
  | input (o : List Nat → Nat)
  | null
  | recv (w : Nat) (o : List Nat → Nat)
  | start (w : Nat)
  | op (w : Nat)
  | stop (w : Nat)

def step (G : Cfg) (s : S) : Step → Option S
  | .submit =>
    match s.todo with
    | [] => none
    | p :: ps => if s.inq.length < G.cap then some { s with todo := ps, inq := s.inq ++ [some p] } else none
  | .submitEnd =>
    if s.todo = [] ∧ s.endSent = false ∧ s.inq.length < G.cap then
      some { s with endSent := true, inq := s.inq ++ [none] } else none
  | .input o =>
    if s.over = false ∧ s.inact = true then
      match s.inq with
      | [] => none
      | some ps :: rest => some (S.task G o { s with inq := rest } ps)
      | none :: rest => some (S.theEnd { s with inq := rest })
    else none
  | .null =>
    if s.over = false ∧ s.inact = false then
      if s.ended = false ∧ s.numb - s.compl < G.lower then some { s with inact := true } else some s
    else none
  | .recv w o =>
    if s.over = false ∧ w < G.n then
      match s.back w with
      | [] => none
      | t :: rest => some (S.done G o { s with back := upd s.back w rest } w t)
    else none
  | .start w =>
    if w < G.n then
      match s.cur w, s.q w with
      | none, t :: rest =>
        some { s with cur := upd s.cur w (some t), q := upd s.q w rest, pos := upd s.pos w 0,
                      loc := upd s.loc t (.cur w), log := s.log ++ [.start (s.num t)] }
      | _, _ => none
    else none
  | .op w =>
    if w < G.n then
      match s.cur w with
      | none => none
      | some t =>
        if s.pos w < G.len (s.num t) then
          some { s with pos := upd s.pos w (s.pos w + 1), log := s.log ++ [.op (s.num t)] } else none
    else none
  | .stop w =>
    if w < G.n then
      match s.cur w with
      | none => none
      | some t =>
        if s.pos w = G.len (s.num t) then
          some { s with cur := upd s.cur w none, back := upd s.back w (s.back w ++ [t]),
                        loc := upd s.loc t (.back w), log := s.log ++ [.fin (s.num t)] } else none
    else none

/-! ## What `insertTask` changes -/

theorem isReady_iff (c : Core) (k : Nat) : c.isReady k = true ↔ Rdy c k := by
  unfold Core.isReady Rdy
  cases c.tk k with
  | none => simp
  | some r => simp

/-- `c'` has the same ready tasks, and the parameters of other tasks are the same -/
structure Same (act : Nat) (c c' : Core) : Prop where
  rdy : ∀ k, k ≠ act → (Rdy c' k ↔ Rdy c k)
  par : ∀ k, k ≠ act → c'.par k = c.par k
  fin : c'.fin = c.fin
  next : c.next ≤ c'.next

theorem Same.refl (act : Nat) (c : Core) : Same act c c := ⟨fun _ _ => Iff.rfl, fun _ _ => rfl, rfl, Nat.le_refl _⟩

theorem Same.trans {act : Nat} {a b c : Core} (h : Same act a b) (g : Same act b c) : Same act a c :=
  ⟨fun k hk => (g.rdy k hk).trans (h.rdy k hk), fun k hk => (g.par k hk).trans (h.par k hk), g.fin.trans h.fin,
    Nat.le_trans h.next g.next⟩

theorem same_md (act : Nat) (c : Core) (i : Nat) (f : Rec → Rec) (hf : i = act ∨ ∀ r, (f r).st = r.st) :
    Same act c (c.md i f) := by
  refine ⟨?_, fun _ _ => rfl, rfl, Nat.le_refl _⟩
  intro k hk
  unfold Rdy
  rw [md_tk]
  by_cases e : k = i
  · subst e
    rw [if_pos rfl]
    cases c.tk k with
    | none => simp
    | some r =>
      simp only [Option.map_some, Option.some.injEq, exists_eq_left']
      rw [(hf.resolve_left hk) r]
  · rw [if_neg e]

theorem same_link (act : Nat) (c : Core) (i : Nat) : Same act c (c.link act i) :=
  (same_md act c i (fun r => { r with ubl := r.ubl ++ [act] }) (Or.inr fun _ => rfl)).trans
    (same_md act _ act (fun r => { r with rdep := r.rdep + 1 }) (Or.inl rfl))

theorem same_war (act : Nat) (l : List Nat) : ∀ c, Same act c (l.foldl (Core.war act) c) := by
  induction l with
  | nil => exact fun c => Same.refl act c
  | cons y l ih =>
    intro c
    refine Same.trans ?_ (ih _)
    unfold Core.war
    cases c.tk y with
    | none => exact Same.refl act c
    | some r =>
      dsimp only
      split
      · exact same_link act c y
      · exact Same.refl act c

theorem same_lessOut (act : Nat) (c : Core) (t : Nat) : Same act c (c.lessOut t) := by
  obtain ⟨h1, h2, h3, h4⟩ := lessOut_rest c t
  refine ⟨?_, fun k _ => by rw [h2], h3, by omega⟩
  intro k _
  unfold Rdy
  rw [lessOut_tk]
  by_cases e : k = t
  · rw [if_pos e]
    cases c.tk k with
    | none => simp [less]
    | some r =>
      unfold less
      dsimp only
      split
      · rename_i hd; simp [hd.1]
      · simp
  · rw [if_neg e]

theorem same_setWriter (act : Nat) (c : Core) (d : Nat) : Same act c (c.setWriter act d) := by
  unfold Core.setWriter Core.insAd
  dsimp only
  refine Same.trans ?_ (same_md act _ act _ (Or.inl rfl))
  split <;> split <;> exact ⟨fun _ _ => Iff.rfl, fun _ _ => rfl, rfl, Nat.le_refl _⟩

theorem same_dummy (act : Nat) (c : Core) (hb : Base c) (d : Nat) : Same act c (c.dummy act d) := by
  obtain ⟨h1, h2, h3⟩ := dummy_rest (c := c) (act := act) (d := d)
  refine ⟨?_, fun k _ => by rw [h1], h2, by omega⟩
  intro k _
  unfold Rdy
  rw [dummy_tk]
  by_cases e : k = c.next
  · rw [if_pos e]
    constructor
    · rintro ⟨r, h1, h2⟩; cases h1; cases h2
    · rintro ⟨r, h1, h2⟩; have := hb.idt k r h1; omega
  · rw [if_neg e]

theorem same_param {act : Nat} {c : Core} (hb : Base c) (p : Param) : Same act c (c.param act p) := by
  have hs : ∀ c1 : Core, Same act c1 (c1.seen act p) := fun c1 =>
    ⟨fun _ _ => Iff.rfl, fun k hk => by unfold Core.seen; dsimp only; rw [if_neg hk], rfl, Nat.le_refl _⟩
  refine Same.trans ?_ (hs _)
  unfold Core.depend
  cases p.dir with
  | inp =>
    dsimp only
    cases c.look p.tag with
    | none => exact same_dummy act c hb _
    | some r =>
      dsimp only
      split
      · exact same_link act c _
      · exact same_md act c _ _ (Or.inr fun _ => rfl)
  | out =>
    dsimp only
    cases c.look p.tag with
    | none => exact same_setWriter act c _
    | some r =>
      dsimp only
      refine Same.trans ?_ (same_setWriter act _ _)
      unfold Core.waw
      refine Same.trans ?_ (same_lessOut act _ _)
      split
      · exact same_war act _ c
      · split
        · exact same_link act c _
        · exact Same.refl act c
  | val => exact Same.refl act c

theorem same_params {act : Nat} (qs : List Param) : ∀ {c : Core} {ps : List Param}, Full c act ps → WF (ps ++ qs) →
    Same act c (qs.foldl (Core.param act) c) := by
  induction qs with
  | nil => intro c ps _ _; exact Same.refl act c
  | cons q qs ih =>
    intro c ps h hw
    have e : ps ++ q :: qs = (ps ++ [q]) ++ qs := by simp
    rw [e] at hw
    exact (same_param h.b q).trans (ih (param_full h hw.init) hw)

theorem insert_desc {c : Core} (h : Good c) {ps : List Param} (hw : WF ps) :
    Good (c.insert ps) ∧ (∀ k, k ≠ c.next → (Rdy (c.insert ps) k ↔ Rdy c k)) ∧
    (∀ k, (c.insert ps).par k = if k = c.next then some ps else c.par k) ∧ (c.insert ps).fin = c.fin ∧
    c.next < (c.insert ps).next := by
  have hF := params_full ps (create_full h) (by simpa using hw)
  rw [List.nil_append] at hF
  have h1 : Same c.next c.create (ps.foldl (Core.param c.next) c.create) :=
    same_params (ps := []) ps (create_full h) (by simpa using hw)
  have h2 := h1.trans (same_md c.next _ c.next (fun r => if r.rdep = 0 then { r with st := .ready } else r) (Or.inl rfl))
  have h0 : ∀ k, k ≠ c.next → (Rdy c.create k ↔ Rdy c k) := by
    intro k hk
    unfold Rdy Core.create
    dsimp only
    rw [if_neg hk]
  refine ⟨mark_good hF, ?_, ?_, h2.fin, ?_⟩
  · intro k hk; exact (h2.rdy k hk).trans (h0 k hk)
  · intro k
    by_cases e : k = c.next
    · rw [if_pos e, e]; exact hF.t.par
    · rw [if_neg e]
      have := h2.par k e
      unfold Core.create at this
      dsimp only at this
      rw [if_neg e] at this
      exact this
  · have := h2.next
    unfold Core.create at this
    dsimp only at this
    exact this

end FF.Mdf
