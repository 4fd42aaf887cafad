import Verif.Uswsr.Props
import Verif.Msq.Inv
/-!
# C80: the unbounded queue used by many producers and many consumers

Source: `/repo/ff/ubuffer.hpp` 369-374 (`mp_push`), 453-458 (`mc_pop`), around `push` and `pop` (the model of C08); `create_input_buffer_mp` (node.hpp 727-733)
makes `mp_push` the way in which all nodes connected to an input channel write to it.

Any number of threads call `mp_push` and `mc_pop` in any order; the accesses of `push` and `pop` are the actions of C08.  The two spin locks are atomic: taking one is possible
when it is free (C13).  The queue is not of fixed size (otherwise `mp_push` may return false).
-/
namespace FF.Uswsr.Multi
open FF FF.Uswsr
open FF.Msq (Ev Doing doing replay Linearizable doing_cons_same doing_cons_other)

inductive Pc where
  | idle
  /-- mp_push 370: `spin_lock(P_lock)` -/
  | pLock (v : Nat)
  /-- mp_push 371: about to call `push(data)` -/
  | pStart (v : Nat)
  /-- mp_push 371: inside `push(data)` -/
  | pRun (v : Nat)
  /-- mp_push 372: `spin_unlock(P_lock)` -/
  | pDone
  /-- mp_push 373: `return r` -/
  | pRet
  /-- mc_pop 454: `spin_lock(C_lock)` -/
  | cLock
  /-- mc_pop 455: about to call `pop(data)` -/
  | cStart
  /-- mc_pop 455: inside `pop(data)` -/
  | cRun
  /-- mc_pop 456: `spin_unlock(C_lock)` -/
  | cDone (r : Option Nat)
  /-- mc_pop 457: `return r` -/
  | cRet (r : Option Nat)
  deriving DecidableEq, Repr

structure S where
  /-- the queue -/
  q : St Nat
  /-- the threads that hold `P_lock` and `C_lock` -/
  P : Option Nat
  C : Option Nat
  pc : Nat → Pc
  /-- calls and returns, newest first -/
  vis : List Ev

def upd {α : Type} (f : Nat → α) (i : Nat) (v : α) : Nat → α := fun j => if j = i then v else f j

/-- constructor and `init` (ubuffer.hpp 265-312) -/
def S.init (n cap : Nat) : S := { q := Uswsr.init n cap false, P := none, C := none, pc := fun _ => .idle, vis := [] }

inductive Act where
  | callPush (t v : Nat)
  | lockP (t : Nat)
  | beginP (t : Nat)
  /-- thread `t` makes a step inside `push` -/
  | prod (t : Nat) (a : Uswsr.Act Nat)
  | unlockP (t : Nat)
  | retP (t : Nat)
  | callPop (t : Nat)
  | lockC (t : Nat)
  | beginC (t : Nat)
  /-- thread `t` makes a step inside `pop` -/
  | cons (t : Nat) (a : Uswsr.Act Nat)
  | unlockC (t : Nat)
  | retC (t : Nat)

/-- what `pop` answers: the new last element of what has been popped, if there is one -/
def answer (q q' : St Nat) : Option Nat := if q'.popped.length = q.popped.length then none else q'.popped.getLast?.join

def mstep (s : S) : Act → Option S
  | .callPush t v => if s.pc t = .idle then some { s with pc := upd s.pc t (.pLock v), vis := .callPush t v :: s.vis } else none
  -- ubuffer.hpp 370
  | .lockP t =>
    match s.pc t with
    | .pLock v => if s.P = none then some { s with P := some t, pc := upd s.pc t (.pStart v) } else none
    | _ => none
  -- ubuffer.hpp 371
  | .beginP t =>
    match s.pc t with
    | .pStart v => (step s.q (.pBegin v)).map fun q' => { s with q := q', pc := upd s.pc t (.pRun v) }
    | _ => none
  | .prod t a =>
    match s.pc t with
    | .pRun v =>
      if a.isProd then (step s.q a).map fun q' => { s with q := q', pc := upd s.pc t (if q'.ppc = .idle then .pDone else .pRun v) } else none
    | _ => none
  -- ubuffer.hpp 372
  | .unlockP t => if s.pc t = .pDone then some { s with P := none, pc := upd s.pc t .pRet } else none
  -- ubuffer.hpp 373
  | .retP t => if s.pc t = .pRet then some { s with pc := upd s.pc t .idle, vis := .retPush t :: s.vis } else none
  | .callPop t => if s.pc t = .idle then some { s with pc := upd s.pc t .cLock, vis := .callPop t :: s.vis } else none
  -- ubuffer.hpp 454
  | .lockC t => if s.pc t = .cLock ∧ s.C = none then some { s with C := some t, pc := upd s.pc t .cStart } else none
  -- ubuffer.hpp 455
  | .beginC t => if s.pc t = .cStart then (step s.q .cBegin).map fun q' => { s with q := q', pc := upd s.pc t .cRun } else none
  | .cons t a =>
    if s.pc t = .cRun ∧ a.isProd = false then
      (step s.q a).map fun q' => { s with q := q', pc := upd s.pc t (if q'.cpc = .idle then .cDone (answer s.q q') else .cRun) }
    else none
  -- ubuffer.hpp 456
  | .unlockC t =>
    match s.pc t with
    | .cDone r => some { s with C := none, pc := upd s.pc t (.cRet r) }
    | _ => none
  -- ubuffer.hpp 457
  | .retC t =>
    match s.pc t with
    | .cRet r => some { s with pc := upd s.pc t .idle, vis := .retPop t r :: s.vis }
    | _ => none

/-! ## What a step of the queue changes -/

/-- Number of consumer actions left in the current call. -/
def cLeft {A : Type} : CPc A → Nat
  | .idle => 0
  | .e1 => 9
  | .e2 => 8
  | .e3 => 7
  | .rel _ => 6
  | .rel2 _ => 5
  | .sw _ => 4
  | .p1 => 3
  | .p2 => 2
  | .p3 _ => 1

theorem prod_frame {A : Type} {s s' : St A} {a : Uswsr.Act A} (hs : step s a = some s') (ha : a.isProd = true) :
    s'.cpc = s.cpc ∧ s'.popped = s.popped ∧ s'.saw = s.saw := by
  cases a <;> simp only [Uswsr.Act.isProd, reduceCtorEq, Bool.false_eq_true] at ha <;> simp only [step] at hs <;> (repeat' split at hs) <;>
    first
    | (simp only [Option.some.injEq] at hs; subst hs; exact ⟨rfl, rfl, rfl⟩)
    | simp at hs

theorem begin_frame {A : Type} {s s' : St A} {v : A} (hs : step s (.pBegin v) = some s') : s'.pushed = s.pushed := by
  simp only [step] at hs
  (repeat' split at hs) <;>
    first
    | (simp only [Option.some.injEq] at hs; subst hs; rfl)
    | simp at hs

theorem cons_step {A : Type} {s s' : St A} {a : Uswsr.Act A} (hs : step s a = some s') (ha : a.isProd = false) :
    s'.ppc = s.ppc ∧ s'.pushed = s.pushed ∧ (s'.bad = true ∨
      (s.cpc = .idle ∧ s'.cpc ≠ .idle ∧ s'.popped = s.popped ∧ s'.saw = s.allPopped) ∨
      (s.cpc ≠ .idle ∧ s'.cpc ≠ .idle ∧ cLeft s'.cpc < cLeft s.cpc ∧ s'.popped = s.popped ∧ (s'.saw = s.saw ∨ s'.saw = (s.saw || s.allPopped))) ∨
      (s.cpc ≠ .idle ∧ s'.cpc = .idle ∧ s'.popped = s.popped ∧ s'.fails = s.fails ++ [s.saw || s.allPopped]) ∨
      (s.cpc ≠ .idle ∧ s'.cpc = .idle ∧ ∃ v, s'.popped = s.popped ++ [v])) := by
  cases a <;> simp only [Uswsr.Act.isProd, reduceCtorEq] at ha <;> simp only [step] at hs <;> (repeat' split at hs) <;>
    first
    | (simp only [Option.some.injEq] at hs; subst hs; simp_all [cLeft]; done)
    | simp at hs

theorem cons_enabled {A : Type} (s : St A) (h : s.cpc ≠ .idle) : ∃ a s', a.isProd = false ∧ step s a = some s' := by
  cases hc : s.cpc with
  | idle => exact absurd hc h
  | e1 =>
    by_cases hb : s.bufr = s.bufw
    · exact ⟨.cCmp, _, rfl, by simp only [step, hc]; rw [if_pos hb]⟩
    · exact ⟨.cCmp, _, rfl, by simp only [step, hc]; rw [if_neg hb]⟩
  | e2 => refine ⟨.cEmpty2, ?_⟩; simp only [step, hc]; split <;> exact ⟨_, rfl, rfl⟩
  | e3 => refine ⟨.cNext, ?_⟩; simp only [step, hc]; split <;> exact ⟨_, rfl, rfl⟩
  | rel t => refine ⟨.cReset, ?_⟩; simp only [step, hc]; split <;> exact ⟨_, rfl, rfl⟩
  | rel2 t => refine ⟨.cRecycle true, ?_⟩; simp only [step, hc]; split <;> exact ⟨_, rfl, rfl⟩
  | sw t => refine ⟨.cSwitch, ?_⟩; simp only [step, hc]; exact ⟨_, rfl, rfl⟩
  | p1 => refine ⟨.cPopCheck, ?_⟩; simp only [step, hc]; split <;> exact ⟨_, rfl, rfl⟩
  | p2 => refine ⟨.cPopLoad, ?_⟩; simp only [step, hc]; split <;> exact ⟨_, rfl, rfl⟩
  | p3 v => refine ⟨.cPopClear, ?_⟩; simp only [step, hc]; split <;> exact ⟨_, rfl, rfl⟩

theorem begin_enabled {A : Type} (s : St A) (h : s.cpc = .idle) : ∃ s', step s .cBegin = some s' := by
  simp only [step, h]; split <;> exact ⟨_, rfl⟩

end FF.Uswsr.Multi
