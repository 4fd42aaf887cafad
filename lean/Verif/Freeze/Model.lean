import Verif.Common.Trans
/-!
# C28: freeze, thaw and the end of a thread

Source: `/repo/ff/node.hpp` 246-309 (`thread_routine`), 347-379 (`spawn`), 380-401 (`wait`), 403-408
(`wait_freezing`), 412-436 (`freeze`, `thaw`), 438-439 (`isfrozen`, `done`).

Two threads: the node's thread and one controller.  Every access to a shared variable and every
operation on the mutex and on the two condition variables is one action; condition variables may wake
spuriously.  One life of the thread is modelled: it is spawned once (a second `spawn` after the join is
not modelled).  Not modelled: cancellation, the initial barrier, CPU affinity, `termination_counter`.
-/
namespace FF.Freeze

/-- what `svc` returns, as far as `thread_routine` looks at it (node.hpp 276-277) -/
inductive Ret where
  | eos
  | nofreeze
  | other
  deriving DecidableEq, Repr

/-- Where the node's thread is in `thread_routine`. -/
inductive NPc where
  /-- not spawned -/
  | off
  /-- 260: `svc_init` -/
  | init
  /-- 265: `svc` (and 267 `svc_end`) -/
  | svc
  /-- 276: about to lock the mutex -/
  | lock
  /-- 277: `ret != FF_EOS_NOFREEZE && !stp` -/
  | chk
  /-- 278 -/
  | chk0
  /-- 279: `while(freezing==1)` -/
  | loop
  /-- 280 -/
  | setf
  /-- 281: signal `cond_frozen` -/
  | sig
  /-- 282: about to wait on `cond` -/
  | waitc
  /-- asleep on `cond` -/
  | asleep
  /-- woken up, about to take the mutex again -/
  | relock
  /-- 289: `if (freezing != 0) freezing = 1` -/
  | after
  /-- 290 -/
  | unlock
  /-- 296: `while(!stp)` -/
  | again
  /-- 298: `if (freezing)` -/
  | endc
  /-- 299-302 -/
  | endl
  | ends
  | endg
  | endu
  /-- 304: `isdone = true` -/
  | fin
  /-- the thread has ended -/
  | done
  deriving DecidableEq, Repr

/-- The calls of the controller. -/
inductive Cmd where
  | freeze
  | spawn
  | waitFreezing
  | thaw (again : Bool)
  | wait
  deriving DecidableEq, Repr

/-- Where the controller is; `w` tells that the call is made by `wait` (384-385). -/
inductive CPc where
  | idle
  /-- 414: `freezing = 1` (after `stp = false`) -/
  | fz
  /-- `wait_freezing` 404-406: lock, test, wait, asleep, relock, unlock -/
  | wl (w : Bool)
  | wc (w : Bool)
  | ww (w : Bool)
  | wa (w : Bool)
  | wr (w : Bool)
  | wu (w : Bool)
  /-- `thaw` 418-431: lock, `freezing`, `frozen`, signal, unlock -/
  | tl (f w : Bool)
  | ts (f w : Bool)
  | tf (f w : Bool)
  | tg (f w : Bool)
  | tu (f w : Bool)
  /-- `wait` 383: `isfrozen()` -/
  | w1
  /-- `wait` 388: join -/
  | wj
  deriving DecidableEq, Repr

inductive Who where
  | node
  | ctl
  deriving DecidableEq, Repr

structure St where
  prog : List Cmd
  c : CPc
  n : NPc
  ret : Ret
  stp : Bool
  freezing : Nat
  frozen : Bool
  isdone : Bool
  mtx : Option Who
  /-- ghost: how many times `svc` was started -/
  rounds : Nat
  /-- ghost: how many times `thaw(true)` took effect -/
  thaws : Nat
  deriving DecidableEq, Repr

/-- the constructor, node.hpp 219-224 -/
def St.start (prog : List Cmd) : St :=
  { prog, c := .idle, n := .off, ret := .other, stp := true, freezing := 0, frozen := false
    isdone := false, mtx := none, rounds := 0, thaws := 0 }

inductive Act where
  | ctl
  /-- one step of the thread; `r` is what `svc` returns if it returns now -/
  | node (r : Ret)
  /-- `svc_init` fails -/
  | initFail
  /-- spurious wake-ups -/
  | spurC
  | spurN
  deriving DecidableEq, Repr

/-- signal on `cond_frozen` -/
def wakeC : CPc → CPc
  | .wa w => .wr w
  | c => c

/-- signal on `cond` -/
def wakeN : NPc → NPc
  | .asleep => .relock
  | n => n

/-- One step of the node's thread. -/
def nstep (s : St) (r : Ret) : Option St :=
  match s.n with
  | .off | .done => none
  | .init => some { s with n := .svc, rounds := s.rounds + 1 }
  | .svc => some { s with n := .lock, ret := r }
  | .lock => if s.mtx = none then some { s with n := .chk, mtx := some .node } else none
  | .chk => some { s with n := if s.ret ≠ .nofreeze ∧ s.stp = false then .chk0 else .after }
  | .chk0 => some { s with n := .loop, stp := if s.freezing = 0 ∧ s.ret = .eos then true else s.stp }
  | .loop => some { s with n := if s.freezing = 1 then .setf else .after }
  | .setf => some { s with n := .sig, frozen := true }
  | .sig => some { s with n := .waitc, c := wakeC s.c }
  | .waitc => some { s with n := .asleep, mtx := none }
  | .asleep => none
  | .relock => if s.mtx = none then some { s with n := .loop, mtx := some .node } else none
  | .after => some { s with n := .unlock, freezing := if s.freezing ≠ 0 then 1 else s.freezing }
  | .unlock => some { s with n := .again, mtx := none }
  | .again => some { s with n := if s.stp = false then .init else .endc }
  | .endc => some { s with n := if s.freezing ≠ 0 then .endl else .fin }
  | .endl => if s.mtx = none then some { s with n := .ends, mtx := some .node } else none
  | .ends => some { s with n := .endg, frozen := true }
  | .endg => some { s with n := .endu, c := wakeC s.c }
  | .endu => some { s with n := .fin, mtx := none }
  | .fin => some { s with n := .done, isdone := true }

/-- One step of the controller. -/
def cstep (s : St) : Option St :=
  match s.c with
  | .idle =>
    match s.prog with
    | [] => none
    | .freeze :: p => some { s with prog := p, c := .fz, stp := false }
    | .spawn :: p => if s.n = .off then some { s with prog := p, n := .init } else some { s with prog := p }
    | .waitFreezing :: p => some { s with prog := p, c := .wl false }
    | .thaw f :: p => some { s with prog := p, c := .tl f false }
    | .wait :: p => some { s with prog := p, c := .w1, stp := true }
  | .fz => some { s with c := .idle, freezing := 1 }
  | .wl w => if s.mtx = none then some { s with c := .wc w, mtx := some .ctl } else none
  | .wc w => some { s with c := if s.frozen then .wu w else .ww w }
  | .ww w => some { s with c := .wa w, mtx := none }
  | .wa _ => none
  | .wr w => if s.mtx = none then some { s with c := .wc w, mtx := some .ctl } else none
  | .wu w => some { s with c := if w then .tl false true else .idle, mtx := none }
  | .tl f w => if s.mtx = none then some { s with c := .ts f w, mtx := some .ctl } else none
  | .ts f w => some { s with c := .tf f w, freezing := if f then 2 else 0 }
  | .tf f w => some { s with c := .tg f w, frozen := false, thaws := if f then s.thaws + 1 else s.thaws }
  | .tg f w => some { s with c := .tu f w, n := wakeN s.n }
  | .tu _ w => some { s with c := if w then .wj else .idle, mtx := none }
  | .w1 => some { s with c := if 0 < s.freezing then .wl true else .wj }
  | .wj => if s.n = .done ∨ s.n = .off then some { s with c := .idle } else none

/-- `calm`: `svc_init` succeeds and `svc` does not return `FF_EOS_NOFREEZE`. -/
def step (calm : Bool) (s : St) : Act → Option St
  | .ctl => cstep s
  | .node r => if calm = true ∧ r = .nofreeze then none else nstep s r
  | .initFail => if calm = false ∧ s.n = .init then some { s with n := .endc } else none
  | .spurC => match s.c with
    | .wa w => some { s with c := .wr w }
    | _ => none
  | .spurN => if s.n = .asleep then some { s with n := .relock } else none

/-! ## Specification -/

/-- the thread executes the user's `svc_init`, `svc` or `svc_end` -/
def St.serving (s : St) : Prop := s.n = .init ∨ s.n = .svc

/-- `done()`, node.hpp 439 -/
def St.isDone (s : St) : Bool := s.isdone || (s.frozen && !s.stp)

/-- the rest of the protocol after `spawn`: `k` times (`wait_freezing`, `thaw(true)`), then
`wait_freezing` and `wait` -/
def rest : Nat → List Cmd
  | 0 => [.waitFreezing, .wait]
  | k + 1 => .waitFreezing :: .thaw true :: rest k

/-- the documented use: freeze and run, thaw `k` times, wait for the end -/
def protocol (k : Nat) : List Cmd := .freeze :: .spawn :: rest k

/-! ## Invariant for every program of the controller -/

def NPc.holds : NPc → Bool
  | .chk | .chk0 | .loop | .setf | .sig | .waitc | .after | .unlock | .ends | .endg | .endu => true
  | _ => false

def CPc.holds : CPc → Bool
  | .wc _ | .ww _ | .wu _ | .ts _ _ | .tf _ _ | .tg _ _ | .tu _ _ => true
  | _ => false

def CPc.isTf : CPc → Bool
  | .tf _ _ => true
  | _ => false

def CPc.presig : CPc → Bool
  | .tf _ _ | .tg _ _ => true
  | _ => false

def CPc.asleep : CPc → Bool
  | .wa _ => true
  | _ => false

def CPc.isWu : CPc → Bool
  | .wu _ => true
  | _ => false

def NPc.presig : NPc → Bool
  | .sig | .endg => true
  | _ => false

/-- asleep or on its way to sleep because it is frozen -/
def NPc.parked : NPc → Bool
  | .setf | .sig | .waitc | .asleep | .relock | .loop => true
  | _ => false

/-- has seen `freezing == 1` and holds the mutex -/
def NPc.parking : NPc → Bool
  | .setf | .sig | .waitc => true
  | _ => false

def CPc.isWw : CPc → Bool
  | .ww _ => true
  | _ => false

def NPc.ended : NPc → Bool
  | .endg | .endu | .fin | .done => true
  | _ => false

structure Inv (s : St) : Prop where
  mN : s.n.holds = true ↔ s.mtx = some .node
  mC : s.c.holds = true ↔ s.mtx = some .ctl
  aN : s.n = .asleep → s.freezing = 1 ∨ s.c.presig = true
  aC : s.c.asleep = true → s.frozen = false ∨ s.n.presig = true
  fr : s.frozen = true → (s.n.parked = true ∧ (s.freezing = 1 ∨ s.c.isTf = true)) ∨ s.n.ended = true
  wu : s.c.isWu = true → s.frozen = true
  fin : s.isdone = true → s.n = .done
  pk : s.n.parking = true → s.freezing = 1
  ww : s.c.isWw = true → s.frozen = false

theorem wakeC_holds (c : CPc) : (wakeC c).holds = c.holds := by cases c <;> rfl
theorem wakeC_presig (c : CPc) : (wakeC c).presig = c.presig := by cases c <;> rfl
theorem wakeC_isTf (c : CPc) : (wakeC c).isTf = c.isTf := by cases c <;> rfl
theorem wakeC_isWu (c : CPc) : (wakeC c).isWu = c.isWu := by cases c <;> rfl
theorem wakeC_asleep (c : CPc) : (wakeC c).asleep = false := by cases c <;> rfl
theorem wakeC_isWw (c : CPc) : (wakeC c).isWw = c.isWw := by cases c <;> rfl
theorem presig_holds {c : CPc} (h : c.presig = true) : c.holds = true := by
  cases c <;> simp_all [CPc.presig, CPc.holds]
theorem isTf_holds {c : CPc} (h : c.isTf = true) : c.holds = true := by
  cases c <;> simp_all [CPc.isTf, CPc.holds]

theorem isWw_holds {c : CPc} (h : c.isWw = true) : c.holds = true := by
  cases c <;> simp_all [CPc.isWw, CPc.holds]
theorem parking_holds {n : NPc} (h : n.parking = true) : n.holds = true := by
  cases n <;> simp_all [NPc.parking, NPc.holds]

theorem Inv.nstep {s s' : St} {r : Ret} (h : Inv s) (hs : Freeze.nstep s r = some s') : Inv s' := by
  obtain ⟨mN, mC, aN, aC, fr, wu, fin, pk, ww⟩ := h
  have hp : s.mtx = some .node → s.c.presig = false ∧ s.c.isTf = false ∧ s.c.isWw = false := by
    intro hm
    refine ⟨?_, ?_, ?_⟩
    · cases hh : s.c.presig with
      | false => rfl
      | true => have := mC.1 (presig_holds hh); rw [hm] at this; simp at this
    · cases hh : s.c.isTf with
      | false => rfl
      | true => have := mC.1 (isTf_holds hh); rw [hm] at this; simp at this
    · cases hh : s.c.isWw with
      | false => rfl
      | true => have := mC.1 (isWw_holds hh); rw [hm] at this; simp at this
  unfold Freeze.nstep at hs
  cases hn : s.n <;> rw [hn] at hs mN aN aC fr fin pk <;>
    simp only [Option.some.injEq, reduceCtorEq] at hs
  case lock | relock | endl =>
    split at hs <;> simp only [Option.some.injEq, reduceCtorEq] at hs
    subst hs
    constructor <;> simp_all [NPc.holds, NPc.parked, NPc.ended, NPc.presig, NPc.parking]
  case chk =>
    subst hs
    constructor <;> (try split) <;> simp_all [NPc.holds, NPc.parked, NPc.ended, NPc.presig, NPc.parking]
  case loop =>
    subst hs
    constructor <;> (try split) <;> simp_all [NPc.holds, NPc.parked, NPc.ended, NPc.presig, NPc.parking]
  case again =>
    subst hs
    constructor <;> (try split) <;> simp_all [NPc.holds, NPc.parked, NPc.ended, NPc.presig, NPc.parking]
  case endc =>
    subst hs
    constructor <;> (try split) <;> simp_all [NPc.holds, NPc.parked, NPc.ended, NPc.presig, NPc.parking]
  all_goals
    subst hs
    constructor <;> simp_all [NPc.holds, NPc.parked, NPc.ended, NPc.presig, NPc.parking, wakeC_holds, wakeC_presig,
      wakeC_isWw, wakeC_isTf, wakeC_isWu, wakeC_asleep]

theorem Inv.cstep {s s' : St} (h : Inv s) (hs : Freeze.cstep s = some s') : Inv s' := by
  obtain ⟨mN, mC, aN, aC, fr, wu, fin, pk, ww⟩ := h
  have hq : s.mtx = some .ctl → s.n.parking = false := by
    intro hm
    cases hh : s.n.parking with
    | false => rfl
    | true => have := mN.1 (parking_holds hh); rw [hm] at this; simp at this
  unfold Freeze.cstep at hs
  cases hc : s.c <;> rw [hc] at hs mC aN aC fr wu ww <;> simp only [Option.some.injEq, reduceCtorEq] at hs
  case idle =>
    split at hs <;> try simp only [Option.some.injEq, reduceCtorEq] at hs
    case h_3 =>
      split at hs <;> simp only [Option.some.injEq] at hs <;> subst hs
      · rename_i hn
        constructor <;> simp_all [NPc.holds, NPc.parked, NPc.ended, NPc.presig, NPc.parking, CPc.holds, CPc.presig,
          CPc.isTf, CPc.isWu, CPc.isWw, CPc.asleep]
      · constructor <;> simp_all [CPc.holds, CPc.presig, CPc.isTf, CPc.isWu, CPc.isWw, CPc.asleep]
    all_goals
      subst hs
      constructor <;> simp_all [CPc.holds, CPc.presig, CPc.isTf, CPc.isWu, CPc.isWw, CPc.asleep]
  case wl | wr | tl =>
    split at hs <;> simp only [Option.some.injEq, reduceCtorEq] at hs
    subst hs
    constructor <;> simp_all [CPc.holds, CPc.presig, CPc.isTf, CPc.isWu, CPc.isWw, CPc.asleep]
  case wc =>
    subst hs
    constructor <;> (try split) <;> simp_all [CPc.holds, CPc.presig, CPc.isTf, CPc.isWu, CPc.isWw, CPc.asleep]
  case w1 =>
    subst hs
    constructor <;> (try split) <;> simp_all [CPc.holds, CPc.presig, CPc.isTf, CPc.isWu, CPc.isWw, CPc.asleep]
  case wj =>
    split at hs <;> simp only [Option.some.injEq, reduceCtorEq] at hs
    subst hs
    constructor <;> simp_all [CPc.holds, CPc.presig, CPc.isTf, CPc.isWu, CPc.isWw, CPc.asleep]
  case tg =>
    subst hs
    have : s.n ≠ .asleep → wakeN s.n = s.n := by cases s.n <;> simp [wakeN]
    by_cases hn : s.n = .asleep
    · constructor <;> simp_all [wakeN, CPc.holds, CPc.presig, CPc.isTf, CPc.isWu, CPc.isWw, CPc.asleep, NPc.holds,
        NPc.parked, NPc.ended, NPc.presig, NPc.parking]
    · have hw := this hn
      constructor <;> simp only [hw] <;>
        simp_all [CPc.holds, CPc.presig, CPc.isTf, CPc.isWu, CPc.isWw, CPc.asleep]
  case wu w =>
    subst hs
    cases w <;> constructor <;> simp_all [CPc.holds, CPc.presig, CPc.isTf, CPc.isWu, CPc.isWw, CPc.asleep]
  case tu f w =>
    subst hs
    cases w <;> constructor <;> simp_all [CPc.holds, CPc.presig, CPc.isTf, CPc.isWu, CPc.isWw, CPc.asleep]
  all_goals
    subst hs
    constructor <;> simp_all [CPc.holds, CPc.presig, CPc.isTf, CPc.isWu, CPc.isWw, CPc.asleep] <;>
      (intro hf; rcases fr hf with h | h <;> simp [h])

theorem Inv.step {calm : Bool} {s s' : St} {a : Act} (h : Inv s) (hs : Freeze.step calm s a = some s') :
    Inv s' := by
  cases a with
  | ctl => exact h.cstep hs
  | node r =>
    simp only [Freeze.step] at hs
    split at hs
    · simp at hs
    · exact h.nstep hs
  | initFail =>
    simp only [Freeze.step] at hs
    split at hs <;> simp only [Option.some.injEq, reduceCtorEq] at hs
    subst hs
    rename_i hn
    obtain ⟨mN, mC, aN, aC, fr, wu, fin, pk, ww⟩ := h
    rw [hn.2] at mN aN aC fr fin pk
    constructor <;> simp_all [NPc.holds, NPc.parked, NPc.ended, NPc.presig, NPc.parking]
  | spurC =>
    simp only [Freeze.step] at hs
    split at hs <;> simp only [Option.some.injEq, reduceCtorEq] at hs
    subst hs
    rename_i hc
    obtain ⟨mN, mC, aN, aC, fr, wu, fin, pk, ww⟩ := h
    rw [hc] at mC aN aC fr wu ww
    constructor <;> simp_all [CPc.holds, CPc.presig, CPc.isTf, CPc.isWu, CPc.isWw, CPc.asleep]
  | spurN =>
    simp only [Freeze.step] at hs
    split at hs <;> simp only [Option.some.injEq, reduceCtorEq] at hs
    subst hs
    rename_i hn
    obtain ⟨mN, mC, aN, aC, fr, wu, fin, pk, ww⟩ := h
    rw [hn] at mN aN aC fr fin pk
    constructor <;> simp_all [NPc.holds, NPc.parked, NPc.ended, NPc.presig, NPc.parking]

theorem Inv.reach {calm : Bool} {prog : List Cmd} {s : St}
    (hr : Reach (Freeze.step calm) (St.start prog) s) : Inv s :=
  hr.inv (by constructor <;> simp [St.start, NPc.holds, CPc.holds, CPc.asleep, CPc.isWu, CPc.isWw, NPc.parking])
    (fun _ _ _ h hs => h.step hs)

/-- **C28, `wait_freezing` returns only when the node is frozen or gone**: whatever the controller
calls and in whatever order, when its `wait_freezing` passes, the thread does not execute the user's
code: it is asleep or about to sleep, or has ended.  The same holds as long as `frozen` is set, and
when `done()` answers `true`. -/
theorem C28_frozen {calm : Bool} {prog : List Cmd} {s : St}
    (hr : Reach (Freeze.step calm) (St.start prog) s)
    (h : s.c.isWu = true ∨ s.frozen = true ∨ s.isDone = true) :
    ¬ s.serving ∧ (s.n.parked = true ∨ s.n.ended = true) := by
  have hI := Inv.reach hr
  have key : s.frozen = true → ¬ s.serving ∧ (s.n.parked = true ∨ s.n.ended = true) := by
    intro hf
    rcases hI.fr hf with ⟨h1, _⟩ | h1
    · refine ⟨?_, Or.inl h1⟩
      rintro (h2 | h2) <;> rw [h2] at h1 <;> simp [NPc.parked] at h1
    · refine ⟨?_, Or.inr h1⟩
      rintro (h2 | h2) <;> rw [h2] at h1 <;> simp [NPc.ended] at h1
  rcases h with h | h | h
  · exact key (hI.wu h)
  · exact key h
  · simp only [St.isDone, Bool.or_eq_true, Bool.and_eq_true] at h
    rcases h with h | h
    · have := hI.fin h
      exact ⟨by rintro (h2 | h2) <;> rw [this] at h2 <;> simp at h2, Or.inr (by rw [this]; rfl)⟩
    · exact key h.1

/-- **C28, no lost wake-up**: whatever the controller calls, a thread asleep on the condition variable
is not meant to run, or the controller is just about to wake it up, holding the mutex; and a controller
asleep in `wait_freezing` waits for a thread that is not frozen, or that is about to wake it up. -/
theorem C28_no_lost_wakeup {calm : Bool} {prog : List Cmd} {s : St}
    (hr : Reach (Freeze.step calm) (St.start prog) s) :
    (s.n = .asleep → s.freezing = 1 ∨ (s.c.presig = true ∧ s.mtx = some .ctl)) ∧
    (s.c.asleep = true → s.frozen = false ∨ (s.n.presig = true ∧ s.mtx = some .node)) := by
  have hI := Inv.reach hr
  refine ⟨fun h => ?_, fun h => ?_⟩
  · rcases hI.aN h with h1 | h1
    · exact Or.inl h1
    · exact Or.inr ⟨h1, hI.mC.1 (presig_holds h1)⟩
  · rcases hI.aC h with h1 | h1
    · exact Or.inl h1
    · refine Or.inr ⟨h1, hI.mN.1 ?_⟩
      cases hn : s.n <;> rw [hn] at h1 <;> simp_all [NPc.presig, NPc.holds]

end FF.Freeze
