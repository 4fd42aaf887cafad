import Verif.Parfor.StealLive
/-!
# The loop with a scheduler thread (C29)

Models `forall_Scheduler::svc` (ff/parallel_for_internals.hpp 788-811), `nextTask` (729-786) and
`sendTask` (584-620) executed by the scheduler thread, and `forallreduce_W::svc` (866-892) with
`schedRunning == true`.  The scheduler sends tasks to the workers, each worker executes them in order and
sends each one back, and the scheduler answers with another task or with the end mark.  The workers and
the scheduler are interleaved in any order, and the scheduler reads the feedback channels in any order.

Simplifications: the channels are unbounded (8192 places in the code, 993; at most nine messages are ever
in one of them, 614); a task is passed by value (in the code by a pointer into `taskv`, which only the
holder of the message accesses); `sendTask` makes any number of rounds (616; in spin-wait mode one more by
the caller, 1086); `eossent` is false at the start (it is reset by the first round, 606); the end mark is
`GO_OUT`, in spin-wait mode `EOS_NOFREEZE`.
-/
namespace FF.Parfor
open FF.Farm (sumN)
open FF.Node (upd)

/-- a message for a worker -/
inductive Msg where
  | task (a b : Int)
  | out
  deriving DecidableEq, Repr

/-- a worker: waiting, in the loop of the body, or gone -/
inductive WPC where
  | idle
  | run (cur stop : Int)
  | gone
  deriving DecidableEq, Repr

/-- the scheduler: `send k w` is at worker `w` of a round of `sendTask`, with `k` rounds to follow -/
inductive EPC where
  | send (k w : Nat)
  | loop
  | over
  deriving DecidableEq, Repr

structure B where
  d : Nat → Range
  maxid : Option Nat
  tt : Nat
  eos : Nat → Bool
  e : EPC
  q : Nat → List Msg
  pc : Nat → WPC
  /-- number of tasks on the way back from each worker -/
  back : Nat → Nat
  /-- ghost: the calls of the body -/
  log : List (Nat × Int)

/-- `std::max_element` (750) over the entries `0..n` -/
def maxEl (d : Nat → Range) : Nat → Nat
  | 0 => 0
  | n + 1 => if (d (maxEl d n)).ntask < (d (n + 1)).ntask then n + 1 else maxEl d n

/-- 750-755 -/
def scan (P : Par) (d : Nat → Range) : Option Nat × Option Nat :=
  (if 0 < (d (maxEl d (P.D - 1))).ntask then some (maxEl d (P.D - 1)) else none, some (maxEl d (P.D - 1)))

/-- `nextTask`: the entry from which the next task of worker `w` is taken, if any, and the new `maxid` -/
def nextId (P : Par) (d : Nat → Range) (maxid : Option Nat) (w : Nat) : Option Nat × Option Nat :=
  if (d w).ntask ≠ 0 then (some w, maxid)
  else
    match maxid with
    | none => scan P d
    | some m => if 0 < (d m).ntask then (some m, some m) else scan P d

/-- 600-605, 739-742 and 803: the first task of entry `id` is sent to worker `w` -/
def B.send (P : Par) (s : B) (id w : Nat) : B :=
  { s with
    d := upd s.d id ⟨(s.d id).ntask - 1, P.next (s.d id).stop (s.d id).start, (s.d id).stop⟩
    q := upd s.q w (s.q w ++ [.task (s.d id).start (P.endOf (s.d id).stop (s.d id).start)]) }

/-- 797-800 and 805-808: the end mark is sent to worker `w`, once -/
def B.end1 (s : B) (w : Nat) : B :=
  if s.eos w then s else { s with eos := upd s.eos w true, q := upd s.q w (s.q w ++ [.out]) }

inductive BAct where
  /-- the scheduler goes on with `sendTask` -/
  | send
  /-- the scheduler receives a task from worker `w` -/
  | recv (w : Nat)
  /-- worker `w` takes its next message -/
  | get (w : Nat)
  /-- worker `w` goes on with the loop of the body -/
  | go (w : Nat)
  deriving DecidableEq, Repr

def bstep (P : Par) (s : B) : BAct → Option B
  | .send =>
    match s.e with
    | .send k w =>
      if w < P.nw then
        some { (if 0 < (s.d w).ntask then s.send P w w else s) with e := .send k (w + 1) }
      else if k = 0 then some { s with e := .loop }
      else some { s with e := .send (k - 1) 0 }
    | _ => none
  | .recv w =>
    if s.e = .loop ∧ w < P.nw ∧ 0 < s.back w then
      if s.tt - 1 = 0 then
        some { (B.end1 { s with tt := s.tt - 1, back := upd s.back w (s.back w - 1) } w) with e := .over }
      else
        match nextId P s.d s.maxid w with
        | (some id, m) =>
          some (B.send P { s with tt := s.tt - 1, back := upd s.back w (s.back w - 1), maxid := m } id w)
        | (none, m) =>
          some (B.end1 { s with tt := s.tt - 1, back := upd s.back w (s.back w - 1), maxid := m } w)
    else none
  | .get w =>
    if w < P.nw ∧ s.pc w = .idle then
      match s.q w with
      | [] => none
      | .task a b :: r => some { s with q := upd s.q w r, pc := upd s.pc w (.run a b) }
      | .out :: r => some { s with q := upd s.q w r, pc := upd s.pc w .gone }
    else none
  | .go w =>
    if w < P.nw then
      match s.pc w with
      | .run cur stop =>
        if cur < stop then
          some { s with pc := upd s.pc w (.run (cur + P.step) stop), log := s.log ++ [(w, cur)] }
        else some { s with pc := upd s.pc w .idle, back := upd s.back w (s.back w + 1) }
      | _ => none
    else none

/-- The state in which the scheduler starts: `k` rounds of `sendTask` follow the first. -/
def B.start (L : Loop) (k : Nat) : B :=
  ⟨L.d, none, L.tt.toNat, fun _ => false, .send k 0, fun _ => [], fun _ => .idle, fun _ => 0, []⟩

def B.calls (s : B) : List Int := s.log.map Prod.snd

/-! ## Invariant -/

def Msg.on (P : Par) (x : Int) : Msg → Nat
  | .task a b => Parfor.on a b P.step x
  | .out => 0

def WPC.on (P : Par) (x : Int) : WPC → Nat
  | .run c e => Parfor.on c e P.step x
  | _ => 0

def Msg.isTask : Msg → Bool
  | .task _ _ => true
  | .out => false

def WPC.isRun : WPC → Nat
  | .run _ _ => 1
  | _ => 0

/-- what worker `w` has still to execute -/
def B.on (P : Par) (s : B) (x : Int) (w : Nat) : Nat := ((s.q w).map (Msg.on P x)).sum + (s.pc w).on P x

/-- the tasks that worker `w` has not given back -/
def B.outst (s : B) (w : Nat) : Nat := (s.q w).countP Msg.isTask + (s.pc w).isRun + s.back w

structure BInv (first last : Int) (P : Par) (s : B) : Prop where
  cover : ∀ x, s.calls.count x + sumN (fun w => s.on P x w) P.nw +
    sumN (fun i => on (s.d i).start (s.d i).stop P.step x) P.nw = on first last P.step x
  cap : ∀ i, i < P.nw → (s.d i).stop ≤ (s.d i).start ∨
    (s.d i).stop ≤ (s.d i).start + (s.d i).ntask * (P.chunk * P.step)
  nonneg : ∀ i, i < P.nw → 0 ≤ (s.d i).ntask
  rest : ∀ i, P.nw ≤ i → (s.d i).ntask ≤ 0
  tot : s.tt = sumN s.outst P.nw + sumN (fun i => (s.d i).ntask.toNat) P.nw
  /-- a worker that has not been told to end has a task -/
  e1 : ∀ w, w < P.nw → s.eos w = false → 1 ≤ s.outst w ∨ (∃ k v, s.e = .send k v ∧ v ≤ w ∧ 0 < (s.d w).ntask)
  e2 : ∀ w, w < P.nw → s.eos w = true → ∀ i, i < P.nw → (s.d i).ntask = 0
  e3 : ∀ w, w < P.nw → s.eos w = true → ∀ k v, s.e ≠ .send k v
  noout : ∀ w, w < P.nw → s.eos w = false → .out ∉ s.q w ∧ s.pc w ≠ .gone
  out : ∀ w, w < P.nw → s.eos w = true →
    (∃ ts : List Msg, s.q w = ts ++ [.out] ∧ .out ∉ ts ∧ s.pc w ≠ .gone) ∨ (s.q w = [] ∧ s.pc w = .gone)
  over : s.e = .over → s.tt = 0 ∧ ∀ w, w < P.nw → s.eos w = true
  alive : s.e = .loop → 1 ≤ s.tt
  who : ∀ e ∈ s.log, e.1 < P.nw

variable {first last : Int} {P : Par}

theorem maxEl_le (d : Nat → Range) (n : Nat) : maxEl d n ≤ n := by
  induction n with
  | zero => exact Nat.le_refl _
  | succ n ih => simp only [maxEl]; split <;> omega

theorem maxEl_max (d : Nat → Range) (n i : Nat) (h : i ≤ n) : (d i).ntask ≤ (d (maxEl d n)).ntask := by
  induction n with
  | zero => have : i = 0 := by omega
            subst this; exact Int.le_refl _
  | succ n ih =>
    simp only [maxEl]
    by_cases hi : i = n + 1
    · subst hi; split <;> omega
    · have := ih (by omega)
      split <;> omega

theorem nextId_none {d : Nat → Range} {maxid m : Option Nat} {w : Nat} (hD : P.nw ≤ P.D) (h1 : 1 ≤ P.nw)
    (hn : ∀ i, i < P.nw → 0 ≤ (d i).ntask) (h : nextId P d maxid w = (none, m)) :
    ∀ i, i < P.nw → (d i).ntask = 0 := by
  have hs : ∀ m, scan P d = (none, m) → ∀ i, i < P.nw → (d i).ntask = 0 := by
    intro m hm i hi
    unfold scan at hm
    have h1 := maxEl_max d (P.D - 1) i (by omega)
    have h2 := hn i hi
    by_cases hc : 0 < (d (maxEl d (P.D - 1))).ntask
    · rw [if_pos hc] at hm; simp at hm
    · omega
  unfold nextId at h
  split at h
  · simp at h
  · split at h
    · exact hs _ h
    · split at h
      · simp at h
      · exact hs _ h

theorem nextId_some {d : Nat → Range} {maxid m : Option Nat} {w id : Nat} (hw : w < P.nw)
    (hn : ∀ i, i < P.nw → 0 ≤ (d i).ntask) (hr : ∀ i, P.nw ≤ i → (d i).ntask ≤ 0)
    (h : nextId P d maxid w = (some id, m)) : id < P.nw ∧ 0 < (d id).ntask := by
  have hpos : ∀ id, 0 < (d id).ntask → id < P.nw := by
    intro id h
    by_contra hc
    have := hr id (by omega); omega
  have hs : ∀ id m, scan P d = (some id, m) → id < P.nw ∧ 0 < (d id).ntask := by
    intro id m h
    unfold scan at h
    by_cases hc : 0 < (d (maxEl d (P.D - 1))).ntask
    · rw [if_pos hc] at h
      simp only [Prod.mk.injEq, Option.some.injEq] at h
      obtain ⟨rfl, _⟩ := h
      exact ⟨hpos _ hc, hc⟩
    · rw [if_neg hc] at h; simp at h
  unfold nextId at h
  split at h
  · rename_i h0
    simp only [Prod.mk.injEq, Option.some.injEq] at h
    obtain ⟨rfl, _⟩ := h
    have := hn w hw
    exact ⟨hw, by omega⟩
  · split at h
    · exact hs _ _ h
    · split at h
      · rename_i hc
        simp only [Prod.mk.injEq, Option.some.injEq] at h
        obtain ⟨rfl, _⟩ := h
        exact ⟨hpos _ hc, hc⟩
      · exact hs _ _ h

/-- the facts about the table and the messages that a sent task preserves -/
theorem send_cover {s : B} {id w : Nat} (hs : 1 ≤ P.step) (hk : 1 ≤ P.chunk) (hid : id < P.nw) (hw : w < P.nw) (x : Int) :
    sumN (fun v => (s.send P id w).on P x v) P.nw +
      sumN (fun i => on ((s.send P id w).d i).start ((s.send P id w).d i).stop P.step x) P.nw =
    sumN (fun v => s.on P x v) P.nw + sumN (fun i => on (s.d i).start (s.d i).stop P.step x) P.nw := by
  have h1 := sumN_change (f := fun v => (s.send P id w).on P x v) (g := fun v => s.on P x v) hw
    (fun j _ hj => by simp only [B.on, B.send, upd, if_neg hj])
  have h2 := sumN_change (f := fun i => on ((s.send P id w).d i).start ((s.send P id w).d i).stop P.step x)
    (g := fun i => on (s.d i).start (s.d i).stop P.step x) hid
    (fun j _ hj => by simp only [B.send, upd, if_neg hj])
  have h3 : (s.send P id w).on P x w = s.on P x w + on (s.d id).start (P.endOf (s.d id).stop (s.d id).start) P.step x := by
    simp only [B.on, B.send, upd, if_true, List.map_append, List.sum_append, List.map_cons, List.map_nil,
      List.sum_cons, List.sum_nil, Msg.on]
    omega
  have h4 : (s.send P id w).d id = ⟨(s.d id).ntask - 1, P.next (s.d id).stop (s.d id).start, (s.d id).stop⟩ := by
    simp only [B.send, upd, if_true]
  rw [h3] at h1
  rw [h4] at h2
  have ht := on_take (x := x) (c := (s.d id).stop) (a := (s.d id).start) hs hk
    (rfl : P.endOf (s.d id).stop (s.d id).start = _)
  simp only [Par.next] at h2
  omega

theorem send_outst {s : B} {id w v : Nat} :
    (s.send P id w).outst v = s.outst v + if v = w then 1 else 0 := by
  by_cases hv : v = w
  · subst hv
    simp only [B.outst, B.send, upd, if_true, List.countP_append, List.countP_cons, List.countP_nil, Msg.isTask]
    omega
  · simp only [B.outst, B.send, upd, if_neg hv]; omega

theorem send_cap {s : B} {id w : Nat} (hs : 1 ≤ P.step) (hk : 1 ≤ P.chunk)
    (h : ∀ i, i < P.nw → (s.d i).stop ≤ (s.d i).start ∨
      (s.d i).stop ≤ (s.d i).start + (s.d i).ntask * (P.chunk * P.step)) :
    ∀ i, i < P.nw → ((s.send P id w).d i).stop ≤ ((s.send P id w).d i).start ∨
      ((s.send P id w).d i).stop ≤ ((s.send P id w).d i).start + ((s.send P id w).d i).ntask * (P.chunk * P.step) := by
  intro i hi
  by_cases hii : i = id
  · subst hii
    simp only [B.send, upd, if_true, Par.next]
    exact cap_take hs (rfl : P.endOf (s.d i).stop (s.d i).start = _) (h i hi) hk
  · simp only [B.send, upd, if_neg hii]; exact h i hi

theorem send_ntask {s : B} {id w i : Nat} :
    ((s.send P id w).d i).ntask = (s.d i).ntask - if i = id then 1 else 0 := by
  by_cases hii : i = id
  · subst hii; simp only [B.send, upd, if_true]
  · simp only [B.send, upd, if_neg hii]; omega

theorem send_sum {s : B} {id w : Nat} (hid : id < P.nw) (h : 0 < (s.d id).ntask) :
    sumN (fun i => ((s.send P id w).d i).ntask.toNat) P.nw + 1 = sumN (fun i => (s.d i).ntask.toNat) P.nw := by
  have := sumN_change (f := fun i => ((s.send P id w).d i).ntask.toNat) (g := fun i => (s.d i).ntask.toNat) hid
    (fun j _ hj => by rw [send_ntask, if_neg hj]; simp)
  rw [send_ntask, if_pos rfl] at this
  omega

/-- Effect of a step of a worker. -/
structure Same (s s' : B) (w : Nat) : Prop where
  d : s'.d = s.d
  tt : s'.tt = s.tt
  eos : s'.eos = s.eos
  e : s'.e = s.e
  q : ∀ v, v ≠ w → s'.q v = s.q v
  pc : ∀ v, v ≠ w → s'.pc v = s.pc v
  back : ∀ v, v ≠ w → s'.back v = s.back v
  outst : s'.outst w = s.outst w

theorem BInv.worker {s s' : B} {w : Nat} (h : BInv first last P s) (hw : w < P.nw) (hsame : Same s s' w)
    (hon : ∀ x, s'.calls.count x + s'.on P x w = s.calls.count x + s.on P x w)
    (hno : s.eos w = false → .out ∉ s'.q w ∧ s'.pc w ≠ .gone)
    (hout : s.eos w = true →
      (∃ ts : List Msg, s'.q w = ts ++ [.out] ∧ .out ∉ ts ∧ s'.pc w ≠ .gone) ∨ (s'.q w = [] ∧ s'.pc w = .gone))
    (hwho : ∀ e ∈ s'.log, e.1 < P.nw) : BInv first last P s' := by
  have hot : ∀ v, s'.outst v = s.outst v := by
    intro v
    by_cases hv : v = w
    · rw [hv]; exact hsame.outst
    · simp only [B.outst, hsame.q v hv, hsame.pc v hv, hsame.back v hv]
  constructor
  · intro x
    have hc := h.cover x
    have h1 := sumN_change (f := fun v => s'.on P x v) (g := fun v => s.on P x v) hw
      (fun j _ hj => by simp only [B.on, hsame.q j hj, hsame.pc j hj])
    have := hon x
    rw [hsame.d]
    omega
  · rw [hsame.d]; exact h.cap
  · rw [hsame.d]; exact h.nonneg
  · rw [hsame.d]; exact h.rest
  · rw [hsame.d, hsame.tt, h.tot]; congr 1; exact (Farm.sumN_congr fun i _ => hot i).symm
  · intro v hv; rw [hsame.eos, hot, hsame.e, hsame.d]; exact h.e1 v hv
  · rw [hsame.d, hsame.eos]; exact h.e2
  · rw [hsame.e, hsame.eos]; exact h.e3
  · intro v hv; rw [hsame.eos]
    by_cases hvw : v = w
    · rw [hvw]; exact hno
    · rw [hsame.q v hvw, hsame.pc v hvw]; exact h.noout v hv
  · intro v hv; rw [hsame.eos]
    by_cases hvw : v = w
    · rw [hvw]; exact hout
    · rw [hsame.q v hvw, hsame.pc v hvw]; exact h.out v hv
  · rw [hsame.e, hsame.tt, hsame.eos]; exact h.over
  · rw [hsame.e, hsame.tt]; exact h.alive
  · exact hwho

theorem BInv.get {s s' : B} {w : Nat} (h : BInv first last P s)
    (hst : bstep P s (.get w) = some s') : BInv first last P s' := by
  simp only [bstep] at hst
  split at hst
  swap
  · simp at hst
  rename_i hc
  obtain ⟨hw, hp⟩ := hc
  split at hst
  · simp at hst
  · rename_i a b r hq
    simp only [Option.some.injEq] at hst; subst hst
    apply h.worker hw
    · constructor <;> try rfl
      · intro v hv; simp only [upd, if_neg hv]
      · intro v hv; simp only [upd, if_neg hv]
      · intro v _; rfl
      · simp only [B.outst, upd, if_true, hq, hp, List.countP_cons, Msg.isTask, WPC.isRun]
    · intro x
      simp only [B.on, B.calls, upd, if_true, hq, hp, List.map_cons, List.sum_cons, Msg.on, WPC.on]
      omega
    · intro he
      have := (h.noout w hw he).1
      rw [hq] at this
      simp only [upd, if_true]
      exact ⟨fun hm => this (List.mem_cons_of_mem _ hm), by simp⟩
    · intro he
      rcases h.out w hw he with ⟨ts, h1, h2, h3⟩ | ⟨h1, h2⟩
      · left
        simp only [upd, if_true]
        rw [hq] at h1
        cases ts with
        | nil => simp at h1
        | cons t ts =>
          simp only [List.cons_append, List.cons.injEq] at h1
          exact ⟨ts, h1.2, fun hm => h2 (List.mem_cons_of_mem _ hm), by simp⟩
      · rw [hp] at h2; simp at h2
    · exact h.who
  · rename_i r hq
    simp only [Option.some.injEq] at hst; subst hst
    apply h.worker hw
    · constructor <;> try rfl
      · intro v hv; simp only [upd, if_neg hv]
      · intro v hv; simp only [upd, if_neg hv]
      · intro v _; rfl
      · simp only [B.outst, upd, if_true, hq, hp, List.countP_cons, Msg.isTask, WPC.isRun]
        simp
    · intro x
      simp only [B.on, B.calls, upd, if_true, hq, hp, List.map_cons, List.sum_cons, Msg.on, WPC.on]
      omega
    · intro he
      have := (h.noout w hw he).1
      rw [hq] at this
      simp at this
    · intro he
      rcases h.out w hw he with ⟨ts, h1, h2, h3⟩ | ⟨h1, h2⟩
      · right
        simp only [upd, if_true]
        rw [hq] at h1
        cases ts with
        | nil => simp at h1; exact ⟨h1, trivial⟩
        | cons t ts =>
          simp only [List.cons_append, List.cons.injEq] at h1
          exact absurd (by rw [← h1.1]; simp) h2
      · rw [hp] at h2; simp at h2
    · exact h.who

theorem BInv.go {s s' : B} {w : Nat} (hs : 1 ≤ P.step) (h : BInv first last P s)
    (hst : bstep P s (.go w) = some s') : BInv first last P s' := by
  simp only [bstep] at hst
  split at hst
  swap
  · simp at hst
  rename_i hw
  split at hst
  swap
  · simp at hst
  rename_i cur stop hp
  split at hst
  · rename_i hlt
    simp only [Option.some.injEq] at hst; subst hst
    apply h.worker hw
    · constructor <;> try rfl
      · intro v hv; simp only
      · intro v hv; simp only [upd, if_neg hv]
      · intro v hv; simp only
      · simp only [B.outst, upd, if_true, hp, WPC.isRun]
    · intro x
      have hn := on_next (x := x) hs hlt
      have hcnt : List.count x (s.log.map Prod.snd ++ [cur]) =
          List.count x (s.log.map Prod.snd) + if x = cur then 1 else 0 := by
        rw [List.count_append, List.count_singleton]
        congr 1
        by_cases hx : x = cur
        · subst hx; simp
        · simp [hx, Ne.symm hx]
      simp only [B.on, B.calls, upd, if_true, hp, WPC.on, List.map_append, List.map_cons, List.map_nil, hcnt]
      omega
    · intro he
      refine ⟨(h.noout w hw he).1, ?_⟩
      simp only [upd, if_true]; simp
    · intro he
      rcases h.out w hw he with ⟨ts, h1, h2, h3⟩ | ⟨h1, h2⟩
      · left; exact ⟨ts, h1, h2, by simp only [upd, if_true]; simp⟩
      · rw [hp] at h2; simp at h2
    · intro e he
      simp only [List.mem_append, List.mem_singleton] at he
      rcases he with he | he
      · exact h.who e he
      · subst he; exact hw
  · rename_i hge
    simp only [Option.some.injEq] at hst; subst hst
    apply h.worker hw
    · constructor <;> try rfl
      · intro v hv; simp only
      · intro v hv; simp only [upd, if_neg hv]
      · intro v hv; simp only [upd, if_neg hv]
      · simp only [B.outst, upd, if_true, hp, WPC.isRun]; omega
    · intro x
      simp only [B.on, B.calls, upd, if_true, hp, WPC.on]
      rw [on_empty (by omega)]
    · intro he
      refine ⟨(h.noout w hw he).1, ?_⟩
      simp only [upd, if_true]; simp
    · intro he
      rcases h.out w hw he with ⟨ts, h1, h2, h3⟩ | ⟨h1, h2⟩
      · left; exact ⟨ts, h1, h2, by simp only [upd, if_true]; simp⟩
      · rw [hp] at h2; simp at h2
    · exact h.who

theorem BInv.send {s s' : B} (hs : 1 ≤ P.step) (hk : 1 ≤ P.chunk) (hn1 : 1 ≤ P.nw) (h : BInv first last P s)
    (hst : bstep P s .send = some s') : BInv first last P s' := by
  simp only [bstep] at hst
  split at hst
  swap
  · simp at hst
  rename_i k w he
  have hf : ∀ v, v < P.nw → s.eos v = false := by
    intro v hv
    by_contra hc
    exact h.e3 v hv (by simpa using hc) k w he
  split at hst
  · rename_i hw
    simp only [Option.some.injEq] at hst
    by_cases hn : 0 < (s.d w).ntask
    · rw [if_pos hn] at hst
      subst hst
      constructor
      · intro x
        have := h.cover x
        have hc := send_cover (s := s) hs hk hw hw x
        show List.count x s.calls + sumN (fun v => (s.send P w w).on P x v) P.nw +
          sumN (fun i => on ((s.send P w w).d i).start ((s.send P w w).d i).stop P.step x) P.nw = _
        omega
      · exact send_cap (w := w) hs hk h.cap
      · intro i hi
        show 0 ≤ ((s.send P w w).d i).ntask
        rw [send_ntask]
        have := h.nonneg i hi
        split
        · rename_i e; subst e; omega
        · omega
      · intro i hi
        show ((s.send P w w).d i).ntask ≤ 0
        rw [send_ntask, if_neg (by omega)]
        have := h.rest i hi; omega
      · show s.tt = sumN (s.send P w w).outst P.nw + sumN (fun i => ((s.send P w w).d i).ntask.toNat) P.nw
        have h1 := send_sum (P := P) (w := w) hw hn
        have h2 := sumN_change (f := (s.send P w w).outst) (g := s.outst) hw
          (fun j _ hj => by rw [send_outst, if_neg hj]; rfl)
        rw [send_outst, if_pos rfl] at h2
        have := h.tot
        omega
      · intro v hv _
        show 1 ≤ (s.send P w w).outst v ∨ _
        rw [send_outst]
        by_cases hvw : v = w
        · subst hvw; left; simp
        · rw [if_neg hvw]
          rcases h.e1 v hv (hf v hv) with h1 | ⟨k', v', e1, e2, e3⟩
          · left; omega
          · right
            rw [he] at e1
            simp only [EPC.send.injEq] at e1
            refine ⟨k, w + 1, rfl, by omega, ?_⟩
            show 0 < ((s.send P w w).d v).ntask
            rw [send_ntask, if_neg hvw]; omega
      · intro v hv he'
        have := hf v hv
        simp only [B.send] at he'
        rw [this] at he'; simp at he'
      · intro v hv he'
        have := hf v hv
        simp only [B.send] at he'
        rw [this] at he'; simp at he'
      · intro v hv _
        have := h.noout v hv (hf v hv)
        refine ⟨?_, this.2⟩
        by_cases hvw : v = w
        · subst hvw; simp only [B.send, upd, if_true, List.mem_append]; simp; exact this.1
        · simp only [B.send, upd, if_neg hvw]; exact this.1
      · intro v hv he'
        have := hf v hv
        simp only [B.send] at he'
        rw [this] at he'; simp at he'
      · intro he'; simp at he'
      · intro he'; simp at he'
      · exact h.who
    · rw [if_neg hn] at hst
      subst hst
      constructor
      · exact h.cover
      · exact h.cap
      · exact h.nonneg
      · exact h.rest
      · exact h.tot
      · intro v hv hv0
        rcases h.e1 v hv hv0 with h1 | ⟨k', v', e1, e2, e3⟩
        · left; exact h1
        · right
          rw [he] at e1
          simp only [EPC.send.injEq] at e1
          refine ⟨k, w + 1, rfl, ?_, e3⟩
          by_contra hc
          have : v = w := by omega
          subst this; exact hn e3
      · exact h.e2
      · intro v hv he'
        have := hf v hv
        simp only at he'
        rw [this] at he'; simp at he'
      · exact h.noout
      · exact h.out
      · intro he'; simp at he'
      · intro he'; simp at he'
      · exact h.who
  · rename_i hw
    have key : ∀ e', (∀ v k', e' = .send k' v → v = 0) → e' ≠ .over → BInv first last P { s with e := e' } := by
      intro e' h0 h1
      constructor
      · exact h.cover
      · exact h.cap
      · exact h.nonneg
      · exact h.rest
      · exact h.tot
      · intro v hv hv0
        rcases h.e1 v hv hv0 with h1 | ⟨k', v', e1, e2, e3⟩
        · left; exact h1
        · rw [he] at e1
          simp only [EPC.send.injEq] at e1
          omega
      · exact h.e2
      · intro v hv he'
        have := hf v hv
        simp only at he'
        rw [this] at he'; simp at he'
      · exact h.noout
      · exact h.out
      · intro he'; exact absurd he' h1
      · intro _
        show 1 ≤ s.tt
        have h2 := h.tot
        have h3 := sumN_ge (f := s.outst) (n := P.nw) (i := 0) (by omega)
        rcases h.e1 0 (by omega) (hf 0 (by omega)) with h4 | ⟨k', v', e1, e2, _⟩
        · omega
        · rw [he] at e1
          simp only [EPC.send.injEq] at e1
          omega
      · exact h.who
    split at hst
    · simp only [Option.some.injEq] at hst; subst hst
      exact key _ (by simp) (by simp)
    · simp only [Option.some.injEq] at hst; subst hst
      exact key _ (by intro v k' e; simp only [EPC.send.injEq] at e; omega) (by simp)

theorem BInv.recv {s s' : B} {w : Nat} (hs : 1 ≤ P.step) (hk : 1 ≤ P.chunk) (hD : P.nw ≤ P.D)
    (h : BInv first last P s) (hst : bstep P s (.recv w) = some s') : BInv first last P s' := by
  simp only [bstep] at hst
  split at hst
  swap
  · simp at hst
  rename_i hc
  obtain ⟨he, hw, hb⟩ := hc
  -- the task has been taken from the channel
  have hout1 : ∀ m v, (B.mk s.d m (s.tt - 1) s.eos s.e s.q s.pc (upd s.back w (s.back w - 1)) s.log).outst v +
      (if v = w then 1 else 0) = s.outst v := by
    intro m v
    by_cases hv : v = w
    · subst hv; simp only [B.outst, upd, if_true]; omega
    · simp only [B.outst, upd, if_neg hv]; omega
  have hsum1 : ∀ m, sumN (B.mk s.d m (s.tt - 1) s.eos s.e s.q s.pc (upd s.back w (s.back w - 1)) s.log).outst P.nw + 1 =
      sumN s.outst P.nw := by
    intro m
    have := sumN_change (f := (B.mk s.d m (s.tt - 1) s.eos s.e s.q s.pc (upd s.back w (s.back w - 1)) s.log).outst)
      (g := s.outst) hw (fun j _ hj => by have := hout1 m j; rw [if_neg hj] at this; exact this)
    have h1 := hout1 m w
    rw [if_pos rfl] at h1
    omega
  have htot := h.tot
  have htt : 1 ≤ s.tt := by have := hsum1 none; omega
  -- the end mark
  have hend : ∀ m e', (e' = .loop ∨ e' = .over) → (∀ i, i < P.nw → (s.d i).ntask = 0) →
      (e' = .over → s.tt = 1) → (e' = .loop → 2 ≤ s.tt) →
      BInv first last P { (B.end1 (B.mk s.d m (s.tt - 1) s.eos s.e s.q s.pc (upd s.back w (s.back w - 1)) s.log) w) with e := e' } := by
    intro m e' hee h0 hov hal
    obtain ⟨s1, hs1⟩ : ∃ s1, s1 = B.mk s.d m (s.tt - 1) s.eos s.e s.q s.pc (upd s.back w (s.back w - 1)) s.log := ⟨_, rfl⟩
    have hsum1 := hsum1 m
    have hout1 := hout1 m
    rw [← hs1] at hsum1 hout1 ⊢
    have f1 : s1.d = s.d := by rw [hs1]
    have f2 : s1.tt = s.tt - 1 := by rw [hs1]
    have f3 : s1.eos = s.eos := by rw [hs1]
    have f4 : s1.q = s.q := by rw [hs1]
    have f5 : s1.pc = s.pc := by rw [hs1]
    have f6 : s1.log = s.log := by rw [hs1]
    obtain ⟨s2, hs2⟩ : ∃ s2, s2 = B.end1 s1 w := ⟨_, rfl⟩
    rw [← hs2]
    have g1 : s2.d = s.d := by rw [hs2, B.end1]; split <;> exact f1
    have g2 : s2.tt = s.tt - 1 := by rw [hs2, B.end1]; split <;> exact f2
    have g5 : s2.pc = s.pc := by rw [hs2, B.end1]; split <;> exact f5
    have g6 : s2.log = s.log := by rw [hs2, B.end1]; split <;> exact f6
    have gw : s2.eos w = true := by
      rw [hs2, B.end1]; split
      · assumption
      · simp only [upd, if_true]
    have gv : ∀ v, v ≠ w → s2.eos v = s.eos v := by
      intro v hv; rw [hs2, B.end1, ← f3]; split
      · rfl
      · simp only [upd, if_neg hv]
    have qv : ∀ v, v ≠ w → s2.q v = s.q v := by
      intro v hv; rw [hs2, B.end1, ← f4]; split
      · rfl
      · simp only [upd, if_neg hv]
    have qw : (s.eos w = true ∧ s2.q w = s.q w) ∨ (s.eos w = false ∧ s2.q w = s.q w ++ [.out]) := by
      rw [hs2, B.end1, ← f3, ← f4]
      cases s1.eos w <;> simp [upd]
    have ho : ∀ v, s2.outst v = s1.outst v := by
      intro v
      have hbk : s2.back = s1.back := by rw [hs2, B.end1]; split <;> rfl
      simp only [B.outst, hbk, g5, f5]
      by_cases hv : v = w
      · subst hv
        rw [f4]
        rcases qw with ⟨_, e⟩ | ⟨_, e⟩ <;> rw [e]
        simp [Msg.isTask]
      · rw [qv v hv, f4]
    have hon : ∀ x v, s2.on P x v = s.on P x v := by
      intro x v
      simp only [B.on, g5]
      by_cases hv : v = w
      · subst hv
        rcases qw with ⟨_, e⟩ | ⟨_, e⟩ <;> rw [e]
        simp [Msg.on]
      · rw [qv v hv]
    have hsum2 : sumN s2.outst P.nw = sumN s1.outst P.nw := Farm.sumN_congr fun v _ => ho v
    constructor
    · intro x
      show List.count x s2.calls + sumN (fun v => s2.on P x v) P.nw +
        sumN (fun i => on (s2.d i).start (s2.d i).stop P.step x) P.nw = _
      rw [g1, B.calls, g6, Farm.sumN_congr (fun v _ => hon x v)]
      exact h.cover x
    · show ∀ i, i < P.nw → (s2.d i).stop ≤ _ ∨ _
      simp only [g1]; exact h.cap
    · show ∀ i, i < P.nw → 0 ≤ (s2.d i).ntask
      simp only [g1]; exact h.nonneg
    · show ∀ i, P.nw ≤ i → (s2.d i).ntask ≤ 0
      simp only [g1]; exact h.rest
    · show s2.tt = sumN s2.outst P.nw + sumN (fun i => (s2.d i).ntask.toNat) P.nw
      rw [g1, g2, hsum2]; omega
    · intro v hv hv0
      left
      show 1 ≤ s2.outst v
      have hvw : v ≠ w := by rintro rfl; simp only at hv0; rw [gw] at hv0; simp at hv0
      simp only at hv0
      rw [gv v hvw] at hv0
      have h1 := hout1 v
      rw [if_neg hvw] at h1
      rw [ho]
      rcases h.e1 v hv hv0 with h2 | ⟨k, v', e1, _⟩
      · omega
      · rw [he] at e1; simp at e1
    · intro v _ _
      show ∀ i, i < P.nw → (s2.d i).ntask = 0
      rw [g1]; exact h0
    · intro v _ _ k v'
      rcases hee with rfl | rfl <;> simp
    · intro v hv hv0
      have hvw : v ≠ w := by rintro rfl; simp only at hv0; rw [gw] at hv0; simp at hv0
      simp only at hv0
      rw [gv v hvw] at hv0
      show Msg.out ∉ s2.q v ∧ s2.pc v ≠ .gone
      rw [qv v hvw, g5]; exact h.noout v hv hv0
    · intro v hv hv0
      show (∃ ts : List Msg, s2.q v = ts ++ [.out] ∧ .out ∉ ts ∧ s2.pc v ≠ .gone) ∨ (s2.q v = [] ∧ s2.pc v = .gone)
      rw [g5]
      by_cases hvw : v = w
      · subst hvw
        rcases qw with ⟨e1, e2⟩ | ⟨e1, e2⟩
        · rw [e2]; exact h.out v hv e1
        · left; have := h.noout v hv e1
          exact ⟨s.q v, e2, this.1, this.2⟩
      · simp only at hv0
        rw [gv v hvw] at hv0
        rw [qv v hvw]; exact h.out v hv hv0
    · intro hov'
      have htt1 := hov hov'
      refine ⟨by show s2.tt = 0; omega, ?_⟩
      intro v hv
      show s2.eos v = true
      by_cases hvw : v = w
      · rw [hvw]; exact gw
      · rw [gv v hvw]
        by_contra hcon
        have h1 := hout1 v
        rw [if_neg hvw] at h1
        have h2 := sumN_ge (f := s1.outst) hv
        rcases h.e1 v hv (by simpa using hcon) with h3 | ⟨k, v', e1, _⟩
        · omega
        · rw [he] at e1; simp at e1
    · intro hl
      have := hal hl
      show 1 ≤ s2.tt
      omega
    · show ∀ e ∈ s2.log, e.1 < P.nw
      rw [g6]; exact h.who
  split at hst
  · rename_i h1
    simp only [Option.some.injEq] at hst; subst hst
    have hs1 := hsum1 s.maxid
    apply hend s.maxid .over (Or.inr rfl) _ (by omega) (by simp)
    intro i hi
    have h2 := sumN_ge (f := fun i => (s.d i).ntask.toNat) hi
    have h3 := h.nonneg i hi
    omega
  · rename_i h1
    split at hst
    · rename_i id m hnx
      simp only [Option.some.injEq] at hst; subst hst
      obtain ⟨hid, hpos⟩ := nextId_some hw h.nonneg h.rest hnx
      have hf : ∀ v, v < P.nw → s.eos v = false := by
        intro v hv
        by_contra hcon
        have := h.e2 v hv (by simpa using hcon) id hid
        omega
      obtain ⟨s1, hs1⟩ : ∃ s1, s1 = B.mk s.d m (s.tt - 1) s.eos s.e s.q s.pc (upd s.back w (s.back w - 1)) s.log := ⟨_, rfl⟩
      have hsum1 := hsum1 m
      have hout1 := hout1 m
      show BInv first last P (B.send P (B.mk s.d m (s.tt - 1) s.eos s.e s.q s.pc (upd s.back w (s.back w - 1)) s.log) id w)
      rw [← hs1] at hsum1 hout1 ⊢
      have f1 : s1.d = s.d := by rw [hs1]
      have f2 : s1.tt = s.tt - 1 := by rw [hs1]
      have f3 : s1.eos = s.eos := by rw [hs1]
      have f4 : s1.q = s.q := by rw [hs1]
      have f5 : s1.pc = s.pc := by rw [hs1]
      have f6 : s1.log = s.log := by rw [hs1]
      have f7 : s1.e = s.e := by rw [hs1]
      have ho : ∀ v, (s1.send P id w).outst v = s.outst v := by
        intro v; rw [send_outst]; exact hout1 v
      have hpos1 : 0 < (s1.d id).ntask := by rw [f1]; exact hpos
      constructor
      · intro x
        have h1 := h.cover x
        have hc := send_cover (s := s1) hs hk hid hw x
        have e1 : sumN (fun v => s1.on P x v) P.nw = sumN (fun v => s.on P x v) P.nw :=
          Farm.sumN_congr fun v _ => by simp only [B.on, f4, f5]
        have e2 : (s1.send P id w).calls = s.calls := by simp only [B.calls, B.send, f6]
        rw [f1] at hc
        rw [e2]
        omega
      · exact send_cap hs hk (by rw [f1]; exact h.cap)
      · intro i hi
        rw [send_ntask, f1]
        have := h.nonneg i hi
        split
        · rename_i e; subst e; omega
        · omega
      · intro i hi
        rw [send_ntask, if_neg (by omega), f1]
        have := h.rest i hi; omega
      · have e1 := send_sum (s := s1) (P := P) (w := w) hid hpos1
        rw [f1] at e1
        have e2 : sumN (s1.send P id w).outst P.nw = sumN s.outst P.nw := Farm.sumN_congr fun v _ => ho v
        show s1.tt = _
        rw [e2, f2]; omega
      · intro v hv hv0
        left
        rw [ho]
        rcases h.e1 v hv (hf v hv) with h2 | ⟨k, v', e1, _⟩
        · exact h2
        · rw [he] at e1; simp at e1
      · intro v hv he'
        have := hf v hv
        simp only [B.send, f3] at he'
        rw [this] at he'; simp at he'
      · intro v hv he'
        have := hf v hv
        simp only [B.send, f3] at he'
        rw [this] at he'; simp at he'
      · intro v hv _
        have := h.noout v hv (hf v hv)
        refine ⟨?_, by simp only [B.send, f5]; exact this.2⟩
        by_cases hvw : v = w
        · subst hvw; simp only [B.send, f4, upd, if_true, List.mem_append]; simp; exact this.1
        · simp only [B.send, f4, upd, if_neg hvw]; exact this.1
      · intro v hv he'
        have := hf v hv
        simp only [B.send, f3] at he'
        rw [this] at he'; simp at he'
      · intro he'
        simp only [B.send, f7, he] at he'; simp at he'
      · intro _
        show 1 ≤ s1.tt
        omega
      · simp only [B.send, f6]; exact h.who
    · rename_i m hnx
      simp only [Option.some.injEq] at hst; subst hst
      have h0 := nextId_none hD (by omega) h.nonneg hnx
      have := hend m .loop (Or.inl rfl) h0 (by simp) (by omega)
      have e : ∀ t : B, t.e = .loop → ({ t with e := .loop } : B) = t := by
        intro t ht; cases t; simp only at ht; rw [ht]
      rw [e] at this
      · exact this
      · rw [B.end1]; split <;> exact he

theorem BInv.step {s s' : B} {a : BAct} (hs : 1 ≤ P.step) (hk : 1 ≤ P.chunk) (hn1 : 1 ≤ P.nw) (hD : P.nw ≤ P.D)
    (h : BInv first last P s) (hst : bstep P s a = some s') : BInv first last P s' := by
  cases a with
  | send => exact h.send hs hk hn1 hst
  | recv w => exact h.recv hs hk hD hst
  | get w => exact h.get hst
  | go w => exact h.go hs hst

theorem BInv.start {L : Loop} {st : Int} {D : Nat} (hg : Good first last st D L) (k : Nat) :
    BInv first last (L.par st D) (B.start L k) := by
  have hpos := hg.pos
  constructor <;> simp only [B.start, Loop.par]
  · intro x
    rw [sumN_zero (f := fun w => B.on _ _ _ _) (fun i _ => rfl)]
    have := hg.cover x
    simpa [B.calls] using this
  · exact hg.cap
  · intro i hi; have := hpos i hi; omega
  · exact hg.rest
  · rw [sumN_zero (f := B.outst _) (fun i _ => rfl)]
    have := hg.tot
    omega
  · intro w hw _
    right
    exact ⟨k, 0, rfl, by omega, by have := hpos w hw; omega⟩
  · intro w _ h; simp at h
  · intro w _ h; simp at h
  · intro w _ _; simp
  · intro w _ h; simp at h
  · intro h; simp at h
  · intro h; simp at h
  · intro e he; simp at he

end FF.Parfor
