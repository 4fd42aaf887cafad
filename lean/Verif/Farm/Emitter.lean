import Verif.Node.Comb
/-!
# The load balancer: distribution of messages to workers

Source: `/repo/ff/lb.hpp` 161 (`selectworker`), 240-293 (`schedule_task`), 736-771
(`ff_send_out_to`), 778-817 (`broadcast_task`), 135-145 (`push_eos`), 899-980 (`svc` without
feedback).  Non-blocking mode, unlimited retries (the default `retry = -1`).

The user's emitter (or the default one, or a multi-output node) decides which messages to schedule,
to send to a given worker, or to broadcast; this is an arbitrary list of commands.  Every attempt to
put a message in a worker's queue is one action, whose answer depends on the state of that queue.
-/
namespace FF.Farm
open FF.Node
variable {D : Type}

/-- What an emitter asks for. -/
inductive Cmd (D : Type) where
  /-- `ff_send_out` or a value returned by `svc`: `schedule_task` -/
  | sched (m : Msg D)
  /-- `ff_send_out_to(m, i)` -/
  | sendTo (i : Nat) (m : Msg D)
  /-- `broadcast_task(m)`; `push_eos` is `broadcast_task(EOS)` -/
  | bcast (m : Msg D)

/-- Where the emitter thread is. -/
inductive EPc (D : Type) where
  | idle
  /-- in the loop of `schedule_task` (lb.hpp 272-289) -/
  | sched (m : Msg D)
  /-- in the loop of `ff_send_out_to` (lb.hpp 759-768) -/
  | to (i : Nat) (m : Msg D)
  /-- first loop of `broadcast_task` (lb.hpp 805-808); `retry` has its back at the head -/
  | bc1 (m : Msg D) (i : Nat) (retry : List Nat)
  /-- second loop of `broadcast_task` (lb.hpp 809-813) -/
  | bc2 (m : Msg D) (retry : List Nat)

/-- State of the load balancer. -/
structure E (D : Type) where
  cmds : List (Cmd D)
  pc : EPc D
  /-- `nextw + 1` (`nextw` starts at -1, lb.hpp 486) -/
  nextw1 : Nat
  /-- ghost: what has been put so far, with the receiver -/
  log : List (Nat × Msg D)
  /-- ghost: commands completed -/
  dn : List (Cmd D)
  /-- ghost: number of refused attempts of `schedule_task` -/
  fails : Nat

def E.start (cmds : List (Cmd D)) : E D :=
  { cmds, pc := .idle, nextw1 := 0, log := [], dn := [], fails := 0 }

/-- a successful `workers[i]->put(m)`; the second component tells the system what was put where -/
def E.put (e : E D) (i : Nat) (m : Msg D) (pc : EPc D) (dn : List (Cmd D)) :
    E D × Option (Nat × Msg D) :=
  ({ e with pc, dn, log := e.log ++ [(i, m)] }, some (i, m))

/-- One attempt of the emitter with `n` running workers; `full i` is the answer of worker `i`'s
queue. `none`: the emitter has finished (or, for `sendTo`, the index is out of range). -/
def E.attempt (n : Nat) (full : Nat → Bool) (e : E D) : Option (E D × Option (Nat × Msg D)) :=
  match e.pc with
  | .idle =>
    match e.cmds with
    | [] => none
    | .sched m :: cs => some ({ e with cmds := cs, pc := .sched m }, none)
    | .sendTo i m :: cs => some ({ e with cmds := cs, pc := .to i m }, none)
    | .bcast m :: cs => some ({ e with cmds := cs, pc := .bc1 m 0 [] }, none)
  | .sched m =>
    -- nextw = ++nextw % running; if (workers[nextw]->put(task)) return true;
    if full (e.nextw1 % n) then
      some ({ e with nextw1 := e.nextw1 % n + 1, fails := e.fails + 1 }, none)
    else
      some (E.put { e with nextw1 := e.nextw1 % n + 1 } (e.nextw1 % n) m .idle (e.dn ++ [Cmd.sched m]))
  | .to i m =>
    if i < n then
      if full i then some (e, none) else some (e.put i m .idle (e.dn ++ [.sendTo i m]))
    else none
  | .bc1 m i retry =>
    if i < n then
      if full i then some ({ e with pc := .bc1 m (i + 1) (i :: retry) }, none)
      else some (e.put i m (.bc1 m (i + 1) retry) e.dn)
    else some ({ e with pc := .bc2 m retry }, none)
  | .bc2 m retry =>
    match retry with
    | [] => some ({ e with pc := .idle, dn := e.dn ++ [.bcast m] }, none)
    | r :: rs => if full r then some (e, none) else some (e.put r m (.bc2 m rs) e.dn)

/-! ## Specification: what a sequence of commands may put in the queues -/

/-- what one command puts: one copy in some worker's queue, one in the given worker's queue, or
exactly one copy in every queue, in any order -/
def Group (n : Nat) : Cmd D → List (Nat × Msg D) → Prop
  | .sched m, g => ∃ w, w < n ∧ g = [(w, m)]
  | .sendTo i m, g => g = [(i, m)]
  | .bcast m, g => g.Perm ((List.range n).map fun i => (i, m))

/-- what a sequence of commands puts: one group after the other -/
def Explains (n : Nat) : List (Cmd D) → List (Nat × Msg D) → Prop
  | [], l => l = []
  | c :: cs, l => ∃ g l', l = g ++ l' ∧ Group n c g ∧ Explains n cs l'

theorem Explains.snoc {n : Nat} {cs : List (Cmd D)} {l g : List (Nat × Msg D)} {c : Cmd D}
    (h : Explains n cs l) (hg : Group n c g) : Explains n (cs ++ [c]) (l ++ g) := by
  induction cs generalizing l with
  | nil =>
    simp only [Explains] at h
    subst h
    exact ⟨g, [], by simp, hg, rfl⟩
  | cons x xs ih =>
    obtain ⟨g', l', rfl, h1, h2⟩ := h
    exact ⟨g', l' ++ g, by simp, h1, ih h2⟩

/-- commands that name existing workers only -/
def Valid (n : Nat) (cs : List (Cmd D)) : Prop := ∀ i m, Cmd.sendTo i m ∈ cs → i < n

/-! ## Invariant -/

/-- the command being executed -/
def EPc.cur : EPc D → List (Cmd D)
  | .idle => []
  | .sched m => [.sched m]
  | .to i m => [.sendTo i m]
  | .bc1 m _ _ => [.bcast m]
  | .bc2 m _ => [.bcast m]

/-- what the current command has put so far, and what it still has to put -/
def PartOk (n : Nat) : EPc D → List (Nat × Msg D) → Prop
  | .bc1 m i retry, g => i ≤ n ∧
      (g ++ retry.map fun j => (j, m)).Perm ((List.range i).map fun j => (j, m))
  | .bc2 m retry, g => (g ++ retry.map fun j => (j, m)).Perm ((List.range n).map fun j => (j, m))
  | _, g => g = []

structure EInv (n : Nat) (cmds0 : List (Cmd D)) (e : E D) : Prop where
  cmds : e.dn ++ e.pc.cur ++ e.cmds = cmds0
  log : ∃ l g, e.log = l ++ g ∧ Explains n e.dn l ∧ PartOk n e.pc g

theorem EInv.start (n : Nat) (cmds : List (Cmd D)) : EInv n cmds (E.start cmds) where
  cmds := by simp [E.start, EPc.cur]
  log := ⟨[], [], rfl, rfl, rfl⟩

theorem EInv.attempt {n : Nat} (hn : 0 < n) {cmds0 : List (Cmd D)} {full : Nat → Bool} {e e' : E D}
    {o : Option (Nat × Msg D)} (h : EInv n cmds0 e) (hs : e.attempt n full = some (e', o)) :
    EInv n cmds0 e' := by
  obtain ⟨l, g, h1, h2, h3⟩ := h.log
  have hc := h.cmds
  unfold E.attempt at hs
  split at hs
  · rename_i hpc
    rw [hpc] at hc h3
    simp only [PartOk] at h3
    subst h3
    split at hs
    · simp at hs
    all_goals
      rename_i hcm
      simp only [Option.some.injEq, Prod.mk.injEq] at hs
      obtain ⟨rfl, rfl⟩ := hs
      rw [hcm] at hc
      refine ⟨by simpa [EPc.cur] using hc, l, [], h1, h2, ?_⟩
      simp [PartOk]
  · rename_i m hpc
    rw [hpc] at hc h3
    simp only [PartOk] at h3
    subst h3
    split at hs <;> simp only [E.put, Option.some.injEq, Prod.mk.injEq] at hs <;>
      obtain ⟨rfl, rfl⟩ := hs
    · exact ⟨by simpa [hpc] using hc, l, [], h1, h2, by simp [hpc, PartOk]⟩
    · refine ⟨by simpa [EPc.cur] using hc, l ++ [(e.nextw1 % n, m)], [], by simp [h1], ?_,
        by simp [PartOk]⟩
      exact h2.snoc ⟨_, Nat.mod_lt _ hn, rfl⟩
  · rename_i i m hpc
    rw [hpc] at hc h3
    simp only [PartOk] at h3
    subst h3
    split at hs
    · split at hs <;> simp only [E.put, Option.some.injEq, Prod.mk.injEq] at hs <;>
        obtain ⟨rfl, rfl⟩ := hs
      · exact h
      · refine ⟨by simpa [EPc.cur] using hc, l ++ [(i, m)], [], by simp [h1], ?_,
          by simp [PartOk]⟩
        exact h2.snoc (c := .sendTo i m) rfl
    · simp at hs
  · rename_i m i retry hpc
    rw [hpc] at hc h3
    obtain ⟨h3, h4⟩ := h3
    have hr : (List.range (i + 1)).map (fun j => (j, m)) =
        (List.range i).map (fun j => (j, m)) ++ [(i, m)] := by
      rw [List.range_succ, List.map_append]; rfl
    split at hs
    · rename_i hi
      split at hs <;> simp only [E.put, Option.some.injEq, Prod.mk.injEq] at hs <;>
        obtain ⟨rfl, rfl⟩ := hs
      · refine ⟨by simpa [EPc.cur] using hc, l, g, h1, h2, hi, ?_⟩
        rw [hr, List.map_cons]
        exact (List.perm_middle.trans (List.perm_append_singleton _ _).symm).trans
          (h4.append_right [(i, m)])
      · refine ⟨by simpa [EPc.cur] using hc, l, g ++ [(i, m)], by simp [h1], h2, hi, ?_⟩
        rw [hr, List.append_assoc]
        exact (List.perm_middle.trans (List.perm_append_singleton _ _).symm).trans
          (h4.append_right [(i, m)])
    · rename_i hi
      simp only [Option.some.injEq, Prod.mk.injEq] at hs
      obtain ⟨rfl, rfl⟩ := hs
      have : i = n := by omega
      subst this
      exact ⟨by simpa [EPc.cur] using hc, l, g, h1, h2, h4⟩
  · rename_i m retry hpc
    rw [hpc] at hc h3
    simp only [PartOk] at h3
    split at hs
    · simp only [Option.some.injEq, Prod.mk.injEq] at hs
      obtain ⟨rfl, rfl⟩ := hs
      refine ⟨by simpa [EPc.cur] using hc, e.log, [], by simp, ?_, by simp [PartOk]⟩
      rw [h1]
      exact h2.snoc (c := .bcast m) (by simpa [Group] using h3)
    · rename_i r rs
      split at hs <;> simp only [E.put, Option.some.injEq, Prod.mk.injEq] at hs <;>
        obtain ⟨rfl, rfl⟩ := hs
      · exact h
      · refine ⟨by simpa [EPc.cur] using hc, l, g ++ [(r, m)], by simp [h1], h2, ?_⟩
        simp only [PartOk]
        simpa using h3

/-! ## C25 and the emitter's part of C21 -/

/-- any number of attempts, each with arbitrary answers of the queues -/
def attempts (n : Nat) (e : E D) : List (Nat → Bool) → Option (E D)
  | [] => some e
  | full :: fs =>
    match e.attempt n full with
    | none => none
    | some (e', _) => attempts n e' fs

theorem EInv.attempts {n : Nat} (hn : 0 < n) {cmds0 : List (Cmd D)} {e e' : E D}
    {fs : List (Nat → Bool)} (h : EInv n cmds0 e) (hs : attempts n e fs = some e') :
    EInv n cmds0 e' := by
  induction fs generalizing e with
  | nil => simp only [FF.Farm.attempts, Option.some.injEq] at hs; exact hs ▸ h
  | cons f fs ih =>
    simp only [FF.Farm.attempts] at hs
    split at hs
    · simp at hs
    · rename_i hx
      exact ih (h.attempt hn hx) hs

/-- **C25 / C21, distribution**: for every list of commands, every number of workers and every
pattern of queue-full answers, whenever the emitter is between two commands, what it has put so far is
one group per completed command, in order: exactly one copy in one worker's queue for a scheduled
message, exactly one copy in the named worker's queue, exactly one copy in *every* worker's queue for
a broadcast. -/
theorem C25_groups (n : Nat) (hn : 0 < n) (cmds : List (Cmd D)) (fs : List (Nat → Bool)) (e : E D)
    (hs : attempts n (E.start cmds) fs = some e) (hidle : e.pc = .idle) :
    e.dn ++ e.cmds = cmds ∧ Explains n e.dn e.log := by
  have h := (EInv.start n cmds).attempts hn hs
  obtain ⟨l, g, h1, h2, h3⟩ := h.log
  have hc := h.cmds
  rw [hidle] at h3 hc
  simp only [PartOk] at h3
  subst h3
  refine ⟨by simpa [EPc.cur] using hc, ?_⟩
  rw [h1]; simpa using h2

/-- number of copies of a message put in the queue of worker `i` -/
def copies [DecidableEq D] (l : List (Nat × Msg D)) (i : Nat) (m : Msg D) : Nat :=
  l.countP fun x => decide (x = (i, m))

/-- **C25**: a broadcast alone leaves exactly one copy in the queue of every running worker and none
elsewhere. -/
theorem C25_broadcast [DecidableEq D] (n : Nat) (hn : 0 < n) (m : Msg D) (fs : List (Nat → Bool))
    (e : E D) (hs : attempts n (E.start [.bcast m]) fs = some e) (hidle : e.pc = .idle)
    (hdone : e.cmds = []) (i : Nat) (m' : Msg D) :
    copies e.log i m' = if i < n ∧ m' = m then 1 else 0 := by
  obtain ⟨h1, h2⟩ := C25_groups n hn _ fs e hs hidle
  rw [hdone, List.append_nil] at h1
  rw [h1] at h2
  obtain ⟨g, l', h3, h4, h5⟩ := h2
  simp only [Explains] at h5
  subst h5
  rw [List.append_nil] at h3
  rw [h3]
  simp only [copies]
  rw [h4.countP_eq, List.countP_map]
  have hk : ∀ k, List.countP ((fun x => decide (x = (i, m'))) ∘ fun j => (j, m)) (List.range k) =
      if i < k ∧ m' = m then 1 else 0 := by
    intro k
    induction k with
    | zero => simp
    | succ k ih =>
      rw [List.range_succ, List.countP_append, ih]
      simp only [List.countP_cons, List.countP_nil, Function.comp, Nat.zero_add]
      by_cases hm : m' = m
      · subst hm
        simp only [and_true, Prod.mk.injEq, decide_eq_true_eq]
        by_cases hik : i < k
        · have : ¬ k = i := by omega
          simp [hik, this]; omega
        · by_cases hik2 : k = i
          · simp [hik2]
          · simp [hik, hik2]; omega
      · have : ¬ (m = m') := fun h => hm h.symm
        simp [hm, this]
  exact hk n

/-- **C25**: the broadcast completes as soon as the queues stop refusing: with `n` workers and any
history of refusals, `2n + 2` accepting attempts end it. -/
theorem C25_completes (n : Nat) (e : E D) (m : Msg D) (i : Nat) (retry : List Nat)
    (hpc : e.pc = .bc1 m i retry ∨ (e.pc = .bc2 m retry ∧ i = n)) (hi : i ≤ n) :
    ∃ k e', k ≤ (n - i) + (n - i) + retry.length + 2 ∧
      attempts n e (List.replicate k fun _ => false) = some e' ∧ e'.pc = .idle := by
  have second : ∀ (retry : List Nat) (e : E D), e.pc = .bc2 m retry →
      ∃ e', attempts n e (List.replicate (retry.length + 1) fun _ => false) = some e' ∧
        e'.pc = .idle := by
    intro retry
    induction retry with
    | nil =>
      intro e hpc
      exact ⟨{ e with pc := .idle, dn := e.dn ++ [.bcast m] }, by
        simp [List.replicate, attempts, E.attempt, hpc], rfl⟩
    | cons r rs ih =>
      intro e hpc
      obtain ⟨e', h1, h2⟩ := ih (e.put r m (.bc2 m rs) e.dn).1 rfl
      refine ⟨e', ?_, h2⟩
      rw [List.length_cons, List.replicate_succ, attempts]
      simpa [E.attempt, hpc, E.put] using h1
  have first : ∀ (d : Nat) (i : Nat) (e : E D), n - i = d → i ≤ n → e.pc = .bc1 m i retry →
      ∃ e', attempts n e (List.replicate (d + 1) fun _ => false) = some e' ∧
        e'.pc = .bc2 m retry := by
    intro d
    induction d with
    | zero =>
      intro i e hd hi hpc
      have : ¬ i < n := by omega
      exact ⟨{ e with pc := .bc2 m retry }, by
        simp [List.replicate, attempts, E.attempt, hpc, this], rfl⟩
    | succ d ih =>
      intro i e hd hi hpc
      have hlt : i < n := by omega
      obtain ⟨e', h1, h2⟩ := ih (i + 1) (e.put i m (.bc1 m (i + 1) retry) e.dn).1 (by omega)
        (by omega) rfl
      refine ⟨e', ?_, h2⟩
      rw [List.replicate_succ, attempts]
      simpa [E.attempt, hpc, E.put, hlt] using h1
  have app : ∀ (xs ys : List (Nat → Bool)) (e : E D),
      attempts n e (xs ++ ys) = (attempts n e xs).bind fun e' => attempts n e' ys := by
    intro xs
    induction xs with
    | nil => intro ys e; rfl
    | cons x xs ih =>
      intro ys e
      simp only [List.cons_append, attempts]
      cases e.attempt n x with
      | none => rfl
      | some p => exact ih ys p.1
  rcases hpc with hpc | ⟨hpc, hin⟩
  · obtain ⟨e1, h1, h2⟩ := first (n - i) i e rfl hi hpc
    obtain ⟨e2, h3, h4⟩ := second retry e1 h2
    refine ⟨(n - i + 1) + (retry.length + 1), e2, by omega, ?_, h4⟩
    rw [← List.replicate_append_replicate, app, h1]
    exact h3
  · obtain ⟨e2, h3, h4⟩ := second retry e hpc
    exact ⟨_, e2, by omega, h3, h4⟩

-- a broadcast to 3 workers whose queue 1 is full twice
example : ∃ e, attempts 3 (E.start [.sched (.data 5), .bcast (.eos : Msg Nat)])
      [fun _ => false, fun i => i == 0, fun _ => false,
       fun _ => false, fun i => i == 1, fun i => i == 1, fun i => i == 1, fun _ => false,
       fun i => i == 1, fun _ => false, fun _ => false] = some e ∧
    e.pc = .idle ∧ e.cmds = [] ∧
    e.log = [(1, .data 5), (0, .eos), (2, .eos), (1, .eos)] := ⟨_, rfl, rfl, rfl, rfl⟩

/-! ## C22: round robin -/

/-- receivers of the scheduled messages, in order -/
def schedWorkers (n : Nat) : List (Cmd D) → List (Nat × Msg D) → List Nat
  | [], _ => []
  | .sched _ :: cs, l => (l.take 1).map Prod.fst ++ schedWorkers n cs (l.drop 1)
  | .sendTo _ _ :: cs, l => schedWorkers n cs (l.drop 1)
  | .bcast _ :: cs, l => schedWorkers n cs (l.drop n)

theorem Group.length {n : Nat} {c : Cmd D} {g : List (Nat × Msg D)} (h : Group n c g) :
    g.length = match c with | .bcast _ => n | _ => 1 := by
  cases c with
  | sched m => obtain ⟨w, _, rfl⟩ := h; rfl
  | sendTo i m => simp only [Group] at h; subst h; rfl
  | bcast m => simpa using h.length_eq

theorem schedWorkers_snoc {n : Nat} {cs : List (Cmd D)} {l g : List (Nat × Msg D)} {c : Cmd D}
    (h : Explains n cs l) (hg : Group n c g) :
    schedWorkers n (cs ++ [c]) (l ++ g) = schedWorkers n cs l ++ schedWorkers n [c] g := by
  induction cs generalizing l with
  | nil => simp only [Explains] at h; subst h; simp [schedWorkers]
  | cons x xs ih =>
    obtain ⟨g', l', rfl, h1, h2⟩ := h
    have hl := h1.length
    have hd : ∀ (k : Nat) (t : List (Nat × Msg D)), g'.length = k → (g' ++ t).drop k = t := by
      intro k t hk; rw [← hk]; simp
    cases x with
    | sched m =>
      simp only at hl
      have e1 := hd 1 (l' ++ g) hl
      have e2 := hd 1 l' hl
      simp only [List.cons_append, schedWorkers, List.append_assoc, e1, e2, ih h2]
      rw [List.take_append_of_le_length (by omega), List.take_append_of_le_length (by omega)]
    | sendTo i m =>
      simp only at hl
      have e1 := hd 1 (l' ++ g) hl
      have e2 := hd 1 l' hl
      simp only [List.cons_append, schedWorkers, List.append_assoc, e1, e2, ih h2]
    | bcast m =>
      simp only at hl
      have e1 := hd n (l' ++ g) hl
      have e2 := hd n l' hl
      simp only [List.cons_append, schedWorkers, List.append_assoc, e1, e2, ih h2]

/-- as long as no attempt of `schedule_task` was refused -/
structure RInv (n : Nat) (e : E D) : Prop where
  nextw1 : e.fails = 0 → ∃ l g, e.log = l ++ g ∧ Explains n e.dn l ∧ PartOk n e.pc g ∧
    schedWorkers n e.dn l = (List.range (schedWorkers n e.dn l).length).map (· % n) ∧
    e.nextw1 % n = (schedWorkers n e.dn l).length % n

theorem RInv.attempt {n : Nat} (hn : 0 < n) {full : Nat → Bool} {e e' : E D}
    {o : Option (Nat × Msg D)} (h : RInv n e) (hs : e.attempt n full = some (e', o)) : RInv n e' := by
  refine ⟨fun hf => ?_⟩
  unfold E.attempt at hs
  split at hs
  · rename_i hpc
    split at hs
    · simp at hs
    all_goals
      simp only [Option.some.injEq, Prod.mk.injEq] at hs
      obtain ⟨rfl, rfl⟩ := hs
      obtain ⟨l, g, h1, h2, h3, h4, h5⟩ := h.nextw1 hf
      rw [hpc] at h3
      simp only [PartOk] at h3
      subst h3
      exact ⟨l, [], h1, h2, by simp [PartOk], h4, h5⟩
  · rename_i m hpc
    split at hs <;> simp only [E.put, Option.some.injEq, Prod.mk.injEq] at hs <;>
      obtain ⟨rfl, rfl⟩ := hs
    · simp at hf
    · obtain ⟨l, g, h1, h2, h3, h4, h5⟩ := h.nextw1 hf
      rw [hpc] at h3
      simp only [PartOk] at h3
      subst h3
      have hg : Group n (.sched m) [(e.nextw1 % n, m)] := ⟨_, Nat.mod_lt _ hn, rfl⟩
      have hw : schedWorkers n (e.dn ++ [.sched m]) (l ++ [(e.nextw1 % n, m)]) =
          schedWorkers n e.dn l ++ [e.nextw1 % n] := by
        rw [schedWorkers_snoc h2 hg]; simp [schedWorkers]
      refine ⟨l ++ [(e.nextw1 % n, m)], [], by simp [h1], h2.snoc hg, by simp [PartOk], ?_, ?_⟩
      · simp only [hw, List.length_append, List.length_singleton]
        rw [List.range_succ, List.map_append, ← h4]
        simp [h5]
      · simp only [hw, List.length_append, List.length_singleton]
        rw [h5]
        rw [Nat.add_mod, Nat.mod_mod, ← Nat.add_mod]
  · rename_i i m hpc
    split at hs
    · split at hs <;> simp only [E.put, Option.some.injEq, Prod.mk.injEq] at hs <;>
        obtain ⟨rfl, rfl⟩ := hs
      · exact h.nextw1 hf
      · obtain ⟨l, g, h1, h2, h3, h4, h5⟩ := h.nextw1 hf
        rw [hpc] at h3
        simp only [PartOk] at h3
        subst h3
        have hg : Group n (.sendTo i m) [(i, m)] := rfl
        have hw : schedWorkers n (e.dn ++ [.sendTo i m]) (l ++ [(i, m)]) =
            schedWorkers n e.dn l := by
          rw [schedWorkers_snoc h2 hg]; simp [schedWorkers]
        refine ⟨l ++ [(i, m)], [], by simp [h1], h2.snoc hg, by simp [PartOk], ?_, ?_⟩
        · simp only [hw]; exact h4
        · simp only [hw]; exact h5
    · simp at hs
  · rename_i m i retry hpc
    have hr : (List.range (i + 1)).map (fun j => (j, m)) =
        (List.range i).map (fun j => (j, m)) ++ [(i, m)] := by
      rw [List.range_succ, List.map_append]; rfl
    split at hs
    · rename_i hi
      split at hs <;> simp only [E.put, Option.some.injEq, Prod.mk.injEq] at hs <;>
        obtain ⟨rfl, rfl⟩ := hs
      · obtain ⟨l, g, h1, h2, h3, h4, h5⟩ := h.nextw1 hf
        rw [hpc] at h3
        refine ⟨l, g, h1, h2, ⟨hi, ?_⟩, h4, h5⟩
        rw [hr, List.map_cons]
        exact (List.perm_middle.trans (List.perm_append_singleton _ _).symm).trans
          (h3.2.append_right [(i, m)])
      · obtain ⟨l, g, h1, h2, h3, h4, h5⟩ := h.nextw1 hf
        rw [hpc] at h3
        refine ⟨l, g ++ [(i, m)], by simp [h1], h2, ⟨hi, ?_⟩, h4, h5⟩
        rw [hr, List.append_assoc]
        exact (List.perm_middle.trans (List.perm_append_singleton _ _).symm).trans
          (h3.2.append_right [(i, m)])
    · rename_i hi
      simp only [Option.some.injEq, Prod.mk.injEq] at hs
      obtain ⟨rfl, rfl⟩ := hs
      obtain ⟨l, g, h1, h2, h3, h4, h5⟩ := h.nextw1 hf
      rw [hpc] at h3
      have : i = n := by have := h3.1; omega
      subst this
      exact ⟨l, g, h1, h2, h3.2, h4, h5⟩
  · rename_i m retry hpc
    split at hs
    · simp only [Option.some.injEq, Prod.mk.injEq] at hs
      obtain ⟨rfl, rfl⟩ := hs
      obtain ⟨l, g, h1, h2, h3, h4, h5⟩ := h.nextw1 hf
      rw [hpc] at h3
      have hg : Group n (.bcast m) g := by simpa [Group, PartOk] using h3
      have hw : schedWorkers n (e.dn ++ [.bcast m]) (l ++ g) = schedWorkers n e.dn l := by
        rw [schedWorkers_snoc h2 hg]; simp [schedWorkers]
      refine ⟨l ++ g, [], by simp [h1], h2.snoc hg, by simp [PartOk], ?_, ?_⟩
      · simp only [hw]; exact h4
      · simp only [hw]; exact h5
    · rename_i r rs
      split at hs <;> simp only [E.put, Option.some.injEq, Prod.mk.injEq] at hs <;>
        obtain ⟨rfl, rfl⟩ := hs
      · exact h.nextw1 hf
      · obtain ⟨l, g, h1, h2, h3, h4, h5⟩ := h.nextw1 hf
        rw [hpc] at h3
        refine ⟨l, g ++ [(r, m)], by simp [h1], h2, ?_, h4, h5⟩
        simp only [PartOk] at h3 ⊢
        simpa using h3

/-- **C22, round robin**: as long as no worker's queue refuses a scheduled task, the `k`-th scheduled
task goes to worker `k mod n` (whatever is broadcast or sent explicitly in between). -/
theorem C22_round_robin (n : Nat) (hn : 0 < n) (cmds : List (Cmd D)) (fs : List (Nat → Bool)) (e : E D)
    (hs : attempts n (E.start cmds) fs = some e) (hidle : e.pc = .idle) (hf : e.fails = 0) :
    schedWorkers n e.dn e.log = (List.range (schedWorkers n e.dn e.log).length).map (· % n) := by
  have key : ∀ (fs : List (Nat → Bool)) (e0 : E D), RInv n e0 → attempts n e0 fs = some e →
      RInv n e := by
    intro fs
    induction fs with
    | nil => intro e0 h hs; simp only [attempts, Option.some.injEq] at hs; exact hs ▸ h
    | cons f fs ih =>
      intro e0 h hs
      simp only [attempts] at hs
      split at hs
      · simp at hs
      · rename_i hx
        exact ih _ (h.attempt hn hx) hs
  have h0 : RInv n (E.start cmds : E D) :=
    ⟨fun _ => ⟨[], [], rfl, rfl, rfl, by simp [E.start, schedWorkers], by simp [E.start, schedWorkers]⟩⟩
  obtain ⟨l, g, h1, h2, h3, h4, _⟩ := (key fs _ h0 hs).nextw1 hf
  rw [hidle] at h3
  simp only [PartOk] at h3
  subst h3
  rw [List.append_nil] at h1
  rw [h1]; exact h4

/-- number of the tasks `a, a+1, …, a+len-1` that round robin gives to worker `i` -/
def share (n i a len : Nat) : Nat := (List.range' a len).countP fun k => decide (k % n = i)

theorem share_succ (n i a len : Nat) :
    share n i a (len + 1) = share n i a len + if (a + len) % n = i then 1 else 0 := by
  simp only [share]
  rw [List.range'_concat, List.countP_append]
  simp

/-- exact number of tasks with `k % n = i` below `b` -/
theorem share_zero (n i b : Nat) (hn : 0 < n) (hi : i < n) :
    share n i 0 b = b / n + if i < b % n then 1 else 0 := by
  induction b with
  | zero => simp [share]
  | succ b ih =>
    rw [share_succ, ih, Nat.zero_add]
    have h1 := Nat.div_add_mod b n
    have h2 := Nat.mod_lt b hn
    by_cases hlast : b % n + 1 = n
    · have hdiv : (b + 1) / n = b / n + 1 := by
        have : b + 1 = n * (b / n + 1) := by rw [Nat.mul_add]; omega
        rw [this, Nat.mul_div_cancel_left _ hn]
      have hmod : (b + 1) % n = 0 := by
        have : b + 1 = n * (b / n + 1) := by rw [Nat.mul_add]; omega
        rw [this, Nat.mul_mod_right]
      rw [hdiv, hmod]
      by_cases hb : b % n = i
      · have : ¬ i < b % n := by omega
        simp [hb]
      · have : i < b % n := by omega
        simp [hb, this]
    · have e : b + 1 = b % n + 1 + n * (b / n) := by omega
      have hdiv : (b + 1) / n = b / n := by
        rw [e, Nat.add_mul_div_left _ _ hn, Nat.div_eq_of_lt (by omega)]; omega
      have hmod : (b + 1) % n = b % n + 1 := by
        rw [e, Nat.add_mul_mod_self_left, Nat.mod_eq_of_lt (by omega)]
      rw [hdiv, hmod]
      by_cases hb : b % n = i
      · simp [hb]
      · by_cases hlt : i < b % n
        · have : i < b % n + 1 := by omega
          simp [hb, hlt, this]
        · have : ¬ i < b % n + 1 := by omega
          simp [hb, hlt, this]

theorem share_split (n i a len : Nat) : share n i 0 (a + len) = share n i 0 a + share n i a len := by
  induction len with
  | zero => simp [share]
  | succ len ih =>
    rw [← Nat.add_assoc, share_succ, share_succ, ih, Nat.zero_add]
    omega

/-- **C22, fairness**: over any window of consecutive tasks, no worker gets two more than another. -/
theorem C22_fair (n : Nat) (hn : 0 < n) (i j a len : Nat) (hi : i < n) (hj : j < n) :
    share n i a len ≤ share n j a len + 1 := by
  have e1 := share_split n i a len
  have e2 := share_split n j a len
  rw [share_zero n i _ hn hi, share_zero n i _ hn hi] at e1
  rw [share_zero n j _ hn hj, share_zero n j _ hn hj] at e2
  have h1 := Nat.div_add_mod a n
  have h2 := Nat.mod_lt a hn
  have h3 := Nat.div_add_mod (a + len) n
  have h4 := Nat.mod_lt (a + len) hn
  have hmono : a / n ≤ (a + len) / n := Nat.div_le_div_right (by omega)
  by_cases hq : a / n = (a + len) / n
  · have : a % n ≤ (a + len) % n := by rw [hq] at h1; omega
    split at e1 <;> split at e1 <;> split at e2 <;> split at e2 <;> omega
  · split at e1 <;> split at e1 <;> split at e2 <;> split at e2 <;> omega

example : share 3 0 1 5 = 1 ∧ share 3 1 1 5 = 2 := by decide

end FF.Farm
