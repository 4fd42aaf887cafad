import Verif.Farm.GatherProps
/-!
# C21: a farm processes each task exactly once

Source: `/repo/ff/farm.hpp` 215-662 (`prepare`: emitter, one input and one output queue per worker,
collector), `/repo/ff/lb.hpp`, `/repo/ff/gt.hpp`, `/repo/ff/node.hpp` (worker threads).

Emitter (`E`), `n` workers (arbitrary nodes run by the loop of C19), collector (`G`).  Queues are
atomic bounded FIFO queues (C01, C08, C10).  Not modelled: feedback channels, blocking mode,
on-demand scheduling (which only changes the capacity of the worker queues), worker cleanup.
-/
namespace FF.Farm
open FF.Node
variable {D : Type}

/-- State of a farm; as in `P`, the local state of a worker is a function of what it consumed. -/
structure F (D : Type) (c : Node D) where
  e : E D
  inq : Nat → List (Msg D)
  consumed : Nat → List (Msg D)
  pending : Nat → List (Msg D)
  pushed : Nat → List (Msg D)
  outq : Nat → List (Msg D)
  g : G c

def F.start (c : Node D) (cmds : List (Cmd D)) : F D c :=
  { e := E.start cmds, inq := fun _ => [], consumed := fun _ => [], pending := fun _ => [],
    pushed := fun _ => [], outq := fun _ => [], g := G.start c }

inductive FAct where
  /-- one attempt of the emitter -/
  | emit
  /-- worker `i` pops a message and executes one iteration of its loop -/
  | pop (i : Nat)
  /-- worker `i` pushes its next produced message -/
  | push (i : Nat)
  /-- one attempt of the collector -/
  | gather

/-- One action of a farm with `n` workers `w`, queue capacities `ci` and `co`. -/
def fstep (n : Nat) (w : Nat → Node D) (ci co : Nat → Nat) {c : Node D} (s : F D c) :
    FAct → Option (F D c)
  | .emit =>
    match s.e.attempt n (fun i => decide (ci i ≤ (s.inq i).length)) with
    | none => none
    | some (e', none) => some { s with e := e' }
    | some (e', some (i, m)) => some { s with e := e', inq := upd s.inq i (s.inq i ++ [m]) }
  | .pop i =>
    if i < n ∧ s.pending i = [] ∧ (after (w i) (s.consumed i)).exited = false then
      match s.inq i with
      | [] => none
      | m :: ms => some { s with
          inq := upd s.inq i ms
          consumed := upd s.consumed i (s.consumed i ++ [m])
          pending := upd s.pending i (body (w i) (after (w i) (s.consumed i)) m).2 }
    else none
  | .push i =>
    if i < n ∧ (s.outq i).length < co i then
      match s.pending i with
      | [] => none
      | m :: ms => some { s with
          pending := upd s.pending i ms
          pushed := upd s.pushed i (s.pushed i ++ [m])
          outq := upd s.outq i (s.outq i ++ [m]) }
    else none
  | .gather =>
    match s.g.attempt n (fun r => (s.outq r).head?) with
    | none => none
    | some (g', none) => some { s with g := g' }
    | some (g', some r) => some { s with g := g', outq := upd s.outq r (s.outq r).tail }

/-! ## Safety -/

structure FInv (n : Nat) (w : Nat → Node D) {c : Node D} (cmds : List (Cmd D)) (s : F D c) : Prop where
  e : EInv n cmds s.e
  g : GInv n s.g
  kind : GKind s.g
  inq : ∀ i, from_ s.e.log i = s.consumed i ++ s.inq i
  work : ∀ i, i < n → s.pushed i ++ s.pending i = stream (w i) (s.consumed i)
  outq : ∀ i, s.pushed i = from_ s.g.got i ++ s.outq i

theorem FInv.start (n : Nat) (w : Nat → Node D) (c : Node D) (cmds : List (Cmd D)) :
    FInv n w cmds (F.start c cmds) where
  e := EInv.start n cmds
  g := GInv.start n c
  kind := ⟨fun _ => rfl⟩
  inq i := by simp [F.start, E.start, from_]
  work i _ := by simp [F.start, stream, run]
  outq i := by simp [F.start, G.start, from_]

theorem attempt_log {n : Nat} {full : Nat → Bool} {e e' : E D} {o : Option (Nat × Msg D)}
    (hs : e.attempt n full = some (e', o)) :
    e'.log = e.log ++ (match o with | none => [] | some p => [p]) ∧
    (∀ i m, o = some (i, m) → full i = false) := by
  unfold E.attempt at hs
  repeat' split at hs
  all_goals first
    | (simp at hs; done)
    | (simp only [E.put, Option.some.injEq, Prod.mk.injEq] at hs
       obtain ⟨rfl, rfl⟩ := hs
       refine ⟨by simp, ?_⟩
       intro i m hx
       simp_all)

theorem FInv.step {n : Nat} (hn : 0 < n) {w : Nat → Node D} {ci co : Nat → Nat} {c : Node D}
    {cmds : List (Cmd D)} {s s' : F D c} {a : FAct} (h : FInv n w cmds s)
    (hs : fstep n w ci co s a = some s') : FInv n w cmds s' := by
  cases a with
  | emit =>
    simp only [fstep] at hs
    split at hs
    · simp at hs
    · rename_i e' he
      simp only [Option.some.injEq] at hs
      subst hs
      have hl := (attempt_log he).1
      simp only [List.append_nil] at hl
      exact { h with e := h.e.attempt hn he, inq := fun i => by simp only [hl]; exact h.inq i }
    · rename_i e' i m he
      simp only [Option.some.injEq] at hs
      subst hs
      have hl := (attempt_log he).1
      refine { h with e := h.e.attempt hn he, inq := fun j => ?_ }
      simp only [hl, from_append, from_single]
      by_cases hj : j = i
      · subst hj; simp only [upd, if_true]; rw [h.inq j, List.append_assoc]
      · have : ¬ i = j := fun hh => hj hh.symm
        simp only [upd, hj, this, if_false, List.append_nil]; exact h.inq j
  | pop i =>
    simp only [fstep] at hs
    split at hs
    · rename_i hc
      obtain ⟨hi, hp, hx⟩ := hc
      split at hs
      · simp at hs
      · rename_i m ms hm
        simp only [Option.some.injEq] at hs
        subst hs
        refine { h with inq := fun j => ?_, work := fun j hj => ?_ }
        · by_cases hj : j = i
          · subst hj; simp only [upd, if_true]; rw [h.inq j, hm]; simp
          · simp only [upd, hj, if_false]; exact h.inq j
        · by_cases hji : j = i
          · subst hji
            simp only [upd, if_true]
            rw [stream_snoc _ _ _ hx, ← h.work j hj, hp, List.append_nil]
          · simp only [upd, hji, if_false]; exact h.work j hj
    · simp at hs
  | push i =>
    simp only [fstep] at hs
    split at hs
    · split at hs
      · simp at hs
      · rename_i m ms hm
        simp only [Option.some.injEq] at hs
        subst hs
        refine { h with work := fun j hj => ?_, outq := fun j => ?_ }
        · by_cases hji : j = i
          · subst hji; simp only [upd, if_true]; rw [← h.work j hj, hm]; simp
          · simp only [upd, hji, if_false]; exact h.work j hj
        · by_cases hji : j = i
          · subst hji; simp only [upd, if_true]; rw [h.outq j]; simp
          · simp only [upd, hji, if_false]; exact h.outq j
    · simp at hs
  | gather =>
    simp only [fstep] at hs
    split at hs
    · simp at hs
    · rename_i g' hg
      simp only [Option.some.injEq] at hs
      subst hs
      obtain ⟨e1, _, _, _, _, _, e7⟩ := (attempt_got hg).1 rfl
      exact { h with
        g := h.g.attempt hg
        kind := ⟨fun hh => by rw [e7]; exact h.kind.nf (by rw [← e1]; exact hh)⟩
        outq := fun i => by simp only [e1]; exact h.outq i }
    · rename_i g' r hg
      simp only [Option.some.injEq] at hs
      subst hs
      obtain ⟨m, hm, rfl, _, _, _⟩ := (attempt_got hg).2 r rfl
      refine { h with g := h.g.attempt hg, kind := h.kind.handle r m, outq := fun i => ?_ }
      simp only [(G.handle_fields n s.g r m).1, from_append, from_single]
      by_cases hi : i = r
      · subst hi
        simp only [upd, if_true]
        rw [h.outq i]
        cases hc : s.outq i with
        | nil => rw [hc] at hm; simp at hm
        | cons x xs => rw [hc] at hm; simp at hm; subst hm; simp
      · have : ¬ r = i := fun hh => hi hh.symm
        simp only [upd, hi, this, if_false, List.append_nil]; exact h.outq i

theorem FInv.reach {n : Nat} (hn : 0 < n) {w : Nat → Node D} {ci co : Nat → Nat} {c : Node D}
    {cmds : List (Cmd D)} {s : F D c} (hr : Reach (fstep n w ci co) (F.start c cmds) s) :
    FInv n w cmds s :=
  hr.inv (FInv.start n w c cmds) (fun _ _ _ h hs => h.step hn hs)

/-- **C21, exactly once**: for every farm, schedule and capacities: what the emitter has put is one
group per command (`Explains`: a scheduled task goes to exactly one worker, once); each worker
consumes, in order and once, what was put in its queue; and the collector receives from each worker,
in order and once, what the worker's function makes of it — a prefix of it at any moment. -/
theorem C21_exactly_once (n : Nat) (hn : 0 < n) (w : Nat → Node D) (ci co : Nat → Nat) (c : Node D)
    (cmds : List (Cmd D)) (s : F D c) (hr : Reach (fstep n w ci co) (F.start c cmds) s) :
    (s.e.pc = .idle → s.e.dn ++ s.e.cmds = cmds ∧ Explains n s.e.dn s.e.log) ∧
    (∀ i, from_ s.e.log i = s.consumed i ++ s.inq i) ∧
    (∀ i, i < n → from_ s.g.got i <+: stream (w i) (s.consumed i)) ∧
    (∀ i, i < n → from_ s.g.got i <+: stream (w i) (from_ s.e.log i)) ∧
    (∀ r m, (r, m) ∈ s.g.got → r < n) := by
  have h := FInv.reach hn hr
  have hpre : ∀ i, i < n → from_ s.g.got i <+: stream (w i) (s.consumed i) := by
    intro i hi
    have := h.work i hi
    rw [h.outq i, List.append_assoc] at this
    exact ⟨_, this⟩
  refine ⟨?_, h.inq, hpre, ?_, h.g.chan⟩
  · intro hidle
    obtain ⟨l, g, h1, h2, h3⟩ := h.e.log
    have hc := h.e.cmds
    rw [hidle] at h3 hc
    simp only [PartOk] at h3
    subst h3
    exact ⟨by simpa [EPc.cur] using hc, by rw [h1]; simpa using h2⟩
  · intro i hi
    exact (hpre i hi).trans (stream_mono _ ⟨s.inq i, (h.inq i).symm⟩)

/-! ## Well-formed farms -/

def Cmd.msg : Cmd D → Msg D
  | .sched m => m
  | .sendTo _ m => m
  | .bcast m => m

/-- the user's part of the commands: tasks only, to existing workers -/
structure UserCmds (n : Nat) (us : List (Cmd D)) : Prop where
  data : ∀ c ∈ us, c.msg.isData = true
  valid : Valid n us

/-- Steady workers: an end mark is sent exactly if one was consumed. -/
theorem Steady.exited_iff {n : Node D} (hn : Steady n) (ms : List (Msg D)) (l : L n)
    (hl : l.exited = false) (hneos : l.neos = 1)
    (hms : ∀ m ∈ ms, m.isData = true ∨ m = .eos) :
    ((run n l ms).1.exited = true ↔ Msg.eos ∈ ms) ∧
    ((run n l ms).1.exited = true → Msg.eos ∈ (run n l ms).2) := by
  induction ms generalizing l with
  | nil => simp [run, hl]
  | cons m ms ih =>
    rw [run_cons n l hl]
    have hms' : ∀ x ∈ ms, x.isData = true ∨ x = .eos := fun x hx => hms x (by simp [hx])
    rcases hms m (by simp) with hm | rfl
    · have ht : m.isData = true ∨ m = .nul := Or.inl hm
      have hit : isTask m = true := by cases m <;> simp [Msg.isData] at hm; rfl
      have hcont : continues (n.svc l.st m).2.2 = true := by
        cases hc : n.comp with
        | false => rcases hn.leaf hc l.st m ht with ⟨d, h⟩ | h | h <;> simp [h, continues]
        | true => simp [hn.comp hc l.st m ht, continues]
      rw [body_task n l hit]
      obtain ⟨i1, i2⟩ := ih (svcBody n l m).1 (by simp [svcBody, hcont]) hneos hms'
      refine ⟨?_, fun hx => List.mem_append_right _ (i2 hx)⟩
      simp only [List.mem_cons]
      rw [i1]
      constructor
      · exact Or.inr
      · rintro (rfl | h)
        · simp [Msg.isData] at hm
        · exact h
    · have hb : body n l .eos = (L.mk (n.eosn l.st).1 0 true l.calls, (n.eosn l.st).2 ++ [.eos]) := by
        simp [body, markBody, hneos]
      rw [hb, run_exited n _ rfl]
      simp

/-- a steady worker makes only tasks of tasks -/
theorem Steady.run_data {n : Node D} (hn : Steady n) (ms : List (Msg D)) (l : L n)
    (hl : l.exited = false) (hxs : ∀ x ∈ ms, x.isData = true) : AllData (run n l ms).2 := by
  induction ms generalizing l with
  | nil => intro x hx; simp [run] at hx
  | cons x xs ih =>
    have hxd := hxs x (by simp)
    have ht : x.isData = true ∨ x = .nul := Or.inl hxd
    have hit : isTask x = true := by cases x <;> simp [Msg.isData] at hxd; rfl
    rw [run_cons _ l hl, body_task _ l hit]
    have hret : continues (n.svc l.st x).2.2 = true ∧ AllData (visible (n.svc l.st x).2.2) := by
      cases hcp : n.comp with
      | false =>
        rcases hn.leaf hcp l.st x ht with ⟨d, h⟩ | h | h
        · refine ⟨by simp [h, continues], ?_⟩
          intro y hy; simp [h, visible] at hy; subst hy; rfl
        · exact ⟨by simp [h, continues], by intro y hy; simp [h, visible] at hy⟩
        · exact ⟨by simp [h, continues], by intro y hy; simp [h, visible] at hy⟩
      | true =>
        have h := hn.comp hcp l.st x ht
        exact ⟨by simp [h, continues], by intro y hy; simp [h, visible] at hy⟩
    refine AllData.append ((hn.sends l.st x ht).append hret.2) ?_
    exact ih _ (by simp [svcBody, hret.1]) fun y hy => hxs y (by simp [hy])

theorem Group.mem {n : Nat} {c : Cmd D} {g : List (Nat × Msg D)} (hg : Group n c g) {i : Nat}
    {m : Msg D} (h : (i, m) ∈ g) : m = c.msg := by
  cases c with
  | sched x => obtain ⟨w, _, rfl⟩ := hg; simp only [List.mem_singleton, Prod.mk.injEq] at h; exact h.2
  | sendTo j x =>
    simp only [Group] at hg; subst hg
    simp only [List.mem_singleton, Prod.mk.injEq] at h; exact h.2
  | bcast x =>
    have := hg.mem_iff.1 h
    simp only [List.mem_map, Prod.mk.injEq] at this
    obtain ⟨_, _, _, rfl⟩ := this; rfl

theorem Explains.mem {n : Nat} {cs : List (Cmd D)} {l : List (Nat × Msg D)} (h : Explains n cs l)
    {i : Nat} {m : Msg D} (hm : (i, m) ∈ l) : ∃ c ∈ cs, m = c.msg := by
  induction cs generalizing l with
  | nil => simp only [Explains] at h; subst h; simp at hm
  | cons c cs ih =>
    obtain ⟨g, l', rfl, h1, h2⟩ := h
    rcases List.mem_append.1 hm with hm | hm
    · exact ⟨c, by simp, h1.mem hm⟩
    · obtain ⟨c', h3, h4⟩ := ih h2 hm
      exact ⟨c', by simp [h3], h4⟩

theorem Explains.append_inv {n : Nat} {cs cs' : List (Cmd D)} {l : List (Nat × Msg D)}
    (h : Explains n (cs ++ cs') l) : ∃ l1 l2, l = l1 ++ l2 ∧ Explains n cs l1 ∧ Explains n cs' l2 := by
  induction cs generalizing l with
  | nil => exact ⟨[], l, rfl, rfl, h⟩
  | cons c cs ih =>
    obtain ⟨g, l', rfl, h1, h2⟩ := h
    obtain ⟨l1, l2, rfl, h3, h4⟩ := ih h2
    exact ⟨g ++ l1, l2, by simp, ⟨g, l1, rfl, h1, h3⟩, h4⟩

/-- messages of the current command -/
theorem PartOk.mem {n : Nat} {pc : EPc D} {g : List (Nat × Msg D)} (h : PartOk n pc g) {i : Nat}
    {m : Msg D} (hm : (i, m) ∈ g) : ∃ c ∈ pc.cur, m = c.msg := by
  cases pc with
  | bc1 x j retry =>
    have := h.2.mem_iff.1 (List.mem_append_left _ hm)
    simp only [List.mem_map, Prod.mk.injEq] at this
    obtain ⟨_, _, _, rfl⟩ := this
    exact ⟨.bcast x, by simp [EPc.cur], rfl⟩
  | bc2 x retry =>
    have := (show (g ++ retry.map fun j => (j, x)).Perm _ from h).mem_iff.1 (List.mem_append_left _ hm)
    simp only [List.mem_map, Prod.mk.injEq] at this
    obtain ⟨_, _, _, rfl⟩ := this
    exact ⟨.bcast x, by simp [EPc.cur], rfl⟩
  | idle => simp only [PartOk] at h; subst h; simp at hm
  | sched x => simp only [PartOk] at h; subst h; simp at hm
  | to j x => simp only [PartOk] at h; subst h; simp at hm

/-- Everything put is a task or `EOS`. -/
theorem EInv.fits {n : Nat} {us : List (Cmd D)} (hu : UserCmds n us) {e : E D}
    (h : EInv n (us ++ [.bcast .eos]) e) (i : Nat) :
    ∀ m ∈ from_ e.log i, m.isData = true ∨ m = .eos := by
  intro m hm
  obtain ⟨l, g, h1, h2, h3⟩ := h.log
  have hm' := mem_from.1 hm
  rw [h1] at hm'
  have hall : ∀ c ∈ us ++ [Cmd.bcast .eos], c.msg.isData = true ∨ c.msg = .eos := by
    intro c hc
    rcases List.mem_append.1 hc with hc | hc
    · exact Or.inl (hu.data c hc)
    · simp only [List.mem_singleton] at hc; subst hc; exact Or.inr rfl
  rw [← h.cmds] at hall
  rcases List.mem_append.1 hm' with hm' | hm'
  · obtain ⟨c, hc, rfl⟩ := h2.mem hm'
    exact hall c (by simp [hc])
  · obtain ⟨c, hc, rfl⟩ := h3.mem hm'
    exact hall c (by simp [hc])

/-- a prefix that contains the end mark of a stream with nothing after its mark is the whole stream -/
theorem prefix_mark {xs ys : List (Msg D)} (h : xs <+: ys) (hx : ∃ m ∈ xs, m.isMark = true)
    (hy : upTo ys = ys) : xs = ys := by
  obtain ⟨t, rfl⟩ := h
  have h1 := upTo_mark hx t
  rw [hy] at h1
  have h2 := (upTo_prefix xs).length_le
  rw [← h1] at h2
  simp only [List.length_append] at h2
  have : t = [] := List.length_eq_zero_iff.1 (by omega)
  simp [this]

theorem stream_upTo_self {n : Node D} (hn : Steady n) {ms : List (Msg D)}
    (hms : ∀ m ∈ ms, m.isData = true ∨ m = .eos) : upTo (stream n ms) = stream n ms :=
  hn.ending.upTo_stream ms fun m hm => by
    rcases hms m hm with h | h
    · exact Or.inl h
    · exact Or.inr (Or.inl h)

/-- what a steady worker sends is never `EOS_NOFREEZE` -/
theorem stream_no_nf {n : Node D} (hn : Steady n) {ms : List (Msg D)}
    (hms : ∀ m ∈ ms, m.isData = true ∨ m = .eos) : ∀ m ∈ stream n ms, m ≠ .eosnf := by
  intro m hm
  have := stream_fits hn.ending.ok ms (fun m hm => by
    rcases hms m hm with h | h
    · exact Or.inl h
    · exact Or.inr (Or.inl h)) m hm
  rintro rfl
  simp [Msg.isData] at this

section
variable {n : Nat} {w : Nat → Node D} {c : Node D} {us : List (Cmd D)} {s : F D c}

theorem FInv.got_prefix (h : FInv n w (us ++ [.bcast .eos]) s) {i : Nat} (hi : i < n) :
    from_ s.g.got i <+: stream (w i) (s.consumed i) := by
  have := h.work i hi
  rw [h.outq i, List.append_assoc] at this
  exact ⟨_, this⟩

theorem FInv.consumed_fits (hu : UserCmds n us) (h : FInv n w (us ++ [.bcast .eos]) s) (i : Nat) :
    ∀ m ∈ s.consumed i, m.isData = true ∨ m = .eos := fun m hm =>
  h.e.fits hu i m (by rw [h.inq i]; exact List.mem_append_left _ hm)

/-- the collector has everything of a worker whose mark it has received -/
theorem FInv.offline_all (hu : UserCmds n us) (hw : ∀ i, i < n → Steady (w i))
    (h : FInv n w (us ++ [.bcast .eos]) s) {i : Nat} (hi : i < n) (ho : s.g.offline i = true) :
    from_ s.g.got i = stream (w i) (s.consumed i) ∧ s.pending i = [] ∧ s.outq i = [] := by
  obtain ⟨m, hm, hm'⟩ := (h.g.off i).1 ho
  have he := prefix_mark (h.got_prefix hi) ⟨m, hm', hm⟩
    (stream_upTo_self (hw i hi) (h.consumed_fits hu i))
  refine ⟨he, ?_⟩
  have := h.work i hi
  rw [h.outq i, he, List.append_assoc] at this
  have h2 := List.append_right_eq_self.1 this
  rw [List.append_eq_nil_iff] at h2
  exact ⟨h2.2, h2.1⟩

theorem FInv.no_nf (hu : UserCmds n us) (hw : ∀ i, i < n → Steady (w i))
    (h : FInv n w (us ++ [.bcast .eos]) s) : s.g.neosnf = 0 := by
  apply h.kind.nf
  rintro ⟨i, m⟩ hx
  have hi := h.g.chan i m hx
  exact stream_no_nf (hw i hi) (h.consumed_fits hu i) m
    ((h.got_prefix hi).subset (mem_from.2 hx))

/-- the collector receives only tasks and `EOS` -/
theorem FInv.clean (hu : UserCmds n us) (hw : ∀ i, i < n → Steady (w i))
    (h : FInv n w (us ++ [.bcast .eos]) s) : Clean s.g.got := by
  rintro ⟨i, m⟩ hx
  have hi := h.g.chan i m hx
  have := stream_fits (hw i hi).ending.ok (s.consumed i) (fun m hm => by
    rcases h.consumed_fits hu i m hm with h | h
    · exact Or.inl h
    · exact Or.inr (Or.inl h)) m ((h.got_prefix hi).subset (mem_from.2 hx))
  refine ⟨?_, ?_⟩ <;> rintro rfl <;> simp [Msg.isData] at this

theorem FEnd.reach {cmds : List (Cmd D)} (hn : 0 < n) {ci co : Nat → Nat} (hc : StaysOn c)
    (hr : Reach (fstep n w ci co) (F.start c cmds) s) : GEnd n s.g := by
  refine hr.inv (Inv := fun s : F D c => GEnd n s.g) (GEnd.start hn c) ?_
  intro s a s' h hs
  cases a with
  | emit =>
    simp only [fstep] at hs
    split at hs <;> simp only [Option.some.injEq, reduceCtorEq] at hs <;> subst hs <;> exact h
  | pop i =>
    simp only [fstep] at hs
    split at hs
    · split at hs <;> simp only [Option.some.injEq, reduceCtorEq] at hs; subst hs; exact h
    · simp at hs
  | push i =>
    simp only [fstep] at hs
    split at hs
    · split at hs <;> simp only [Option.some.injEq, reduceCtorEq] at hs; subst hs; exact h
    · simp at hs
  | gather =>
    simp only [fstep] at hs
    split at hs
    · simp at hs
    all_goals
      rename_i hg
      simp only [Option.some.injEq] at hs
      subst hs
      exact h.attempt hc hg

/-- when the collector has ended it has received everything, and every worker has got its `EOS` -/
theorem FInv.sees_all (hw : ∀ i, i < n → Steady (w i)) (hu : UserCmds n us)
    (h : FInv n w (us ++ [.bcast .eos]) s) (hend : GEnd n s.g) (hx : s.g.exited = true)
    (i : Nat) (hi : i < n) :
    from_ s.g.got i = stream (w i) (from_ s.e.log i) ∧ Msg.eos ∈ s.consumed i ∧
      (after (w i) (s.consumed i)).exited = true ∧ s.pending i = [] ∧ s.outq i = [] := by
  have hcnt := h.g.count
  have hnf := h.no_nf hu hw
  have hoff : s.g.offline i = true := by
    have h1 := (hend.exit (h.clean hu hw)).1 hx
    have h2 := offCount_le n s.g.offline
    exact offCount_eq (by omega) i hi
  have hall := h.offline_all hu hw hi hoff
  -- the worker has consumed its `EOS`, so it reads nothing more
  have hex : (after (w i) (s.consumed i)).exited = true := by
    obtain ⟨m, hm, hm'⟩ := (h.g.off i).1 hoff
    rw [hall.1] at hm'
    cases hh : (after (w i) (s.consumed i)).exited with
    | true => rfl
    | false =>
      -- a running steady worker has sent only tasks
      exfalso
      have hs := Steady.exited_iff (hw i hi) (s.consumed i) (L.start (w i) 1) rfl rfl
        (h.consumed_fits hu i)
      have hne : Msg.eos ∉ s.consumed i := by
        intro hmem
        have := hs.1.2 hmem
        have hh' : (run (w i) (L.start (w i) 1) (s.consumed i)).1.exited = false := hh
        rw [hh'] at this; simp at this
      have hd := Steady.run_data (hw i hi) (s.consumed i) (L.start (w i) 1) rfl (fun x hx => by
        rcases h.consumed_fits hu i x hx with h1 | rfl
        · exact h1
        · exact absurd hx hne)
      have := hd m hm'
      cases m <;> simp [Msg.isData, Msg.isMark] at this hm
  have hst : stream (w i) (from_ s.e.log i) = stream (w i) (s.consumed i) :=
    stream_exited _ ⟨s.inq i, (h.inq i).symm⟩ hex
  have hs := Steady.exited_iff (hw i hi) (s.consumed i) (L.start (w i) 1) rfl rfl
    (h.consumed_fits hu i)
  exact ⟨by rw [hst]; exact hall.1, hs.1.1 hex, hex, hall.2⟩

/-- **C21, the collector has seen all the results when it ends**: with workers that do not end the
stream by themselves, once the collector has ended it has received, from every worker, everything the
worker makes of all the tasks put in its queue. -/
theorem C21_collector_sees_all (hn : 0 < n) (hw : ∀ i, i < n → Steady (w i)) (ci co : Nat → Nat)
    (hc : StaysOn c) (hu : UserCmds n us)
    (hr : Reach (fstep n w ci co) (F.start c (us ++ [.bcast .eos])) s) (hx : s.g.exited = true)
    (i : Nat) (hi : i < n) :
    from_ s.g.got i = stream (w i) (from_ s.e.log i) ∧ Msg.eos ∈ from_ s.e.log i := by
  have h := FInv.reach hn hr
  obtain ⟨h1, h2, -⟩ := h.sees_all hw hu (FEnd.reach hn hc hr) hx i hi
  exact ⟨h1, by rw [h.inq i]; exact List.mem_append_left _ h2⟩

end
end FF.Farm
