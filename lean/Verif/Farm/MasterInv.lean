import Verif.Farm.Master
/-!
# Master-worker farm: invariant and the exactly-once property
-/
namespace FF.Farm
open FF.Node
variable {D : Type}

theorem replay_append (em : Em D) (st : em.σ) (h : List (Ev D)) (x : Ev D) :
    replay em st (h ++ [x]) =
      ((react em (replay em st h).1 x).1, (replay em st h).2 ++ (react em (replay em st h).1 x).2) := by
  induction h generalizing st with
  | nil => simp [replay]
  | cons y ys ih => simp [replay, ih]

theorem behaviour_append (em : Em D) (b : Bool) (h : List (Ev D)) (x : Ev D) :
    behaviour em b (h ++ [x]) =
      ((react em (behaviour em b h).1 x).1,
        (behaviour em b h).2 ++ (react em (behaviour em b h).1 x).2) := by
  cases b with
  | false => exact replay_append em _ h x
  | true => exact replay_append em _ (⟨none, none, .nul⟩ :: h) x

/-- the fields that handling a message leaves alone -/
structure Same {em : Em D} (s s' : M em) : Prop where
  inq : s'.inq = s.inq
  consumed : s'.consumed = s.consumed
  pending : s'.pending = s.pending
  pushed : s'.pushed = s.pushed
  outq : s'.outq = s.outq
  inb : s'.inb = s.inb
  inp : s'.inp = s.inp
  hist : s'.hist = s.hist
  absd : s'.absd = s.absd
  first : s'.first = s.first
  cnt : s'.cnt = s.cnt
  pc : s'.e.pc = s.e.pc
  log : s'.e.log = s.e.log
  dn : s'.e.dn = s.e.dn
  fails : s'.e.fails = s.e.fails
  nextw1 : s'.e.nextw1 = s.e.nextw1

theorem task_same (cf : Cfg D) {em : Em D} (s : M em) (ch : Option Nat) (m : Msg D) :
    Same s (s.task cf ch m) := by constructor <;> rfl

theorem mark_same (cf : Cfg D) {em : Em D} (s : M em) (ch : Option Nat) (m : Msg D) :
    Same s (s.mark cf ch m) := by
  unfold M.mark
  constructor <;> (simp only; split <;> rfl)

theorem handle_same (cf : Cfg D) {em : Em D} (s : M em) (ch : Option Nat) (m : Msg D) :
    Same s (s.handle cf ch m) := by
  unfold M.handle
  split
  · constructor <;> rfl
  · constructor <;> rfl
  · exact mark_same cf s ch _
  · exact mark_same cf s ch _
  · exact task_same cf s ch m

/-- the state and the commands after handling a message -/
theorem handle_react (cf : Cfg D) {em : Em D} (s : M em) (src ch : Option Nat) (m : Msg D) :
    (s.handle cf ch m).es = (react em s.es ⟨src, ch, m⟩).1 ∧
    (s.handle cf ch m).issued = s.issued ++ (react em s.es ⟨src, ch, m⟩).2 ∧
    (s.handle cf ch m).e.cmds = s.e.cmds ++ (react em s.es ⟨src, ch, m⟩).2 := by
  cases m <;> simp only [M.handle, react, M.task, M.issue, List.append_nil, and_self]
  all_goals
    simp only [M.mark]
    split <;> exact ⟨rfl, rfl, rfl⟩

theorem free_iff {e : E D} : e.free = true ↔ e.pc = .idle ∧ e.cmds = [] := by
  unfold E.free
  split
  · rename_i h1 h2; simp [h1, h2]
  · rename_i h
    constructor
    · intro hh; cases hh
    · rintro ⟨h1, h2⟩; exact absurd h2 (h h1)

/-- issuing commands -/
theorem EInv.issue {n : Nat} {cs0 : List (Cmd D)} {e e' : E D} (h : EInv n cs0 e) {cs : List (Cmd D)}
    (h1 : e'.cmds = e.cmds ++ cs) (h2 : e'.pc = e.pc) (h3 : e'.dn = e.dn) (h4 : e'.log = e.log) :
    EInv n (cs0 ++ cs) e' where
  cmds := by rw [h1, h2, h3, ← h.cmds]; simp
  log := by rw [h2, h3, h4]; exact h.log

structure MInv (cf : Cfg D) {em : Em D} (inp0 : List (Msg D)) (s : M em) : Prop where
  e : EInv cf.n s.issued s.e
  inq : ∀ i, from_ s.e.log i = s.consumed i ++ s.inq i
  work : ∀ i, i < cf.n → s.pushed i ++ s.pending i = stream (cf.w i) (s.consumed i)
  outq : ∀ i, s.pushed i = fromW s.hist i ++ s.absd i ++ s.outq i
  inp : fromIn s.hist ++ s.inb ++ s.inp = inp0
  emit : (s.es, s.issued) = behaviour em (!cf.inpresent && !s.first) s.hist
  first : s.first = true → s.hist = [] ∧ cf.inpresent = false ∧ s.ph = .loop
  absd : s.ph = .loop → ∀ i, s.absd i = []
  absk : ∀ k, s.ph = .leave k → ∀ i, (k ≤ i → s.absd i = []) ∧
    (s.absd i = [] ∨ s.absd i = [.eos] ∨ s.absd i = [.eosnf])

theorem fromW_append (h : List (Ev D)) (x : Ev D) (i : Nat) :
    fromW (h ++ [x]) i = fromW h i ++ (if x.src = some i then [x.m] else []) := by
  unfold fromW
  by_cases hx : x.src = some i <;> simp [hx]

theorem fromIn_append (h : List (Ev D)) (x : Ev D) :
    fromIn (h ++ [x]) = fromIn h ++ (if x.src = none then [x.m] else []) := by
  unfold fromIn
  by_cases hx : x.src = none <;> simp [hx]

theorem MInv.init (cf : Cfg D) (em : Em D) (inp0 : List (Msg D)) : MInv cf inp0 (M.init cf em inp0) where
  e := EInv.start _ _
  inq i := by simp [M.init, E.start, from_]
  work i _ := by simp [M.init, stream, run]
  outq i := by simp [M.init, fromW]
  inp := by simp [M.init, fromIn]
  emit := by simp [M.init, behaviour, replay]
  first := by intro h; simpa [M.init] using h
  absd := fun _ _ => rfl
  absk := by intro k hk; simp [M.init] at hk

/-- the emitter receives a message from worker `i` -/
theorem MInv.fromWorker {cf : Cfg D} {em : Em D} {inp0 : List (Msg D)} {s : M em} (h : MInv cf inp0 s)
    (hl : s.ph = .loop) (hf : s.first = false) {i k st : Nat} {m : Msg D} {ms : List (Msg D)}
    (ho : s.outq i = m :: ms) :
    MInv cf inp0 (M.handle cf { s with start := st, cnt := 0, outq := upd s.outq i ms
                                       hist := s.hist ++ [⟨some i, some k, m⟩] } (some k) m) := by
  obtain ⟨z, hz⟩ : ∃ z : M em, z = { s with start := st, cnt := 0, outq := upd s.outq i ms
                                            hist := s.hist ++ [⟨some i, some k, m⟩] } := ⟨_, rfl⟩
  rw [← hz]
  have sm := handle_same cf z (some k) m
  obtain ⟨r1, r2, r3⟩ := handle_react cf z (some i) (some k) m
  have hb := h.emit
  refine { e := ?_, inq := ?_, work := ?_, outq := ?_, inp := ?_, emit := ?_, first := ?_, absd := ?_, absk := ?_ }
  · rw [r2]
    refine EInv.issue (e := s.e) (cs0 := z.issued) (by rw [hz]; exact h.e) (by rw [r3, hz]) ?_ ?_ ?_
    · rw [sm.pc, hz]
    · rw [sm.dn, hz]
    · rw [sm.log, hz]
  · intro j; rw [sm.log, sm.consumed, sm.inq, hz]; exact h.inq j
  · intro j hj; rw [sm.pushed, sm.pending, sm.consumed, hz]; exact h.work j hj
  · intro j
    rw [sm.pushed, sm.hist, sm.absd, sm.outq, hz]
    show s.pushed j = fromW (s.hist ++ [⟨some i, some k, m⟩]) j ++ s.absd j ++ upd s.outq i ms j
    rw [fromW_append, h.outq j, h.absd hl j]
    by_cases hj : j = i
    · subst hj; simp [upd, ho]
    · have : ¬ i = j := fun hh => hj hh.symm
      simp [upd, hj, this]
  · rw [sm.hist, sm.inb, sm.inp, hz]
    show fromIn (s.hist ++ [⟨some i, some k, m⟩]) ++ s.inb ++ s.inp = inp0
    rw [fromIn_append]; simpa using h.inp
  · rw [sm.first, sm.hist, r1, r2, hz]
    show _ = behaviour em (!cf.inpresent && !s.first) (s.hist ++ [⟨some i, some k, m⟩])
    rw [behaviour_append, ← hb]
  · intro hh; rw [sm.first, hz, hf] at hh; simp at hh
  · intro _ j; rw [sm.absd, hz]; exact h.absd hl j
  · intro _ _ j; rw [sm.absd, hz]; exact ⟨fun _ => h.absd hl j, Or.inl (h.absd hl j)⟩

/-- the emitter receives a message from the input channel -/
theorem MInv.fromInput {cf : Cfg D} {em : Em D} {inp0 : List (Msg D)} {s : M em} (h : MInv cf inp0 s)
    (hl : s.ph = .loop) (hf : s.first = false) {st : Nat} {m : Msg D} {ms : List (Msg D)}
    (ho : s.inb = m :: ms) :
    MInv cf inp0 (M.handle cf { s with start := st, cnt := 0, inb := ms
                                       hist := s.hist ++ [⟨none, none, m⟩] } none m) := by
  obtain ⟨z, hz⟩ : ∃ z : M em, z = { s with start := st, cnt := 0, inb := ms
                                            hist := s.hist ++ [⟨none, none, m⟩] } := ⟨_, rfl⟩
  rw [← hz]
  have sm := handle_same cf z none m
  obtain ⟨r1, r2, r3⟩ := handle_react cf z none none m
  have hb := h.emit
  refine { e := ?_, inq := ?_, work := ?_, outq := ?_, inp := ?_, emit := ?_, first := ?_, absd := ?_, absk := ?_ }
  · rw [r2]
    refine EInv.issue (e := s.e) (cs0 := z.issued) (by rw [hz]; exact h.e) (by rw [r3, hz]) ?_ ?_ ?_
    · rw [sm.pc, hz]
    · rw [sm.dn, hz]
    · rw [sm.log, hz]
  · intro j; rw [sm.log, sm.consumed, sm.inq, hz]; exact h.inq j
  · intro j hj; rw [sm.pushed, sm.pending, sm.consumed, hz]; exact h.work j hj
  · intro j
    rw [sm.pushed, sm.hist, sm.absd, sm.outq, hz]
    show s.pushed j = fromW (s.hist ++ [⟨none, none, m⟩]) j ++ s.absd j ++ s.outq j
    rw [fromW_append, h.outq j]; simp
  · rw [sm.hist, sm.inb, sm.inp, hz]
    show fromIn (s.hist ++ [⟨none, none, m⟩]) ++ ms ++ s.inp = inp0
    rw [fromIn_append]
    have := h.inp
    rw [ho] at this
    simpa using this
  · rw [sm.first, sm.hist, r1, r2, hz]
    show _ = behaviour em (!cf.inpresent && !s.first) (s.hist ++ [⟨none, none, m⟩])
    rw [behaviour_append, ← hb]
  · intro hh; rw [sm.first, hz, hf] at hh; simp at hh
  · intro _ j; rw [sm.absd, hz]; exact h.absd hl j
  · intro _ _ j; rw [sm.absd, hz]; exact ⟨fun _ => h.absd hl j, Or.inl (h.absd hl j)⟩

/-- What one attempt of `collect_task` can do. -/
theorem poll_cases {cf : Cfg D} {em : Em D} {s s' : M em} (hs : s.poll cf = some s') :
    (∃ i m ms, s.avail[s.next]? = some i ∧ s.outq i = m :: ms ∧
      s' = M.handle cf { s with start := s.next, cnt := 0, outq := upd s.outq i ms
                                hist := s.hist ++ [⟨some i, some s.next, m⟩] } (some s.next) m) ∨
    (∃ m ms, s.inb = m :: ms ∧ s' = M.handle cf { s with start := s.next, cnt := 0, inb := ms
                                                         hist := s.hist ++ [⟨none, none, m⟩] } none m) ∨
    (∃ c, (c = 0 ∨ (c = s.cnt + 1 ∧ s.cnt + 1 ≠ s.avail.length)) ∧
      s' = { s with start := s.next, cnt := c }) := by
  unfold M.poll at hs
  split at hs
  · simp at hs
  · rename_i i hi
    split at hs
    · rename_i m ms ho
      simp only [Option.some.injEq] at hs
      exact Or.inl ⟨i, m, ms, hi, ho, hs.symm⟩
    · split at hs
      · split at hs
        · rename_i m ms hb
          simp only [Option.some.injEq] at hs
          exact Or.inr (Or.inl ⟨m, ms, hb, hs.symm⟩)
        · simp only [Option.some.injEq] at hs
          exact Or.inr (Or.inr ⟨0, Or.inl rfl, hs.symm⟩)
      · rename_i hcl
        simp only [Option.some.injEq] at hs
        exact Or.inr (Or.inr ⟨s.cnt + 1, Or.inr ⟨rfl, hcl⟩, hs.symm⟩)

theorem MInv.step {cf : Cfg D} (hn : 0 < cf.n) {em : Em D} {inp0 : List (Msg D)} {s s' : M em} {a : MAct}
    (h : MInv cf inp0 s) (hs : mstep cf s a = some s') : MInv cf inp0 s' := by
  cases a with
  | emit =>
    simp only [mstep] at hs
    split at hs
    · simp at hs
    · rename_i e' he
      simp only [Option.some.injEq] at hs
      subst hs
      have hl := (attempt_log he).1
      simp only [List.append_nil] at hl
      exact { h with e := h.e.attempt hn he, inq := fun i => by simp only [hl]; exact h.inq i }
    · rename_i e' i m he
      simp only [Option.some.injEq] at hs
      subst hs
      have hl := (attempt_log he).1
      refine { h with e := h.e.attempt hn he, inq := fun j => ?_ }
      simp only [hl, from_append, from_single]
      by_cases hj : j = i
      · subst hj; simp only [upd, if_true]; rw [h.inq j, List.append_assoc]
      · have : ¬ i = j := fun hh => hj hh.symm
        simp only [upd, hj, this, if_false, List.append_nil]; exact h.inq j
  | collect =>
    simp only [mstep] at hs
    split at hs
    · rename_i hc
      simp only [Bool.and_eq_true, decide_eq_true_eq] at hc
      obtain ⟨hfree, hl⟩ := hc
      split at hs
      · rename_i hf
        simp only [Option.some.injEq] at hs
        subst hs
        obtain ⟨f1, f2, _⟩ := h.first hf
        obtain ⟨z, hz⟩ : ∃ z : M em, z = { s with first := false } := ⟨_, rfl⟩
        rw [← hz]
        have sm := task_same cf z none .nul
        have hb := h.emit
        have hi0 : (s.es, s.issued) = (em.init, []) := by
          rw [hb, f1, hf]; simp [behaviour, replay]
        simp only [Prod.mk.injEq] at hi0
        have hes : (z.task cf none .nul).es = (em.svc em.init none .nul).1 := by
          simp [M.task, M.issue, hz, hi0.1]
        have his : (z.task cf none .nul).issued =
            (em.svc em.init none .nul).2.1 ++ retCmds (em.svc em.init none .nul).2.2 := by
          simp [M.task, M.issue, hz, hi0.1, hi0.2]
        refine { e := ?_, inq := ?_, work := ?_, outq := ?_, inp := ?_, emit := ?_, first := ?_, absd := ?_, absk := ?_ }
        · rw [show (z.task cf none .nul).issued = s.issued ++
            ((em.svc s.es none .nul).2.1 ++ retCmds (em.svc s.es none .nul).2.2) by
              simp [M.task, M.issue, hz]]
          refine EInv.issue (e := s.e) (cs0 := s.issued)
            (cs := (em.svc s.es none .nul).2.1 ++ retCmds (em.svc s.es none .nul).2.2) h.e ?_ ?_ ?_ ?_
          · simp [M.task, M.issue, hz]
          · rw [sm.pc, hz]
          · rw [sm.dn, hz]
          · rw [sm.log, hz]
        · intro j; rw [sm.log, sm.consumed, sm.inq, hz]; exact h.inq j
        · intro j hj; rw [sm.pushed, sm.pending, sm.consumed, hz]; exact h.work j hj
        · intro j; rw [sm.pushed, sm.hist, sm.absd, sm.outq, hz]; exact h.outq j
        · rw [sm.hist, sm.inb, sm.inp, hz]; exact h.inp
        · rw [sm.first, sm.hist, hes, his, hz]
          show _ = behaviour em (!cf.inpresent && !false) s.hist
          rw [f1, f2]
          simp [behaviour, replay, react]
        · intro hh; rw [sm.first, hz] at hh; simp at hh
        · intro _ j; rw [sm.absd, hz]; exact h.absd hl j
        · intro _ _ j; rw [sm.absd, hz]; exact ⟨fun _ => h.absd hl j, Or.inl (h.absd hl j)⟩
      · rename_i hf
        simp only [Bool.not_eq_true] at hf
        rcases poll_cases hs with ⟨i, m, ms, _, ho, rfl⟩ | ⟨m, ms, ho, rfl⟩ | ⟨c, _, rfl⟩
        · exact h.fromWorker hl hf ho
        · exact h.fromInput hl hf ho
        · exact { h with }
    · simp at hs
  | absorb =>
    simp only [mstep] at hs
    split at hs
    · rename_i k hk
      split at hs
      · split at hs
        · simp at hs
        · rename_i m ms ho
          simp only [Option.some.injEq] at hs
          subst hs
          refine { h with outq := fun j => ?_, first := ?_, absd := ?_, absk := ?_ }
          · by_cases hj : j = k
            · subst hj; simp only [upd, if_true]; rw [h.outq j, ho]; simp
            · simp only [upd, hj, if_false]; exact h.outq j
          · intro hf
            have := (h.first hf).2.2
            rw [hk] at this; simp at this
          · intro hl; cases m <;> simp at hl
          · intro k' hk' j
            obtain ⟨a1, a2⟩ := h.absk k hk j
            have a3 := (h.absk k hk k).1 (Nat.le_refl _)
            have hm : k' = k + 1 ∧ (m = .eos ∨ m = .eosnf) := by
              cases m <;> simp at hk' <;> simp [hk']
            by_cases hj : j = k
            · subst hj
              simp only [upd, if_true, a3, List.nil_append]
              refine ⟨fun hh => by omega, ?_⟩
              rcases hm.2 with rfl | rfl <;> simp
            · simp only [upd, hj, if_false]
              exact ⟨fun hh => a1 (by omega), a2⟩
      · simp at hs
    · simp at hs
  | pop i =>
    simp only [mstep] at hs
    split at hs
    · rename_i hc
      obtain ⟨hi, hp, hx⟩ := hc
      split at hs
      · simp at hs
      · rename_i m ms hm
        simp only [Option.some.injEq] at hs
        subst hs
        refine { h with inq := fun j => ?_, work := fun j hj => ?_ }
        · by_cases hj : j = i
          · subst hj; simp only [upd, if_true]; rw [h.inq j, hm]; simp
          · simp only [upd, hj, if_false]; exact h.inq j
        · by_cases hji : j = i
          · subst hji
            simp only [upd, if_true]
            rw [stream_snoc _ _ _ hx, ← h.work j hj, hp, List.append_nil]
          · simp only [upd, hji, if_false]; exact h.work j hj
    · simp at hs
  | push i =>
    simp only [mstep] at hs
    split at hs
    · split at hs
      · simp at hs
      · rename_i m ms hm
        simp only [Option.some.injEq] at hs
        subst hs
        refine { h with work := fun j hj => ?_, outq := fun j => ?_ }
        · by_cases hji : j = i
          · subst hji; simp only [upd, if_true]; rw [← h.work j hj, hm]; simp
          · simp only [upd, hji, if_false]; exact h.work j hj
        · by_cases hji : j = i
          · subst hji; simp only [upd, if_true]; rw [h.outq j]; simp
          · simp only [upd, hji, if_false]; exact h.outq j
    · simp at hs
  | arrive =>
    simp only [mstep] at hs
    split at hs
    · simp at hs
    · rename_i m ms hm
      simp only [Option.some.injEq] at hs
      subst hs
      exact { h with inp := by have := h.inp; rw [hm] at this; simpa using this }

theorem MInv.reach {cf : Cfg D} (hn : 0 < cf.n) {em : Em D} {inp0 : List (Msg D)} {s : M em}
    (hr : Reach (mstep cf) (M.init cf em inp0) s) : MInv cf inp0 s :=
  hr.inv (MInv.init cf em inp0) (fun _ _ _ h hs => h.step hn hs)

/-- **C57, exactly once**: for every emitter, all workers, all capacities and every schedule of a
master-worker farm:
the commands the emitter has issued are what its own functions make of the messages it has received;
between two commands, what it has put in the queues is explained by the commands completed (a
scheduled task is in exactly one queue, once);
each worker consumes, in order and once, what was put in its queue;
the emitter receives from each worker, in order and once, what the worker makes of what it consumed;
and it receives, in order and once, what arrives on the input channel. -/
theorem C57_exactly_once (cf : Cfg D) (hn : 0 < cf.n) (em : Em D) (inp : List (Msg D)) (s : M em)
    (hr : Reach (mstep cf) (M.init cf em inp) s) :
    s.issued = (behaviour em (!cf.inpresent && !s.first) s.hist).2 ∧
    (s.e.pc = .idle → s.e.dn ++ s.e.cmds = s.issued ∧ Explains cf.n s.e.dn s.e.log) ∧
    (∀ i, from_ s.e.log i = s.consumed i ++ s.inq i) ∧
    (∀ i, i < cf.n → fromW s.hist i <+: stream (cf.w i) (s.consumed i)) ∧
    (∀ i, i < cf.n → fromW s.hist i <+: stream (cf.w i) (from_ s.e.log i)) ∧
    fromIn s.hist <+: inp := by
  have h := MInv.reach hn hr
  have hpre : ∀ i, i < cf.n → fromW s.hist i <+: stream (cf.w i) (s.consumed i) := by
    intro i hi
    have := h.work i hi
    rw [h.outq i, List.append_assoc, List.append_assoc] at this
    exact ⟨_, this⟩
  refine ⟨by rw [← h.emit], ?_, h.inq, hpre, ?_, ?_⟩
  · intro hidle
    obtain ⟨l, g, h1, h2, h3⟩ := h.e.log
    have hc := h.e.cmds
    rw [hidle] at h3 hc
    simp only [PartOk] at h3
    subst h3
    exact ⟨by simpa [EPc.cur] using hc, by rw [h1]; simpa using h2⟩
  · intro i hi
    exact (hpre i hi).trans (stream_mono _ ⟨s.inq i, (h.inq i).symm⟩)
  · have := h.inp
    rw [List.append_assoc] at this
    exact ⟨_, this⟩

/-! ## Channel identifiers -/

/-- no end mark has come from a worker -/
def NoEos (h : List (Ev D)) : Prop := ∀ x ∈ h, x.src ≠ none → x.m ≠ .eos

/-- every entry that no worker's end mark precedes has the right channel -/
def RightIds (h : List (Ev D)) : Prop := ∀ pre x post, h = pre ++ x :: post → NoEos pre → x.ch = x.src

structure ChInv (cf : Cfg D) {em : Em D} (s : M em) : Prop where
  len : s.avail ≠ []
  start : s.start < s.avail.length
  avail : NoEos s.hist → s.avail = List.range cf.n
  sub : ∀ i ∈ s.avail, i < cf.n
  right : RightIds s.hist

theorem RightIds.snoc {h : List (Ev D)} {x : Ev D} (hr : RightIds h) (hx : NoEos h → x.ch = x.src) :
    RightIds (h ++ [x]) := by
  intro pre y post he hp
  rcases List.eq_nil_or_concat post with rfl | ⟨ps, z, rfl⟩
  · have := List.append_inj' (s₁ := h) (t₁ := [x]) (s₂ := pre) (t₂ := [y]) (by simpa using he) rfl
    obtain ⟨rfl, h2⟩ := this
    simp only [List.cons.injEq, and_true] at h2
    subst h2; exact hx hp
  · have := List.append_inj' (s₁ := h) (t₁ := [x]) (s₂ := pre ++ y :: ps) (t₂ := [z]) (by simpa using he) rfl
    exact hr pre y ps this.1 hp

theorem next_lt {em : Em D} {s : M em} (h : s.avail ≠ []) (hs : s.start < s.avail.length) :
    s.next < s.avail.length := by
  unfold M.next
  split
  · exact List.length_pos_iff.2 h
  · omega

theorem handle_avail (cf : Cfg D) {em : Em D} (s : M em) (ch : Option Nat) (m : Msg D) :
    (erases cf m ch = true ∧ (s.handle cf ch m).avail = s.avail.eraseIdx (ch.getD 0) ∧
      (s.handle cf ch m).start = 0) ∨
    (erases cf m ch = false ∧ (s.handle cf ch m).avail = s.avail ∧ (s.handle cf ch m).start = s.start) := by
  have hmark : ∀ m, (s.mark cf ch m).avail =
      (if erases cf m ch then s.avail.eraseIdx (ch.getD 0) else s.avail) ∧
      (s.mark cf ch m).start = (if erases cf m ch then 0 else s.start) := by
    intro m
    simp only [M.mark]
    split <;> exact ⟨rfl, rfl⟩
  have hm' : ∀ m, (erases cf m ch = true ∧ (s.mark cf ch m).avail = s.avail.eraseIdx (ch.getD 0) ∧
      (s.mark cf ch m).start = 0) ∨
      (erases cf m ch = false ∧ (s.mark cf ch m).avail = s.avail ∧ (s.mark cf ch m).start = s.start) := by
    intro m
    obtain ⟨h1, h2⟩ := hmark m
    cases he : erases cf m ch with
    | true => left; simp [h1, h2, he]
    | false => right; simp [h1, h2, he]
  cases m
  case eos => exact hm' _
  case eosnf => exact hm' _
  all_goals exact Or.inr ⟨rfl, rfl, rfl⟩

theorem ChInv.step {cf : Cfg D} (hn : 0 < cf.n) {em : Em D} {s s' : M em} {a : MAct}
    (h : ChInv cf s) (hs : mstep cf s a = some s') : ChInv cf s' := by
  have hkeep : ∀ s' : M em, s'.avail = s.avail → s'.start = s.start → s'.hist = s.hist → ChInv cf s' := by
    intro s' h1 h2 h3
    exact ⟨by rw [h1]; exact h.len, by rw [h1, h2]; exact h.start, by rw [h1, h3]; exact h.avail,
      by rw [h1]; exact h.sub, by rw [h3]; exact h.right⟩
  have hnx := next_lt h.len h.start
  cases a with
  | emit =>
    simp only [mstep] at hs
    split at hs
    · simp at hs
    all_goals
      simp only [Option.some.injEq] at hs
      subst hs
      exact hkeep _ rfl rfl rfl
  | collect =>
    simp only [mstep] at hs
    split at hs
    · split at hs
      · simp only [Option.some.injEq] at hs
        subst hs
        exact hkeep _ rfl rfl rfl
      · rcases poll_cases hs with ⟨i, m, ms, hi, ho, rfl⟩ | ⟨m, ms, ho, rfl⟩ | ⟨c, _, rfl⟩
        · obtain ⟨z, hz⟩ : ∃ z : M em, z = { s with start := s.next, cnt := 0, outq := upd s.outq i ms
                                                    hist := s.hist ++ [⟨some i, some s.next, m⟩] } := ⟨_, rfl⟩
          rw [← hz]
          have sm := handle_same cf z (some s.next) m
          have hza : z.avail = s.avail := by rw [hz]
          have hzs : z.start = s.next := by rw [hz]
          have hzh : z.hist = s.hist ++ [⟨some i, some s.next, m⟩] := by rw [hz]
          have hright : RightIds (s.hist ++ [⟨some i, some s.next, m⟩]) := by
            refine h.right.snoc fun hne => ?_
            have := h.avail hne
            rw [this] at hi
            have hlt : s.next < cf.n := by rw [this] at hnx; simpa using hnx
            rw [List.getElem?_range hlt] at hi
            simpa using hi
          have hnoe : NoEos (s.hist ++ [⟨some i, some s.next, m⟩]) → NoEos s.hist ∧ m ≠ .eos := by
            intro hh
            exact ⟨fun x hx => hh x (by simp [hx]), hh ⟨some i, some s.next, m⟩ (by simp) (by simp)⟩
          rcases handle_avail cf z (some s.next) m with ⟨a1, a2, a3⟩ | ⟨a1, a2, a3⟩
          · have hme : m = .eos ∧ 0 < s.next := by
              cases m <;> simp [erases] at a1
              exact ⟨rfl, a1.1.1⟩
            rw [hza] at a2
            simp only [Option.getD_some] at a2
            have hlen : (s.avail.eraseIdx s.next).length = s.avail.length - 1 := by
              rw [List.length_eraseIdx, if_pos hnx]
            refine ⟨?_, ?_, ?_, ?_, ?_⟩
            · intro hh
              rw [a2] at hh
              rw [hh] at hlen
              simp at hlen; omega
            · rw [a2, a3, hlen]; omega
            · intro hh
              rw [sm.hist, hzh] at hh
              exact absurd hme.1 (hnoe hh).2
            · intro j hj; rw [a2] at hj
              exact h.sub j (List.mem_of_mem_eraseIdx hj)
            · rw [sm.hist, hzh]; exact hright
          · refine ⟨by rw [a2, hza]; exact h.len, by rw [a2, a3, hza, hzs]; exact hnx, ?_,
              by rw [a2, hza]; exact h.sub, by rw [sm.hist, hzh]; exact hright⟩
            intro hh
            rw [sm.hist, hzh] at hh
            rw [a2, hza]; exact h.avail (hnoe hh).1
        · obtain ⟨z, hz⟩ : ∃ z : M em, z = { s with start := s.next, cnt := 0, inb := ms
                                                    hist := s.hist ++ [⟨none, none, m⟩] } := ⟨_, rfl⟩
          rw [← hz]
          have sm := handle_same cf z none m
          have hza : z.avail = s.avail := by rw [hz]
          have hzs : z.start = s.next := by rw [hz]
          have hzh : z.hist = s.hist ++ [⟨none, none, m⟩] := by rw [hz]
          rcases handle_avail cf z none m with ⟨a1, _, _⟩ | ⟨a1, a2, a3⟩
          · cases m <;> simp [erases] at a1
          · refine ⟨by rw [a2, hza]; exact h.len, by rw [a2, a3, hza, hzs]; exact hnx, ?_,
              by rw [a2, hza]; exact h.sub, ?_⟩
            · intro hh
              rw [sm.hist, hzh] at hh
              rw [a2, hza]; exact h.avail fun x hx => hh x (by simp [hx])
            · rw [sm.hist, hzh]; exact h.right.snoc fun _ => rfl
        · exact ⟨h.len, hnx, h.avail, h.sub, h.right⟩
    · simp at hs
  | absorb =>
    simp only [mstep] at hs
    repeat' split at hs
    all_goals first
      | (simp at hs; done)
      | (simp only [Option.some.injEq] at hs
         subst hs
         exact hkeep _ rfl rfl rfl)
  | pop i =>
    simp only [mstep] at hs
    repeat' split at hs
    all_goals first
      | (simp at hs; done)
      | (simp only [Option.some.injEq] at hs
         subst hs
         exact hkeep _ rfl rfl rfl)
  | push i =>
    simp only [mstep] at hs
    repeat' split at hs
    all_goals first
      | (simp at hs; done)
      | (simp only [Option.some.injEq] at hs
         subst hs
         exact hkeep _ rfl rfl rfl)
  | arrive =>
    simp only [mstep] at hs
    repeat' split at hs
    all_goals first
      | (simp at hs; done)
      | (simp only [Option.some.injEq] at hs
         subst hs
         exact hkeep _ rfl rfl rfl)

theorem ChInv.init {cf : Cfg D} (hn : 0 < cf.n) (em : Em D) (inp : List (Msg D)) :
    ChInv cf (M.init cf em inp) where
  len := by simp only [M.init]; intro hh; have := congrArg List.length hh; simp at this; omega
  start := by simp [M.init, hn]
  avail _ := rfl
  sub i hi := by simpa [M.init] using hi
  right := by intro pre x post he; simp [M.init] at he

theorem ChInv.reach {cf : Cfg D} (hn : 0 < cf.n) {em : Em D} {inp0 : List (Msg D)} {s : M em}
    (hr : Reach (mstep cf) (M.init cf em inp0) s) : ChInv cf s :=
  hr.inv (ChInv.init hn em inp0) (fun _ _ _ h hs => h.step hn hs)

/-- **C57, channel identifiers**: the channel reported to the emitter with a message is the worker the
message comes from (none for the input channel), provided no worker has ended before. -/
theorem C57_channel_partial (cf : Cfg D) (hn : 0 < cf.n) (em : Em D) (inp : List (Msg D)) (s : M em)
    (hr : Reach (mstep cf) (M.init cf em inp) s) (pre post : List (Ev D)) (x : Ev D)
    (hh : s.hist = pre ++ x :: post) (hp : ∀ y ∈ pre, y.src ≠ none → y.m ≠ .eos) : x.ch = x.src :=
  (ChInv.reach hn hr).right pre x post hh hp

end FF.Farm
