import Verif.Farm.MasterLive
/-!
# Master-worker farm: the plain reading, `absorb_eos`, and what goes wrong
-/
namespace FF.Farm
open FF.Node
variable {D : Type}

/-- **C57, everything comes back**: when the emitter waits and nothing moves any more, it has received
from every worker everything the worker makes of everything that was sent to it. -/
theorem C57_quiet {cf : Cfg D} (hn : 0 < cf.n) {em : Em D} {inp : List (Msg D)} {s : M em}
    (hr : Reach (mstep cf) (M.init cf em inp) s) (hq : s.Quiet cf) :
    (∀ i, i < cf.n → fromW s.hist i = stream (cf.w i) (from_ s.e.log i)) ∧ fromIn s.hist = inp ∧
    Explains cf.n s.issued s.e.log := by
  have h := MInv.reach hn hr
  obtain ⟨h1, _, h3, h4, h5, h6, h7⟩ := hq
  refine ⟨fun i hi => ?_, ?_, ?_⟩
  · obtain ⟨a, b, c⟩ := h7 i hi
    have := h.work i hi
    rw [b, h.outq i, c, h.absd h1 i] at this
    rw [h.inq i, a]
    simpa using this
  · have := h.inp
    rw [h5, h6] at this; simpa using this
  · have := (C57_exactly_once cf hn em inp s hr).2.1 h3
    rw [h4, List.append_nil] at this
    rw [← this.1]; exact this.2

/-! ## `absorb_eos` -/

/-- after a failed assertion: the message that made it fail -/
structure FailInv (cf : Cfg D) {em : Em D} (s : M em) : Prop where
  fail : s.ph = .fail → s.e.pc = .idle ∧ s.e.cmds = [] ∧
    ∃ k m, k < cf.n ∧ s.absd k = [m] ∧ m ≠ .eos ∧ m ≠ .eosnf

theorem retPh_ne (cf : Cfg D) (m : Msg D) : retPh cf m ≠ .fail := by
  cases m <;> simp [retPh, leaving]

theorem handle_ph (cf : Cfg D) {em : Em D} (z : M em) (ch : Option Nat) (m : Msg D) (hz : z.ph = .loop) :
    (z.handle cf ch m).ph ≠ .fail := by
  cases m <;> simp only [M.handle]
  case goout => simp
  case eosw => simp [hz]
  case eos => simp only [M.mark]; split <;> split <;> simp
  case eosnf => simp only [M.mark]; split <;> split <;> simp
  all_goals exact retPh_ne cf _

theorem FailInv.step {cf : Cfg D} {em : Em D} {inp0 : List (Msg D)} {s s' : M em} {a : MAct}
    (h : MInv cf inp0 s) (hf : FailInv cf s) (hs : mstep cf s a = some s') : FailInv cf s' := by
  cases a with
  | emit =>
    simp only [mstep] at hs
    have hno : s.ph = .fail → False := by
      intro hp
      obtain ⟨h1, h2, _⟩ := hf.fail hp
      simp [E.attempt, h1, h2] at hs
    split at hs
    · simp at hs
    all_goals
      simp only [Option.some.injEq] at hs
      subst hs
      exact ⟨fun hp => (hno hp).elim⟩
  | collect =>
    simp only [mstep] at hs
    split at hs
    · rename_i hc
      simp only [Bool.and_eq_true, decide_eq_true_eq] at hc
      split at hs
      · simp only [Option.some.injEq] at hs
        subst hs
        exact ⟨fun hp => absurd hp (retPh_ne cf _)⟩
      · rcases poll_cases hs with ⟨i, m, ms, hi, ho, rfl⟩ | ⟨m, ms, ho, rfl⟩ | ⟨c, _, rfl⟩
        · exact ⟨fun hp => absurd hp (handle_ph cf _ _ _ hc.2)⟩
        · exact ⟨fun hp => absurd hp (handle_ph cf _ _ _ hc.2)⟩
        · exact ⟨fun hp => by simp only at hp; rw [hc.2] at hp; simp at hp⟩
    · simp at hs
  | absorb =>
    simp only [mstep] at hs
    split at hs
    · rename_i k hk
      split at hs
      · rename_i hkk
        simp only [Bool.and_eq_true, decide_eq_true_eq] at hkk
        split at hs
        · simp at hs
        · rename_i m ms ho
          simp only [Option.some.injEq] at hs
          subst hs
          refine ⟨fun hp => ⟨(free_iff.1 hkk.1).1, (free_iff.1 hkk.1).2, k, m, hkk.2, ?_, ?_⟩⟩
          · simp [upd, (h.absk k hk k).1 (Nat.le_refl _)]
          · cases m <;> simp at hp <;> simp
      · simp at hs
    · simp at hs
  | pop i =>
    simp only [mstep] at hs
    repeat' split at hs
    all_goals first
      | (simp at hs; done)
      | (simp only [Option.some.injEq] at hs
         subst hs
         exact ⟨hf.fail⟩)
  | push i =>
    simp only [mstep] at hs
    repeat' split at hs
    all_goals first
      | (simp at hs; done)
      | (simp only [Option.some.injEq] at hs
         subst hs
         exact ⟨hf.fail⟩)
  | arrive =>
    simp only [mstep] at hs
    repeat' split at hs
    all_goals first
      | (simp at hs; done)
      | (simp only [Option.some.injEq] at hs
         subst hs
         exact ⟨hf.fail⟩)

theorem FailInv.reach {cf : Cfg D} (hn : 0 < cf.n) {em : Em D} {inp0 : List (Msg D)} {s : M em}
    (hr : Reach (mstep cf) (M.init cf em inp0) s) : FailInv cf s :=
  (hr.inv (Inv := fun x => MInv cf inp0 x ∧ FailInv cf x)
    ⟨MInv.init cf em inp0, ⟨fun h => by simp [M.init] at h⟩⟩
    (fun _ _ _ h hs => ⟨h.1.step hn hs, FailInv.step h.1 h.2 hs⟩)).2

/-- a worker that sends nothing at the end of its stream -/
def SilentEnd (n : Node D) : Prop := ∀ st, (n.eosn st).2 = []

/-- the end of the stream adds what `eosnotify` sends and the end mark -/
theorem stream_eosn {n : Node D} (hn : Steady n) {ms : List (Msg D)} (hms : ∀ m ∈ ms, m.isData = true) :
    stream n (ms ++ [.eos]) = stream n ms ++ (n.eosn (after n ms).st).2 ++ [.eos] := by
  have hne : Msg.eos ∉ ms := fun hh => by have := hms _ hh; simp [Msg.isData] at this
  have hx : (after n ms).exited = false := by
    have := (Steady.exited_iff hn ms (L.start n 1) rfl rfl fun m hm => Or.inl (hms m hm)).1
    cases hh : (after n ms).exited with
    | false => rfl
    | true => exact absurd (this.1 hh) hne
  have hneos : (after n ms).neos = 1 := by
    have key : ∀ (ms : List (Msg D)) (l : L n), l.neos = 1 → l.exited = false → (∀ m ∈ ms, m.isData = true) →
        (run n l ms).1.neos = 1 := by
      intro ms
      induction ms with
      | nil => intro l h1 _ _; simpa [run] using h1
      | cons m ms ih =>
        intro l h1 h2 h3
        rw [run_cons n l h2]
        have hmd := h3 m (by simp)
        have hit : isTask m = true := by cases m <;> simp [Msg.isData] at hmd; rfl
        have hcont : continues (n.svc l.st m).2.2 = true := by
          cases hc : n.comp with
          | false => rcases hn.leaf hc l.st m (Or.inl hmd) with ⟨d, h⟩ | h | h <;> simp [h, continues]
          | true => simp [hn.comp hc l.st m (Or.inl hmd), continues]
        rw [body_task n l hit]
        exact ih _ (by simpa [svcBody] using h1) (by simp [svcBody, hcont]) fun x hx => h3 x (by simp [hx])
    exact key ms _ rfl rfl hms
  rw [stream_snoc n ms .eos hx]
  simp [body, markBody, hneos]

/-- the end of the stream adds just the end mark -/
theorem stream_eos {n : Node D} (hn : Steady n) (he : SilentEnd n) {ms : List (Msg D)}
    (hms : ∀ m ∈ ms, m.isData = true) : stream n (ms ++ [.eos]) = stream n ms ++ [.eos] := by
  rw [stream_eosn hn hms, he, List.append_nil]

/-- **C57, `absorb_eos`**: if the assertion that only end marks are left in the feedback channels
fails, then the emitter ended the stream although the results of some task it had sent had not all
been received. -/
theorem C57_absorb_partial {cf : Cfg D} (hn : 0 < cf.n) (hw : ∀ i, i < cf.n → Steady (cf.w i))
    (hse : ∀ i, i < cf.n → SilentEnd (cf.w i)) {em : Em D} (hm : Master cf.n em) {inp : List (Msg D)}
    (hg : GoodInput cf inp) {s : M em} (hr : Reach (mstep cf) (M.init cf em inp) s) (hp : s.ph = .fail) :
    ∃ i, i < cf.n ∧ fromW s.hist i ≠ stream (cf.w i) ((from_ s.e.log i).filter Msg.isData) := by
  obtain ⟨h, hc, hl⟩ := LInv.reach hn hw hm hg hr
  obtain ⟨h1, h2, k, m, hk, ha, hne, _⟩ := (FailInv.reach hn hr).fail hp
  obtain ⟨us, hu, he⟩ := hl.leave (by rw [hp]; simp)
  refine ⟨k, hk, fun heq => ?_⟩
  obtain ⟨l, g, e1, e2, e3⟩ := h.e.log
  rw [h1] at e3
  simp only [PartOk] at e3
  subst e3
  rw [List.append_nil] at e1
  have hdn : s.e.dn = us ++ [.bcast .eos] := by
    have := h.e.cmds
    rw [h1, h2, he] at this
    simpa [EPc.cur] using this
  rw [hdn] at e2
  obtain ⟨l1, l2, rfl, e4, g2, l3, rfl, e5, e6⟩ := e2.append_inv
  simp only [Explains] at e6
  subst e6
  have hlog : from_ s.e.log k = from_ l1 k ++ [.eos] := by
    rw [e1, List.append_nil, from_append, perm_eos e5 hk]
  have hdata : ∀ x ∈ from_ l1 k, x.isData = true := by
    intro x hx
    obtain ⟨c, hcm, rfl⟩ := e4.mem (mem_from.1 hx)
    exact hu.data c hcm
  have hfil : (from_ s.e.log k).filter Msg.isData = from_ l1 k := by
    rw [hlog, List.filter_append, List.filter_eq_self.2 hdata]
    simp [Msg.isData]
  rw [hfil] at heq
  have hpre : s.pushed k <+: stream (cf.w k) (from_ s.e.log k) := by
    have h3 : s.pushed k <+: stream (cf.w k) (s.consumed k) := ⟨_, h.work k hk⟩
    exact h3.trans (stream_mono _ ⟨s.inq k, (h.inq k).symm⟩)
  rw [hlog, stream_eos (hw k hk) (hse k hk) hdata, h.outq k, ha, heq] at hpre
  simp only [List.append_assoc] at hpre
  rw [List.prefix_append_right_inj] at hpre
  obtain ⟨t, ht⟩ := hpre
  simp only [List.cons_append, List.nil_append, List.cons.injEq] at ht
  exact hne ht.1

/-! ## The usual master: all tasks out, all results in -/

/-- The emitter of a plain master-worker program: it sends the tasks at its first call, collects the
results, and ends the stream with the last one.  State: results still to come (`none` before the
first call), results collected. -/
def classic (ts : List D) : Em D where
  σ := Option Nat × List D
  init := (none, [])
  svc := fun st _ m => match st.1, m with
    | none, .nul => ((some ts.length, []), ts.map (fun t => Cmd.sched (.data t)),
        if ts.length = 0 then .eos else .goon)
    | some k, .data d => ((some (k - 1), st.2 ++ [d]), [], if k = 1 then .eos else .goon)
    | _, _ => (st, [], .goon)
  eosn := fun st _ => (st, [])

theorem classic_master (n : Nat) (ts : List D) : Master n (classic ts) where
  cmds st ch m := by
    unfold classic
    simp only
    split
    · refine ⟨?_, ?_⟩
      · intro c hc
        simp only [List.mem_map] at hc
        obtain ⟨t, _, rfl⟩ := hc
        rfl
      · intro i m hm
        simp at hm
    · exact UserCmds.nil n
    · exact UserCmds.nil n
  ret st ch m := by
    unfold classic
    simp only
    split
    · split <;> simp
    · split <;> simp
    · simp
  eosn st ch := UserCmds.nil n

theorem costs_sched (n : Nat) (ts : List D) :
    costs n (ts.map (fun t => Cmd.sched (Msg.data t))) = 2 * ts.length := by
  induction ts with
  | nil => rfl
  | cons t ts ih => simp only [costs, List.map_cons, List.sum_cons, Cmd.cost, List.length_cons] at ih ⊢; omega

theorem classic_spends (n : Nat) (ts : List D) :
    Spends n (classic ts) (fun st => match st.1 with
      | none => 2 * ts.length + 2 * n + 3
      | some k => if k = 0 then 0 else 2 * n + 3) where
  svc st ch m := by
    rw [costs_append]
    unfold classic
    simp only
    split
    · rename_i h1
      rw [costs_sched]
      split
      · rename_i h2; simp [retCmds, costs, Cmd.cost, h1, h2]
      · rename_i h2; simp [retCmds, costs, h1, h2]; omega
    · rename_i k d h1
      by_cases hk : k = 1
      · subst hk; simp [retCmds, costs, Cmd.cost, h1]
      · by_cases hk0 : k = 0
        · subst hk0; simp [retCmds, costs, h1]
        · have : ¬ (k - 1 = 0) := by omega
          simp [retCmds, costs, h1, hk, hk0, this]
    · simp [retCmds, costs]
  eosn st ch := by simp [classic, costs]

/-- the state of the usual master -/
structure ClassicInv (cf : Cfg D) (ts : List D) (s : M (classic ts)) : Prop where
  src : ∀ x ∈ s.hist, ∃ i, i < cf.n ∧ x.src = some i
  first : s.first = true → s.es.1 = none ∧ s.issued = [] ∧ s.hist = []
  later : s.first = false → ∃ k, s.es.1 = some k ∧ k + s.hist.length = ts.length ∧
    s.es.2 = tasks (s.hist.map (·.m)) ∧
    s.issued = ts.map (fun t => Cmd.sched (.data t)) ++ (if k = 0 then [.bcast .eos] else []) ∧
    (s.ph = .loop ↔ k ≠ 0)

theorem tasks_append (a b : List (Msg D)) : tasks (a ++ b) = tasks a ++ tasks b := by simp [tasks]

theorem ClassicInv.step {cf : Cfg D} {ts : List D} (hw : ∀ i, i < cf.n → Steady (cf.w i))
    {s s' : M (classic ts)} {a : MAct} (h : MInv cf [] s) (hc : ChInv cf s) (hl : LInv cf s)
    (hk : ClassicInv cf ts s) (hs : mstep cf s a = some s') : ClassicInv cf ts s' := by
  have hkeep : ∀ s' : M (classic ts), s'.hist = s.hist → s'.first = s.first → s'.es = s.es →
      s'.issued = s.issued → (s'.ph = .loop ↔ s.ph = .loop) → ClassicInv cf ts s' := by
    intro s' h1 h2 h3 h4 h5
    exact ⟨by rw [h1]; exact hk.src, by rw [h1, h2, h3, h4]; exact hk.first,
      by rw [h1, h2, h3, h4, h5]; exact hk.later⟩
  cases a with
  | emit =>
    simp only [mstep] at hs
    split at hs
    · simp at hs
    all_goals
      simp only [Option.some.injEq] at hs
      subst hs
      exact hkeep _ rfl rfl rfl rfl Iff.rfl
  | collect =>
    simp only [mstep] at hs
    split at hs
    · rename_i hcc
      simp only [Bool.and_eq_true, decide_eq_true_eq] at hcc
      obtain ⟨_, hp⟩ := hcc
      split at hs
      · rename_i hf
        simp only [Option.some.injEq] at hs
        subst hs
        obtain ⟨f1, f2, f3⟩ := hk.first hf
        refine ⟨hk.src, fun hh => by simp [M.task, M.issue] at hh, fun _ => ?_⟩
        by_cases ht : ts.length = 0
        · refine ⟨0, ?_, ?_, ?_, ?_, ?_⟩
          · simp [M.task, M.issue, classic, f1, ht]
          · simp [M.task, M.issue, f3, ht]
          · simp [M.task, M.issue, classic, f1, f3, tasks]
          · simp [M.task, M.issue, classic, f1, f2, ht, retCmds]
          · simp [M.task, M.issue, classic, f1, ht, retPh, leaving_ne]
        · refine ⟨ts.length, ?_, ?_, ?_, ?_, ?_⟩
          · simp [M.task, M.issue, classic, f1]
          · simp [M.task, M.issue, f3]
          · simp [M.task, M.issue, classic, f1, f3, tasks]
          · simp [M.task, M.issue, classic, f1, f2, ht, retCmds]
          · simp [M.task, M.issue, classic, f1, ht, retPh]
      · rename_i hf
        simp only [Bool.not_eq_true] at hf
        obtain ⟨k, k1, k2, k3, k4, k5⟩ := hk.later hf
        have hk0 := k5.1 hp
        rcases poll_cases hs with ⟨i, m, ms, hi, ho, rfl⟩ | ⟨m, ms, ho, rfl⟩ | ⟨c, hcc, rfl⟩
        · have hin : i < cf.n := hc.sub i (List.mem_of_getElem? hi)
          have hmd := loop_outq hw h hl hp hin m (by rw [ho]; simp)
          obtain ⟨d, rfl⟩ : ∃ d, m = .data d := by
            cases m <;> simp [Msg.isData] at hmd; exact ⟨_, rfl⟩
          refine ⟨?_, ?_, fun _ => ?_⟩
          · intro x hx
            have hx' : x ∈ s.hist ++ [⟨some i, some s.next, .data d⟩] := hx
            simp only [List.mem_append, List.mem_singleton] at hx'
            rcases hx' with hx' | rfl
            · exact hk.src x hx'
            · exact ⟨i, hin, rfl⟩
          · intro hh
            have : s.first = true := hh
            rw [hf] at this; simp at this
          · refine ⟨k - 1, ?_, ?_, ?_, ?_, ?_⟩
            · simp [M.handle, M.task, M.issue, classic, k1]
            · show k - 1 + (s.hist ++ [_]).length = _
              simp only [List.length_append, List.length_cons, List.length_nil]
              omega
            · show _ = tasks ((s.hist ++ [(⟨some i, some s.next, .data d⟩ : Ev D)]).map Ev.m)
              rw [List.map_append, tasks_append, ← k3]
              simp [M.handle, M.task, M.issue, classic, k1, tasks]
            · by_cases h1 : k = 1
              · subst h1; simp [M.handle, M.task, M.issue, classic, k1, k4, retCmds]
              · have : ¬ (k - 1 = 0) := by omega
                simp [M.handle, M.task, M.issue, classic, k1, k4, retCmds, h1, hk0, this]
            · by_cases h1 : k = 1
              · subst h1; simp [M.handle, M.task, M.issue, classic, k1, retPh, leaving_ne]
              · have : ¬ (k - 1 = 0) := by omega
                simp [M.handle, M.task, M.issue, classic, k1, retPh, h1, this]
        · exfalso
          have := h.inp
          rw [ho] at this
          simp at this
        · exact hkeep _ rfl rfl rfl rfl Iff.rfl
    · simp at hs
  | absorb =>
    simp only [mstep] at hs
    split at hs
    · rename_i k hkk
      split at hs
      · split at hs
        · simp at hs
        · rename_i m ms ho
          simp only [Option.some.injEq] at hs
          subst hs
          refine hkeep _ rfl rfl rfl rfl ?_
          rw [hkk]
          cases m <;> simp
      · simp at hs
    · simp at hs
  | pop i =>
    simp only [mstep] at hs
    repeat' split at hs
    all_goals first
      | (simp at hs; done)
      | (simp only [Option.some.injEq] at hs
         subst hs
         exact hkeep _ rfl rfl rfl rfl Iff.rfl)
  | push i =>
    simp only [mstep] at hs
    repeat' split at hs
    all_goals first
      | (simp at hs; done)
      | (simp only [Option.some.injEq] at hs
         subst hs
         exact hkeep _ rfl rfl rfl rfl Iff.rfl)
  | arrive =>
    simp only [mstep] at hs
    repeat' split at hs
    all_goals first
      | (simp at hs; done)
      | (simp only [Option.some.injEq] at hs
         subst hs
         exact hkeep _ rfl rfl rfl rfl Iff.rfl)

theorem length_flatMap_range (g : Nat → List (Msg D)) (n : Nat) :
    ((List.range n).flatMap g).length = sumN (fun i => (g i).length) n := by
  induction n with
  | zero => rfl
  | succ n ih => rw [List.range_succ, List.flatMap_append, List.length_append, ih, sumN]; simp

theorem sumN_eq_le {f g : Nat → Nat} {n : Nat} (h : ∀ i, i < n → f i ≤ g i)
    (he : sumN g n ≤ sumN f n) : ∀ i, i < n → f i = g i := by
  have hle : ∀ n, (∀ i, i < n → f i ≤ g i) → sumN f n ≤ sumN g n := by
    intro n
    induction n with
    | zero => intro _; exact Nat.le_refl _
    | succ n ih =>
      intro h
      have := ih fun i hi => h i (by omega)
      have := h n (by omega)
      rw [sumN, sumN]; omega
  induction n with
  | zero => intro i hi; omega
  | succ n ih =>
    rw [sumN, sumN] at he
    have h1 := hle n fun i hi => h i (by omega)
    have h2 := h n (by omega)
    intro i hi
    by_cases hin : i = n
    · subst hin; omega
    · exact ih (fun i hi => h i (by omega)) (by omega) i (by omega)

/-- the history as a list of worker and message -/
def histPairs (h : List (Ev D)) : List (Nat × Msg D) := h.map fun x => (x.src.getD 0, x.m)

theorem from_pairs {h : List (Ev D)} (hs : ∀ x ∈ h, x.src ≠ none) (i : Nat) :
    from_ (histPairs h) i = fromW h i := by
  induction h with
  | nil => rfl
  | cons x xs ih =>
    have h1 := ih fun y hy => hs y (by simp [hy])
    have h2 := hs x (by simp)
    obtain ⟨src, ch, m⟩ := x
    cases src with
    | none => exact absurd rfl h2
    | some j =>
      simp only [histPairs, from_, fromW, List.map_cons, List.filter_cons, Option.getD_some] at h1 ⊢
      by_cases hj : j = i
      · subst hj; simpa using h1
      · simpa [hj] using h1

theorem fnNode_stream_data (f : D → D) (ds : List D) :
    stream (fnNode f) (ds.map .data) = (ds.map f).map .data := by
  have h1 := fnNode_stream f ds
  have h2 : stream (fnNode f) (ds.map .data ++ [.eos]) = stream (fnNode f) (ds.map .data) ++ [.eos] := by
    refine stream_eos (fnNode_steady f) (fun _ => rfl) ?_
    intro m hm
    simp only [List.mem_map] at hm
    obtain ⟨d, _, rfl⟩ := hm
    rfl
  rw [h1] at h2
  exact (List.append_inj' h2 rfl).1.symm

theorem tasks_data (ds : List D) : tasks (ds.map Msg.data) = ds := by
  induction ds with
  | nil => rfl
  | cons d ds ih => simpa [tasks] using ih

theorem data_list {l : List (Msg D)} (h : ∀ m ∈ l, m.isData = true) : l = (tasks l).map .data := by
  induction l with
  | nil => rfl
  | cons x xs ih =>
    have hx := h x (by simp)
    have h1 := ih fun m hm => h m (by simp [hm])
    cases x <;> simp [Msg.isData] at hx
    rename_i d
    show Msg.data d :: xs = Msg.data d :: (tasks xs).map .data
    rw [← h1]

theorem sched_log {n : Nat} (ts : List D) : ∀ (l : List (Nat × Msg D)),
    Explains n (ts.map (fun t => Cmd.sched (Msg.data t))) l → l.map Prod.snd = ts.map .data := by
  induction ts with
  | nil => intro l h; simp only [List.map_nil, Explains] at h; subst h; rfl
  | cons t ts ih =>
    intro l h
    obtain ⟨g, l', rfl, ⟨w, _, rfl⟩, h2⟩ := h
    simp [ih l' h2]

/-- Everything the usual master sent has come back exactly if it has received as many results as it
sent tasks. -/
theorem classic_all {cf : Cfg D} (f : D → D) (hcw : ∀ i, cf.w i = fnNode f) {ts : List D}
    {s : M (classic ts)} (h : MInv cf [] s) (hl : LInv cf s) (hk : ClassicInv cf ts s)
    {l1 : List (Nat × Msg D)} (hx : Explains cf.n (ts.map (fun t => Cmd.sched (.data t))) l1)
    (hform : ∀ i, i < cf.n → from_ s.e.log i = from_ l1 i ∨ from_ s.e.log i = from_ l1 i ++ [.eos]) :
    (∀ i, i < cf.n → (fromW s.hist i).length ≤ (from_ l1 i).length) ∧
    sumN (fun i => (fromW s.hist i).length) cf.n = s.hist.length ∧
    sumN (fun i => (from_ l1 i).length) cf.n = ts.length ∧
    ((∀ i, i < cf.n → (fromW s.hist i).length = (from_ l1 i).length) →
      (tasks (s.hist.map (·.m))).Perm (ts.map f) ∧
      ∀ i, i < cf.n → fromW s.hist i = stream (cf.w i) ((from_ s.e.log i).filter Msg.isData)) := by
  have hsrc : ∀ x ∈ s.hist, x.src ≠ none := by
    intro x hx hh
    obtain ⟨i, _, hi⟩ := hk.src x hx
    rw [hh] at hi; simp at hi
  have hchan : ∀ r m, (r, m) ∈ histPairs s.hist → r < cf.n := by
    intro r m hm
    simp only [histPairs, List.mem_map, Prod.mk.injEq] at hm
    obtain ⟨x, hx, rfl, _⟩ := hm
    obtain ⟨i, hi, he⟩ := hk.src x hx
    rw [he]; exact hi
  have hchan1 : ∀ r m, (r, m) ∈ l1 → r < cf.n := hx.chan (fun i m hm => by simp at hm)
  have p1 := perm_channels (histPairs s.hist) hchan
  have p2 := perm_channels l1 hchan1
  have hpm : (histPairs s.hist).map Prod.snd = s.hist.map (·.m) := by simp [histPairs]
  have hlm := sched_log ts l1 hx
  have hd1 : ∀ i, ∀ m ∈ from_ l1 i, m.isData = true := by
    intro i m hm
    have : m ∈ l1.map Prod.snd := List.mem_map.2 ⟨(i, m), mem_from.1 hm, rfl⟩
    rw [hlm] at this
    simp only [List.mem_map] at this
    obtain ⟨d, _, rfl⟩ := this
    rfl
  have hl1 : ∀ i, i < cf.n → (from_ s.e.log i).filter Msg.isData = from_ l1 i := by
    intro i hi
    rcases hform i hi with h | h <;> rw [h]
    · exact List.filter_eq_self.2 (hd1 i)
    · rw [List.filter_append, List.filter_eq_self.2 (hd1 i)]; simp [Msg.isData]
  have hst : ∀ i, i < cf.n → stream (cf.w i) ((from_ s.e.log i).filter Msg.isData) =
      ((tasks (from_ l1 i)).map f).map .data := by
    intro i hi
    rw [hl1 i hi, hcw i]
    conv => lhs; rw [data_list (hd1 i)]
    exact fnNode_stream_data f _
  have hlen1 : ∀ i, (tasks (from_ l1 i)).length = (from_ l1 i).length := by
    intro i
    conv => rhs; rw [data_list (hd1 i)]
    simp
  have hpre : ∀ i, i < cf.n → fromW s.hist i <+: stream (cf.w i) ((from_ s.e.log i).filter Msg.isData) := by
    intro i hi
    have h3 : fromW s.hist i <+: s.pushed i := by
      rw [h.outq i, List.append_assoc]; exact ⟨_, rfl⟩
    have h4 : s.pushed i <+: stream (cf.w i) (from_ s.e.log i) :=
      (show s.pushed i <+: stream (cf.w i) (s.consumed i) from ⟨_, h.work i hi⟩).trans
        (stream_mono _ ⟨s.inq i, (h.inq i).symm⟩)
    have h5 := h3.trans h4
    have hfd : ∀ m ∈ fromW s.hist i, m.isData = true := by
      intro m hm
      simp only [fromW, List.mem_map, List.mem_filter, decide_eq_true_eq] at hm
      obtain ⟨x, ⟨hx1, hx2⟩, rfl⟩ := hm
      exact hl.data x hx1 (by rw [hx2]; simp)
    rw [hl1 i hi]
    rcases hform i hi with hh | hh
    · rw [hh] at h5; exact h5
    · rw [hh, hcw i, stream_eos (fnNode_steady f) (fun _ => rfl) (hd1 i), ← hcw i] at h5
      rcases List.prefix_concat_iff.1 (by simpa using h5) with h6 | h6
      · have : Msg.eos ∈ fromW s.hist i := by rw [h6]; simp
        have := hfd _ this
        simp [Msg.isData] at this
      · exact h6
  have hlenst : ∀ i, i < cf.n → (stream (cf.w i) ((from_ s.e.log i).filter Msg.isData)).length =
      (from_ l1 i).length := by
    intro i hi
    rw [hst i hi]; simp [hlen1 i]
  refine ⟨fun i hi => by rw [← hlenst i hi]; exact (hpre i hi).length_le, ?_, ?_, ?_⟩
  · have := p1.length_eq
    rw [length_flatMap_range] at this
    rw [sumN_congr fun i _ => by rw [← from_pairs hsrc i], ← this]
    simp [histPairs]
  · have := p2.length_eq
    rw [length_flatMap_range, hlm] at this
    simpa using this.symm
  · intro heq
    have hall : ∀ i, i < cf.n → fromW s.hist i = stream (cf.w i) ((from_ s.e.log i).filter Msg.isData) := by
      intro i hi
      exact (hpre i hi).eq_of_length (by rw [heq i hi, hlenst i hi])
    refine ⟨?_, hall⟩
    have hi : ∀ i, i < cf.n → tasks (from_ (histPairs s.hist) i) = (tasks (from_ l1 i)).map f := by
      intro i hi
      rw [from_pairs hsrc i, hall i hi, hst i hi, tasks_data]
    have hflat : ∀ (k : Nat), k ≤ cf.n → ((List.range k).flatMap fun i => tasks (from_ (histPairs s.hist) i)) =
        ((List.range k).flatMap fun i => tasks (from_ l1 i)).map f := by
      intro k
      induction k with
      | zero => intro _; rfl
      | succ k ih =>
        intro hk
        rw [List.range_succ, List.flatMap_append, List.flatMap_append, ih (by omega), List.map_append]
        simp [hi k (by omega)]
    have q1 := p1.filterMap (fun m => match m with | Msg.data d => some d | _ => none)
    have q2 := p2.filterMap (fun m => match m with | Msg.data d => some d | _ => none)
    rw [List.filterMap_flatMap] at q1 q2
    have q2' : (tasks (l1.map Prod.snd)).Perm ((List.range cf.n).flatMap fun i => tasks (from_ l1 i)) := q2
    have q1' : (tasks ((histPairs s.hist).map Prod.snd)).Perm
        ((List.range cf.n).flatMap fun i => tasks (from_ (histPairs s.hist) i)) := q1
    rw [hlm, tasks_data] at q2'
    rw [hflat cf.n (Nat.le_refl _), hpm] at q1'
    exact q1'.trans (q2'.map f).symm

/-- **C57, the plain reading**: a master-worker farm with any number of workers computing `f`, whose
emitter sends the tasks `ts`, collects the results and ends the stream with the last one: from every
reachable state (every schedule so far, any capacities, whether or not the farm freezes at the end) the
state in which the emitter and all workers have ended is reachable, and there the emitter has received
exactly the results `f t`, each as many times as `t` occurs among the tasks. -/
theorem C57_map {cf : Cfg D} (hn : 0 < cf.n) (hci : ∀ i, i < cf.n → 0 < cf.ci i) (f : D → D)
    (hcw : ∀ i, cf.w i = fnNode f) (hin : cf.inpresent = false) (ts : List D) {s : M (classic ts)}
    (hr : Reach (mstep cf) (M.init cf (classic ts) []) s) :
    ∃ s', Reach (mstep cf) s s' ∧ s'.Final cf ∧ s'.es.2.Perm (ts.map f) := by
  have hw : ∀ i, i < cf.n → Steady (cf.w i) := fun i _ => by rw [hcw i]; exact fnNode_steady f
  have hg : GoodInput cf ([] : List (Msg D)) := ⟨by simp, by simp, fun _ => rfl⟩
  have hm := classic_master cf.n ts
  obtain ⟨s', h1, h2⟩ := C57_completes_partial hn hw hci hm (classic_spends cf.n ts) hg hr
  have hr' := hr.trans h1
  obtain ⟨h, hc, hl⟩ := LInv.reach hn hw hm hg hr'
  have hk : ClassicInv cf ts s' := by
    refine (hr'.inv (Inv := fun x => (MInv cf [] x ∧ ChInv cf x ∧ LInv cf x) ∧ ClassicInv cf ts x)
      ⟨⟨MInv.init cf _ _, ChInv.init hn _ _, LInv.init hn _ _⟩, ?_⟩ ?_).2
    · refine ⟨by intro x hx; simp [M.init] at hx, fun _ => ⟨rfl, rfl, rfl⟩, ?_⟩
      intro hh; simp [M.init, hin] at hh
    · intro x a y ⟨⟨a1, a2, a3⟩, a4⟩ hs
      exact ⟨⟨a1.step hn hs, a2.step hn hs, LInv.step hn hw hm hg a1 a2 a3 hs⟩,
        ClassicInv.step hw a1 a2 a3 a4 hs⟩
  -- once the emitter has left its loop and sent everything, everything has come back
  have hleft : s'.ph ≠ .loop → s'.e.pc = .idle → s'.e.cmds = [] →
      s'.es.2.Perm (ts.map f) ∧
      ∀ i, i < cf.n → fromW s'.hist i = stream (cf.w i) ((from_ s'.e.log i).filter Msg.isData) := by
    intro hp hpc hcm
    have hf : s'.first = false := by
      cases hh : s'.first with
      | false => rfl
      | true => exact absurd (h.first hh).2.2 hp
    obtain ⟨k, k1, k2, k3, k4, k5⟩ := hk.later hf
    have hk0 : k = 0 := Classical.byContradiction fun hh => hp (k5.2 hh)
    subst hk0
    rw [if_pos rfl] at k4
    obtain ⟨l, g, e1, e2, e3⟩ := h.e.log
    rw [hpc] at e3
    simp only [PartOk] at e3
    subst e3
    rw [List.append_nil] at e1
    have hdn : s'.e.dn = ts.map (fun t => Cmd.sched (.data t)) ++ [.bcast .eos] := by
      have := h.e.cmds
      rw [hpc, hcm, k4] at this
      simpa [EPc.cur] using this
    rw [hdn] at e2
    obtain ⟨l1, l2, rfl, e4, g2, l3, rfl, e5, e6⟩ := e2.append_inv
    simp only [Explains] at e6
    subst e6
    obtain ⟨b1, b2, b3, b4⟩ := classic_all f hcw h hl hk e4 (fun i hi => Or.inr (by
      rw [e1, List.append_nil, from_append, perm_eos e5 hi]))
    have := b4 (sumN_eq_le b1 (by rw [b2, b3]; omega))
    exact ⟨by rw [k3]; exact this.1, this.2⟩
  rcases h2 with h2 | h2 | h2
  · refine ⟨s', h1, h2, (hleft ?_ h2.1.2.1 h2.1.2.2).1⟩
    rw [h2.1.1]; simp
  · exfalso
    obtain ⟨q1, _, q3⟩ := C57_quiet hn hr' h2
    obtain ⟨c1, c2, c3, c4, _⟩ := h2
    obtain ⟨k, k1, k2, k3, k4, k5⟩ := hk.later c2
    have hk0 := k5.1 c1
    rw [if_neg hk0, List.append_nil] at k4
    rw [k4] at q3
    obtain ⟨b1, b2, b3, _⟩ := classic_all f hcw h hl hk q3 (fun i hi => Or.inl rfl)
    have hlen : ∀ i, i < cf.n → (fromW s'.hist i).length = (from_ s'.e.log i).length := by
      intro i hi
      rw [q1 i hi, hcw i]
      have hd : ∀ m ∈ from_ s'.e.log i, m.isData = true := loop_consumed h hl c1 i
      conv => lhs; rw [data_list hd]
      conv => rhs; rw [data_list hd]
      rw [fnNode_stream_data]; simp
    have := sumN_congr hlen
    omega
  · exfalso
    obtain ⟨f1, f2, _⟩ := (FailInv.reach hn hr').fail h2
    obtain ⟨i, hi, hne⟩ := C57_absorb_partial hn hw (fun i _ => by rw [hcw i]; exact fun _ => rfl) hm hg hr' h2
    exact hne ((hleft (by rw [h2]; simp) f1 f2).2 i hi)

-- two workers, queues of capacity 1, three tasks: the hypotheses are met and the farm ends
example : ∃ s : M (classic [3, 4, 5]), Reach (mstep ⟨2, fun _ => fnNode (· + 1), fun _ => 1, false, false⟩)
    (M.init ⟨2, fun _ => fnNode (· + 1), fun _ => 1, false, false⟩ (classic [3, 4, 5]) []) s ∧
    s.Final ⟨2, fun _ => fnNode (· + 1), fun _ => 1, false, false⟩ ∧ s.es.2 = [5, 4, 6] := by
  refine ⟨_, ⟨[.collect, .emit, .emit, .emit, .emit, .emit, .pop 0, .emit, .pop 1, .push 1, .collect,
    .push 0, .collect, .pop 0, .push 0, .collect, .collect, .emit, .emit, .emit, .emit, .emit,
    .pop 0, .push 0, .pop 1, .push 1], rfl⟩, ⟨⟨rfl, rfl, rfl⟩, ?_⟩, rfl⟩
  intro i hi
  have : i = 0 ∨ i = 1 := by simp only at hi; omega
  rcases this with rfl | rfl <;> exact ⟨rfl, rfl⟩

/-! ## What goes wrong -/

/-- an emitter that ends worker 1 and sends a task to worker 2 -/
def ender : Em Nat where
  σ := Unit
  init := ()
  svc := fun _ _ m => match m with
    | .nul => ((), [.sendTo 1 .eos, .sendTo 2 (.data 7)], .goon)
    | _ => ((), [], .goon)
  eosn := fun _ _ => ((), [])

/-- **C57, wrong channel**: after the emitter has received the end mark of worker 1, a message of worker
2 is reported as coming from channel 1 (`availworkers` has lost an element, and its positions are used
as channel identifiers). -/
theorem C57_channel_counterexample :
    ∃ s : M ender, Reach (mstep ⟨3, fun _ => fnNode id, fun _ => 1, false, false⟩)
      (M.init ⟨3, fun _ => fnNode id, fun _ => 1, false, false⟩ ender []) s ∧
      ∃ x ∈ s.hist, x.m = .data 7 ∧ x.src = some 2 ∧ x.ch = some 1 := by
  refine ⟨_, ⟨[.collect, .emit, .emit, .emit, .emit, .pop 1, .push 1, .pop 2, .push 2, .collect, .collect], rfl⟩,
    ⟨some 2, some 1, .data 7⟩, List.Mem.tail _ (List.Mem.head _), rfl, rfl, rfl⟩

/-- an emitter that sends a task and ends the stream without waiting for the result -/
def hasty : Em Nat where
  σ := Unit
  init := ()
  svc := fun _ _ m => match m with
    | .nul => ((), [.sched (.data 5)], .eos)
    | _ => ((), [], .goon)
  eosn := fun _ _ => ((), [])

/-- **C57, results lost**: if the emitter ends the stream before a result has come back, the farm ends
with the result in the feedback channel: the emitter never receives it. -/
theorem C57_lost_counterexample :
    ∃ s : M hasty, Reach (mstep ⟨1, fun _ => fnNode (· + 1), fun _ => 1, false, false⟩)
      (M.init ⟨1, fun _ => fnNode (· + 1), fun _ => 1, false, false⟩ hasty []) s ∧
      s.Final ⟨1, fun _ => fnNode (· + 1), fun _ => 1, false, false⟩ ∧ s.hist.length = 0 ∧
      s.outq 0 = [.data 6, .eos] := by
  refine ⟨_, ⟨[.collect, .emit, .emit, .pop 0, .push 0, .emit, .emit, .emit, .emit, .pop 0, .push 0], rfl⟩,
    ⟨⟨rfl, rfl, rfl⟩, ?_⟩, rfl, rfl⟩
  intro i hi
  have : i = 0 := by simp only at hi; omega
  subst this; exact ⟨rfl, rfl⟩

/-- **C57, `absorb_eos` fails**: the same emitter in a farm that freezes at the end of the stream makes
the assertion of `absorb_eos` fail. -/
theorem C57_absorb_counterexample :
    ∃ s : M hasty, Reach (mstep ⟨1, fun _ => fnNode (· + 1), fun _ => 1, false, true⟩)
      (M.init ⟨1, fun _ => fnNode (· + 1), fun _ => 1, false, true⟩ hasty []) s ∧ s.ph = .fail :=
  ⟨_, ⟨[.collect, .emit, .emit, .pop 0, .push 0, .emit, .emit, .emit, .emit, .absorb], rfl⟩, rfl⟩

/-- The state in which a second run of the farm starts, if nothing empties the feedback channels: the
loop starts anew on the channels as the first run left them. -/
def M.again (cf : Cfg D) {em : Em D} (s : M em) : M em :=
  { M.init cf em [] with inq := s.inq, outq := s.outq }

/-- **C57, second run**: the usual master with one task, run twice without freezing and without
`reset`.  The first run ends with the worker's end mark left in the feedback channel.  In the second
run the emitter takes it for the end of the worker and leaves: it receives no result, and the worker is
never told to end, so that waiting for the farm never returns. -/
theorem C57_rerun_counterexample :
    ∃ s s2 : M (classic [3]),
      Reach (mstep ⟨1, fun _ => fnNode (· + 1), fun _ => 1, false, false⟩)
        (M.init ⟨1, fun _ => fnNode (· + 1), fun _ => 1, false, false⟩ (classic [3]) []) s ∧
      s.Final ⟨1, fun _ => fnNode (· + 1), fun _ => 1, false, false⟩ ∧ s.es.2 = [4] ∧
      Reach (mstep ⟨1, fun _ => fnNode (· + 1), fun _ => 1, false, false⟩)
        (s.again ⟨1, fun _ => fnNode (· + 1), fun _ => 1, false, false⟩) s2 ∧
      s2.Ended ⟨1, fun _ => fnNode (· + 1), fun _ => 1, false, false⟩ ∧ s2.es.2 = [] ∧
      ∀ s3, Reach (mstep ⟨1, fun _ => fnNode (· + 1), fun _ => 1, false, false⟩) s2 s3 →
        (after (fnNode (· + 1)) (s3.consumed 0)).exited = false ∧ s3.es.2 = [] := by
  refine ⟨_, _, ⟨[.collect, .emit, .emit, .pop 0, .push 0, .collect, .emit, .emit, .emit, .emit, .pop 0, .push 0], rfl⟩,
    ⟨⟨rfl, rfl, rfl⟩, ?_⟩, rfl, ⟨[.collect, .emit, .emit, .collect], rfl⟩, ⟨rfl, rfl, rfl⟩, rfl, ?_⟩
  · intro i hi
    have : i = 0 := by simp only at hi; omega
    subst this; exact ⟨rfl, rfl⟩
  · intro s3 hr
    have hinv := hr.inv (Inv := fun x : M (classic [3]) => x.ph = .leave 1 ∧ x.e.pc = .idle ∧ x.e.cmds = [] ∧
        x.es.2 = [] ∧ x.consumed 0 ++ x.inq 0 = [.data 3]) ⟨rfl, rfl, rfl, rfl, rfl⟩ ?_
    · obtain ⟨_, _, _, h4, h5⟩ := hinv
      refine ⟨?_, h4⟩
      rcases List.append_eq_singleton_iff.1 h5 with ⟨h6, _⟩ | ⟨h6, _⟩ <;> rw [h6] <;> rfl
    · rintro x a y ⟨h1, h2, h3, h4, h5⟩ hs
      cases a with
      | emit => simp [mstep, E.attempt, h2, h3] at hs
      | collect => simp [mstep, h1] at hs
      | absorb => simp [mstep, h1] at hs
      | pop i =>
        simp only [mstep] at hs
        split at hs
        · rename_i hc
          have hi : i = 0 := by have : i < 1 := hc.1; omega
          subst hi
          split at hs
          · simp at hs
          · rename_i m ms hm
            simp only [Option.some.injEq] at hs
            subst hs
            refine ⟨h1, h2, h3, h4, ?_⟩
            rw [hm] at h5
            simpa [upd] using h5
        · simp at hs
      | push i =>
        simp only [mstep] at hs
        repeat' split at hs
        all_goals first
          | (simp at hs; done)
          | (simp only [Option.some.injEq] at hs
             subst hs
             exact ⟨h1, h2, h3, h4, h5⟩)
      | arrive =>
        simp only [mstep] at hs
        repeat' split at hs
        all_goals first
          | (simp at hs; done)
          | (simp only [Option.some.injEq] at hs
             subst hs
             exact ⟨h1, h2, h3, h4, h5⟩)

end FF.Farm
