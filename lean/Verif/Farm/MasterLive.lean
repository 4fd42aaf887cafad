import Verif.Farm.MasterInv
import Verif.Farm.FarmLive
/-!
# Master-worker farm: no deadlock, no endless activity

For emitters that send tasks only and end the stream by returning `EOS` (or `NULL`).
-/
namespace FF.Farm
open FF.Node
variable {D : Type}

/-- An emitter that sends tasks only, to existing workers, and returns a task, `GO_ON`, or the end of
the stream. -/
structure Master (n : Nat) (em : Em D) : Prop where
  cmds : ∀ st ch m, UserCmds n (em.svc st ch m).2.1
  ret : ∀ st ch m, (∃ d, (em.svc st ch m).2.2 = .data d) ∨ (em.svc st ch m).2.2 = .goon ∨
    (em.svc st ch m).2.2 = .flush ∨ (em.svc st ch m).2.2 = .nul ∨ (em.svc st ch m).2.2 = .eos
  eosn : ∀ st ch, UserCmds n (em.eosn st ch).2

/-- What arrives on the input channel: tasks and at most one `EOS`; nothing if there is no channel. -/
structure GoodInput (cf : Cfg D) (inp : List (Msg D)) : Prop where
  fits : ∀ m ∈ inp, m.isData = true ∨ m = .eos
  one : inp.countP (fun m => m.isMark) ≤ 1
  absent : cf.inpresent = false → inp = []

theorem UserCmds.nil (n : Nat) : UserCmds n ([] : List (Cmd D)) := ⟨by simp, by intro i m h; simp at h⟩

theorem UserCmds.append {n : Nat} {a b : List (Cmd D)} (ha : UserCmds n a) (hb : UserCmds n b) :
    UserCmds n (a ++ b) where
  data c hc := (List.mem_append.1 hc).elim (ha.data c) (hb.data c)
  valid i m hm := (List.mem_append.1 hm).elim (ha.valid i m) (hb.valid i m)

theorem UserCmds.sched (n : Nat) (d : D) : UserCmds n [Cmd.sched (.data d)] :=
  ⟨by simp [Cmd.msg, Msg.isData], by intro i m h; simp at h⟩

/-- everything put comes from a command -/
theorem EInv.mem {n : Nat} {cs : List (Cmd D)} {e : E D} (h : EInv n cs e) {i : Nat} {m : Msg D}
    (hm : (i, m) ∈ e.log) : ∃ c ∈ cs, m = c.msg := by
  obtain ⟨l, g, h1, h2, h3⟩ := h.log
  rw [h1] at hm
  rw [← h.cmds]
  rcases List.mem_append.1 hm with hm | hm
  · obtain ⟨c, hc, rfl⟩ := h2.mem hm
    exact ⟨c, by simp [hc], rfl⟩
  · obtain ⟨c, hc, rfl⟩ := h3.mem hm
    exact ⟨c, by simp [hc], rfl⟩

structure LInv (cf : Cfg D) {em : Em D} (s : M em) : Prop where
  loop : s.ph = .loop → UserCmds cf.n s.issued
  leave : s.ph ≠ .loop → ∃ us, UserCmds cf.n us ∧ s.issued = us ++ [.bcast .eos]
  le : ∀ k, s.ph = .leave k → k ≤ cf.n
  data : ∀ x ∈ s.hist, x.src ≠ none → x.m.isData = true
  nw : s.ph = .loop → s.nw + (fromIn s.hist).countP (fun m => m.isMark) =
    cf.n + (if cf.inpresent then 1 else 0)
  cnt : s.cnt < s.avail.length
  abs : ∀ k, s.ph = .leave k → (cf.inpresent || cf.frozen) = true → ∀ i, i < k → s.absd i ≠ []

section
variable {cf : Cfg D} {em : Em D} {inp0 : List (Msg D)} {s s' : M em}

/-- while the emitter is in its loop the workers have received tasks only -/
theorem loop_consumed (h : MInv cf inp0 s) (hl : LInv cf s) (hp : s.ph = .loop) (i : Nat) :
    ∀ m ∈ from_ s.e.log i, m.isData = true := by
  intro m hm
  obtain ⟨c, hc, rfl⟩ := h.e.mem (mem_from.1 hm)
  exact (hl.loop hp).data c hc

/-- at any time the workers have received tasks and `EOS` -/
theorem log_fits (h : MInv cf inp0 s) (hl : LInv cf s) (i : Nat) :
    ∀ m ∈ from_ s.e.log i, m.isData = true ∨ m = .eos := by
  by_cases hp : s.ph = .loop
  · exact fun m hm => Or.inl (loop_consumed h hl hp i m hm)
  · obtain ⟨us, hu, he⟩ := hl.leave hp
    have := h.e
    rw [he] at this
    exact this.fits hu i

theorem consumed_fits (h : MInv cf inp0 s) (hl : LInv cf s) (i : Nat) :
    ∀ m ∈ s.consumed i, m.isData = true ∨ m = .eos := fun m hm =>
  log_fits h hl i m (by rw [h.inq i]; exact List.mem_append_left _ hm)

/-- what is in the feedback channels is a task while the emitter is in its loop -/
theorem loop_outq (hw : ∀ i, i < cf.n → Steady (cf.w i)) (h : MInv cf inp0 s) (hl : LInv cf s)
    (hp : s.ph = .loop) {i : Nat} (hi : i < cf.n) : ∀ m ∈ s.outq i, m.isData = true := by
  intro m hm
  have h1 : m ∈ stream (cf.w i) (s.consumed i) := by
    rw [← h.work i hi, h.outq i]
    simp [hm]
  exact Steady.run_data (hw i hi) (s.consumed i) (L.start _ 1) rfl
    (fun x hx => loop_consumed h hl hp i x (by rw [h.inq i]; exact List.mem_append_left _ hx)) m h1

theorem leaving_le (cf : Cfg D) : ∀ k, leaving cf = .leave k → k ≤ cf.n := by
  intro k hk
  unfold leaving at hk
  split at hk <;> simp only [Ph.leave.injEq] at hk <;> omega

theorem leaving_zero (cf : Cfg D) : ∀ k, leaving cf = .leave k → (cf.inpresent || cf.frozen) = true → k = 0 := by
  intro k hk hh
  simp only [leaving, hh, if_true, Ph.leave.injEq] at hk
  exact hk.symm

theorem leaving_ne (cf : Cfg D) : leaving cf ≠ .loop := by unfold leaving; simp

/-- `svc` is called in the loop -/
theorem LInv.task (hm : Master cf.n em) {z : M em} {ch : Option Nat} {m : Msg D}
    (h1 : UserCmds cf.n z.issued) (h2 : ∀ x ∈ z.hist, x.src ≠ none → x.m.isData = true)
    (h3 : z.nw + (fromIn z.hist).countP (fun m => m.isMark) = cf.n + (if cf.inpresent then 1 else 0))
    (h4 : z.cnt < z.avail.length) : LInv cf (z.task cf ch m) := by
  have hiss : (z.task cf ch m).issued = z.issued ++
      ((em.svc z.es ch m).2.1 ++ retCmds (em.svc z.es ch m).2.2) := rfl
  have hph : (z.task cf ch m).ph = retPh cf (em.svc z.es ch m).2.2 := rfl
  have hu := hm.cmds z.es ch m
  have hnl := leaving_ne cf
  refine { loop := ?_, leave := ?_, le := ?_, data := h2, nw := fun _ => h3, cnt := h4, abs := ?_ }
  · intro hp
    rw [hph] at hp
    rw [hiss]
    rcases hm.ret z.es ch m with ⟨d, hr⟩ | hr | hr | hr | hr <;> rw [hr] at hp ⊢ <;>
      simp only [retPh, retCmds, List.append_nil] at hp ⊢
    · exact h1.append (hu.append (UserCmds.sched _ d))
    · exact h1.append hu
    · exact h1.append hu
    · exact absurd hp hnl
    · exact absurd hp hnl
  · intro hp
    rw [hph] at hp
    rw [hiss]
    rcases hm.ret z.es ch m with ⟨d, hr⟩ | hr | hr | hr | hr <;> rw [hr] at hp ⊢ <;>
      simp only [retPh, retCmds, ne_eq, not_true_eq_false] at hp ⊢
    all_goals exact ⟨z.issued ++ (em.svc z.es ch m).2.1, h1.append hu, by simp⟩
  · intro k hk
    rw [hph] at hk
    rcases hm.ret z.es ch m with ⟨d, hr⟩ | hr | hr | hr | hr <;> rw [hr] at hk <;>
      simp only [retPh, reduceCtorEq] at hk
    all_goals exact leaving_le cf k hk
  · intro k hk hh i hi
    rw [hph] at hk
    rcases hm.ret z.es ch m with ⟨d, hr⟩ | hr | hr | hr | hr <;> rw [hr] at hk <;>
      simp only [retPh, reduceCtorEq] at hk
    all_goals (have := leaving_zero cf k hk hh; omega)

theorem LInv.init (hn : 0 < cf.n) (em : Em D) (inp : List (Msg D)) : LInv cf (M.init cf em inp) where
  loop _ := UserCmds.nil _
  leave h := absurd rfl h
  le k hk := by simp [M.init] at hk
  data x hx := by simp [M.init] at hx
  nw _ := by simp [M.init, fromIn]
  cnt := by simp [M.init, hn]
  abs k hk := by simp [M.init] at hk

theorem LInv.step (hn : 0 < cf.n) (hw : ∀ i, i < cf.n → Steady (cf.w i)) (hm : Master cf.n em)
    (hg : GoodInput cf inp0) {a : MAct} (h : MInv cf inp0 s) (hc : ChInv cf s) (hl : LInv cf s)
    (hs : mstep cf s a = some s') : LInv cf s' := by
  have hkeep : ∀ s' : M em, s'.avail = s.avail → s'.cnt = s.cnt → s'.hist = s.hist →
      s'.issued = s.issued → s'.ph = s.ph → s'.nw = s.nw → s'.absd = s.absd → LInv cf s' := by
    intro s' h1 h2 h3 h4 h5 h6 h7
    exact ⟨by rw [h4, h5]; exact hl.loop, by rw [h4, h5]; exact hl.leave, by rw [h5]; exact hl.le,
      by rw [h3]; exact hl.data, by rw [h3, h5, h6]; exact hl.nw, by rw [h1, h2]; exact hl.cnt, by rw [h5, h7]; exact hl.abs⟩
  have hnx := next_lt hc.len hc.start
  have hpos := List.length_pos_iff.2 hc.len
  cases a with
  | emit =>
    simp only [mstep] at hs
    split at hs
    · simp at hs
    all_goals
      simp only [Option.some.injEq] at hs
      subst hs
      exact hkeep _ rfl rfl rfl rfl rfl rfl rfl
  | collect =>
    simp only [mstep] at hs
    split at hs
    · rename_i hcc
      simp only [Bool.and_eq_true, decide_eq_true_eq] at hcc
      obtain ⟨_, hp⟩ := hcc
      split at hs
      · simp only [Option.some.injEq] at hs
        subst hs
        exact LInv.task hm (hl.loop hp) hl.data (hl.nw hp) hl.cnt
      · rename_i hf
        rcases poll_cases hs with ⟨i, m, ms, hi, ho, rfl⟩ | ⟨m, ms, ho, rfl⟩ | ⟨c, hcc, rfl⟩
        · have hin : i < cf.n := hc.sub i (List.mem_of_getElem? hi)
          have hmd := loop_outq hw h hl hp hin m (by rw [ho]; simp)
          obtain ⟨d, rfl⟩ : ∃ d, m = .data d := by
            cases m <;> simp [Msg.isData] at hmd; exact ⟨_, rfl⟩
          simp only [M.handle]
          refine LInv.task hm (hl.loop hp) ?_ ?_ hpos
          · intro x hx hne
            simp only [List.mem_append, List.mem_singleton] at hx
            rcases hx with hx | rfl
            · exact hl.data x hx hne
            · rfl
          · simp only [fromIn_append, reduceCtorEq, if_false, List.append_nil]; exact hl.nw hp
        · have hcount := congrArg (List.countP fun m => m.isMark) h.inp
          have hone := hg.one
          have hdata : ∀ x ∈ s.hist ++ [⟨none, none, m⟩], x.src ≠ none → x.m.isData = true := by
            intro x hx hne
            simp only [List.mem_append, List.mem_singleton] at hx
            rcases hx with hx | rfl
            · exact hl.data x hx hne
            · exact absurd rfl hne
          have hmi : m ∈ inp0 := by rw [← h.inp, ho]; simp
          have hip : cf.inpresent = true := by
            cases hh : cf.inpresent with
            | true => rfl
            | false => rw [hg.absent hh] at hmi; simp at hmi
          have hnw := hl.nw hp
          rw [ho] at hcount
          simp only [List.countP_append, List.countP_cons] at hcount
          rcases hg.fits m hmi with hmd | rfl
          · obtain ⟨d, rfl⟩ : ∃ d, m = .data d := by
              cases m <;> simp [Msg.isData] at hmd; exact ⟨_, rfl⟩
            simp only [M.handle]
            refine LInv.task hm (hl.loop hp) hdata ?_ hpos
            simp only [fromIn_append, if_true, List.countP_append, List.countP_cons, List.countP_nil,
              Msg.isMark, Bool.false_eq_true, if_false]
            exact hnw
          · have hz : (fromIn s.hist).countP (fun m => m.isMark) = 0 := by
              have hmk : (Msg.eos : Msg D).isMark = true := rfl
              simp only [hmk, if_true] at hcount
              omega
            rw [hz, hip] at hnw
            simp only [if_true] at hnw
            have hnot : ¬ (s.nw - 1 = 0) := by omega
            refine { loop := ?_, leave := ?_, le := ?_, data := hdata, nw := ?_, cnt := hpos, abs := ?_ }
            · intro _
              show UserCmds cf.n (s.issued ++ _)
              exact (hl.loop hp).append (hm.eosn _ _)
            · intro hh
              simp [M.handle, M.mark, erases, M.issue, hnot] at hh
            · intro k hh
              simp [M.handle, M.mark, erases, M.issue, hnot] at hh
            · intro _
              show s.nw - 1 + (fromIn (s.hist ++ [⟨none, none, .eos⟩])).countP _ = _
              rw [fromIn_append, List.countP_append, hz, hip]
              simp [Msg.isMark]
              omega
            · intro k hh
              simp [M.handle, M.mark, erases, M.issue, hnot] at hh
        · refine ⟨hl.loop, hl.leave, hl.le, hl.data, hl.nw, ?_, hl.abs⟩
          rcases hcc with rfl | ⟨rfl, hne⟩
          · exact hpos
          · have := hl.cnt
            show s.cnt + 1 < s.avail.length
            omega
    · simp at hs
  | absorb =>
    simp only [mstep] at hs
    split at hs
    · rename_i k hk
      split at hs
      · rename_i hkk
        simp only [Bool.and_eq_true, decide_eq_true_eq] at hkk
        split at hs
        · simp at hs
        · rename_i m ms ho
          simp only [Option.some.injEq] at hs
          subst hs
          refine { loop := ?_, leave := fun _ => hl.leave (by rw [hk]; simp), le := ?_, data := hl.data,
                   nw := ?_, cnt := hl.cnt, abs := ?_ }
          · intro hh; cases m <;> simp at hh
          · intro k' hh; cases m <;> simp at hh <;> omega
          · intro hh; cases m <;> simp at hh
          · intro k' hh hb i hi
            have hk' : k' = k + 1 := by cases m <;> simp at hh <;> omega
            by_cases hik : i = k
            · subst hik; simp [upd]
            · simp only [upd, hik, if_false]
              exact hl.abs k hk hb i (by omega)
      · simp at hs
    · simp at hs
  | pop i =>
    simp only [mstep] at hs
    repeat' split at hs
    all_goals first
      | (simp at hs; done)
      | (simp only [Option.some.injEq] at hs
         subst hs
         exact hkeep _ rfl rfl rfl rfl rfl rfl rfl)
  | push i =>
    simp only [mstep] at hs
    repeat' split at hs
    all_goals first
      | (simp at hs; done)
      | (simp only [Option.some.injEq] at hs
         subst hs
         exact hkeep _ rfl rfl rfl rfl rfl rfl rfl)
  | arrive =>
    simp only [mstep] at hs
    repeat' split at hs
    all_goals first
      | (simp at hs; done)
      | (simp only [Option.some.injEq] at hs
         subst hs
         exact hkeep _ rfl rfl rfl rfl rfl rfl rfl)

theorem LInv.reach (hn : 0 < cf.n) (hw : ∀ i, i < cf.n → Steady (cf.w i)) (hm : Master cf.n em)
    (hg : GoodInput cf inp0) (hr : Reach (mstep cf) (M.init cf em inp0) s) :
    MInv cf inp0 s ∧ ChInv cf s ∧ LInv cf s :=
  hr.inv (Inv := fun x => MInv cf inp0 x ∧ ChInv cf x ∧ LInv cf x)
    ⟨MInv.init cf em inp0, ChInv.init hn em inp0, LInv.init hn em inp0⟩
    (fun _ _ _ h hs => ⟨h.1.step hn hs, h.2.1.step hn hs, LInv.step hn hw hm hg h.1 h.2.1 h.2.2 hs⟩)

end

/-! ## The measure of the remaining work -/

/-- what a list of commands costs -/
def costs (n : Nat) (cs : List (Cmd D)) : Nat := (cs.map (Cmd.cost n)).sum

theorem costs_append (n : Nat) (a b : List (Cmd D)) : costs n (a ++ b) = costs n a + costs n b := by
  simp [costs]

/-- A bound on what the emitter is still going to send, whatever it receives: every call pays for its
commands. -/
structure Spends (n : Nat) (em : Em D) (μ : em.σ → Nat) : Prop where
  svc : ∀ st ch m, costs n ((em.svc st ch m).2.1 ++ retCmds (em.svc st ch m).2.2) +
    μ (em.svc st ch m).1 ≤ μ st
  eosn : ∀ st ch, costs n (em.eosn st ch).2 + μ (em.eosn st ch).1 ≤ μ st

/-- what the emitter may still send, then messages in the workers' queues, then results produced and
not pushed, then messages on their way to the emitter -/
def M.work (n : Nat) {em : Em D} (μ : em.σ → Nat) (s : M em) : Nat × Nat × Nat × Nat :=
  (μ s.es + s.e.todo n, sumN (fun i => (s.inq i).length) n, sumN (fun i => (s.pending i).length) n,
    sumN (fun i => (s.outq i).length) n + 2 * s.inp.length + s.inb.length + (if s.first then 1 else 0))

theorem Less.mono {a a' b c x x' : Nat} (h : a ≤ a') (hx : x < x') : Less (a, b, c, x) (a', b, c, x') := by
  rcases Nat.lt_or_eq_of_le h with h | h
  · exact Less.one h
  · subst h; exact Less.four hx

/-- the two states differ only in the cursors -/
def OnlyCursors {em : Em D} (s s' : M em) : Prop :=
  ∃ e' st c, s' = { s with e := e', start := st, cnt := c } ∧ e'.pc = s.e.pc ∧ e'.cmds = s.e.cmds ∧
    e'.log = s.e.log

theorem Spends.react {n : Nat} {em : Em D} {μ : em.σ → Nat} (h : Spends n em μ) (st : em.σ) (x : Ev D) :
    costs n (FF.Farm.react em st x).2 + μ (FF.Farm.react em st x).1 ≤ μ st := by
  obtain ⟨src, ch, m⟩ := x
  cases m <;> simp only [FF.Farm.react]
  case goout => simp [costs]
  case eosw => simp [costs]
  case eos => exact h.eosn st ch
  case eosnf => exact h.eosn st ch
  all_goals exact h.svc st ch _

section
variable {cf : Cfg D} {em : Em D} {μ : em.σ → Nat} {s s' : M em}

theorem work_handle (hμ : Spends cf.n em μ) (z : M em) (src ch : Option Nat) (m : Msg D) :
    μ (z.handle cf ch m).es + (z.handle cf ch m).e.todo cf.n ≤ μ z.es + z.e.todo cf.n := by
  obtain ⟨h1, h2, h3⟩ := handle_react cf z src ch m
  have sm := handle_same cf z ch m
  have := hμ.react z.es ⟨src, ch, m⟩
  rw [h1]
  unfold E.todo
  rw [h3, sm.pc]
  simp only [List.map_append, List.sum_append]
  simp only [costs] at this
  omega

/-- **C57, no endless activity**: every action of a master-worker farm whose emitter sends a bounded
number of commands decreases the well-founded measure of the remaining work, or is a refused attempt
to put a message in a full queue or to take one from an empty channel, which moves a cursor and
nothing else. -/
theorem C57_progress_or_refused (hμ : Spends cf.n em μ) {a : MAct} (hc : ChInv cf s)
    (hs : mstep cf s a = some s') :
    Less (s'.work cf.n μ) (s.work cf.n μ) ∨ ((a = .emit ∨ a = .collect) ∧ OnlyCursors s s') := by
  cases a with
  | emit =>
    simp only [mstep] at hs
    split at hs
    · simp at hs
    · rename_i e' he
      simp only [Option.some.injEq] at hs
      subst hs
      rcases E.attempt_todo he with h | ⟨_, h1, h2, h3, _⟩
      · left; exact Less.one (by simp only [M.work]; omega)
      · exact Or.inr ⟨Or.inl rfl, e', s.start, s.cnt, rfl, h1, h2, h3⟩
    · rename_i e' i m he
      simp only [Option.some.injEq] at hs
      subst hs
      rcases E.attempt_todo he with h | ⟨h, _⟩
      · left; exact Less.one (by simp only [M.work]; omega)
      · simp at h
  | collect =>
    simp only [mstep] at hs
    split at hs
    · split at hs
      · rename_i hf
        simp only [Option.some.injEq] at hs
        subst hs
        left
        have hsv := hμ.svc s.es none .nul
        have h1 : μ (M.task cf { s with first := false } none .nul).es +
            (M.task cf { s with first := false } none .nul).e.todo cf.n ≤ μ s.es + s.e.todo cf.n := by
          simp only [M.task, M.issue, E.todo, List.map_append, List.sum_append]
          simp only [costs, List.map_append, List.sum_append] at hsv
          omega
        exact Less.mono h1 (by simp [M.task, M.issue, hf])
      · rcases poll_cases hs with ⟨i, m, ms, hi, ho, rfl⟩ | ⟨m, ms, ho, rfl⟩ | ⟨c, _, rfl⟩
        · left
          obtain ⟨z, hz⟩ : ∃ z : M em, z = { s with start := s.next, cnt := 0, outq := upd s.outq i ms
                                                    hist := s.hist ++ [⟨some i, some s.next, m⟩] } := ⟨_, rfl⟩
          rw [← hz]
          have sm := handle_same cf z (some s.next) m
          have h1 := work_handle hμ z (some i) (some s.next) m
          simp only [M.work]
          rw [sm.inq, sm.pending, sm.outq, sm.inp, sm.inb, sm.first, hz] at *
          refine Less.mono h1 ?_
          have hin : i < cf.n := hc.sub i (List.mem_of_getElem? hi)
          have : sumN (fun j => (upd s.outq i ms j).length) cf.n < sumN (fun j => (s.outq j).length) cf.n := by
            refine sumN_lt hin ?_ fun j hj => ?_
            · simp [upd, ho]
            · simp [upd, hj]
          show sumN (fun j => (upd s.outq i ms j).length) cf.n + 2 * s.inp.length + s.inb.length +
            (if s.first then 1 else 0) < sumN (fun j => (s.outq j).length) cf.n + 2 * s.inp.length +
            s.inb.length + (if s.first then 1 else 0)
          omega
        · left
          obtain ⟨z, hz⟩ : ∃ z : M em, z = { s with start := s.next, cnt := 0, inb := ms
                                                    hist := s.hist ++ [⟨none, none, m⟩] } := ⟨_, rfl⟩
          rw [← hz]
          have sm := handle_same cf z none m
          have h1 := work_handle hμ z none none m
          simp only [M.work]
          rw [sm.inq, sm.pending, sm.outq, sm.inp, sm.inb, sm.first, hz] at *
          refine Less.mono h1 ?_
          simp only [ho, List.length_cons]
          omega
        · exact Or.inr ⟨Or.inr rfl, s.e, s.next, c, rfl, rfl, rfl, rfl⟩
    · simp at hs
  | absorb =>
    simp only [mstep] at hs
    split at hs
    · rename_i k hk
      split at hs
      · rename_i hkk
        simp only [Bool.and_eq_true, decide_eq_true_eq] at hkk
        split at hs
        · simp at hs
        · rename_i m ms ho
          simp only [Option.some.injEq] at hs
          subst hs
          left
          refine Less.mono (Nat.le_refl _) ?_
          have : sumN (fun j => (upd s.outq k ms j).length) cf.n < sumN (fun j => (s.outq j).length) cf.n := by
            refine sumN_lt hkk.2 ?_ fun j hj => ?_
            · simp [upd, ho]
            · simp [upd, hj]
          simp only
          omega
      · simp at hs
    · simp at hs
  | pop i =>
    simp only [mstep] at hs
    split at hs
    · rename_i hcc
      split at hs
      · simp at hs
      · rename_i m ms hm
        simp only [Option.some.injEq] at hs
        subst hs
        left
        refine Less.two (sumN_lt hcc.1 ?_ fun j hj => ?_)
        · simp [upd, hm]
        · simp [upd, hj]
    · simp at hs
  | push i =>
    simp only [mstep] at hs
    split at hs
    · rename_i hi
      split at hs
      · simp at hs
      · rename_i m ms hm
        simp only [Option.some.injEq] at hs
        subst hs
        left
        refine Less.three (sumN_lt hi ?_ fun j hj => ?_)
        · simp [upd, hm]
        · simp [upd, hj]
    · simp at hs
  | arrive =>
    simp only [mstep] at hs
    split at hs
    · simp at hs
    · rename_i m ms hm
      simp only [Option.some.injEq] at hs
      subst hs
      left
      refine Less.mono (Nat.le_refl _) ?_
      simp only [hm, List.length_cons, List.length_append, List.length_nil]
      omega

/-- One attempt of `collect_task`: something is received, or the channel is empty. -/
theorem collect_outcome (hμ : Spends cf.n em μ) (hc : ChInv cf s) (hp : s.ph = .loop)
    (hfree : s.e.free = true) (hf : s.first = false) :
    ∃ s', mstep cf s .collect = some s' ∧ (Less (s'.work cf.n μ) (s.work cf.n μ) ∨
      (∃ c i, s' = { s with start := s.next, cnt := c } ∧ s.avail[s.next]? = some i ∧ s.outq i = [] ∧
        ((c = s.cnt + 1 ∧ s.cnt + 1 ≠ s.avail.length) ∨ (c = 0 ∧ s.inb = [])))) := by
  have hnx := next_lt hc.len hc.start
  obtain ⟨i, hi⟩ : ∃ i, s.avail[s.next]? = some i := ⟨_, List.getElem?_eq_getElem hnx⟩
  have hst : mstep cf s .collect = s.poll cf := by simp [mstep, hp, hfree, hf]
  have hlen : ∀ (z : M em) ch m, (z.handle cf ch m).hist = z.hist := fun z ch m => (handle_same cf z ch m).hist
  have hless : ∀ s', mstep cf s .collect = some s' → s'.hist.length = s.hist.length + 1 →
      Less (s'.work cf.n μ) (s.work cf.n μ) := by
    intro s' hs hh
    rcases C57_progress_or_refused hμ hc hs with h | ⟨_, e', st, c, rfl, _⟩
    · exact h
    · simp at hh
  cases ho : s.outq i with
  | cons m ms =>
    have hpoll : s.poll cf = some (M.handle cf { s with
        start := s.next, cnt := 0, outq := upd s.outq i ms
        hist := s.hist ++ [⟨some i, some s.next, m⟩] } (some s.next) m) := by
      simp [M.poll, hi, ho]
    refine ⟨_, by rw [hst, hpoll], Or.inl (hless _ (by rw [hst, hpoll]) ?_)⟩
    rw [hlen]; simp
  | nil =>
    by_cases hcl : s.cnt + 1 = s.avail.length
    · cases hb : s.inb with
      | cons m ms =>
        have hpoll : s.poll cf = some (M.handle cf { s with
            start := s.next, cnt := 0, inb := ms, hist := s.hist ++ [⟨none, none, m⟩] } none m) := by
          simp [M.poll, hi, ho, hcl, hb]
        refine ⟨_, by rw [hst, hpoll], Or.inl (hless _ (by rw [hst, hpoll]) ?_)⟩
        rw [hlen]; simp
      | nil =>
        have hpoll : s.poll cf = some { s with start := s.next, cnt := 0 } := by
          simp only [M.poll, hi, ho, hcl, if_true, hb]
        exact ⟨_, by rw [hst, hpoll], Or.inr ⟨0, i, by simp [hb], hi, ho, Or.inr ⟨rfl, rfl⟩⟩⟩
    · have hpoll : s.poll cf = some { s with start := s.next, cnt := s.cnt + 1 } := by
        simp only [M.poll, hi, ho, hcl, if_false]
      exact ⟨_, by rw [hst, hpoll], Or.inr ⟨s.cnt + 1, i, rfl, hi, ho, Or.inl ⟨rfl, hcl⟩⟩⟩

theorem next_mod (h : s.start < s.avail.length) : s.next = (s.start + 1) % s.avail.length := by
  unfold M.next
  split
  · rename_i hh; rw [hh, Nat.mod_self]
  · rw [Nat.mod_eq_of_lt (by omega)]

/-- The emitter finds a message in a feedback channel: after finitely many attempts one succeeds. -/
theorem collect_finds (hμ : Spends cf.n em μ) (hn : 0 < cf.n) {t : Nat} (ht : t < cf.n)
    (hc : ChInv cf s) (hav : s.avail = List.range cf.n) (hp : s.ph = .loop) (hfree : s.e.free = true)
    (hf : s.first = false) (hq : s.outq t ≠ []) :
    ∃ s', Reach (mstep cf) s s' ∧ Less (s'.work cf.n μ) (s.work cf.n μ) := by
  obtain ⟨d, hd, hdt⟩ := round_mem (s.start + 1) ht
  induction d generalizing s with
  | zero =>
    obtain ⟨s', hs, hh⟩ := collect_outcome hμ hc hp hfree hf
    refine ⟨s', (Reach.refl _ _).tail hs, ?_⟩
    rcases hh with hh | ⟨c, i, _, hi, ho, _⟩
    · exact hh
    · exfalso
      have hlen : s.avail.length = cf.n := by rw [hav]; simp
      have hnx := next_mod hc.start
      rw [hlen, show s.start + 1 = s.start + 1 + 0 by omega, hdt] at hnx
      rw [hnx, hav, List.getElem?_range ht] at hi
      simp only [Option.some.injEq] at hi
      subst hi; exact hq ho
  | succ d ih =>
    obtain ⟨s', hs, hh⟩ := collect_outcome hμ hc hp hfree hf
    rcases hh with hh | ⟨c, i, rfl, hi, ho, _⟩
    · exact ⟨s', (Reach.refl _ _).tail hs, hh⟩
    · have hlen : s.avail.length = cf.n := by rw [hav]; simp
      have hnx := next_mod hc.start
      rw [hlen] at hnx
      obtain ⟨s2, hr, hl⟩ := ih (s := { s with start := s.next, cnt := c }) (hc.step hn hs) hav hp hfree hf hq
        (by omega) (by
          show (s.next + 1 + d) % cf.n = t
          rw [hnx, Nat.add_assoc, Nat.add_mod, Nat.mod_mod, ← Nat.add_mod,
            show s.start + 1 + (1 + d) = s.start + 1 + (d + 1) by omega]
          exact hdt)
      exact ⟨s2, ((Reach.refl _ _).tail hs).trans hr, hl⟩

/-- The emitter finds a message on the input channel when the feedback channels are empty. -/
theorem collect_input (hμ : Spends cf.n em μ) (hn : 0 < cf.n) (hc : ChInv cf s)
    (hav : s.avail = List.range cf.n) (hp : s.ph = .loop) (hfree : s.e.free = true)
    (hf : s.first = false) (hq : s.inb ≠ []) (hcnt : s.cnt < cf.n) :
    ∃ s', Reach (mstep cf) s s' ∧ Less (s'.work cf.n μ) (s.work cf.n μ) := by
  obtain ⟨d, hd⟩ : ∃ d, d = cf.n - s.cnt := ⟨_, rfl⟩
  induction d generalizing s with
  | zero => omega
  | succ d ih =>
    obtain ⟨s', hs, hh⟩ := collect_outcome hμ hc hp hfree hf
    rcases hh with hh | ⟨c, i, rfl, hi, ho, hcc⟩
    · exact ⟨s', (Reach.refl _ _).tail hs, hh⟩
    · have hlen : s.avail.length = cf.n := by rw [hav]; simp
      rcases hcc with ⟨rfl, hne⟩ | ⟨_, hb⟩
      · obtain ⟨s2, hr, hl⟩ := ih (s := { s with start := s.next, cnt := s.cnt + 1 }) (hc.step hn hs) hav hp
          hfree hf hq (by show s.cnt + 1 < cf.n; omega) (by show d = cf.n - (s.cnt + 1); omega)
        exact ⟨s2, ((Reach.refl _ _).tail hs).trans hr, hl⟩
      · exact absurd hb hq

/-- An emitter that has commands left makes progress if no queue is full. -/
theorem EInv.can_put_all {n : Nat} {cs : List (Cmd D)} (hn : 0 < n) (hu : UserCmds n cs) {e : E D}
    (h : EInv n cs e) (hD : ¬ (e.pc = .idle ∧ e.cmds = [])) {full : Nat → Bool}
    (hnotfull : ∀ i, i < n → full i = false) :
    ∃ e' o, e.attempt n full = some (e', o) ∧ e'.todo n < e.todo n := by
  have hto : ∀ i m, e.pc = .to i m → i < n := by
    intro i m hpc
    have : Cmd.sendTo i m ∈ cs := by rw [← h.cmds, hpc]; simp [EPc.cur]
    exact hu.valid i m this
  have hatt : ∃ p, e.attempt n full = some p := by
    unfold E.attempt
    split
    · rename_i hpc
      split
      · rename_i hcm; exact absurd ⟨hpc, hcm⟩ hD
      all_goals exact ⟨_, rfl⟩
    · split <;> exact ⟨_, rfl⟩
    · rename_i i m hpc
      rw [if_pos (hto i m hpc)]
      split <;> exact ⟨_, rfl⟩
    · split
      · split <;> exact ⟨_, rfl⟩
      · exact ⟨_, rfl⟩
    · split
      · exact ⟨_, rfl⟩
      · split <;> exact ⟨_, rfl⟩
  obtain ⟨⟨e', o⟩, hatt⟩ := hatt
  refine ⟨e', o, hatt, ?_⟩
  rcases E.attempt_todo hatt with h' | ⟨_, _, _, _, hr⟩
  · exact h'
  · exfalso
    rcases hr with ⟨m, hpc, hfull⟩ | ⟨i, m, hpc, hfull⟩ | ⟨m, r, rs, hpc, hfull⟩
    · rw [hnotfull _ (Nat.mod_lt _ hn)] at hfull; simp at hfull
    · rw [hnotfull _ (hto i m hpc)] at hfull; simp at hfull
    · obtain ⟨l, g, h1, h2, h3⟩ := h.log
      rw [hpc] at h3
      have h3' : (g ++ (r :: rs).map fun j => (j, m)).Perm ((List.range n).map fun j => (j, m)) := h3
      have hr : r < n := by
        have : (r, m) ∈ (List.range n).map fun j => (j, m) := h3'.mem_iff.1 (by simp)
        simp only [List.mem_map, List.mem_range, Prod.mk.injEq] at this
        obtain ⟨a, ha, rfl, _⟩ := this
        exact ha
      rw [hnotfull r hr] at hfull; simp at hfull

/-- everything has come to rest: the emitter has ended and so have the workers -/
def M.Final (cf : Cfg D) {em : Em D} (s : M em) : Prop :=
  s.Ended cf ∧ ∀ i, i < cf.n → (after (cf.w i) (s.consumed i)).exited = true ∧ s.pending i = []

/-- the emitter waits, and there is nothing left to wait for: everything that was sent has come back -/
def M.Quiet (cf : Cfg D) {em : Em D} (s : M em) : Prop :=
  s.ph = .loop ∧ s.first = false ∧ s.e.pc = .idle ∧ s.e.cmds = [] ∧ s.inp = [] ∧ s.inb = [] ∧
  ∀ i, i < cf.n → s.inq i = [] ∧ s.pending i = [] ∧ s.outq i = []

/-- **C57, no deadlock, one step**: while the farm has not come to rest some thread can make progress. -/
theorem mprogress {inp0 : List (Msg D)} (hn : 0 < cf.n) (hw : ∀ i, i < cf.n → Steady (cf.w i))
    (hci : ∀ i, i < cf.n → 0 < cf.ci i) (hμ : Spends cf.n em μ) (h : MInv cf inp0 s) (hc : ChInv cf s)
    (hl : LInv cf s) (hf : ¬ (s.Final cf ∨ s.Quiet cf ∨ s.ph = .fail)) :
    ∃ s', Reach (mstep cf) s s' ∧ Less (s'.work cf.n μ) (s.work cf.n μ) := by
  have hone : ∀ {a : MAct} {s' : M em}, mstep cf s a = some s' → a ≠ .emit → a ≠ .collect →
      ∃ s', Reach (mstep cf) s s' ∧ Less (s'.work cf.n μ) (s.work cf.n μ) := by
    intro a s' hs h1 h2
    refine ⟨s', (Reach.refl _ _).tail hs, ?_⟩
    rcases C57_progress_or_refused hμ hc hs with h | ⟨h | h, _⟩
    · exact h
    · exact absurd h h1
    · exact absurd h h2
  by_cases hB : ∃ i, i < cf.n ∧ s.pending i ≠ []
  · obtain ⟨i, hi, hp⟩ := hB
    cases hpp : s.pending i with
    | nil => exact absurd hpp hp
    | cons m ms =>
      have hs : ∃ s', mstep cf s (.push i) = some s' := by
        simp only [mstep, hpp]; rw [if_pos hi]; exact ⟨_, rfl⟩
      obtain ⟨s', hs⟩ := hs
      exact hone hs (by simp) (by simp)
  have hB' : ∀ i, i < cf.n → s.pending i = [] := fun i hi =>
    Classical.byContradiction fun hq => hB ⟨i, hi, hq⟩
  by_cases hC : ∃ i, i < cf.n ∧ (after (cf.w i) (s.consumed i)).exited = false ∧ s.inq i ≠ []
  · obtain ⟨i, hi, hx, hq⟩ := hC
    cases hqq : s.inq i with
    | nil => exact absurd hqq hq
    | cons m ms =>
      have hs : ∃ s', mstep cf s (.pop i) = some s' := by
        simp only [mstep, hqq]; rw [if_pos ⟨hi, hB' i hi, hx⟩]; exact ⟨_, rfl⟩
      obtain ⟨s', hs⟩ := hs
      exact hone hs (by simp) (by simp)
  have hC' : ∀ i, i < cf.n → (after (cf.w i) (s.consumed i)).exited = false → s.inq i = [] :=
    fun i hi hx => Classical.byContradiction fun hq => hC ⟨i, hi, hx, hq⟩
  by_cases hI : ¬ s.inp = []
  · cases hii : s.inp with
    | nil => exact absurd hii hI
    | cons m ms =>
      have hs : ∃ s', mstep cf s .arrive = some s' := by simp only [mstep, hii]; exact ⟨_, rfl⟩
      obtain ⟨s', hs⟩ := hs
      exact hone hs (by simp) (by simp)
  have hI : s.inp = [] := Classical.byContradiction hI
  have hexit : ∀ i, i < cf.n → ((after (cf.w i) (s.consumed i)).exited = true ↔ Msg.eos ∈ s.consumed i) ∧
      ((after (cf.w i) (s.consumed i)).exited = true → Msg.eos ∈ stream (cf.w i) (s.consumed i)) :=
    fun i hi => Steady.exited_iff (hw i hi) (s.consumed i) (L.start (cf.w i) 1) rfl rfl
      (consumed_fits h hl i)
  have hnotfull : ∀ i, i < cf.n → (i, Msg.eos) ∉ s.e.log → decide (cf.ci i ≤ (s.inq i).length) = false := by
    intro i hi hne
    have hx : (after (cf.w i) (s.consumed i)).exited = false := by
      cases hh : (after (cf.w i) (s.consumed i)).exited with
      | false => rfl
      | true =>
        exfalso
        apply hne
        rw [← mem_from, h.inq i]
        exact List.mem_append_left _ ((hexit i hi).1.1 hh)
    rw [hC' i hi hx]
    have := hci i hi
    simp only [List.length_nil, decide_eq_false_iff_not]
    omega
  by_cases hD : ¬ (s.e.pc = .idle ∧ s.e.cmds = [])
  · have hput : ∃ e' o, s.e.attempt cf.n (fun i => decide (cf.ci i ≤ (s.inq i).length)) = some (e', o) ∧
        e'.todo cf.n < s.e.todo cf.n := by
      by_cases hp : s.ph = .loop
      · refine h.e.can_put_all hn (hl.loop hp) hD fun i hi => hnotfull i hi fun hh => ?_
        have := loop_consumed h hl hp i _ (mem_from.2 hh)
        simp [Msg.isData] at this
      · obtain ⟨us, hu, he⟩ := hl.leave hp
        have hE := h.e
        rw [he] at hE
        exact hE.can_put hn hu hD hnotfull
    obtain ⟨e', o, hatt, htodo⟩ := hput
    have hs : ∃ s', mstep cf s .emit = some s' ∧ s'.e = e' ∧ s'.es = s.es := by
      simp only [mstep, hatt]
      cases o with
      | none => exact ⟨_, rfl, rfl, rfl⟩
      | some p => exact ⟨_, rfl, rfl, rfl⟩
    obtain ⟨s', hs, he, hes⟩ := hs
    refine ⟨s', (Reach.refl _ _).tail hs, ?_⟩
    simp only [M.work, he, hes]
    exact Less.one (by omega)
  have hD := Classical.byContradiction hD
  have hfree : s.e.free = true := free_iff.2 hD
  cases hp : s.ph with
  | fail => exact absurd (Or.inr (Or.inr hp)) hf
  | loop =>
    cases hfi : s.first with
    | true =>
      have hs : ∃ s', mstep cf s .collect = some s' := by
        simp only [mstep, hfree, hp, hfi]; exact ⟨_, rfl⟩
      obtain ⟨s', hs⟩ := hs
      refine ⟨s', (Reach.refl _ _).tail hs, ?_⟩
      rcases C57_progress_or_refused hμ hc hs with h' | ⟨_, e', st, c, he, _⟩
      · exact h'
      · exfalso
        have : s'.first = false := by
          simp only [mstep, hfree, hp, hfi, decide_true, Bool.and_self, if_true, Option.some.injEq] at hs
          subst hs; rfl
        rw [he] at this
        simp only at this
        rw [hfi] at this; simp at this
    | false =>
      have hav : s.avail = List.range cf.n := hc.avail fun x hx hne he => by
        have := hl.data x hx hne
        rw [he] at this; simp [Msg.isData] at this
      by_cases hO : ∃ i, i < cf.n ∧ s.outq i ≠ []
      · obtain ⟨i, hi, hq⟩ := hO
        exact collect_finds hμ hn hi hc hav hp hfree hfi hq
      · by_cases hb : s.inb = []
        · exfalso
          apply hf
          refine Or.inr (Or.inl ⟨hp, hfi, hD.1, hD.2, hI, hb, fun i hi => ⟨?_, hB' i hi, ?_⟩⟩)
          · refine hC' i hi ?_
            cases hh : (after (cf.w i) (s.consumed i)).exited with
            | false => rfl
            | true =>
              have h1 := (hexit i hi).1.1 hh
              have := loop_consumed h hl hp i .eos (by rw [h.inq i]; exact List.mem_append_left _ h1)
              simp [Msg.isData] at this
          · exact Classical.byContradiction fun hq => hO ⟨i, hi, hq⟩
        · refine collect_input hμ hn hc hav hp hfree hfi hb ?_
          have := hl.cnt
          rw [hav] at this
          simpa using this
  | leave k =>
    have hle := hl.le k hp
    obtain ⟨us, hu, he⟩ := hl.leave (by rw [hp]; simp)
    obtain ⟨l, g, h1, h2, h3⟩ := h.e.log
    have hdn : s.e.dn = us ++ [.bcast .eos] := by
      have := h.e.cmds
      rw [hD.1, hD.2, he] at this
      simpa [EPc.cur] using this
    rw [hdn] at h2
    obtain ⟨l1, l2, rfl, _, h4⟩ := h2.append_inv
    obtain ⟨g2, l3, rfl, h5, h6⟩ := h4
    have hlog : ∀ i, i < cf.n → (i, Msg.eos) ∈ s.e.log := by
      intro i hi
      have : (i, (Msg.eos : Msg D)) ∈ g2 := h5.mem_iff.2 (by simp [hi])
      rw [h1]; simp [this]
    have hx : ∀ i, i < cf.n → (after (cf.w i) (s.consumed i)).exited = true := by
      intro i hi
      cases hh : (after (cf.w i) (s.consumed i)).exited with
      | true => rfl
      | false =>
        have hq := hC' i hi hh
        have h7 := mem_from.2 (hlog i hi)
        rw [h.inq i, hq, List.append_nil] at h7
        rw [(hexit i hi).1.2 h7] at hh
        simp at hh
    by_cases hkn : k = cf.n
    · exact absurd (Or.inl ⟨⟨by rw [hp, hkn], hD.1, hD.2⟩, fun i hi => ⟨hx i hi, hB' i hi⟩⟩) hf
    · have hk : k < cf.n := by omega
      have hne : s.outq k ≠ [] := by
        intro hq
        have h8 := (hexit k hk).2 (hx k hk)
        rw [← h.work k hk, hB' k hk, List.append_nil, h.outq k, hq, (h.absk k hp k).1 (Nat.le_refl _)] at h8
        simp only [List.append_nil] at h8
        simp only [fromW, List.mem_map, List.mem_filter, decide_eq_true_eq] at h8
        obtain ⟨x, ⟨hx1, hx2⟩, hx3⟩ := h8
        have := hl.data x hx1 (by rw [hx2]; simp)
        rw [hx3] at this; simp [Msg.isData] at this
      cases hq : s.outq k with
      | nil => exact absurd hq hne
      | cons m ms =>
        have hs : ∃ s', mstep cf s .absorb = some s' := by
          simp only [mstep, hp, hfree, hk, hq]; exact ⟨_, rfl⟩
        obtain ⟨s', hs⟩ := hs
        exact hone hs (by simp) (by simp)

/-- **C57, no deadlock**: from every reachable state of a master-worker farm (steady workers, queues of
capacity at least one, an emitter that sends a bounded number of tasks and ends the stream by returning
`EOS`), one can reach a state in which the emitter and all workers have ended, or in which everything
that was sent has come back to the emitter, or in which `absorb_eos` has met a result that the
emitter did not wait for. -/
theorem C57_completes_partial {inp0 : List (Msg D)} (hn : 0 < cf.n) (hw : ∀ i, i < cf.n → Steady (cf.w i))
    (hci : ∀ i, i < cf.n → 0 < cf.ci i) (hm : Master cf.n em) (hμ : Spends cf.n em μ)
    (hg : GoodInput cf inp0) (hr : Reach (mstep cf) (M.init cf em inp0) s) :
    ∃ s', Reach (mstep cf) s s' ∧ (s'.Final cf ∨ s'.Quiet cf ∨ s'.ph = .fail) := by
  obtain ⟨x, hx⟩ : ∃ x, x = s.work cf.n μ := ⟨_, rfl⟩
  induction x using Less.wf.induction generalizing s with
  | _ x ih =>
    by_cases hf : s.Final cf ∨ s.Quiet cf ∨ s.ph = .fail
    · exact ⟨s, Reach.refl _ _, hf⟩
    · obtain ⟨h1, h2, h3⟩ := LInv.reach hn hw hm hg hr
      obtain ⟨s1, hr1, hless⟩ := mprogress hn hw hci hμ h1 h2 h3 hf
      obtain ⟨s2, hr2, hf2⟩ := ih _ (hx ▸ hless) (hr.trans hr1) rfl
      exact ⟨s2, hr1.trans hr2, hf2⟩

end
end FF.Farm
