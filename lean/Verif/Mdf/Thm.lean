import Verif.Mdf.Live
import Verif.Parfor.For
/-! # Order and completion of macro data flow programs (C33, C35) -/
namespace FF.Mdf
open FF.Farm (sumN)
open FF.Node (upd)

/-! ## C33 -/

theorem legal_order {P : List (List Param)} {len : Nat → Nat} {l : List Ev} (h : Legal P len l) {k j : Nat} {p q : List Param}
    (hkj : k < j) (hp : P[k]? = some p) (hq : P[j]? = some q) (hc : Conf p q) {pre : List Ev}
    (hpre : pre ++ [.start j] <+: l) : Ev.fin k ∈ pre := by
  induction h with
  | nil => simp at hpre
  | start h hk h0 hcf ih =>
    rename_i l i
    rcases List.prefix_concat_iff.1 hpre with e | e
    · obtain ⟨e1, e2⟩ := List.append_inj' e rfl
      cases e2
      subst e1
      exact hcf k p q hkj hp hq hc
    · exact ih e
  | op h hk h0 hn ih =>
    rcases List.prefix_concat_iff.1 hpre with e | e
    · obtain ⟨_, e2⟩ := List.append_inj' e rfl; cases e2
    · exact ih e
  | fin h hk h0 ih =>
    rcases List.prefix_concat_iff.1 hpre with e | e
    · obtain ⟨_, e2⟩ := List.append_inj' e rfl; cases e2
    · exact ih e

/-- **C33.** In every execution, tasks that access a common parameter, at least one as OUTPUT, are executed
in submission order: the later one starts only after the earlier one has ended.  The parameters have tags
different from 0, and a task does not use a parameter again after it has given it as OUTPUT (missing:
programs without these two conditions, see the counterexamples). -/
theorem C33_order_partial {G : Cfg} (hn : 1 ≤ G.n) {P : List (List Param)} (hwf : ∀ ps ∈ P, WF ps) {s : S}
    (hr : Reach (step G) (S.init P) s) {k j : Nat} {p q : List Param} (hkj : k < j) (hp : P[k]? = some p)
    (hq : P[j]? = some q) (hc : Conf p q) {pre : List Ev} (hpre : pre ++ [.start j] <+: s.log) : Ev.fin k ∈ pre :=
  legal_order (inv_reach hn hwf hr).z.leg hkj hp hq hc hpre

/-- **C33.** A task is started at most once, and the assertions of the scheduler (327, 340, 357) hold. -/
theorem C33_once_partial {G : Cfg} (hn : 1 ≤ G.n) {P : List (List Param)} (hwf : ∀ ps ∈ P, WF ps) {s : S}
    (hr : Reach (step G) (S.init P) s) : s.bad = false ∧ ∀ k, s.log.count (.start k) ≤ 1 := by
  have h := inv_reach hn hwf hr
  refine ⟨h.z.bad, fun k => ?_⟩
  have := legal_stage h.z.leg k
  unfold counts at this
  simp only [Prod.mk.injEq] at this
  rcases this with h | ⟨i, _, h⟩ | h <;> omega

/-! ## C35

The theorems are partial: they need the two conditions `WF` on the parameters of each task, see the
counterexamples below. -/

/-- if no task is ready then all submitted tasks are completed -/
theorem all_done {c : Core} (h : Good c) (hno : ∀ k, ¬ Rdy c k) : ∀ i r, c.tk i = some r → r.st = .done := by
  intro i
  induction i using Nat.strongRecOn with
  | _ i ih =>
    intro r hr
    cases hst : r.st with
    | done => rfl
    | ready => exact absurd ⟨r, hr, hst⟩ (hno i)
    | notReady =>
      exfalso
      have h1 := h.wait i r hr hst
      have h2 := h.b.rdep i r hr (by rw [hst]; simp)
      have : ∃ j, j < c.next ∧ ecount c j i ≠ 0 := by
        by_cases hc : ∃ j, j < c.next ∧ ecount c j i ≠ 0
        · exact hc
        · have : esum c i = 0 := by
            unfold esum
            apply Parfor.sumN_zero
            intro j hj
            by_cases e : ecount c j i = 0
            · exact e
            · exact absurd ⟨j, hj, e⟩ hc
          omega
      obtain ⟨j, _, hj⟩ := this
      unfold ecount at hj
      cases hrj : c.tk j with
      | none => rw [hrj] at hj; exact hj rfl
      | some rj =>
        rw [hrj] at hj
        dsimp only at hj
        by_cases hd : rj.st = .done
        · rw [if_pos hd] at hj; exact hj rfl
        · rw [if_neg hd] at hj
          have hm : i ∈ rj.ubl := List.count_pos_iff.1 (by omega)
          have := (h.b.edge j rj i hrj hd hm).1
          exact hd (ih j this rj hrj)

theorem sumN_lt_le {f g : Nat → Nat} {n i : Nat} (hi : i < n) (h : f i < g i) (hle : ∀ k, k < n → f k ≤ g k) :
    sumN f n < sumN g n := by
  have h1 : sumN f n < sumN (upd f i (g i)) n :=
    Farm.sumN_lt hi (by simp only [upd, if_true]; exact h) (fun k hk => by simp only [upd, if_neg hk])
  have h2 : sumN (upd f i (g i)) n ≤ sumN g n := by
    apply Parfor.sumN_le
    intro k hk
    by_cases e : k = i
    · subst e; simp only [upd, if_true]; omega
    · simp only [upd, if_neg e]; exact hle k hk
  omega

theorem quiet {G : Cfg} {P : List (List Param)} (hn : 1 ≤ G.n) {s : S} (h : Inv G P s)
    (hq : ∀ w, w < G.n → s.q w = [] ∧ s.cur w = none ∧ s.back w = []) :
    (∀ i p, s.c.par i = some p → s.c.fin i = true) ∧ s.numb = s.compl := by
  have h0 : s.nsch 0 = 0 := by
    rw [h.q.nsch]
    obtain ⟨a, b, c⟩ := hq 0 (by omega)
    rw [a, b, c]; rfl
  have hnrd : s.nrd = 0 := by
    rcases h.sat with e | e
    · exact e
    · have := e 0 (by omega); omega
  have hall : ∀ w, s.q w = [] ∧ s.cur w = none ∧ s.back w = [] ∧ s.rq w = [] := by
    intro w
    by_cases hw : w < G.n
    · obtain ⟨a, b, c⟩ := hq w hw
      refine ⟨a, b, c, ?_⟩
      have := Parfor.sumN_ge (f := fun w => (s.rq w).length) hw
      rw [← h.q.nrd, hnrd] at this
      exact List.length_eq_zero_iff.1 (by omega)
    · obtain ⟨a, b, c, d⟩ := h.q.far w (by omega)
      exact ⟨b, c, d, a⟩
  have hno : ∀ k, ¬ Rdy s.c k := by
    intro k hk
    have := (h.q.rdy k).1 hk
    cases hl : s.loc k with
    | no => exact this hl
    | rq w => have := (h.q.lrq w k).2 hl; rw [(hall w).2.2.2] at this; cases this
    | q w => have := (h.q.lq w k).2 hl; rw [(hall w).1] at this; cases this
    | cur w => have := (h.q.lcur w k).2 hl; rw [(hall w).2.1] at this; cases this
    | back w => have := (h.q.lback w k).2 hl; rw [(hall w).2.2.1] at this; cases this
  have hfin : ∀ i p, s.c.par i = some p → s.c.fin i = true := by
    intro i p hp
    cases hf : s.c.fin i with
    | true => rfl
    | false =>
      obtain ⟨r, h1, h2⟩ := h.z.g.b.live i p hp hf
      exact absurd (all_done h.z.g hno i r h1) h2
  refine ⟨hfin, ?_⟩
  rw [h.z.cp, h.z.cf]
  apply Farm.sumN_congr
  intro i _
  cases hp : s.c.par i with
  | none =>
    cases hf : s.c.fin i with
    | false => rfl
    | true => obtain ⟨p, hp'⟩ := h.z.fp i hf; rw [hp] at hp'; cases hp'
  | some p => rw [hfin i p hp]; rfl

theorem not_quiet {n : Nat} {s : S} (h : ¬ ∀ w, w < n → s.q w = [] ∧ s.cur w = none ∧ s.back w = []) :
    ∃ w, w < n ∧ (s.q w ≠ [] ∨ s.cur w ≠ none ∨ s.back w ≠ []) := by
  by_contra hc
  apply h
  intro w hw
  refine ⟨?_, ?_, ?_⟩
  · by_contra e; exact hc ⟨w, hw, Or.inl e⟩
  · by_contra e; exact hc ⟨w, hw, Or.inr (Or.inl e)⟩
  · by_contra e; exact hc ⟨w, hw, Or.inr (Or.inr e)⟩

/-- **C35.** As long as a submitted task has not ended, some worker has a task: it executes one, or one is
in its queue, or the scheduler has to be told about the end of one. -/
theorem C35_some_task_partial {G : Cfg} (hn : 1 ≤ G.n) {P : List (List Param)} (hwf : ∀ ps ∈ P, WF ps) {s : S}
    (hr : Reach (step G) (S.init P) s) {k : Nat} (hk : k < s.numb) (hf : Ev.fin k ∉ s.log) :
    ∃ w, w < G.n ∧ (s.q w ≠ [] ∨ s.cur w ≠ none ∨ s.back w ≠ []) := by
  have h := inv_reach hn hwf hr
  apply not_quiet
  intro hq
  obtain ⟨h1, _⟩ := quiet hn h hq
  obtain ⟨i, p, hp, hi⟩ := h.z.sur k hk
  have hph := h.z.ph i p hp
  unfold counts phase at hph
  rw [hi, fin_no h (h1 i p hp)] at hph
  dsimp only at hph
  rw [h1 i p hp] at hph
  simp only [if_true, Prod.mk.injEq] at hph
  exact hf (List.count_pos_iff.1 (by omega))

theorem progress {G : Cfg} (hn : 1 ≤ G.n) (hcap : 1 ≤ G.cap) (hlow : 1 ≤ G.lower) {P : List (List Param)} {s : S}
    (h : Inv G P s) (hov : s.over = false) : ∃ a s', step G s a = some s' ∧ (a.isNull = true → s'.inact ≠ s.inact) := by
  have go : ∀ a : Step, (step G s a).isSome = true → a.isNull = false →
      ∃ a s', step G s a = some s' ∧ (a.isNull = true → s'.inact ≠ s.inact) := by
    intro a h1 h2
    obtain ⟨s', h3⟩ := Option.isSome_iff_exists.1 h1
    exact ⟨a, s', h3, fun h => by rw [h2] at h; cases h⟩
  by_cases hq : ∀ w, w < G.n → s.q w = [] ∧ s.cur w = none ∧ s.back w = []
  · obtain ⟨_, h2⟩ := quiet hn h hq
    have hend : s.ended = false := by
      cases he : s.ended with
      | false => rfl
      | true => have := h.ov.2 ⟨he, h2⟩; rw [hov] at this; cases this
    rcases (Bool.eq_false_or_eq_true s.inact).symm with hia | hia
    · refine ⟨.null, { s with inact := true }, ?_, ?_⟩
      · simp only [step, hov, hia, hend, if_true, and_self]
        rw [if_pos ⟨trivial, by omega⟩]
      · intro _; rw [hia]; simp
    · cases hin : s.inq with
      | cons a rest =>
        cases a with
        | some ps =>
          refine go (.input (fun _ => 0)) ?_ rfl
          simp only [step, hin]
          rw [if_pos ⟨hov, hia⟩]
          rfl
        | none =>
          refine go (.input (fun _ => 0)) ?_ rfl
          simp only [step, hin]
          rw [if_pos ⟨hov, hia⟩]
          rfl
      | nil =>
        cases htd : s.todo with
        | cons p ps =>
          refine go (.submit) ?_ rfl
          simp only [step, htd, hin]
          rw [if_pos (show ([] : List (Option (List Param))).length < G.cap by show 0 < G.cap; omega)]
          rfl
        | nil =>
          cases hes : s.endSent with
          | true =>
            obtain ⟨l, e, _⟩ := (h.z.chS hes).2 hend
            rw [hin] at e
            have := congrArg List.length e
            simp at this
          | false =>
            refine go (.submitEnd) ?_ rfl
            simp only [step, htd, hes, hin]
            rw [if_pos ⟨trivial, trivial, by show 0 < G.cap; omega⟩]
            rfl
  · obtain ⟨w, hw, hc⟩ := not_quiet hq
    cases hcur : s.cur w with
    | some t =>
      have := h.z.pl w t hcur
      by_cases hl : s.pos w < G.len (s.num t)
      · refine go (.op w) ?_ rfl
        simp only [step, hcur]
        rw [if_pos hw, if_pos hl]
        rfl
      · refine go (.stop w) ?_ rfl
        simp only [step, hcur]
        rw [if_pos hw, if_pos (by omega)]
        rfl
    | none =>
      cases hqw : s.q w with
      | cons t rest =>
        refine go (.start w) ?_ rfl
        simp only [step, hcur, hqw]
        rw [if_pos hw]
        rfl
      | nil =>
        cases hbw : s.back w with
        | nil => rw [hcur, hqw, hbw] at hc; simp at hc
        | cons t rest =>
          refine go (.recv w (fun _ => 0)) ?_ rfl
          simp only [step, hbw]
          rw [if_pos ⟨hov, hw⟩]
          rfl

/-- **C35.** The run never gets stuck: until it is over, some thread can do something that is not a null
call without effect. -/
theorem C35_never_stuck_partial {G : Cfg} (hn : 1 ≤ G.n) (hcap : 1 ≤ G.cap) (hlow : 1 ≤ G.lower) {P : List (List Param)}
    (hwf : ∀ ps ∈ P, WF ps) {s : S} (hr : Reach (step G) (S.init P) s) (hov : s.over = false) :
    ∃ a s', step G s a = some s' ∧ (a.isNull = true → s' ≠ s) := by
  obtain ⟨a, s', h1, h2⟩ := progress hn hcap hlow (inv_reach hn hwf hr) hov
  exact ⟨a, s', h1, fun h e => h2 h (by rw [e])⟩

/-- **C35.** The run ends only when all tasks of the program have been executed, each once, and then
nothing more happens. -/
theorem C35_end_partial {G : Cfg} (hn : 1 ≤ G.n) {P : List (List Param)} (hwf : ∀ ps ∈ P, WF ps) {s : S}
    (hr : Reach (step G) (S.init P) s) (hov : s.over = true) :
    (∀ k, k < P.length → s.log.count (.start k) = 1 ∧ s.log.count (.op k) = G.len k ∧ s.log.count (.fin k) = 1) ∧
    ∀ a, step G s a = none := by
  have h := inv_reach hn hwf hr
  obtain ⟨he, hnc⟩ := h.ov.1 hov
  obtain ⟨hin, hes⟩ := h.z.chE he
  have htd := (h.z.chS hes).1
  have hlen : P.length ≤ s.numb := by
    have := h.z.rest
    rw [hin, htd] at this
    simpa using this
  have hfin : ∀ i p, s.c.par i = some p → s.c.fin i = true := by
    intro i p hp
    cases hf : s.c.fin i with
    | true => rfl
    | false =>
      exfalso
      have hlt : sumN (fun i => (s.c.fin i).toNat) s.c.next < sumN (fun i => (s.c.par i).toList.length) s.c.next := by
        apply sumN_lt_le (h.z.g.b.idp i p hp).2
        · rw [hf, hp]; simp
        · intro k _
          cases hk : s.c.fin k with
          | false => simp
          | true => obtain ⟨q, hq⟩ := h.z.fp k hk; rw [hq]; simp
      rw [← h.z.cf, ← h.z.cp] at hlt
      omega
  have hno : ∀ k, s.loc k = .no := by
    intro k
    by_cases e : s.loc k = .no
    · exact e
    · obtain ⟨⟨p, hp⟩, hf⟩ := rdy_real h.z.g ((h.q.rdy k).2 e)
      rw [hfin k p hp] at hf; cases hf
  have hempty : ∀ w, s.q w = [] ∧ s.cur w = none ∧ s.back w = [] := by
    intro w
    refine ⟨?_, ?_, ?_⟩
    · rw [List.eq_nil_iff_forall_not_mem]
      intro k hk
      have := (h.q.lq w k).1 hk; rw [hno] at this; cases this
    · cases hc : s.cur w with
      | none => rfl
      | some k => have := (h.q.lcur w k).1 hc; rw [hno] at this; cases this
    · rw [List.eq_nil_iff_forall_not_mem]
      intro k hk
      have := (h.q.lback w k).1 hk; rw [hno] at this; cases this
  refine ⟨?_, ?_⟩
  · intro k hk
    obtain ⟨i, p, hp, hi⟩ := h.z.sur k (by omega)
    have hph := h.z.ph i p hp
    unfold counts phase at hph
    rw [hi, hno] at hph
    dsimp only at hph
    rw [hfin i p hp] at hph
    simpa using hph
  · intro a
    cases a with
    | submit => simp only [step, htd]
    | submitEnd => simp only [step, hes]; simp
    | input o => simp only [step, hov]; simp
    | null => simp only [step, hov]; simp
    | recv w o => simp only [step, hov]; simp
    | start w => simp only [step, (hempty w).1, (hempty w).2.1]; simp
    | op w => simp only [step, (hempty w).2.1]; simp
    | stop w => simp only [step, (hempty w).2.1]; simp

theorem run_bound {G : Cfg} {P : List (List Param)} (hwf : ∀ ps ∈ P, WF ps) (acts : List Step) {s s' : S} (h : Inv G P s)
    (he : exec (step G) s acts = some s') : acts.length + meas G P s' ≤ meas G P s + acts.countP Step.isNull := by
  induction acts generalizing s with
  | nil => simp only [exec, Option.some.injEq] at he; subst he; simp
  | cons a acts ih =>
    simp only [exec] at he
    split at he
    · simp at he
    rename_i s1 h1
    have hi := ih (inv_step hwf h h1) he
    simp only [List.length_cons, List.countP_cons]
    rcases meas_step hwf h h1 with hm | ⟨hm, rfl⟩
    · omega
    · rw [hm]; simp only [if_true]; omega

/-- **C35.** The number of steps of an execution is bounded, up to null calls of the scheduler. -/
theorem C35_bounded_partial {G : Cfg} (hn : 1 ≤ G.n) {P : List (List Param)} (hwf : ∀ ps ∈ P, WF ps) {acts : List Step} {s : S}
    (he : exec (step G) (S.init P) acts = some s) :
    acts.length ≤ sumN (fun k => G.len k + 2) P.length + 4 * P.length + 4 + acts.countP Step.isNull := by
  have := run_bound hwf acts (inv_init hn P) he
  have h0 : meas G P (S.init P) = sumN (fun k => G.len k + 2) P.length + 4 * P.length + 4 := by
    unfold meas S.init total
    simp
  omega

/-- **C35.** From every reachable state the run can be completed. -/
theorem C35_completes_partial {G : Cfg} (hn : 1 ≤ G.n) (hcap : 1 ≤ G.cap) (hlow : 1 ≤ G.lower) {P : List (List Param)}
    (hwf : ∀ ps ∈ P, WF ps) {s : S} (hr : Reach (step G) (S.init P) s) :
    ∃ s', Reach (step G) s s' ∧ s'.over = true := by
  have key : ∀ (m : Nat) (s : S), meas G P s = m → Reach (step G) (S.init P) s → ∃ s', Reach (step G) s s' ∧ s'.over = true := by
    intro m
    induction m using Nat.strongRecOn with
    | _ m ih =>
      intro s hm hr
      cases hov : s.over with
      | true => exact ⟨s, Reach.refl _ _, hov⟩
      | false =>
        obtain ⟨a, s1, h1, h2⟩ := C35_never_stuck_partial hn hcap hlow hwf hr hov
        have hlt : meas G P s1 < m := by
          rcases meas_step hwf (inv_reach hn hwf hr) h1 with h | ⟨h, e⟩
          · omega
          · exact absurd e (h2 h)
        obtain ⟨s', g1, g2⟩ := ih _ hlt s1 rfl (hr.tail h1)
        exact ⟨s', Reach.trans ⟨[a], by simp only [exec, h1]⟩ g1, g2⟩
  exact key _ s rfl hr

/-! ## Concrete cases -/

/-- Three tasks: the first writes 1, the second reads 1 and writes 2, the third writes 1. -/
def demoP : List (List Param) := [[⟨1, .out⟩], [⟨1, .inp⟩, ⟨2, .out⟩], [⟨1, .out⟩]]
def demoG : Cfg := ⟨2, fun _ => 1, 1024, 4⟩

instance (ps : List Param) : Decidable (WF ps) := inferInstanceAs (Decidable (_ ∧ _))

theorem demo_wf : ∀ ps ∈ demoP, WF ps := by decide

def any : List Nat → Nat := fun _ => 0

def demo1 : List Step :=
  [.submit, .submit, .submit, .submitEnd, .input any, .input any, .input any, .start 0, .op 0, .stop 0, .recv 0 any, .start 0]

def demo2 : List Step := demo1 ++
  [.input any, .op 0, .stop 0, .recv 0 any, .start 0, .op 0, .stop 0, .recv 0 any]

def demoS1 : S := (exec (step demoG) (S.init demoP) demo1).get (by decide +kernel)
def demoS2 : S := (exec (step demoG) (S.init demoP) demo2).get (by decide +kernel)

/-- Non-vacuity of C33 and C35: a reachable state in the middle of a run, where the second task has been
started after the end of the first one, and the third one is waiting; and the state at the end. -/
example : 1 ≤ demoG.n ∧ 1 ≤ demoG.cap ∧ 1 ≤ demoG.lower ∧ (∀ ps ∈ demoP, WF ps) ∧
    Reach (step demoG) (S.init demoP) demoS1 ∧ demoS1.over = false ∧ demoS1.numb = 3 ∧
    demoS1.log = [.start 0, .op 0, .fin 0, .start 1] ∧
    Reach (step demoG) (S.init demoP) demoS2 ∧ demoS2.over = true ∧
    demoS2.log = [.start 0, .op 0, .fin 0, .start 1, .op 1, .fin 1, .start 2, .op 2, .fin 2] :=
  ⟨by decide, by decide, by decide, demo_wf, Parfor.exec_get _, by decide +kernel, by decide +kernel, by decide +kernel,
    Parfor.exec_get _, by decide +kernel, by decide +kernel⟩

example : Conf [⟨1, .out⟩] [⟨1, .inp⟩, ⟨2, .out⟩] := ⟨1, Or.inl ⟨by simp [writes], Or.inl (by simp [reads])⟩⟩

/-- two tasks that write the parameter with tag 0 -/
def zeroP : List (List Param) := [[⟨0, .out⟩], [⟨0, .out⟩]]
def zeroS : S := (exec (step demoG) (S.init zeroP)
  [.submit, .submit, .input any, .input any, .start 0, .start 1]).get (by decide +kernel)

/-- **C33, counterexample.** Tag 0 stands for "no task" in the table of addresses: two tasks that write the
parameter with tag 0 are executed at the same time. -/
theorem C33_tag_zero_counterexample :
    Reach (step demoG) (S.init zeroP) zeroS ∧ Conf [⟨0, .out⟩] [⟨0, .out⟩] ∧ zeroS.log = [.start 0, .start 1] :=
  ⟨Parfor.exec_get _, ⟨0, Or.inl ⟨by simp [writes], Or.inr (by simp [writes])⟩⟩, by decide +kernel⟩

/-- one task that gives a parameter first as OUTPUT and then as INPUT -/
def selfP : List (List Param) := [[⟨1, .out⟩, ⟨1, .inp⟩]]
def selfG : Cfg := ⟨1, fun _ => 0, 1024, 4⟩
def selfS : S := (exec (step selfG) (S.init selfP) [.submit, .submitEnd, .input any, .input any]).get (by decide +kernel)

/-- **C35, counterexample.** A task that gives a parameter first as OUTPUT and then as INPUT waits for
itself: the run is not over and nothing more happens, although the task has not been executed. -/
theorem C35_self_dependency_counterexample :
    Reach (step selfG) (S.init selfP) selfS ∧ selfS.over = false ∧ selfS.log = [] ∧
    ∀ a, step selfG selfS a = none ∨ step selfG selfS a = some selfS := by
  have h1 : selfS.over = false := by decide +kernel
  have h2 : selfS.inact = false := by decide +kernel
  have h3 : selfS.todo = [] := by decide +kernel
  have h4 : selfS.endSent = true := by decide +kernel
  have h5 : selfS.back 0 = [] := by decide +kernel
  have h6 : selfS.q 0 = [] := by decide +kernel
  have h7 : selfS.cur 0 = none := by decide +kernel
  have h8 : selfS.ended = true := by decide +kernel
  have hw : ∀ w, w < selfG.n → w = 0 := fun w (hw : w < 1) => by omega
  refine ⟨Parfor.exec_get _, h1, by decide +kernel, ?_⟩
  intro a
  cases a with
  | submit => left; simp only [step, h3]
  | submitEnd => left; simp only [step, h4]; simp
  | input o => left; simp only [step, h2]; simp
  | null =>
    right
    simp only [step, h1, h2, h8]; simp
  | recv w o =>
    left
    by_cases e : w < selfG.n
    · rw [hw w e]; simp only [step, h5]; simp
    · simp only [step, e]; simp
  | start w =>
    left
    by_cases e : w < selfG.n
    · rw [hw w e]; simp only [step, h6, h7]; simp
    · simp only [step, e]; simp
  | op w =>
    left
    by_cases e : w < selfG.n
    · rw [hw w e]; simp only [step, h7]; simp
    · simp only [step, e]; simp
  | stop w =>
    left
    by_cases e : w < selfG.n
    · rw [hw w e]; simp only [step, h7]; simp
    · simp only [step, e]; simp

end FF.Mdf
