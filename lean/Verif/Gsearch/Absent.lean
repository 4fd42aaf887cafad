import Verif.Gsearch.One
/-!
# C78: the search for one node when nothing is found

As long as no node is found nobody sets the flag, so that all threads read 0.
-/
namespace FF.Gs
open FF.Node FF.Farm
variable {V : Type}

/-- the flag that nobody has set -/
abbrev clear : Nat → Nat → Bool := fun _ _ => false

theorem freshOne_clear (id : V → Nat) (vs : List V) : ∀ j k mask,
    freshOne id (fun _ => false) j k mask vs = ((fresh id mask vs).1, (fresh id mask vs).2, false) := by
  induction vs with
  | nil => intro j k mask; rfl
  | cons v vs ih =>
    intro j k mask
    simp only [freshOne, fresh, Bool.and_false, Bool.false_eq_true, if_false]
    split
    · exact ih _ _ _
    · rw [ih]

variable {p : V → Bool} {out : V → List V} {id : V → Nat} {start : Option V} {nw : Nat} {ci : Nat → Nat}

/-- the same state, seen as a state of the search for all nodes -/
def sim (s : M (seeker out id clear start)) : M (explorer out id start) :=
  { e := s.e, es := s.es.1, first := s.first, avail := s.avail, start := s.start, cnt := s.cnt, nw := s.nw, ph := s.ph
    inq := s.inq, consumed := s.consumed, pending := s.pending, pushed := s.pushed, outq := s.outq, inb := s.inb, inp := s.inp
    hist := s.hist, absd := s.absd, issued := s.issued }

theorem svc_sim (st : St × Nat) (ch : Option Nat) (m : Msg V) :
    (explorer out id start).svc st.1 ch m =
      (((seeker out id clear start).svc st ch m).1.1, ((seeker out id clear start).svc st ch m).2.1, ((seeker out id clear start).svc st ch m).2.2) := by
  by_cases hs : st.1.started = true
  · cases m with
    | data v =>
      by_cases h0 : st.1.counter = 0
      · simp [explorer, seeker, hs, h0]
      · simp [explorer, seeker, hs, h0, freshOne_clear]
    | _ => simp [explorer, seeker, hs]
  · cases m <;> simp [explorer, seeker, hs]

theorem task_sim (s : M (seeker out id clear start)) (ch : Option Nat) (m : Msg V) :
    (sim s).task (farm p nw ci) ch m = sim (s.task (farm1 p clear nw ci) ch m) := by
  have h := svc_sim (out := out) (id := id) (start := start) s.es ch m
  simp only [M.task, M.issue, sim]
  rw [h]
  rfl

theorem mark_sim (s : M (seeker out id clear start)) (ch : Option Nat) (m : Msg V) :
    (sim s).mark (farm p nw ci) ch m = sim (s.mark (farm1 p clear nw ci) ch m) := by
  have he : erases (farm p nw ci) m ch = erases (farm1 p clear nw ci) m ch := by cases m <;> rfl
  unfold M.mark
  rw [he]
  by_cases h : erases (farm1 p clear nw ci) m ch = true
  · simp only [h, if_true]; rfl
  · simp only [h]; rfl

theorem handle_sim (s : M (seeker out id clear start)) (ch : Option Nat) (m : Msg V) :
    (sim s).handle (farm p nw ci) ch m = sim (s.handle (farm1 p clear nw ci) ch m) := by
  cases m with
  | goout => rfl
  | eosw => rfl
  | eos => exact mark_sim s ch _
  | eosnf => exact mark_sim s ch _
  | _ => exact task_sim s ch _

theorem poll_sim (s : M (seeker out id clear start)) :
    (sim s).poll (farm p nw ci) = (s.poll (farm1 p clear nw ci)).map sim := by
  have hn : (sim s).next = s.next := rfl
  unfold M.poll
  rcases h1 : s.avail[s.next]? with _ | i
  · have h1' : (sim s).avail[(sim s).next]? = none := h1
    simp only [h1']; rfl
  · have h1' : (sim s).avail[(sim s).next]? = some i := h1
    simp only [h1']
    rcases ho : s.outq i with _ | ⟨m, ms⟩
    · have ho' : (sim s).outq i = [] := ho
      simp only [ho']
      by_cases hc : s.cnt + 1 = s.avail.length
      · have hc' : (sim s).cnt + 1 = (sim s).avail.length := hc
        simp only [hc, hc', if_true]
        rcases hb : s.inb with _ | ⟨m, ms⟩
        · have hb' : (sim s).inb = [] := hb
          simp only [hb']
          simp only [sim, Option.map_some, hb]
          rfl
        · have hb' : (sim s).inb = m :: ms := hb
          simp only [hb']
          exact congrArg some (handle_sim { s with start := s.next, cnt := 0, inb := ms, hist := s.hist ++ [⟨none, none, m⟩] } none m)
      · have hc' : ¬ (sim s).cnt + 1 = (sim s).avail.length := hc
        simp only [hc, hc', if_false]; rfl
    · have ho' : (sim s).outq i = m :: ms := ho
      simp only [ho']
      exact congrArg some (handle_sim { s with
        start := s.next, cnt := 0, outq := upd s.outq i ms
        hist := s.hist ++ [⟨some i, some s.next, m⟩] } (some s.next) m)

/-- a worker to which no node is shown that is asked for -/
theorem worker_sim (ms : List (Msg V)) (hms : ∀ v, .data v ∈ ms → p v = false) : ∀ (l1 : L (finder p fun _ => false)) (l2 : L (searcher p)),
    l1.exited = l2.exited → l1.neos = l2.neos →
    (run (finder p fun _ => false) l1 ms).2 = (run (searcher p) l2 ms).2 ∧
    (run (finder p fun _ => false) l1 ms).1.exited = (run (searcher p) l2 ms).1.exited ∧
    (run (finder p fun _ => false) l1 ms).1.neos = (run (searcher p) l2 ms).1.neos ∧
    (run (searcher p) l2 ms).1.st = l2.st := by
  induction ms with
  | nil => intro l1 l2 h1 h2; exact ⟨rfl, h1, h2, rfl⟩
  | cons m ms ih =>
    intro l1 l2 h1 h2
    by_cases he : l1.exited = true
    · rw [run_exited _ l1 he, run_exited _ l2 (h1 ▸ he)]
      exact ⟨rfl, h1, h2, rfl⟩
    · have he1 : l1.exited = false := by simpa using he
      rw [run_cons _ l1 he1, run_cons _ l2 (h1 ▸ he1)]
      have hb : (body (finder p fun _ => false) l1 m).2 = (body (searcher p) l2 m).2 ∧
          (body (finder p fun _ => false) l1 m).1.exited = (body (searcher p) l2 m).1.exited ∧
          (body (finder p fun _ => false) l1 m).1.neos = (body (searcher p) l2 m).1.neos ∧
          (body (searcher p) l2 m).1.st = l2.st := by
        have hmk : ∀ fwd : List (Msg V), (markBody (finder p fun _ => false) l1 fwd).2 = (markBody (searcher p) l2 fwd).2 ∧
            (markBody (finder p fun _ => false) l1 fwd).1.exited = (markBody (searcher p) l2 fwd).1.exited ∧
            (markBody (finder p fun _ => false) l1 fwd).1.neos = (markBody (searcher p) l2 fwd).1.neos ∧
            (markBody (searcher p) l2 fwd).1.st = l2.st := by
          intro fwd
          unfold markBody
          rw [h2]
          split
          · exact ⟨rfl, h1, rfl, rfl⟩
          · exact ⟨rfl, rfl, rfl, rfl⟩
        cases m with
        | data d =>
          have := hms d (by simp)
          simp [body, svcBody, finder, searcher, this, visible, continues, h2]
        | eos => exact hmk _
        | eosw => exact hmk _
        | eosnf => exact hmk _
        | goout => exact ⟨rfl, rfl, h2, rfl⟩
        | goon => exact ⟨rfl, rfl, h2, rfl⟩
        | nul => exact ⟨rfl, rfl, h2, rfl⟩
        | flush => exact ⟨rfl, rfl, h2, rfl⟩
      obtain ⟨b1, b2, b3, b4⟩ := hb
      obtain ⟨c1, c2, c3, c4⟩ := ih (fun v hv => hms v (by simp [hv])) _ _ b2 b3
      exact ⟨by rw [b1, c1], c2, c3, c4.trans b4⟩

/-- no node that is asked for has been consumed, or is going to be by this action -/
def Unseen (p : V → Bool) {em : Em V} (s : M em) (a : MAct) : Prop :=
  (∀ i v, .data v ∈ s.consumed i → p v = false) ∧ ∀ i, a = .pop i → ∀ v ms, s.inq i = .data v :: ms → p v = false

theorem step_sim (s : M (seeker out id clear start)) (a : MAct) (h : Unseen p s a) :
    mstep (farm p nw ci) (sim s) a = (mstep (farm1 p clear nw ci) s a).map sim := by
  cases a with
  | emit =>
    simp only [mstep]
    rcases ha : s.e.attempt nw (fun i => decide (ci i ≤ (s.inq i).length)) with _ | ⟨e', _ | ⟨i, m⟩⟩
    all_goals
      have ha' := ha
      change (sim s).e.attempt (farm p nw ci).n (fun i => decide ((farm p nw ci).ci i ≤ ((sim s).inq i).length)) = _ at ha'
      change s.e.attempt (farm1 p clear nw ci).n (fun i => decide ((farm1 p clear nw ci).ci i ≤ (s.inq i).length)) = _ at ha
      simp only [ha, ha']
      rfl
  | collect =>
    simp only [mstep]
    by_cases hc : (s.e.free && decide (s.ph = .loop)) = true
    · have hc' : ((sim s).e.free && decide ((sim s).ph = .loop)) = true := hc
      simp only [hc, hc', if_true]
      by_cases hf : s.first = true
      · have hf' : (sim s).first = true := hf
        simp only [hf, hf', if_true]
        exact congrArg some (task_sim { s with first := false } none .nul)
      · have hf' : ¬ (sim s).first = true := hf
        simp only [hf, hf']
        exact poll_sim s
    · have hc' : ¬ ((sim s).e.free && decide ((sim s).ph = .loop)) = true := hc
      simp only [hc, hc']; rfl
  | absorb =>
    simp only [mstep]
    rcases hp : s.ph with _ | k | _
    · have hp' : (sim s).ph = .loop := hp
      simp only [hp']; rfl
    · have hp' : (sim s).ph = .leave k := hp
      simp only [hp']
      by_cases hc : (s.e.free && decide (k < nw)) = true
      · have hc1 : ((sim s).e.free && decide (k < (farm p nw ci).n)) = true := hc
        have hc2 : (s.e.free && decide (k < (farm1 p clear nw ci).n)) = true := hc
        simp only [hc1, hc2, if_true]
        rcases ho : s.outq k with _ | ⟨m, ms⟩
        · have ho' : (sim s).outq k = [] := ho
          simp only [ho']; rfl
        · have ho' : (sim s).outq k = m :: ms := ho
          simp only [ho']; rfl
      · have hc1 : ¬ ((sim s).e.free && decide (k < (farm p nw ci).n)) = true := hc
        have hc2 : ¬ (s.e.free && decide (k < (farm1 p clear nw ci).n)) = true := hc
        simp only [hc1, hc2]; rfl
    · have hp' : (sim s).ph = .fail := hp
      simp only [hp']; rfl
  | pop i =>
    simp only [mstep]
    have hw := worker_sim (s.consumed i) (h.1 i) (L.start (finder p fun _ => false) 1) (L.start (searcher p) 1) rfl rfl
    by_cases hc : i < nw ∧ s.pending i = [] ∧ (after (finder p fun _ => false) (s.consumed i)).exited = false
    · have hc1 : i < (farm p nw ci).n ∧ (sim s).pending i = [] ∧ (after ((farm p nw ci).w i) ((sim s).consumed i)).exited = false :=
        ⟨hc.1, hc.2.1, hw.2.1 ▸ hc.2.2⟩
      have hc2 : i < (farm1 p clear nw ci).n ∧ s.pending i = [] ∧ (after ((farm1 p clear nw ci).w i) (s.consumed i)).exited = false := hc
      simp only [hc1, hc2, and_self, if_true]
      rcases hq : s.inq i with _ | ⟨m, ms⟩
      · have hq' : (sim s).inq i = [] := hq
        simp only [hq']; rfl
      · have hq' : (sim s).inq i = m :: ms := hq
        simp only [hq']
        have hb : (body (searcher p) (after (searcher p) (s.consumed i)) m).2 =
            (body (finder p fun _ => false) (after (finder p fun _ => false) (s.consumed i)) m).2 := by
          have h5 := worker_sim [m] (by
            intro v hv
            simp only [List.mem_singleton] at hv
            exact h.2 i rfl v ms (by rw [hq, ← hv])) _ _ hw.2.1 hw.2.2.1
          have e1 : (after (finder p fun _ => false) (s.consumed i)).exited = false := hc.2.2
          have e2 : (after (searcher p) (s.consumed i)).exited = false := hw.2.1 ▸ hc.2.2
          have h6 : (run (finder p fun _ => false) (after (finder p fun _ => false) (s.consumed i)) [m]).2 =
              (run (searcher p) (after (searcher p) (s.consumed i)) [m]).2 := h5.1
          rw [run_cons _ _ e1, run_cons _ _ e2] at h6
          simpa [run] using h6.symm
        have hb' : (body ((farm p nw ci).w i) (after ((farm p nw ci).w i) ((sim s).consumed i)) m).2 =
          (body ((farm1 p clear nw ci).w i) (after ((farm1 p clear nw ci).w i) (s.consumed i)) m).2 := hb
        simp only [hb']
        rfl
    · have hc1 : ¬ (i < (farm p nw ci).n ∧ (sim s).pending i = [] ∧ (after ((farm p nw ci).w i) ((sim s).consumed i)).exited = false) :=
        fun hh => hc ⟨hh.1, hh.2.1, (hw.2.1).trans hh.2.2⟩
      have hc2 : ¬ (i < (farm1 p clear nw ci).n ∧ s.pending i = [] ∧ (after ((farm1 p clear nw ci).w i) (s.consumed i)).exited = false) := hc
      rw [if_neg hc1, if_neg hc2]; rfl
  | push i =>
    simp only [mstep]
    by_cases hi : i < nw
    · have hi1 : i < (farm p nw ci).n := hi
      have hi2 : i < (farm1 p clear nw ci).n := hi
      simp only [hi1, hi2, if_true]
      rcases hq : s.pending i with _ | ⟨m, ms⟩
      · have hq' : (sim s).pending i = [] := hq
        simp only [hq']; rfl
      · have hq' : (sim s).pending i = m :: ms := hq
        simp only [hq']; rfl
    · have hi1 : ¬ i < (farm p nw ci).n := hi
      have hi2 : ¬ i < (farm1 p clear nw ci).n := hi
      simp only [hi1, hi2]; rfl
  | arrive =>
    simp only [mstep]
    rcases hq : s.inp with _ | ⟨m, ms⟩
    · have hq' : (sim s).inp = [] := hq
      simp only [hq']; rfl
    · have hq' : (sim s).inp = m :: ms := hq
      simp only [hq']; rfl

/-! ## What was consumed stays consumed -/

theorem consumed_step {cf : Cfg V} {em : Em V} {s s' : M em} {a : MAct} (hs : mstep cf s a = some s') :
    (∀ i, s.consumed i <+: s'.consumed i) ∧ ∀ i, a = .pop i → ∃ m ms, s.inq i = m :: ms ∧ s'.consumed i = s.consumed i ++ [m] := by
  cases a with
  | collect =>
    refine ⟨?_, by intro i h; cases h⟩
    simp only [mstep] at hs
    split at hs
    · split at hs
      · simp only [Option.some.injEq] at hs
        subst hs; exact fun i => List.prefix_rfl
      · rcases poll_cases hs with ⟨i, m, ms, hi, ho, rfl⟩ | ⟨m, ms, ho, rfl⟩ | ⟨c, hcc, rfl⟩
        · intro j; rw [(handle_same cf _ _ _).consumed]; exact List.prefix_rfl
        · intro j; rw [(handle_same cf _ _ _).consumed]; exact List.prefix_rfl
        · exact fun i => List.prefix_rfl
    · simp at hs
  | pop k =>
    simp only [mstep] at hs
    split at hs
    · split at hs
      · simp at hs
      · rename_i m ms hq
        simp only [Option.some.injEq] at hs
        subst hs
        refine ⟨fun i => ?_, fun i hi => ?_⟩
        · by_cases h : i = k
          · subst h; simp [upd]
          · simp [upd, h]
        · cases hi
          exact ⟨m, ms, hq, by simp [upd]⟩
    · simp at hs
  | _ =>
    refine ⟨?_, by intro i h; cases h⟩
    simp only [mstep] at hs
    repeat' split at hs
    all_goals first
      | (simp at hs; done)
      | (simp only [Option.some.injEq] at hs
         subst hs; exact fun i => List.prefix_rfl)

theorem consumed_reach {cf : Cfg V} {em : Em V} {s s' : M em} (hr : Reach (mstep cf) s s') : ∀ i, s.consumed i <+: s'.consumed i :=
  hr.inv (Inv := fun x => ∀ i, s.consumed i <+: x.consumed i) (fun _ => List.prefix_rfl) fun _ _ _ h hs i => (h i).trans ((consumed_step hs).1 i)

theorem exec_sim {sf : M (seeker out id clear start)} (hsf : ∀ i v, .data v ∈ sf.consumed i → p v = false) :
    ∀ (as : List MAct) (s : M (seeker out id clear start)), exec (mstep (farm1 p clear nw ci)) s as = some sf →
      exec (mstep (farm p nw ci)) (sim s) as = some (sim sf) := by
  intro as
  induction as with
  | nil => intro s h; simp only [exec, Option.some.injEq] at h ⊢; rw [h]
  | cons a as ih =>
    intro s h
    simp only [exec] at h ⊢
    cases hs : mstep (farm1 p clear nw ci) s a with
    | none => rw [hs] at h; simp at h
    | some s1 =>
      rw [hs] at h
      have hpre := consumed_reach ⟨as, h⟩
      obtain ⟨c1, c2⟩ := consumed_step hs
      have hu : Unseen p s a := by
        refine ⟨fun i v hv => hsf i v ((hpre i).subset ((c1 i).subset hv)), fun i hi v ms hq => ?_⟩
        obtain ⟨m, ms', e1, e2⟩ := c2 i hi
        rw [hq] at e1
        cases e1
        exact hsf i v ((hpre i).subset (by rw [e2]; simp))
      rw [step_sim s a hu, hs]
      exact ih s1 h

/-- a message is only consumed by a worker that has not ended -/
theorem alive_reach {cf : Cfg V} {em : Em V} {inp : List (Msg V)} {s : M em} (hr : Reach (mstep cf) (M.init cf em inp) s) :
    ∀ i pre m post, s.consumed i = pre ++ m :: post → i < cf.n ∧ (after (cf.w i) pre).exited = false := by
  refine hr.inv (Inv := fun x => ∀ i pre m post, x.consumed i = pre ++ m :: post → i < cf.n ∧ (after (cf.w i) pre).exited = false)
    (by intro i pre m post h; simp [M.init] at h) ?_
  intro x a y h hs i pre m post hy
  by_cases hp : a = .pop i
  · subst hp
    obtain ⟨m', ms, e1, e2⟩ := (consumed_step hs).2 i rfl
    rw [e2] at hy
    rcases List.eq_nil_or_concat post with rfl | ⟨post', z, rfl⟩
    · obtain ⟨rfl, _⟩ := List.append_inj' hy rfl
      simp only [mstep] at hs
      split at hs
      · rename_i hc; exact ⟨hc.1, hc.2.2⟩
      · simp at hs
    · rw [List.concat_eq_append, show pre ++ m :: (post' ++ [z]) = (pre ++ m :: post') ++ [z] by simp] at hy
      exact h i pre m post' (List.append_inj' hy rfl).1
  · have hsame : y.consumed i = x.consumed i := by
      cases a with
      | collect =>
        simp only [mstep] at hs
        split at hs
        · split at hs
          · simp only [Option.some.injEq] at hs
            subst hs; rfl
          · rcases poll_cases hs with ⟨j, m, ms, hi, ho, rfl⟩ | ⟨m, ms, ho, rfl⟩ | ⟨c, hcc, rfl⟩
            · rw [(handle_same cf _ _ _).consumed]
            · rw [(handle_same cf _ _ _).consumed]
            · rfl
        · simp at hs
      | pop k =>
        have hk : i ≠ k := fun e => hp (by rw [e])
        simp only [mstep] at hs
        split at hs
        · split at hs
          · simp at hs
          · simp only [Option.some.injEq] at hs
            subst hs
            simp [upd, hk]
        · simp at hs
      | _ =>
        simp only [mstep] at hs
        repeat' split at hs
        all_goals first
          | (simp at hs; done)
          | (simp only [Option.some.injEq] at hs
             subst hs; rfl)
    rw [hsame] at hy
    exact h i pre m post hy

theorem found_mono (ms : List (Msg V)) : ∀ (l : L (finder p fun _ => false)) (v : V), v ∈ l.st.2 → v ∈ (run (finder p fun _ => false) l ms).1.st.2 := by
  induction ms with
  | nil => intro l v h; exact h
  | cons m ms ih =>
    intro l v h
    by_cases he : l.exited = true
    · rw [run_exited _ l he]; exact h
    · rw [run_cons _ l (by simpa using he)]
      apply ih
      have hmk : ∀ fwd : List (Msg V), v ∈ (markBody (finder p fun _ => false) l fwd).1.st.2 := by
        intro fwd
        unfold markBody
        split <;> exact h
      cases m with
      | data d => by_cases hp : p d = true <;> simp [body, svcBody, finder, hp] <;> first | exact Or.inl h | exact h
      | eos => exact hmk _
      | eosw => exact hmk _
      | eosnf => exact hmk _
      | goout => exact h
      | goon => exact h
      | nul => exact h
      | flush => exact h

/-- **C78, one node, nothing found**: if the search has ended and no worker has found anything (so that all threads read 0 from the flag), no node that can be
reached from the start is equal to the node asked for. -/
theorem C78_one_complete (hn : 0 < nw) {s0 : V} (hd : Distinct out id s0) {s : M (seeker out id clear (some s0))}
    (hr : Reach (mstep (farm1 p clear nw ci)) (run1 p out id clear clear (some s0) nw ci) s) (hf : s.Final (farm1 p clear nw ci))
    (hnone : ∀ i, i < nw → found1 p clear i s = []) (v : V) (hv : Conn out s0 v) : p v = false := by
  have hcons : ∀ i v, .data v ∈ s.consumed i → p v = false := by
    intro i v hv
    obtain ⟨pre, post, e⟩ := List.append_of_mem hv
    obtain ⟨hi, hal⟩ := alive_reach hr i pre _ post e
    have hi' : i < nw := hi
    have hal' : (after (finder p fun _ => false) pre).exited = false := hal
    cases hp : p v with
    | false => rfl
    | true =>
      exfalso
      have h1 := hnone i hi'
      have h2 : v ∈ found1 p clear i s := by
        show v ∈ (run (finder p fun _ => false) (L.start (finder p fun _ => false) 1) (s.consumed i)).1.st.2
        rw [e, run_append]
        simp only
        have hal2 : (run (finder p fun _ => false) (L.start (finder p fun _ => false) 1) pre).1.exited = false := hal'
        rw [run_cons _ _ hal2]
        apply found_mono
        simp [body, svcBody, finder, hp]
      rw [h1] at h2
      simp at h2
  obtain ⟨as, has⟩ := hr
  have h1 := exec_sim (nw := nw) (ci := ci) hcons as _ has
  have hr2 : Reach (mstep (farm p nw ci)) (run0 p out id (some s0) nw ci) (sim s) := ⟨as, h1⟩
  have hw := fun i => worker_sim (p := p) (s.consumed i) (hcons i) (L.start (finder p fun _ => false) 1) (L.start (searcher p) 1) rfl rfl
  have hf2 : (sim s).Final (farm p nw ci) := ⟨hf.1, fun i hi => ⟨(hw i).2.1 ▸ (hf.2 i hi).1, (hf.2 i hi).2⟩⟩
  cases hp : p v with
  | false => rfl
  | true =>
    exfalso
    have h3 := (C78_result hn hd hr2 hf2 v).mpr ⟨hp, hv⟩
    obtain ⟨l, hl, h4⟩ := List.mem_flatten.1 h3
    obtain ⟨i, _, e⟩ := List.mem_map.1 hl
    have h5 : (after (searcher p) (s.consumed i)).st = [] := (hw i).2.2.2
    have h6 : l = [] := e.symm.trans h5
    rw [h6] at h4
    simp at h4

/-- **C78, one node, none there**: if no node that can be reached from the start is equal to the node asked for, the search returns: for every number of workers,
all capacities and every schedule so far the end is reachable. -/
theorem C78_one_absent {N : Nat} (hn : 0 < nw) (hci : ∀ i, i < nw → 0 < ci i) (hid : ∀ v, id v < N) {s0 : V}
    (hno : ∀ v, Conn out s0 v → p v = false) {s : M (seeker out id clear (some s0))}
    (hr : Reach (mstep (farm1 p clear nw ci)) (run1 p out id clear clear (some s0) nw ci) s) :
    ∃ s', Reach (mstep (farm1 p clear nw ci)) s s' ∧ s'.Final (farm1 p clear nw ci) ∧ ∀ i, found1 p clear i s' = [] := by
  have hlog : ∀ x : M (seeker out id clear (some s0)), Reach (mstep (farm1 p clear nw ci)) (run1 p out id clear clear (some s0) nw ci) x →
      ∀ i v, .data v ∈ x.consumed i ++ x.inq i → p v = false := by
    intro x hx i v hv
    obtain ⟨h1, _, h3⟩ := inv1 hn hx
    rw [← h1.inq i] at hv
    obtain ⟨c, hc1, hc2⟩ := h1.e.mem (mem_from.1 hv)
    obtain ⟨s1, e1, e2⟩ := conn_issued h1 h3 c hc1 v hc2.symm
    cases e1
    exact hno v e2
  have hback : ∀ (as : List MAct) (x : M (seeker out id clear (some s0))),
      Reach (mstep (farm1 p clear nw ci)) (run1 p out id clear clear (some s0) nw ci) x → ∀ t, exec (mstep (farm p nw ci)) (sim x) as = some t →
      ∃ y, exec (mstep (farm1 p clear nw ci)) x as = some y ∧ sim y = t := by
    intro as
    induction as with
    | nil => intro x _ t h; simp only [exec, Option.some.injEq] at h; exact ⟨x, rfl, h⟩
    | cons a as ih =>
      intro x hx t h
      have hu : Unseen p x a :=
        ⟨fun i v hv => hlog x hx i v (List.mem_append_left _ hv), fun i _ v ms hq => hlog x hx i v (List.mem_append_right _ (by rw [hq]; simp))⟩
      simp only [exec] at h ⊢
      rw [step_sim x a hu] at h
      cases hs : mstep (farm1 p clear nw ci) x a with
      | none => rw [hs] at h; simp at h
      | some x1 =>
        rw [hs] at h
        simp only [Option.map_some] at h
        exact ih x1 (hx.tail hs) t h
  have hrs : Reach (mstep (farm p nw ci)) (run0 p out id (some s0) nw ci) (sim s) := by
    obtain ⟨as, has⟩ := hr
    exact ⟨as, exec_sim (fun i v hv => hlog s ⟨as, has⟩ i v (List.mem_append_left _ hv)) as _ has⟩
  obtain ⟨t, ⟨as, has⟩, hft⟩ := C78_returns hn hci hid hrs
  obtain ⟨y, hy, rfl⟩ := hback as s hr t has
  have hry := hr.trans ⟨as, hy⟩
  have hw := fun i => worker_sim (p := p) (y.consumed i) (fun v hv => hlog y hry i v (List.mem_append_left _ hv))
    (L.start (finder p fun _ => false) 1) (L.start (searcher p) 1) rfl rfl
  refine ⟨y, ⟨as, hy⟩, ⟨hft.1, fun i hi => ⟨(hw i).2.1.trans (hft.2 i hi).1, (hft.2 i hi).2⟩⟩, fun i => ?_⟩
  apply List.eq_nil_iff_forall_not_mem.mpr
  intro v hv
  obtain ⟨h1, s1, e1, e2⟩ := C78_one_sound hn hry hv
  cases e1
  rw [hno v e2] at h1
  simp at h1

-- the ring of five nodes, and a node that is not in it
example : ∃ s : M (seeker ring Fin.val clear (some 0)),
    Reach (mstep (farm1 (fun _ => false) clear 3 fun _ => 1)) (run1 (fun _ => false) ring Fin.val clear clear (some 0) 3 fun _ => 1) s ∧
    s.Final (farm1 (fun _ => false) clear 3 fun _ => 1) := by
  obtain ⟨s, h1, h2, _⟩ := C78_one_absent (p := fun _ => false) (out := ring) (id := Fin.val) (nw := 3) (ci := fun _ => 1) (N := 5) (by decide)
    (by intros; decide) (fun v => v.isLt) (s0 := 0) (fun _ _ => rfl) (.refl _ _)
  exact ⟨s, h1, h2⟩

end FF.Gs
