import Verif.Farm.MasterThm
/-!
# Master-worker farm: when the emitter leaves its loop, and what it leaves behind
-/
namespace FF.Farm
open FF.Node
variable {D : Type}

/-! ## Specification -/

/-- everything the emitter has been called with: the first call on `NULL` if there is no input channel,
then what it received -/
def calls (started : Bool) (h : List (Ev D)) : List (Ev D) :=
  if started then ⟨none, none, .nul⟩ :: h else h

/-- `EOS` and `EOS_NOFREEZE` -/
def isEnd : Msg D → Bool
  | .eos | .eosnf => true
  | _ => false

/-- the number of end marks received -/
def marks (h : List (Ev D)) : Nat := h.countP fun x => isEnd x.m

/-- Does the emitter leave its loop when it receives `x` after `pre`?  `GO_OUT`: at once.  `EOSW`: no.
An end mark: if it is the last one expected.  A task: if `svc` returns neither a task nor `GO_ON` nor
`FLUSH`. -/
def Leaves (em : Em D) (total : Nat) (pre : List (Ev D)) (x : Ev D) : Prop :=
  match x.m with
  | .goout => True
  | .eosw => False
  | .eos | .eosnf => marks (pre ++ [x]) = total
  | m => match (em.svc (replay em em.init pre).1 x.ch m).2.2 with
    | .data _ | .goon | .flush => False
    | _ => True

theorem behaviour_calls (em : Em D) (b : Bool) (h : List (Ev D)) : behaviour em b h = replay em em.init (calls b h) := by
  cases b <;> rfl

theorem marks_snoc (h : List (Ev D)) (x : Ev D) : marks (h ++ [x]) = marks h + if isEnd x.m then 1 else 0 := by
  simp [marks, List.countP_append, List.countP_cons]

/-- one received message -/
theorem handle_leaves (cf : Cfg D) {em : Em D} (z : M em) (total : Nat) (pre : List (Ev D)) (src ch : Option Nat) (m : Msg D)
    (hp : z.ph = .loop) (he : z.es = (replay em em.init pre).1) (hw : z.nw + marks pre = total) (hn : 0 < z.nw) :
    ((z.handle cf ch m).ph ≠ .loop ↔ Leaves em total pre ⟨src, ch, m⟩) ∧
    ((z.handle cf ch m).ph = .loop → (z.handle cf ch m).nw + marks (pre ++ [⟨src, ch, m⟩]) = total ∧
      0 < (z.handle cf ch m).nw) := by
  have hret : ∀ r : Msg D, (retPh cf r ≠ .loop ↔ (match r with | .data _ | .goon | .flush => False | _ => True)) := by
    intro r
    have := leaving_ne cf
    cases r <;> simp [retPh, this]
  have hmark : ∀ m' : Msg D, isEnd m' = true →
      ((z.mark cf ch m').ph ≠ .loop ↔ marks (pre ++ [⟨src, ch, m'⟩]) = total) ∧
      ((z.mark cf ch m').ph = .loop → (z.mark cf ch m').nw + marks (pre ++ [⟨src, ch, m'⟩]) = total ∧
        0 < (z.mark cf ch m').nw) := by
    intro m' hm'
    have h1 : (z.mark cf ch m').nw = z.nw - 1 := by
      unfold M.mark; simp only; split <;> rfl
    have h2 : (z.mark cf ch m').ph = if z.nw - 1 = 0 then .leave cf.n else .loop := by
      unfold M.mark; simp only; split <;> rfl
    rw [h1, h2, marks_snoc]
    simp only [hm', if_true]
    by_cases h0 : z.nw - 1 = 0
    · simp only [h0, if_true]
      refine ⟨⟨fun _ => by omega, fun _ => by simp⟩, fun h => by simp at h⟩
    · simp only [h0, if_false]
      exact ⟨⟨fun h => absurd rfl h, fun h => by omega⟩, fun _ => ⟨by omega, by omega⟩⟩
  have htask : ∀ m' : Msg D, isEnd m' = false →
      ((z.task cf ch m').ph ≠ .loop ↔ (match (em.svc (replay em em.init pre).1 ch m').2.2 with
        | .data _ | .goon | .flush => False | _ => True)) ∧
      ((z.task cf ch m').ph = .loop → (z.task cf ch m').nw + marks (pre ++ [⟨src, ch, m'⟩]) = total ∧
        0 < (z.task cf ch m').nw) := by
    intro m' hm'
    refine ⟨?_, fun _ => ?_⟩
    · rw [← he]; exact hret _
    · rw [marks_snoc]
      simp only [hm', Bool.false_eq_true, if_false]
      exact ⟨hw, hn⟩
  cases m with
  | goout => simp [M.handle, Leaves]
  | eosw => simp [M.handle, Leaves, hp, marks_snoc, isEnd, hw, hn]
  | eos => exact hmark .eos rfl
  | eosnf => exact hmark .eosnf rfl
  | data d => exact htask _ rfl
  | goon => exact htask _ rfl
  | nul => exact htask _ rfl
  | flush => exact htask _ rfl

structure EndInv (cf : Cfg D) {em : Em D} (s : M em) : Prop where
  early : ∀ pre x post, calls (!cf.inpresent && !s.first) s.hist = pre ++ x :: post →
    (Leaves em (cf.n + if cf.inpresent then 1 else 0) pre x ↔ post = [] ∧ s.ph ≠ .loop)
  start : calls (!cf.inpresent && !s.first) s.hist = [] → s.ph = .loop
  nw : s.ph = .loop → s.nw + marks (calls (!cf.inpresent && !s.first) s.hist) =
    (cf.n + if cf.inpresent then 1 else 0) ∧ 0 < s.nw

theorem EndInv.keep {cf : Cfg D} {em : Em D} {s s' : M em} (h : EndInv cf s) (h1 : s'.first = s.first)
    (h2 : s'.hist = s.hist) (h3 : (s'.ph = .loop ↔ s.ph = .loop)) (h4 : s'.nw = s.nw) : EndInv cf s' := by
  refine ⟨?_, ?_, ?_⟩
  · rw [h1, h2, ne_eq, h3]; exact h.early
  · rw [h1, h2, h3]; exact h.start
  · rw [h1, h2, h3, h4]; exact h.nw

/-- one more call -/
theorem EndInv.call {cf : Cfg D} {em : Em D} {s s' : M em} (h : EndInv cf s) (hp : s.ph = .loop) (y : Ev D)
    (hc : calls (!cf.inpresent && !s'.first) s'.hist = calls (!cf.inpresent && !s.first) s.hist ++ [y])
    (hl : (s'.ph ≠ .loop ↔ Leaves em (cf.n + if cf.inpresent then 1 else 0)
      (calls (!cf.inpresent && !s.first) s.hist) y))
    (hn : s'.ph = .loop → s'.nw + marks (calls (!cf.inpresent && !s.first) s.hist ++ [y]) =
      (cf.n + if cf.inpresent then 1 else 0) ∧ 0 < s'.nw) : EndInv cf s' := by
  refine ⟨?_, ?_, ?_⟩
  · intro pre x post hh
    rw [hc] at hh
    rcases List.eq_nil_or_concat post with rfl | ⟨post', z, rfl⟩
    · obtain ⟨rfl, e2⟩ := List.append_inj' hh rfl
      simp only [List.cons.injEq, and_true] at e2
      subst e2
      simp [hl]
    · rw [List.concat_eq_append] at hh ⊢
      have : pre ++ x :: (post' ++ [z]) = (pre ++ x :: post') ++ [z] := by simp
      rw [this] at hh
      obtain ⟨e1, _⟩ := List.append_inj' hh rfl
      have := h.early pre x post' e1
      rw [this]
      simp [hp]
  · intro hh; rw [hc] at hh; simp at hh
  · rw [hc]; exact hn

theorem EndInv.init (cf : Cfg D) (hn : 0 < cf.n) (em : Em D) (inp : List (Msg D)) : EndInv cf (M.init cf em inp) := by
  have hc : calls (!cf.inpresent && !(M.init cf em inp).first) (M.init cf em inp).hist = [] := by
    simp [M.init, calls]
  refine ⟨?_, fun _ => rfl, fun _ => ?_⟩
  · intro pre x post hh; rw [hc] at hh; simp at hh
  · rw [hc]; simp only [M.init, marks, List.countP_nil]; omega

theorem EndInv.step {cf : Cfg D} {em : Em D} {inp0 : List (Msg D)} {s s' : M em} {a : MAct}
    (hm : MInv cf inp0 s) (h : EndInv cf s) (hs : mstep cf s a = some s') : EndInv cf s' := by
  cases a with
  | emit =>
    simp only [mstep] at hs
    repeat' split at hs
    all_goals first
      | (simp at hs; done)
      | (simp only [Option.some.injEq] at hs
         subst hs
         exact h.keep rfl rfl Iff.rfl rfl)
  | collect =>
    simp only [mstep] at hs
    split at hs
    · rename_i hc
      simp only [Bool.and_eq_true, decide_eq_true_eq] at hc
      have hb := hm.emit
      rw [behaviour_calls] at hb
      have hes : s.es = (replay em em.init (calls (!cf.inpresent && !s.first) s.hist)).1 := by rw [← hb]
      obtain ⟨n1, n2⟩ := h.nw hc.2
      split at hs
      · rename_i hf
        simp only [Option.some.injEq] at hs
        subst hs
        obtain ⟨f1, f2, _⟩ := hm.first hf
        have k := handle_leaves cf { s with first := false } _ (calls (!cf.inpresent && !s.first) s.hist) none none .nul
          hc.2 hes n1 n2
        refine h.call hc.2 ⟨none, none, .nul⟩ ?_ k.1 k.2
        have q1 : (M.task cf { s with first := false } none .nul).first = false := rfl
        have q2 : (M.task cf { s with first := false } none .nul).hist = s.hist := rfl
        rw [q1, q2, f1, f2, hf]; rfl
      · rename_i hf
        simp only [Bool.not_eq_true] at hf
        have hcalls : ∀ (z : M em) (y : Ev D), z.first = s.first → z.hist = s.hist ++ [y] →
            calls (!cf.inpresent && !z.first) z.hist = calls (!cf.inpresent && !s.first) s.hist ++ [y] := by
          intro z y e1 e2
          rw [e1, e2]; unfold calls; split <;> simp
        rcases poll_cases hs with ⟨i, m, ms, _, ho, rfl⟩ | ⟨m, ms, ho, rfl⟩ | ⟨c, _, rfl⟩
        · obtain ⟨z, hz⟩ : ∃ z : M em, z = { s with start := s.next, cnt := 0, outq := upd s.outq i ms
                                                    hist := s.hist ++ [⟨some i, some s.next, m⟩] } := ⟨_, rfl⟩
          rw [← hz]
          have k := handle_leaves cf z (cf.n + if cf.inpresent then 1 else 0) (calls (!cf.inpresent && !s.first) s.hist) (some i) (some s.next) m
            (by rw [hz]; exact hc.2) (by rw [hz]; exact hes) (by rw [hz]; exact n1) (by rw [hz]; exact n2)
          have sm := handle_same cf z (some s.next) m
          exact h.call hc.2 _ (hcalls _ _ (by rw [sm.first, hz]) (by rw [sm.hist, hz])) k.1 k.2
        · obtain ⟨z, hz⟩ : ∃ z : M em, z = { s with start := s.next, cnt := 0, inb := ms
                                                    hist := s.hist ++ [⟨none, none, m⟩] } := ⟨_, rfl⟩
          rw [← hz]
          have k := handle_leaves cf z (cf.n + if cf.inpresent then 1 else 0) (calls (!cf.inpresent && !s.first) s.hist) none none m
            (by rw [hz]; exact hc.2) (by rw [hz]; exact hes) (by rw [hz]; exact n1) (by rw [hz]; exact n2)
          have sm := handle_same cf z none m
          exact h.call hc.2 _ (hcalls _ _ (by rw [sm.first, hz]) (by rw [sm.hist, hz])) k.1 k.2
        · exact h.keep rfl rfl Iff.rfl rfl
    · simp at hs
  | absorb =>
    simp only [mstep] at hs
    split at hs
    · rename_i k hk
      repeat' split at hs
      all_goals first
        | (simp at hs; done)
        | (simp only [Option.some.injEq] at hs
           subst hs
           refine h.keep rfl rfl ?_ rfl
           rw [hk]
           rename_i m _ _
           cases m <;> simp)
    · simp at hs
  | pop i =>
    simp only [mstep] at hs
    repeat' split at hs
    all_goals first
      | (simp at hs; done)
      | (simp only [Option.some.injEq] at hs
         subst hs
         exact h.keep rfl rfl Iff.rfl rfl)
  | push i =>
    simp only [mstep] at hs
    repeat' split at hs
    all_goals first
      | (simp at hs; done)
      | (simp only [Option.some.injEq] at hs
         subst hs
         exact h.keep rfl rfl Iff.rfl rfl)
  | arrive =>
    simp only [mstep] at hs
    repeat' split at hs
    all_goals first
      | (simp at hs; done)
      | (simp only [Option.some.injEq] at hs
         subst hs
         exact h.keep rfl rfl Iff.rfl rfl)

/-- **C57, when the emitter leaves**: for every emitter, all workers and every schedule: the emitter has
left its loop exactly if the last message it received was one on which it has to leave (`svc` ended the
stream, `GO_OUT`, or the last of the end marks of all the workers and of the input channel), and it
received nothing after such a message. -/
theorem C57_leaves {cf : Cfg D} (hn : 0 < cf.n) {em : Em D} {inp : List (Msg D)} {s : M em}
    (hr : Reach (mstep cf) (M.init cf em inp) s) :
    (∀ pre x post, calls (!cf.inpresent && !s.first) s.hist = pre ++ x :: post →
      (Leaves em (cf.n + if cf.inpresent then 1 else 0) pre x ↔ post = [] ∧ s.ph ≠ .loop)) ∧
    (calls (!cf.inpresent && !s.first) s.hist = [] → s.ph = .loop) :=
  have h := (hr.inv (Inv := fun x => MInv cf inp x ∧ EndInv cf x)
    ⟨MInv.init cf em inp, EndInv.init cf hn em inp⟩
    (fun _ _ _ h hs => ⟨h.1.step hn hs, EndInv.step h.1 h.2 hs⟩)).2
  ⟨h.early, h.start⟩

/-- **C57, nothing is left over**: in a farm that freezes, or that has an input channel, when the emitter
and the workers have ended all channels are empty, so that a second run starts like the first. -/
theorem C57_clean {cf : Cfg D} (hn : 0 < cf.n) (hw : ∀ i, i < cf.n → Steady (cf.w i))
    {em : Em D} (hm : Master cf.n em) {inp : List (Msg D)} (hg : GoodInput cf inp)
    (hfr : (cf.inpresent || cf.frozen) = true) {s : M em}
    (hr : Reach (mstep cf) (M.init cf em inp) s) (hf : s.Final cf) :
    ∀ i, i < cf.n → s.inq i = [] ∧ s.outq i = [] := by
  intro i hi
  obtain ⟨h, hc, hl⟩ := LInv.reach hn hw hm hg hr
  obtain ⟨⟨e1, e2, e3⟩, hx⟩ := hf
  obtain ⟨us, hu, he⟩ := hl.leave (by rw [e1]; simp)
  obtain ⟨l, g, q1, q2, q3⟩ := h.e.log
  rw [e2] at q3
  simp only [PartOk] at q3
  subst q3
  rw [List.append_nil] at q1
  have hdn : s.e.dn = us ++ [.bcast .eos] := by
    have := h.e.cmds
    rw [e2, e3, he] at this
    simpa [EPc.cur] using this
  rw [hdn] at q2
  obtain ⟨l1, l2, rfl, e4, g2, l3, rfl, e5, e6⟩ := q2.append_inv
  simp only [Explains] at e6
  subst e6
  have hlog : from_ s.e.log i = from_ l1 i ++ [.eos] := by
    rw [q1, List.append_nil, from_append, perm_eos e5 hi]
  have hdata : ∀ x ∈ from_ l1 i, x.isData = true := by
    intro x hx
    obtain ⟨c, hcm, rfl⟩ := e4.mem (mem_from.1 hx)
    exact hu.data c hcm
  obtain ⟨x1, x2⟩ := hx i hi
  have hmem : Msg.eos ∈ s.consumed i :=
    ((Steady.exited_iff (hw i hi) (s.consumed i) (L.start _ 1) rfl rfl
      fun m hm' => consumed_fits h hl i m hm').1).1 x1
  have hinq : s.inq i = [] := by
    rcases List.eq_nil_or_concat (s.inq i) with hh | ⟨q, z, hh⟩
    · exact hh
    · exfalso
      have := h.inq i
      rw [hlog, hh, List.concat_eq_append, ← List.append_assoc] at this
      obtain ⟨e7, _⟩ := List.append_inj' this rfl
      have := hdata .eos (by rw [e7]; exact List.mem_append_left _ hmem)
      simp [Msg.isData] at this
  refine ⟨hinq, ?_⟩
  have hcons : s.consumed i = from_ l1 i ++ [.eos] := by
    have := h.inq i
    rw [hinq, List.append_nil] at this
    rw [← this, hlog]
  have hne := hl.abs _ e1 hfr i hi
  have habs : s.absd i = [.eos] ∨ s.absd i = [.eosnf] := by
    rcases (h.absk _ e1 i).2 with hh | hh
    · exact absurd hh hne
    · exact hh
  -- the stream of the worker ends with its only mark
  have hrest : ∃ ds, stream (cf.w i) (s.consumed i) = ds ++ [.eos] ∧ ∀ x ∈ ds, x.isData = true := by
    refine ⟨_, by rw [hcons]; exact stream_eosn (hw i hi) hdata, ?_⟩
    intro x hx'
    rcases List.mem_append.1 hx' with hx' | hx'
    · exact Steady.run_data (hw i hi) (from_ l1 i) (L.start _ 1) rfl hdata x hx'
    · exact (hw i hi).eosn _ x hx'
  obtain ⟨ds, hds, hdd⟩ := hrest
  have hwk := h.work i hi
  rw [x2, List.append_nil, h.outq i, hds] at hwk
  rcases List.eq_nil_or_concat (s.outq i) with hh | ⟨q, z, hh⟩
  · exact hh
  · exfalso
    rw [hh, List.concat_eq_append, ← List.append_assoc] at hwk
    obtain ⟨e7, _⟩ := List.append_inj' hwk rfl
    rcases habs with ha | ha <;> rw [ha] at e7
    · have := hdd .eos (by rw [← e7]; simp)
      simp [Msg.isData] at this
    · have := hdd .eosnf (by rw [← e7]; simp)
      simp [Msg.isData] at this

-- a farm that freezes, one worker of capacity 1 and two tasks: the hypotheses are met
example : ∃ s : M (classic [3, 4]), Reach (mstep ⟨1, fun _ => fnNode (· + 1), fun _ => 1, false, true⟩)
    (M.init ⟨1, fun _ => fnNode (· + 1), fun _ => 1, false, true⟩ (classic [3, 4]) []) s ∧
    s.Final ⟨1, fun _ => fnNode (· + 1), fun _ => 1, false, true⟩ ∧ s.es.2 = [4, 5] ∧ s.absd 0 = [.eos] := by
  refine ⟨_, ⟨[.collect, .emit, .emit, .pop 0, .emit, .emit, .push 0, .collect, .pop 0, .push 0, .collect,
    .emit, .emit, .emit, .emit, .pop 0, .push 0, .absorb], rfl⟩, ⟨⟨rfl, rfl, rfl⟩, ?_⟩, rfl, rfl⟩
  intro i hi
  have : i = 0 := by simp only at hi; omega
  subst this; exact ⟨rfl, rfl⟩

example : Master 1 (classic [3, 4]) ∧ Steady (fnNode (· + 1) : Node Nat) :=
  ⟨classic_master 1 _, fnNode_steady _⟩

/-- an emitter that ends both workers by sending them the end mark itself -/
def closer : Em Nat where
  σ := Unit
  init := ()
  svc := fun _ _ m => match m with
    | .nul => ((), [.sendTo 0 .eos, .sendTo 1 .eos], .goon)
    | _ => ((), [], .goon)
  eosn := fun _ _ => ((), [])

-- it leaves its loop when both marks have come back
example : ∃ s : M closer, Reach (mstep ⟨2, fun _ => fnNode id, fun _ => 1, false, false⟩)
    (M.init ⟨2, fun _ => fnNode id, fun _ => 1, false, false⟩ closer []) s ∧ s.ph = .leave 2 ∧ marks s.hist = 2 :=
  ⟨_, ⟨[.collect, .emit, .emit, .emit, .emit, .pop 0, .push 0, .pop 1, .push 1, .collect, .collect], rfl⟩, rfl, rfl⟩

end FF.Farm
