import Verif.Farm.Ofarm
/-!
# C23: the ordered farm runs to completion, and where order is lost
-/
namespace FF.Farm
open FF.Node
variable {D : Type}

def OPc.cost (n : Nat) : OPc D → Nat
  | .idle => 0
  | .sched _ => 1
  | .to _ _ => 1
  | .bc _ i => n - i + 1

def Cmd.ocost (n : Nat) : Cmd D → Nat
  | .bcast _ => n + 2
  | _ => 2

def OE.todo (n : Nat) (e : OE D) : Nat := e.pc.cost n + (e.cmds.map (Cmd.ocost n)).sum

/-- An attempt of the emitter makes progress, or was refused and changes nothing. -/
theorem OE.attempt_todo {n : Nat} {full : Nat → Bool} {e e' : OE D} {o : Option (Nat × Msg D)}
    (hs : e.attempt n full = some (e', o)) :
    e'.todo n < e.todo n ∨ (o = none ∧ e' = e) := by
  unfold OE.attempt at hs
  split at hs
  · rename_i hpc
    split at hs
    · simp at hs
    all_goals
      rename_i hcm
      simp only [Option.some.injEq, Prod.mk.injEq] at hs
      obtain ⟨rfl, rfl⟩ := hs
      left
      simp only [OE.todo, hpc, hcm, OPc.cost, List.map_cons, List.sum_cons, Cmd.ocost]
      omega
  · rename_i m hpc
    split at hs <;> simp only [Option.some.injEq, Prod.mk.injEq] at hs <;> obtain ⟨rfl, rfl⟩ := hs
    · exact Or.inr ⟨rfl, rfl⟩
    · left; simp only [OE.todo, hpc, OPc.cost]; omega
  · rename_i i m hpc
    split at hs
    · split at hs <;> simp only [Option.some.injEq, Prod.mk.injEq] at hs <;> obtain ⟨rfl, rfl⟩ := hs
      · exact Or.inr ⟨rfl, rfl⟩
      · left; simp only [OE.todo, hpc, OPc.cost]; omega
    · simp only [Option.some.injEq, Prod.mk.injEq] at hs
      obtain ⟨rfl, rfl⟩ := hs
      left; simp only [OE.todo, hpc, OPc.cost]; omega
  · rename_i m i hpc
    split at hs
    · simp only at hs
      split at hs <;> split at hs <;> simp only [Option.some.injEq, Prod.mk.injEq] at hs <;>
        obtain ⟨rfl, rfl⟩ := hs
      all_goals first
        | exact Or.inr ⟨rfl, rfl⟩
        | (left; simp only [OE.todo, hpc, OPc.cost]; omega)
    · simp only [Option.some.injEq, Prod.mk.injEq] at hs
      obtain ⟨rfl, rfl⟩ := hs
      left; simp only [OE.todo, hpc, OPc.cost]; omega

/-- if no queue is full, an emitter that has not finished makes progress -/
theorem OE.can_put {n : Nat} (hn : 0 < n) {S X : List (Msg D)} {full : Nat → Bool} {e : OE D}
    (h : OInvE n S e X) (hfull : ∀ i, i < n → full i = false) (hD : ¬ (e.pc = .idle ∧ e.cmds = [])) :
    ∃ e' o, e.attempt n full = some (e', o) ∧ e'.todo n < e.todo n := by
  have hv := h.victim
  have key : ∀ e' o, e.attempt n full = some (e', o) → e'.pc ≠ e.pc ∨ o ≠ none →
      ∃ e' o, e.attempt n full = some (e', o) ∧ e'.todo n < e.todo n := by
    intro e' o hs hne
    rcases OE.attempt_todo hs with h1 | ⟨h1, h2⟩
    · exact ⟨e', o, hs, h1⟩
    · rcases hne with hne | hne
      · exact absurd (by rw [h2]) hne
      · exact absurd h1 hne
  cases hpc : e.pc with
  | idle =>
    cases hcm : e.cmds with
    | nil => exact absurd ⟨hpc, hcm⟩ hD
    | cons x xs =>
      cases x with
      | sched m =>
        have hs : e.attempt n full = some (⟨xs, .sched m, e.victim, e.log⟩, none) := by
          simp only [OE.attempt, hpc, hcm]
        exact key _ _ hs (Or.inl (by simp [hpc]))
      | sendTo i m =>
        have hs : e.attempt n full = some (⟨xs, .to i m, e.victim, e.log⟩, none) := by
          simp only [OE.attempt, hpc, hcm]
        exact key _ _ hs (Or.inl (by simp [hpc]))
      | bcast m =>
        have hs : e.attempt n full = some (⟨xs, .bc m 0, e.victim, e.log⟩, none) := by
          simp only [OE.attempt, hpc, hcm]
        exact key _ _ hs (Or.inl (by simp [hpc]))
  | sched m =>
    rw [hpc] at hv
    have hvn : e.victim < n := by
      have : e.victim = X.length % n := hv
      rw [this]; exact Nat.mod_lt _ hn
    refine key _ _ (by rw [OE.attempt, hpc]; simp only [hfull _ hvn]; rfl) (Or.inr (by simp))
  | to i m => rw [hpc] at hv; exact hv.elim
  | bc m i =>
    rw [hpc] at hv
    obtain ⟨hi, b, hb, hv⟩ := hv
    have hbn := Nat.mod_lt b hn
    by_cases hlt : i < n
    · have hr : (if e.victim + i < n then e.victim + i else e.victim + i - n) < n := by
        rw [hv]; split <;> omega
      refine key _ _ (by rw [OE.attempt, hpc]; simp only [hlt, if_true, hfull _ hr]; rfl)
        (Or.inr (by simp))
    · exact key _ _ (by rw [OE.attempt, hpc]; simp only [hlt, if_false]; rfl) (Or.inl (by simp [hpc]))

def O.work (n : Nat) {c : Node D} (s : O D c) : Nat × Nat × Nat × Nat :=
  (s.e.todo n, sumN (fun i => (s.inq i).length) n, sumN (fun i => (s.pending i).length) n,
    sumN (fun i => (s.outq i).length) n)

section
variable {n : Nat} {w : Nat → Node D} {ci co : Nat → Nat} {c : Node D}

/-- **C23, no endless activity**: every action decreases the remaining work or, if it is a refused
attempt of the emitter or of the collector, changes nothing. -/
theorem C23_progress_or_refused (hn : 0 < n) {us : List (Cmd D)} (hu : OCmds us)
    (hw : ∀ i, i < n → OneToOne (w i)) (hc : StaysOn c) {s s' : O D c}
    (hr : Reach (ostep n w ci co) (O.start c (us ++ [.bcast .eos]) 0 0) s) {a : FAct}
    (hs : ostep n w ci co s a = some s') : Less (s'.work n) (s.work n) ∨ s' = s := by
  have hI := OInv.reach hn hu hw hc hr
  cases a with
  | emit =>
    simp only [ostep] at hs
    split at hs
    · simp at hs
    · rename_i e' he
      simp only [Option.some.injEq] at hs
      subst hs
      rcases OE.attempt_todo he with h | ⟨_, h⟩
      · exact Or.inl (Less.one h)
      · right; rw [h]
    · rename_i e' i m he
      simp only [Option.some.injEq] at hs
      subst hs
      rcases OE.attempt_todo he with h | ⟨h, _⟩
      · exact Or.inl (Less.one h)
      · simp at h
  | pop i =>
    simp only [ostep] at hs
    split at hs
    · rename_i hc
      split at hs
      · simp at hs
      · rename_i m ms hm
        simp only [Option.some.injEq] at hs
        subst hs
        refine Or.inl (Less.two (sumN_lt hc.1 ?_ fun j hj => ?_))
        · simp [upd, hm]
        · simp [upd, hj]
    · simp at hs
  | push i =>
    simp only [ostep] at hs
    split at hs
    · rename_i hc
      split at hs
      · simp at hs
      · rename_i m ms hm
        simp only [Option.some.injEq] at hs
        subst hs
        refine Or.inl (Less.three (sumN_lt hc.1 ?_ fun j hj => ?_))
        · simp [upd, hm]
        · simp [upd, hj]
    · simp at hs
  | gather =>
    obtain ⟨k, hk⟩ := hI.o
    simp only [ostep, OG.attempt] at hs
    split at hs
    · simp at hs
    · rename_i o' he
      split at he
      · simp at he
      · split at he <;> simp only [Option.some.injEq, Prod.mk.injEq, reduceCtorEq, and_false] at he
        obtain ⟨rfl, _⟩ := he
        simp only [Option.some.injEq] at hs
        exact Or.inr hs.symm
    · rename_i o' r he
      split at he
      · simp at he
      · rename_i hx
        split at he
        · simp at he
        · rename_i m hm
          simp only [Option.some.injEq, Prod.mk.injEq] at he
          obtain ⟨rfl, rfl⟩ := he
          simp only [Option.some.injEq] at hs
          subst hs
          simp only [Bool.not_eq_true] at hx
          have hkn : k < (flat n us).length + n := by
            rcases Nat.lt_or_eq_of_le hk.le with h1 | h1
            · exact h1
            · have := hk.exit.2 h1
              rw [hx] at this; simp at this
          have hv : s.o.victim < n := by rw [hk.victim hkn]; exact Nat.mod_lt _ hn
          refine Or.inl (Less.four (sumN_lt hv ?_ fun j hj => ?_))
          · cases hq : s.outq s.o.victim with
            | nil => rw [hq] at hm; simp at hm
            | cons x xs => simp [upd, hq]
          · simp [upd, hj]

/-- the ordered farm has finished -/
def O.Final (s : O D c) : Prop := s.e.pc = .idle ∧ s.e.cmds = [] ∧ s.o.g.exited = true

theorem OneToOne.run_length {w : Node D} (hw : OneToOne w) (ms : List (Msg D)) (l : L w)
    (hl : l.exited = false) (hneos : l.neos = 1) (hms : ∀ m ∈ ms, m.isData = true ∨ m = .eos) :
    (run w l ms).2.length ≤ ms.length ∧ (Msg.eos ∉ ms → (run w l ms).2.length = ms.length) ∧
    (Msg.eos ∈ ms → Msg.eos ∈ (run w l ms).2) := by
  induction ms generalizing l with
  | nil => simp [run]
  | cons m ms ih =>
    rw [run_cons w l hl]
    have hms' : ∀ x ∈ ms, x.isData = true ∨ x = .eos := fun x hx => hms x (by simp [hx])
    rcases hms m (by simp) with hm | rfl
    · obtain ⟨d, rfl⟩ : ∃ d, m = .data d := by cases m <;> simp [Msg.isData] at hm; exact ⟨_, rfl⟩
      obtain ⟨d', h1, h2, h3⟩ := hw.body_data l hl d
      obtain ⟨i1, i2, i3⟩ := ih (body w l (.data d)).1 h2 (by rw [h3]; exact hneos) hms'
      rw [h1]
      simp only [List.mem_cons, reduceCtorEq, false_or, List.not_mem_nil, List.length_nil, List.length_append, List.length_singleton,
        List.length_cons, List.mem_append, List.mem_singleton]
      refine ⟨by omega, fun h => ?_, i3⟩
      have := i2 h; omega
    · obtain ⟨h1, h2⟩ := hw.body_eos l hneos
      rw [run_exited w _ h2, h1]
      simp

theorem stream_length {w : Node D} (hw : OneToOne w) {ms : List (Msg D)}
    (hms : ∀ m ∈ ms, m.isData = true ∨ m = .eos) :
    (stream w ms).length ≤ ms.length ∧ (Msg.eos ∉ ms → (stream w ms).length = ms.length) ∧
    (Msg.eos ∈ ms → Msg.eos ∈ stream w ms) :=
  hw.run_length ms (L.start w 1) rfl rfl hms

theorem o_progress (hn : 0 < n) {us : List (Cmd D)} (hu : OCmds us)
    (hw : ∀ i, i < n → OneToOne (w i)) (hc : StaysOn c) (hci : ∀ i, i < n → 0 < ci i)
    (hco : ∀ i, i < n → 0 < co i) {s : O D c}
    (hr : Reach (ostep n w ci co) (O.start c (us ++ [.bcast .eos]) 0 0) s) (hf : ¬ s.Final) :
    ∃ s', Reach (ostep n w ci co) s s' ∧ Less (s'.work n) (s.work n) := by
  have h := OInv.reach hn hu hw hc hr
  have hA := flat_data (n := n) hu
  obtain ⟨X, hX⟩ := h.e
  obtain ⟨k, hk⟩ := h.o
  obtain ⟨hlen, hkind, hst⟩ := expected_spec hn hA hw
  have hXp : X <+: input n (flat n us) := ⟨_, hX.rest⟩
  have hXl : X.length ≤ (flat n us).length + n := by
    have := hXp.length_le
    rwa [input_length] at this
  have step : ∀ a s', ostep n w ci co s a = some s' → s' ≠ s →
      ∃ s', Reach (ostep n w ci co) s s' ∧ Less (s'.work n) (s.work n) := by
    intro a s' hs hne
    rcases C23_progress_or_refused hn hu hw hc hr hs with h | h
    · exact ⟨s', (Reach.refl _ _).tail hs, h⟩
    · exact absurd h hne
  have hcons : ∀ i, s.consumed i <+: from_ (pairs n X) i := fun i => by
    rw [← hX.log]; exact ⟨_, (h.inq i).symm⟩
  have hfits : ∀ i, ∀ m ∈ s.consumed i, m.isData = true ∨ m = .eos := fun i m hm =>
    fits_pairs hA hXp i m ((hcons i).subset hm)
  have htl : ((expected n w (flat n us)).take k).length = k := by
    rw [List.length_take]; have := hk.le; omega
  by_cases hkX : k < X.length
  · -- the collector waits for a message that has been put
    have hi : k % n < n := Nat.mod_lt _ hn
    have hkn : k < (flat n us).length + n := by omega
    have hx : s.o.g.exited = false := by
      cases hh : s.o.g.exited with
      | false => rfl
      | true => have := hk.exit.1 hh; omega
    have hv := hk.victim hkn
    cases hq : s.outq (k % n) with
    | cons m ms =>
      -- the collector takes it
      have hs : ∃ s', ostep n w ci co s .gather = some s' ∧ s'.outq (k % n) = ms := by
        simp only [ostep, OG.attempt, hx, hv, hq, List.head?_cons]
        exact ⟨_, rfl, by simp [upd, hq]⟩
      obtain ⟨s', hs, hne⟩ := hs
      refine step _ s' hs fun hh => ?_
      rw [hh, hq] at hne
      have := congrArg List.length hne
      simp at this
    | nil =>
      cases hp : s.pending (k % n) with
      | cons m ms =>
        have hs : ∃ s', ostep n w ci co s (.push (k % n)) = some s' ∧ s'.pending (k % n) = ms := by
          simp only [ostep, hq, hp, List.length_nil]
          rw [if_pos ⟨hi, hco _ hi⟩]
          exact ⟨_, rfl, by simp [upd]⟩
        obtain ⟨s', hs, hne⟩ := hs
        refine step _ s' hs fun hh => ?_
        rw [hh, hp] at hne
        have := congrArg List.length hne
        simp at this
      | nil =>
        have hwk := h.work _ hi
        rw [hp, List.append_nil, h.outq, hq, List.append_nil] at hwk
        -- the worker has not consumed its `EOS`
        have hne : Msg.eos ∉ s.consumed (k % n) := by
          intro hm
          have h1 := (stream_length (hw _ hi) (hfits (k % n))).2.2 hm
          rw [← hwk, hk.got] at h1
          obtain ⟨q, hq1, hq2⟩ := mem_from_pairs.1 h1
          have hqk : q < k := by
            rw [List.getElem?_eq_some_iff] at hq1
            obtain ⟨hh, _⟩ := hq1
            omega
          rw [List.getElem?_take_of_lt hqk] at hq1
          rcases hkind q _ hq1 with ⟨_, h2⟩ | ⟨h2, _⟩
          · simp [Msg.isData] at h2
          · exact mod_window h2 hqk hkn hq2
        have hl := (stream_length (hw _ hi) (hfits (k % n))).2.1 hne
        rw [← hwk, hk.got] at hl
        have hex : (after (w (k % n)) (s.consumed (k % n))).exited = false := by
          cases hh : (after (w (k % n)) (s.consumed (k % n))).exited with
          | false => rfl
          | true => exact absurd (((hw _ hi).after_exited (hfits (k % n))).1.1 hh) hne
        -- and there is something in its queue
        have hlt : (s.consumed (k % n)).length < (from_ (pairs n X) (k % n)).length := by
          rw [← hl, from_pairs_length (Y := X.take k) (k % n) (by rw [htl, List.length_take]; omega)]
          have h1 : pairs n (X.take (k + 1)) <+: pairs n X := by
            have := pairs_append n (X.take (k + 1)) (X.drop (k + 1))
            rwa [List.take_append_drop] at this
          have h2 := (from_prefix h1 (k % n)).length_le
          rw [List.take_add_one, List.getElem?_eq_getElem hkX] at h2
          simp only [Option.toList] at h2
          rw [pairs_snoc, from_append, from_single, List.length_take,
            Nat.min_eq_left (by omega), if_pos rfl, List.length_append] at h2
          simp only [List.length_singleton] at h2
          omega
        cases hiq : s.inq (k % n) with
        | nil =>
          have := h.inq (k % n)
          rw [hiq, List.append_nil, hX.log] at this
          rw [this] at hlt; omega
        | cons m ms =>
          have hs : ∃ s', ostep n w ci co s (.pop (k % n)) = some s' ∧ s'.inq (k % n) = ms := by
            simp only [ostep, hiq]
            rw [if_pos ⟨hi, hp, hex⟩]
            exact ⟨_, rfl, by simp [upd]⟩
          obtain ⟨s', hs, hne⟩ := hs
          refine step _ s' hs fun hh => ?_
          rw [hh, hiq] at hne
          have := congrArg List.length hne
          simp at this
  · -- everything put has been collected: the queues are empty
    have hempty : ∀ i, i < n → s.inq i = [] := by
      intro i hi
      have h1 := congrArg List.length (h.work i hi)
      have h2 := congrArg List.length (h.outq i)
      have h3 := congrArg List.length (h.inq i)
      have h4 := (stream_length (hw i hi) (hfits i)).1
      have h5 : (from_ (pairs n X) i).length ≤ (from_ s.o.g.got i).length := by
        rw [hk.got, from_pairs_length (X := X)
          (Y := ((expected n w (flat n us)).take k).take X.length) i
          (by rw [List.length_take, htl]; omega)]
        have h6 := pairs_append n (((expected n w (flat n us)).take k).take X.length)
          (((expected n w (flat n us)).take k).drop X.length)
        rw [List.take_append_drop] at h6
        exact (from_prefix h6 i).length_le
      rw [hX.log] at h3
      simp only [List.length_append] at h1 h2 h3
      exact List.length_eq_zero_iff.1 (by omega)
    by_cases hD : s.e.pc = .idle ∧ s.e.cmds = []
    · exfalso
      apply hf
      refine ⟨hD.1, hD.2, ?_⟩
      rw [hk.exit]
      have := hX.rest
      rw [hD.1, hD.2] at this
      simp only [OPc.rest, flat, List.append_nil] at this
      have h1 := congrArg List.length this
      rw [input_length] at h1
      have := hk.le
      omega
    · obtain ⟨e', o, hatt, htodo⟩ := OE.can_put hn hX
        (full := fun i => decide (ci i ≤ (s.inq i).length)) (by
          intro i hi
          rw [hempty i hi]
          have := hci i hi
          simp only [List.length_nil, decide_eq_false_iff_not]
          omega) hD
      have hs : ∃ s', ostep n w ci co s .emit = some s' ∧ s'.e = e' := by
        simp only [ostep, hatt]
        cases o with
        | none => exact ⟨_, rfl, rfl⟩
        | some p => exact ⟨_, rfl, rfl⟩
      obtain ⟨s', hs, he⟩ := hs
      refine ⟨s', (Reach.refl _ _).tail hs, ?_⟩
      simp only [O.work, he]
      exact Less.one htodo

/-- **C23, completion**: from every reachable state of an ordered farm with queues of capacity at
least one, the final state is reachable; there the collector has received exactly the results of the
sequential farm, in order. -/
theorem C23_completes_partial (hn : 0 < n) {us : List (Cmd D)} (hu : OCmds us)
    (hw : ∀ i, i < n → OneToOne (w i)) (hc : StaysOn c) (hci : ∀ i, i < n → 0 < ci i)
    (hco : ∀ i, i < n → 0 < co i) {s : O D c}
    (hr : Reach (ostep n w ci co) (O.start c (us ++ [.bcast .eos]) 0 0) s) :
    ∃ s', Reach (ostep n w ci co) s s' ∧ s'.Final ∧
      s'.o.g.got.map Prod.snd = seqFarm n w (fun _ => []) 0 (flat n (us ++ [.bcast .eos])) := by
  have key : ∀ (x : Nat × Nat × Nat × Nat) (s : O D c), s.work n = x →
      Reach (ostep n w ci co) (O.start c (us ++ [.bcast .eos]) 0 0) s →
      ∃ s', Reach (ostep n w ci co) s s' ∧ s'.Final := by
    intro x
    induction x using Less.wf.induction with
    | _ x ih =>
      intro s hx hr
      by_cases hf : s.Final
      · exact ⟨s, Reach.refl _ _, hf⟩
      · obtain ⟨s1, h1, h2⟩ := o_progress hn hu hw hc hci hco hr hf
        rw [hx] at h2
        obtain ⟨s2, h3, h4⟩ := ih _ h2 s1 rfl (hr.trans h1)
        exact ⟨s2, h1.trans h3, h4⟩
  obtain ⟨s', h1, h2⟩ := key _ s rfl hr
  refine ⟨s', h1, h2, ?_⟩
  obtain ⟨k, hk⟩ := (OInv.reach hn hu hw hc (hr.trans h1)).o
  obtain ⟨hlen, _, _⟩ := expected_spec hn (flat_data (n := n) hu) hw
  have hkl := hk.exit.1 h2.2.2
  rw [hk.got, pairs_snd, List.take_of_length_le (by omega), flat_append]
  simp [flat, expected, input]

end

theorem fnNode_oneToOne (f : D → D) : OneToOne (fnNode f) where
  task s d := ⟨f d, by simp [fnNode, visible], by simp [fnNode, continues]⟩
  eosn s := rfl

/-- **C23, the plain reading**: an ordered farm of any number of workers computing `f`, fed with the
tasks `ts` and with the default collector, sends the results `f t` in the order of the tasks, then one
`EOS`: what it has sent is a prefix of that at any moment, and from every reachable state it can
complete it. -/
theorem C23_map_partial {n : Nat} (hn : 0 < n) {ci co : Nat → Nat} (f : D → D) (ts : List D)
    {s : O D idNode} (hr : Reach (ostep n (fun _ => fnNode f) ci co)
      (O.start idNode (ts.map (fun t => Cmd.sched (.data t)) ++ [.bcast .eos]) 0 0) s) :
    s.o.g.out <+: (ts.map f).map .data ++ [.eos] ∧
    ((∀ i, i < n → 0 < ci i) → (∀ i, i < n → 0 < co i) →
      ∃ s', Reach (ostep n (fun _ => fnNode f) ci co) s s' ∧ s'.Final ∧
        s'.o.g.out = (ts.map f).map .data ++ [.eos]) := by
  have hid : StaysOn (idNode : Node D) := idNode_stays
  have hu : OCmds (ts.map (fun t => Cmd.sched (Msg.data t))) := by
    refine ⟨?_, ?_⟩
    · intro c hc
      simp only [List.mem_map] at hc
      obtain ⟨t, _, rfl⟩ := hc
      rfl
    · intro i m hm; simp at hm
  have hw : ∀ i, i < n → OneToOne ((fun _ => fnNode f) i) := fun _ _ => fnNode_oneToOne f
  have hflat : flat n (ts.map (fun t => Cmd.sched (Msg.data t))) = ts.map .data := by
    clear hr hu
    induction ts with
    | nil => rfl
    | cons t ts ih => simp [flat, ih]
  -- the sequential farm
  have hseq : ∃ R : List (Msg D), expected n (fun _ => fnNode f) (ts.map .data) =
      (ts.map f).map .data ++ R ∧ R.length = n := by
    have : ∀ (ts : List D) (Y : List (Msg D)) (hist : Nat → List (Msg D)) (p : Nat), ∃ R,
        seqFarm n (fun _ => fnNode f) hist p (ts.map .data ++ Y) = (ts.map f).map .data ++ R := by
      intro ts
      induction ts with
      | nil => intro Y hist p; exact ⟨seqFarm n (fun _ => fnNode f) hist p Y, by simp⟩
      | cons t ts ih =>
        intro Y hist p
        obtain ⟨R, hR⟩ := ih Y (upd hist (p % n) (hist (p % n) ++ [.data t])) (p + 1)
        refine ⟨R, ?_⟩
        simp only [List.map_cons, List.cons_append, seqFarm]
        rw [hR, body_task _ _ rfl]
        simp [svcBody, fnNode, visible]
    obtain ⟨R, hR⟩ := this ts (List.replicate n .eos) (fun _ => []) 0
    refine ⟨R, hR, ?_⟩
    have hA : AllData (ts.map Msg.data) := by
      intro m hm; simp only [List.mem_map] at hm; obtain ⟨d, _, rfl⟩ := hm; rfl
    have hl := (expected_spec hn hA hw).1
    rw [show expected n (fun _ => fnNode f) (ts.map Msg.data) = _ from hR] at hl
    simpa using hl
  obtain ⟨R, hR, hRl⟩ := hseq
  have hA : AllData (ts.map Msg.data) := by
    intro m hm; simp only [List.mem_map] at hm; obtain ⟨d, _, rfl⟩ := hm; rfl
  have hkind := (expected_spec hn hA hw).2.1
  have hReos : R = List.replicate n .eos := by
    rw [List.eq_replicate_iff]
    refine ⟨hRl, fun m hm => ?_⟩
    obtain ⟨q, hq⟩ := List.mem_iff_getElem?.1 hm
    have : (expected n (fun _ => fnNode f) (ts.map Msg.data))[ts.length + q]? = some m := by
      rw [hR, List.getElem?_append_right (by simp)]
      simpa using hq
    rcases hkind _ m this with ⟨h, _⟩ | ⟨_, h⟩
    · simp at h; omega
    · exact h
  -- the default collector forwards the tasks
  have hcol : ∀ l : List (Msg D), (∀ m ∈ l, m.isData = true ∨ m = .eos) →
      collected idNode () l = (tasks l).map .data := by
    intro l
    induction l with
    | nil => intro _; rfl
    | cons m l ih =>
      intro h
      have ih := ih fun x hx => h x (by simp [hx])
      rcases h m (by simp) with hm | rfl
      · obtain ⟨d, rfl⟩ : ∃ d, m = .data d := by cases m <;> simp [Msg.isData] at hm; exact ⟨_, rfl⟩
        simp only [collected, tasks]
        have : (idNode : Node D).svc () (.data d) = ((), [], .data d) := rfl
        rw [this]
        simp only [emitted, tasks] at ih ⊢
        simp [ih]
      · simpa [collected, tasks, idNode] using ih
  have hexp : expected n (fun _ => fnNode f) (ts.map Msg.data) =
      (ts.map f).map .data ++ List.replicate n .eos := by rw [hR, hReos]
  have htd : ∀ ds : List D, tasks (ds.map Msg.data) = ds := by
    intro ds
    induction ds with
    | nil => rfl
    | cons d ds ih => simpa [tasks] using ih
  have hte : ∀ k, tasks (List.replicate k (Msg.eos : Msg D)) = [] := by
    intro k
    induction k with
    | zero => rfl
    | succ k ih => simpa [List.replicate_succ, tasks] using ih
  have htake : ∀ k, (tasks ((expected n (fun _ => fnNode f) (ts.map Msg.data)).take k)) =
      (ts.map f).take k := by
    intro k
    have happ : ∀ a b : List (Msg D), tasks (a ++ b) = tasks a ++ tasks b := by
      intro a b; simp [tasks]
    rw [hexp, List.take_append, ← List.map_take, happ, htd, List.take_replicate, hte, List.append_nil]
  have hout : ∀ s : O D idNode, Reach (ostep n (fun _ => fnNode f) ci co)
      (O.start idNode (ts.map (fun t => Cmd.sched (.data t)) ++ [.bcast .eos]) 0 0) s →
      ∃ k, s.o.g.out = ((ts.map f).take k).map .data ++ (if s.o.g.exited then [.eos] else []) ∧
        (s.o.g.exited = true → k = ts.length + n) := by
    intro s hr
    have h := OInv.reach hn hu hw hid hr
    rw [hflat] at h
    obtain ⟨k, hk⟩ := h.o
    have hfits : ∀ m ∈ (expected n (fun _ => fnNode f) (ts.map Msg.data)).take k,
        m.isData = true ∨ m = .eos := by
      intro m hm
      have := List.mem_of_mem_take hm
      rw [hexp] at this
      rcases List.mem_append.1 this with h | h
      · simp only [List.mem_map] at h; obtain ⟨d, _, rfl⟩ := h; exact Or.inl rfl
      · exact Or.inr (List.mem_replicate.1 h).2
    have := (C23_order_partial hn hu hw hid hr).2
    rw [hk.got, pairs_snd] at this
    have hc := hcol _ hfits
    rw [htake] at hc
    refine ⟨k, ?_, fun hx => by have := hk.exit.1 hx; simpa using this⟩
    rw [this]
    congr 1
  refine ⟨?_, fun hci hco => ?_⟩
  · obtain ⟨k, h1, h2⟩ := hout s hr
    rw [h1]
    split
    · rename_i hx
      rw [h2 hx, List.take_of_length_le (by simp)]
      exact List.prefix_rfl
    · rw [List.append_nil]
      refine List.IsPrefix.trans ?_ (List.prefix_append _ _)
      rw [List.map_take]
      exact List.take_prefix _ _
  · obtain ⟨s', h1, h2, _⟩ := C23_completes_partial hn hu hw hid hci hco hr
    obtain ⟨k, h3, h4⟩ := hout s' (hr.trans h1)
    refine ⟨s', h1, h2, ?_⟩
    rw [h3, h2.2.2, if_pos rfl, h4 h2.2.2, List.take_of_length_le (by simp)]

/-! ## Where the order is lost -/

/-- the schedule: `a` steps of the emitter, then worker 0 handles `x` messages, worker 1 `y` messages,
then `b` steps of the collector -/
def runAll (a x y b : Nat) : List FAct :=
  List.replicate a .emit ++ (List.replicate x [FAct.pop 0, .push 0]).flatten ++
    (List.replicate y [FAct.pop 1, .push 1]).flatten ++ List.replicate b .gather

/-- **C23 fails with `ff_send_out_to`**: a task sent explicitly to the worker whose turn it is does not
pass the turn on; tasks 1, 2, 3 are delivered as 1, 3, 2. -/
theorem C23_send_to_counterexample :
    ∃ s : O Nat idNode, Reach (ostep 2 (fun _ => fnNode id) (fun _ => 8) (fun _ => 8))
      (O.start idNode [.sendTo 0 (.data 1), .sched (.data 2), .sched (.data 3), .bcast .eos] 0 0) s ∧
      s.Final ∧ s.o.g.out = [.data 1, .data 3, .data 2, .eos] :=
  ⟨_, ⟨runAll 10 3 2 5, rfl⟩, ⟨rfl, rfl, rfl⟩, rfl⟩

/-- **C23 fails on a second run**: the turns are not reset at the start of a run.  After a first run
with one task the emitter's turn is 1; the collector's turn is 0.  A second run that starts from
these turns delivers tasks 1, 2 as 2, 1. -/
theorem C23_rerun_counterexample :
    ∃ s : O Nat idNode, Reach (ostep 2 (fun _ => fnNode id) (fun _ => 8) (fun _ => 8))
      (O.start idNode [.sched (.data 7), .bcast .eos] 0 0) s ∧
      s.Final ∧ s.o.g.out = [.data 7, .eos] ∧
    ∃ s' : O Nat idNode, Reach (ostep 2 (fun _ => fnNode id) (fun _ => 8) (fun _ => 8))
      (O.start idNode [.sched (.data 1), .sched (.data 2), .bcast .eos] s.e.victim s.o.victim) s' ∧
      s'.Final ∧ s'.o.g.out = [.data 2, .data 1, .eos] :=
  ⟨_, ⟨runAll 6 2 1 3, rfl⟩, ⟨rfl, rfl, rfl⟩, rfl,
    _, ⟨runAll 8 2 2 4, rfl⟩, ⟨rfl, rfl, rfl⟩, rfl⟩

/-- a worker that discards the task 0 and returns the others -/
def dropNode : Node Nat where
  σ := Unit
  init := ()
  comp := false
  src := false
  svc := fun s t => match t with
    | .data 0 => (s, [], .goon)
    | t => (s, [], t)
  eosn := fun s => (s, [])

/-- **C23 needs one result per task**: if a worker discards a task, the results after it come out of
order: 0 (discarded), 1, 2, 3 are delivered as 2, 1, 3. -/
theorem C23_dropped_task_counterexample :
    ∃ s : O Nat idNode, Reach (ostep 2 (fun _ => dropNode) (fun _ => 8) (fun _ => 8))
      (O.start idNode [.sched (.data 0), .sched (.data 1), .sched (.data 2), .sched (.data 3),
        .bcast .eos] 0 0) s ∧ s.o.g.out = [.data 2, .data 1, .data 3, .eos] :=
  ⟨_, ⟨List.replicate 12 .emit ++ [.pop 0, .pop 0, .push 0, .pop 0, .push 0, .pop 1, .push 1, .pop 1,
    .push 1, .pop 1, .push 1] ++ List.replicate 5 .gather, rfl⟩, rfl⟩

-- the hypotheses of `C23_map_partial` are met by a run in which the collector waits for the slower worker
example : ∃ s : O Nat idNode, Reach (ostep 2 (fun _ => fnNode (· + 10)) (fun _ => 1) (fun _ => 1))
    (O.start idNode ([1, 2].map (fun t => Cmd.sched (.data t)) ++ [.bcast .eos]) 0 0) s ∧
    s.outq 1 = [.data 12] ∧ s.o.g.out = [] :=
  ⟨_, ⟨[.emit, .emit, .emit, .emit, .pop 1, .push 1, .gather], rfl⟩, rfl, rfl⟩

end FF.Farm
