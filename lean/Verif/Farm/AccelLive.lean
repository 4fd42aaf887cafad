import Verif.Farm.AccelStep
/-!
# C66: every round ends
-/
namespace FF.Farm
open FF.Node
variable {D : Type} {w : Nat → RNode D} {c : RNode D}

/-- what the emitter has still to take in this round -/
def ahead (s : FA w c) : List (Msg D) :=
  match s.mpc with
  | .off ms => s.inp ++ ms
  | _ => s.inp

section
variable {N k : Nat} {em : List (Msg D) → Msg D → List (Cmd D)} {st0 : (i : Nat) → (w i).σ}
  {cst : c.σ} {h0 : List (Msg D)} {ts : List D} {s s' : FA w c} {rest : List (Msg D)}
  {ci co : Nat → Nat} {cap : Nat} {prev : List (List (Msg D))}
  {rounds : List (Option Nat × List D)}

/-- a step of C21 is a step of the accelerator -/
theorem Run.farm_can (h : Run N k em st0 cst h0 ts s rest) (hkN : k ≤ N) {a : FAct}
    {f' : F D c.toNode} (hf : fstep k s.nodes ci co s.f a = some f') :
    ∃ s', fastep N ci co cap em s (.farm a) = some s' ∧ s'.f = f' ∧ s'.st = s.st ∧
      s'.hist = s.hist ∧ s'.mpc = s.mpc ∧ s'.inp = s.inp ∧ s'.todo = s.todo ∧ s'.first = s.first := by
  cases a with
  | emit =>
    refine ⟨{ s with f := f' }, ?_, rfl, rfl, rfl, rfl, rfl, rfl, rfl⟩
    simp only [fastep, h.rl, hf, Option.map_some]
  | gather =>
    refine ⟨{ s with f := f', res := s.res ++ f'.g.out.drop s.f.g.out.length }, ?_,
      rfl, rfl, rfl, rfl, rfl, rfl, rfl⟩
    simp only [fastep, h.rg, hf, Option.map_some]
  | push i =>
    have hik : i < k := by
      simp only [fstep] at hf
      split at hf
      · rename_i hc; exact hc.1
      · simp at hf
    have e : ∀ n, i < n → fstep n s.nodes ci co s.f (.push i) =
        fstep (i + 1) s.nodes ci co s.f (.push i) := by
      intro n hn; simp only [fstep, hn, true_and, Nat.lt_succ_self]
    have hf' : fstep N s.nodes ci co s.f (.push i) = some f' := by
      rw [e N (by omega), ← e k hik]; exact hf
    refine ⟨{ s with f := f' }, ?_, rfl, rfl, rfl, rfl, rfl, rfl, rfl⟩
    simp only [fastep, hf', Option.map_some]
  | pop i =>
    have hik : i < k ∧ (after (s.nodes i) (s.f.consumed i)).exited = false := by
      simp only [fstep] at hf
      split at hf
      · rename_i hc; exact ⟨hc.1, hc.2.2⟩
      · simp at hf
    have e : ∀ n, i < n → fstep n s.nodes ci co s.f (.pop i) =
        fstep (i + 1) s.nodes ci co s.f (.pop i) := by
      intro n hn; simp only [fstep, hn, true_and, Nat.lt_succ_self]
    have hf' : fstep N s.nodes ci co s.f (.pop i) = some f' := by
      rw [e N (by omega), ← e k hik.1]; exact hf
    have hu := (h.up i hik.1).2 hik.2
    refine ⟨{ s with f := f', up := upd s.up i (!(after (s.nodes i) (f'.consumed i)).exited) }, ?_,
      rfl, rfl, rfl, rfl, rfl, rfl, rfl⟩
    simp only [fastep, hu, if_true, hf', Option.map_some]

/-- commands are still to come while the end mark is -/
theorem emAll_ne {t : List (Msg D)} (h : t ++ rest = msgs ts) (hr : rest ≠ []) (hh : List (Msg D)) :
    emAll em hh rest ≠ [] := by
  rcases List.eq_nil_or_concat rest with rfl | ⟨r, x, rfl⟩
  · exact absurd rfl hr
  · rw [List.concat_eq_append] at h ⊢
    rw [← List.append_assoc] at h
    have hx : x = .eos := by
      have := (List.append_inj' h rfl).2
      simpa using this
    subst hx
    rw [emAll_append]
    simp [emAll, emOne]

/-- the state is inside a round, all threads being awake -/
structure Act (N : Nat) (em : List (Msg D) → Msg D → List (Cmd D)) (h0 : List (Msg D))
    (st0 : (i : Nat) → (w i).σ) (cst : c.σ) (nw : Option Nat) (ts : List D)
    (rs : List (Option Nat × List D)) (prev : List (List (Msg D))) (first : Bool) (s : FA w c) :
    Prop where
  todo : s.todo = (nw, ts) :: rs
  fst : s.first = first
  ph : APh N (running N first nw) em h0 st0 cst ts prev s
  run : Run N (running N first nw) em st0 cst h0 ts s (ahead s)

variable {nw : Option Nat} {rs : List (Option Nat × List D)} {first : Bool}

/-- what is known of the farm and of the round -/
structure Hyp (N : Nat) (w : Nat → RNode D) (c : RNode D) (ci co : Nat → Nat) (cap : Nat)
    (em : List (Msg D) → Msg D → List (Cmd D)) (nw : Option Nat) (first : Bool) : Prop where
  k : 0 < running N first nw
  w : ∀ i, i < N → Steady (w i).toNode
  c : Filter c.toNode
  d : ∀ h m, ∀ x ∈ em h m, x.msg.isData = true
  v : ∀ h m, Valid (running N first nw) (em h m)
  ci : ∀ i, i < N → 0 < ci i
  co : ∀ i, i < N → 0 < co i
  cap : 0 < cap

theorem Act.of (ht : s.todo = (nw, ts) :: rs) (hf : s.first = first)
    (h : APh N (running N first nw) em h0 st0 cst ts prev s) (h1 : ∀ j, s.mpc ≠ .wakeW j)
    (h2 : s.mpc ≠ .wakeG) : Act N em h0 st0 cst nw ts rs prev first s := by
  refine ⟨ht, hf, h, ?_⟩
  cases h with
  | wakeW j pc => exact absurd pc (h1 j)
  | wakeG pc => exact absurd pc h2
  | off ms pc run => simp only [ahead, pc]; exact run
  | load pc run => simp only [ahead, pc]; exact run
  | wait pc run => rcases pc with ⟨j, pc⟩ | pc <;> (simp only [ahead, pc]; exact run)
  | waitG pc run => simp only [ahead, pc]; exact run

theorem Act.pc (h : Act N em h0 st0 cst nw ts rs prev first s) :
    (∀ j, s.mpc ≠ .wakeW j) ∧ s.mpc ≠ .wakeG := by
  have hr := h.run
  cases h.ph with
  | wakeW j pc _ hw =>
    exfalso
    have := (hr.eos).2 (by simp only [ahead, pc]; exact hw.inp)
    rw [hw.eos] at this; simp at this
  | wakeG pc hw =>
    exfalso
    have := (hr.eos).2 (by simp only [ahead, pc]; exact hw.inp)
    rw [hw.eos] at this; simp at this
  | off ms pc => simp [pc]
  | load pc => simp [pc]
  | wait pc => rcases pc with ⟨j, pc⟩ | pc <;> simp [pc]
  | waitG pc => simp [pc]

/-- a step that does not finish the round and does not change what the main thread does -/
theorem Act.step (H : Hyp N w c ci co cap em nw first)
    (h : Act N em h0 st0 cst nw ts rs prev first s) {a : FAAct}
    (hs : fastep N ci co cap em s a = some s') (ht : s'.todo = s.todo)
    (h1 : ∀ j, s'.mpc ≠ .wakeW j) (h2 : s'.mpc ≠ .wakeG) :
    Act N em h0 st0 cst nw ts rs prev first s' := by
  have hf := h.fst
  have hk := H.k
  have hv := H.v
  have hp := h.ph
  rw [← hf] at hk hv hp
  rcases hp.step hk H.w H.c H.d hv h.todo hs with ⟨e1, e2, e3⟩ | ⟨e1, -⟩
  · rw [hf] at e3
    exact Act.of (by rw [e1, h.todo]) (by rw [e2, hf]) e3 h1 h2
  · exfalso
    rw [ht, h.todo] at e1
    have := congrArg List.length e1
    simp at this

/-- the farm of C21 that the round is -/
def hatOf (k : Nat) (em : List (Msg D) → Msg D → List (Cmd D)) (s : FA w c) : F D c.toNode :=
  hat k (emAll em s.hist (ahead s)) s.f

/-- if the emitter needs a message, one can be brought to it -/
theorem Act.feed (H : Hyp N w c ci co cap em nw first)
    (h : Act N em h0 st0 cst nw ts rs prev first s) (ha : ahead s ≠ []) :
    ∃ s', Reach (fastep N ci co cap em) s s' ∧ Act N em h0 st0 cst nw ts rs prev first s' ∧
      s'.inp ≠ [] ∧ ahead s' = ahead s ∧ s'.f = s.f ∧ s'.hist = s.hist ∧ s'.st = s.st := by
  cases hinp : s.inp with
  | cons m ms => exact ⟨s, Reach.refl _ _, h, by simp [hinp], rfl, rfl, rfl, rfl⟩
  | nil =>
    have hoff : ∃ m ms, s.mpc = .off (m :: ms) := by
      cases hm : s.mpc with
      | off ms =>
        cases ms with
        | nil => simp [ahead, hm, hinp] at ha
        | cons m ms => exact ⟨m, ms, rfl⟩
      | _ => simp [ahead, hm, hinp] at ha
    obtain ⟨m, ms, hm⟩ := hoff
    have hc : s.inp.length < cap := by rw [hinp]; exact H.cap
    have e : fastep N ci co cap em s .user = some { s with inp := s.inp ++ [m], mpc := .off ms } := by
      simp only [fastep, fauser, h.todo, hm, hc, if_true]
    refine ⟨_, (Reach.refl _ _).tail e, h.step H e rfl (by simp) (by simp), by simp, ?_, rfl, rfl, rfl⟩
    simp [ahead, hm]

/-- an idle emitter that has still commands to come gets them -/
theorem Act.busy (H : Hyp N w c ci co cap em nw first) (n : Nat) :
    ∀ s : FA w c, (ahead s).length = n → Act N em h0 st0 cst nw ts rs prev first s →
      s.f.e.pc = .idle → s.f.e.cmds = [] → ahead s ≠ [] →
    ∃ s', Reach (fastep N ci co cap em) s s' ∧ Act N em h0 st0 cst nw ts rs prev first s' ∧
      ¬ (s'.f.e.pc = .idle ∧ s'.f.e.cmds = []) ∧ s'.st = s.st ∧
      hatOf (running N first nw) em s' = hatOf (running N first nw) em s := by
  induction n with
  | zero => intro s hl _ _ _ ha; exact absurd (List.length_eq_zero_iff.1 hl) ha
  | succ n ih =>
    intro s hl h hpc hcm ha
    obtain ⟨s1, r1, h1, i1, a1, f1, hi1, st1⟩ := h.feed H ha
    cases hinp : s1.inp with
    | nil => exact absurd hinp i1
    | cons m inp' =>
      obtain ⟨tl, htl⟩ : ∃ tl, ahead s1 = m :: tl := by
        unfold ahead; split <;> simp [hinp]
      have hrun := h1.run
      rw [htl] at hrun
      have heos : s1.eEos = false := by
        cases hh : s1.eEos with
        | false => rfl
        | true => have := hrun.eos.1 hh; simp at this
      obtain ⟨s2, e⟩ : ∃ s2, fastep N ci co cap em s1 .take = some s2 := by
        simp only [fastep, heos, hinp, f1, hpc, hcm]; exact ⟨_, rfl⟩
      obtain ⟨q1, q2, q3, q4, q5, q6, q7, q8, q9, q10⟩ := hrun.take e hinp
      have hst2 : s2.st = s1.st := by
        simp only [fastep, heos, hinp, f1, hpc, hcm, Option.some.injEq] at e
        rw [← e]
      have hpc2 : s2.f.e.pc = .idle := by
        simp only [fastep, heos, hinp, f1, hpc, hcm, Option.some.injEq] at e
        rw [← e]
      have a2 : ahead s2 = tl := by
        unfold ahead at htl ⊢
        rw [q5, q2]
        split
        · rename_i ms hm; rw [hm] at htl; simp only [hinp, List.cons_append, List.cons.injEq] at htl
          exact htl.2
        · rename_i hm
          split at htl
          · rename_i ms hm'; exact absurd hm' (hm ms)
          · rw [hinp] at htl; simpa using htl
      have h2 := h1.step H e q4 (by rw [q5]; exact h1.pc.1) (by rw [q5]; exact h1.pc.2)
      have hh2 : hatOf (running N first nw) em s2 = hatOf (running N first nw) em s := by
        have : hatOf (running N first nw) em s1 = hatOf (running N first nw) em s := by
          unfold hatOf; rw [a1, f1, hi1]
        rw [← this]
        unfold hatOf
        rw [a2, htl]
        exact q10
      by_cases hcm2 : s2.f.e.cmds = []
      · have hne : ahead s2 ≠ [] := by
          intro hnil
          have hh : (hatOf (running N first nw) em s2).e.cmds = [] := by
            unfold hatOf; rw [hnil]; simp [hat, hcm2, emAll]
          rw [hh2] at hh
          obtain ⟨t, ht, -⟩ := h.run.taken
          have := emAll_ne (em := em) ht ha s.hist
          simp [hatOf, hat, hcm] at hh
          exact this hh
        have hl2 : (ahead s2).length = n := by
          rw [a2]
          have : (ahead s1).length = n + 1 := by rw [a1, hl]
          rw [htl] at this
          simpa using this
        obtain ⟨s3, r3, h3, n3, st3, hh3⟩ := ih s2 hl2 h2 hpc2 hcm2 hne
        exact ⟨s3, (r1.tail e).trans r3, h3, n3, by rw [st3, hst2, st1], by rw [hh3, hh2]⟩
      · exact ⟨s2, r1.tail e, h2, fun hx => hcm2 hx.2, by rw [hst2, st1], hh2⟩

/-- every step of the farm of C21 can be made -/
theorem Act.lift1 (H : Hyp N w c ci co cap em nw first)
    (h : Act N em h0 st0 cst nw ts rs prev first s) {a : FAct} {F' : F D c.toNode}
    (hF : fstep (running N first nw) s.nodes ci co (hatOf (running N first nw) em s) a = some F') :
    ∃ s', Reach (fastep N ci co cap em) s s' ∧ Act N em h0 st0 cst nw ts rs prev first s' ∧
      s'.st = s.st ∧ hatOf (running N first nw) em s' = F' := by
  -- first, the emitter has something to do if it is its turn
  obtain ⟨s1, r1, h1, b1, st1, hh1⟩ : ∃ s1, Reach (fastep N ci co cap em) s s1 ∧
      Act N em h0 st0 cst nw ts rs prev first s1 ∧
      (a = .emit → ¬ (s1.f.e.pc = .idle ∧ s1.f.e.cmds = [])) ∧ s1.st = s.st ∧
      hatOf (running N first nw) em s1 = hatOf (running N first nw) em s := by
    by_cases hb : a = .emit ∧ s.f.e.pc = .idle ∧ s.f.e.cmds = []
    · obtain ⟨rfl, hpc, hcm⟩ := hb
      have hne : ahead s ≠ [] := by
        intro hnil
        have hpc' : (hatOf (running N first nw) em s).e.pc = .idle := hpc
        have hcm' : (hatOf (running N first nw) em s).e.cmds = [] := by
          unfold hatOf; rw [hnil]; simp [hat, hcm, emAll]
        exact emit_busy hF ⟨hpc', hcm'⟩
      obtain ⟨s1, r1, h1, n1, st1, hh1⟩ := Act.busy H _ s rfl h hpc hcm hne
      exact ⟨s1, r1, h1, fun _ => n1, st1, hh1⟩
    · exact ⟨s, Reach.refl _ _, h, fun ha hx => hb ⟨ha, hx⟩, rfl, rfl⟩
  have hn1 : s1.nodes = s.nodes := by unfold FA.nodes; rw [st1]
  rw [← hh1, ← hn1] at hF
  unfold hatOf at hF
  rw [fstep_hat b1] at hF
  obtain ⟨f', hf, rfl⟩ := Option.map_eq_some_iff.1 hF
  obtain ⟨s2, e, e1, e2, e3, e4, e5, e6, e7⟩ :=
    h1.run.farm_can (a := a) (cap := cap) (running_le N first nw) hf
  refine ⟨s2, r1.tail e, h1.step H e e6 (by rw [e4]; exact h1.pc.1) (by rw [e4]; exact h1.pc.2),
    by rw [e2, st1], ?_⟩
  have : ahead s2 = ahead s1 := by unfold ahead; rw [e4, e5]
  unfold hatOf
  rw [this, e3, e1]

theorem Act.lift (H : Hyp N w c ci co cap em nw first) (as : List FAct) :
    ∀ (s : FA w c) (F' : F D c.toNode), Act N em h0 st0 cst nw ts rs prev first s →
      exec (fstep (running N first nw) s.nodes ci co) (hatOf (running N first nw) em s) as = some F' →
    ∃ s', Reach (fastep N ci co cap em) s s' ∧ Act N em h0 st0 cst nw ts rs prev first s' ∧
      hatOf (running N first nw) em s' = F' := by
  induction as with
  | nil => intro s F' h hF; exact ⟨s, Reach.refl _ _, h, by simpa [exec] using hF⟩
  | cons a as ih =>
    intro s F' h hF
    simp only [exec] at hF
    cases h1 : fstep (running N first nw) s.nodes ci co (hatOf (running N first nw) em s) a with
    | none => rw [h1] at hF; simp at hF
    | some F1 =>
      rw [h1] at hF
      obtain ⟨s1, r1, a1, st1, hh1⟩ := h.lift1 H h1
      have hn1 : s1.nodes = s.nodes := by unfold FA.nodes; rw [st1]
      obtain ⟨s2, r2, a2, hh2⟩ := ih s1 F' a1 (by rw [hh1, hn1]; exact hF)
      exact ⟨s2, r1.trans r2, a2, hh2⟩

/-- the threads of the farm finish their part of the round -/
theorem Act.final (H : Hyp N w c ci co cap em nw first) (x : Nat × Nat × Nat × Nat) :
    ∀ s : FA w c, (hatOf (running N first nw) em s).work (running N first nw) = x →
      Act N em h0 st0 cst nw ts rs prev first s →
    ∃ s', Reach (fastep N ci co cap em) s s' ∧ Act N em h0 st0 cst nw ts rs prev first s' ∧
      (hatOf (running N first nw) em s').Final := by
  induction x using Less.wf.induction with
  | _ x ih =>
    intro s hx h
    by_cases hf : (hatOf (running N first nw) em s).Final
    · exact ⟨s, Reach.refl _ _, h, hf⟩
    · obtain ⟨us, hu, he⟩ := emAll_round H.d H.v h0 ts
      have hinv := h.run.inv
      unfold msgs at hinv
      rw [he] at hinv
      have hkN := running_le N first nw
      obtain ⟨F1, ⟨as, hF⟩, hless⟩ := progress (ci := ci) (co := co) (Run.steady H.w hkN s)
        (fun i hi => H.ci i (by omega)) (fun i hi => H.co i (by omega)) H.k hu hinv h.run.gend hf
      obtain ⟨s1, r1, a1, hh1⟩ := Act.lift H as s F1 h hF
      have hless' : Less ((hatOf (running N first nw) em s1).work (running N first nw)) x := by
        rw [hh1, ← hx]; exact hless
      obtain ⟨s2, r2, a2, hf2⟩ := ih _ hless' s1 rfl a1
      exact ⟨s2, r1.trans r2, a2, hf2⟩

/-- steps of the main thread still to be made in the round -/
def urank (N : Nat) (s : FA w c) : Nat :=
  match s.mpc with
  | .off _ => s.res.length + N + 8
  | .load => s.res.length + N + 6
  | .waitW j => N - j + 4
  | .waitE => 3
  | .waitG => 2
  | _ => 0

/-- the main thread finishes the round -/
theorem Act.finish (H : Hyp N w c ci co cap em nw first) (n : Nat) :
    ∀ s : FA w c, urank N s = n → Act N em h0 st0 cst nw ts rs prev first s →
      (hatOf (running N first nw) em s).Final →
    ∃ s', Reach (fastep N ci co cap em) s s' ∧ s'.todo = rs ∧ s'.mpc = .wakeE := by
  induction n using Nat.strongRecOn with
  | _ n ih =>
    intro s hn h hfin
    obtain ⟨hpc, hcm, hx⟩ := hfin
    have hpc' : s.f.e.pc = .idle := hpc
    have hx' : s.f.g.exited = true := hx
    have hcm0 : s.f.e.cmds ++ emAll em s.hist (ahead s) = [] := hcm
    obtain ⟨hcm', hem⟩ := List.append_eq_nil_iff.1 hcm0
    obtain ⟨t, ht, -⟩ := h.run.taken
    have hah : ahead s = [] := Classical.byContradiction fun hne => emAll_ne (em := em) ht hne _ hem
    have heos : s.eEos = true := h.run.eos.2 hah
    have hrun := h.run
    rw [hah] at hrun
    obtain ⟨-, -, -, -, f5, -⟩ := hrun.finish (running_le _ _ _) H.w H.c H.d H.v hpc' hcm' hx'
    -- any step of the main thread that keeps the farm as it is
    have go : ∀ s1 : FA w c, fastep N ci co cap em s .user = some s1 → s1.todo = s.todo →
        s1.f = s.f → s1.hist = s.hist → ahead s1 = [] → urank N s1 < urank N s →
        (∀ j, s1.mpc ≠ .wakeW j) → s1.mpc ≠ .wakeG →
        ∃ s', Reach (fastep N ci co cap em) s s' ∧ s'.todo = rs ∧ s'.mpc = .wakeE := by
      intro s1 e e1 e2 e3 e4 e5 e6 e7
      have h1 := h.step H e e1 e6 e7
      obtain ⟨s2, r2, t2⟩ := ih _ (by rw [← hn]; exact e5) s1 rfl h1 (by
        have : hatOf (running N first nw) em s1 = hatOf (running N first nw) em s := by
          unfold hatOf; rw [e2, e3, e4, hah]
        rw [this]; exact ⟨hpc, hcm, hx⟩)
      exact ⟨s2, ((Reach.refl _ _).tail e).trans r2, t2⟩
    cases h.ph with
    | wakeW j pc => exact absurd pc (h.pc.1 j)
    | wakeG pc => exact absurd pc h.pc.2
    | off ms pc run out cur got =>
      have hms : s.inp = [] ∧ ms = [] := by
        simp only [ahead, pc] at hah; exact List.append_eq_nil_iff.1 hah
      obtain ⟨hi, rfl⟩ := hms
      have e : fastep N ci co cap em s .user = some { s with mpc := .load } := by
        simp only [fastep, fauser, h.todo, pc]
      exact go _ e rfl rfl rfl (by simp [ahead, hi]) (by simp [urank, pc]) (by simp) (by simp)
    | load pc run out cur got =>
      have hi : s.inp = [] := by simpa [ahead, pc] using hah
      obtain ⟨-, o2, o3⟩ := run.outIs (running_le _ _ _) H.w H.c H.d H.v
      rw [hx'] at o2
      simp only [if_true] at o2
      cases hr : s.res with
      | nil =>
        exfalso; apply cur
        rw [out, hr, List.append_nil] at o2
        rw [o2]; simp
      | cons m ms =>
        by_cases hm : m = .eos
        · subst hm
          have e : fastep N ci co cap em s .user =
              some { s with res := ms, got := s.got ++ [s.cur], cur := [], mpc := .waitW 0 } := by
            simp only [fastep, fauser, h.todo, pc, hr]
          exact go _ e rfl rfl rfl (by simp [ahead, hi]) (by simp [urank, pc, hr]; omega) (by simp)
            (by simp)
        · have e : fastep N ci co cap em s .user = some { s with res := ms, cur := s.cur ++ [m] } := by
            simp only [fastep]
            cases m <;> first
              | exact absurd rfl hm
              | simp only [fauser, h.todo, pc, hr]
          exact go _ e rfl rfl rfl (by simp [ahead, hi, pc]) (by simp [urank, pc, hr]) (by simp [pc])
            (by simp [pc])
    | wait pc run gx res cur got =>
      rcases pc with ⟨j, pc⟩ | pc
      · have hi : s.inp = [] := by simpa [ahead, pc] using hah
        by_cases hj : j < N
        · have e : fastep N ci co cap em s .user = some { s with mpc := .waitW (j + 1) } := by
            simp only [fastep, fauser, h.todo, pc, hj, if_true, (f5 j).2.1, (f5 j).2.2.2, and_self]
          exact go _ e rfl rfl rfl (by simp [ahead, hi]) (by simp [urank, pc]; omega) (by simp)
            (by simp)
        · have e : fastep N ci co cap em s .user = some { s with mpc := .waitE } := by
            simp only [fastep, fauser, h.todo, pc, hj, if_false]
          exact go _ e rfl rfl rfl (by simp [ahead, hi]) (by simp [urank, pc]) (by simp)
            (by simp)
      · have hi : s.inp = [] := by simpa [ahead, pc] using hah
        have e : fastep N ci co cap em s .user = some { s with mpc := .waitG } := by
          simp only [fastep, fauser, h.todo, pc, heos, hpc', hcm']
        exact go _ e rfl rfl rfl (by simp [ahead, hi]) (by simp [urank, pc]) (by simp)
          (by simp)
    | waitG pc run gx res cur eos epc cmds got =>
      have e : fastep N ci co cap em s .user =
          some { s with todo := rs, first := false, mpc := .wakeE } := by
        simp only [fastep, fauser, h.todo, pc, gx, if_true]
      exact ⟨_, (Reach.refl _ _).tail e, rfl, rfl⟩

/-- the main thread wakes the threads -/
theorem APh.wake (H : Hyp N w c ci co cap em nw first) (n : Nat) :
    ∀ s : FA w c, s.todo = (nw, ts) :: rs → s.first = first →
      (∃ j, s.mpc = .wakeW j ∧ n = running N first nw - j) →
      APh N (running N first nw) em h0 st0 cst ts prev s →
    ∃ s', Reach (fastep N ci co cap em) s s' ∧ s'.todo = (nw, ts) :: rs ∧ s'.first = first ∧
      s'.mpc = .wakeG ∧ APh N (running N first nw) em h0 st0 cst ts prev s' := by
  induction n with
  | zero =>
    rintro s ht hf ⟨j, hpc, hn⟩ h
    subst hf
    cases h with
    | wakeW j' pc hj hwk got =>
      rw [hpc] at pc
      simp only [MPc.wakeW.injEq] at pc
      subst pc
      have hjj : j = running N s.first nw := by omega
      obtain ⟨s1, e, e1, e2, e3, e4, e5⟩ := hwk.workers (cap := cap) hpc ht (by omega)
      rw [hjj] at e5
      exact ⟨s1, (Reach.refl _ _).tail (a := .user) e, by rw [e1, ht], e2, e3, .wakeG e3 e5 (by rw [e4, got])⟩
    | wakeG pc => rw [hpc] at pc; simp at pc
    | off ms pc => rw [hpc] at pc; simp at pc
    | load pc => rw [hpc] at pc; simp at pc
    | wait pc => rw [hpc] at pc; simp at pc
    | waitG pc => rw [hpc] at pc; simp at pc
  | succ n ih =>
    rintro s ht hf ⟨j, hpc, hn⟩ h
    subst hf
    cases h with
    | wakeW j' pc hj hwk got =>
      rw [hpc] at pc
      simp only [MPc.wakeW.injEq] at pc
      subst pc
      obtain ⟨s1, e, e1, e2, e3, e4, e5⟩ := hwk.worker (cap := cap) hpc ht (by omega)
      obtain ⟨s2, r2, q⟩ := ih s1 (by rw [e1, ht]) e2 ⟨j + 1, e3, by omega⟩
        (.wakeW (j + 1) e3 (by omega) e5 (by rw [e4, got]))
      exact ⟨s2, ((Reach.refl _ _).tail (a := .user) e).trans r2, q⟩
    | wakeG pc => rw [hpc] at pc; simp at pc
    | off ms pc => rw [hpc] at pc; simp at pc
    | load pc => rw [hpc] at pc; simp at pc
    | wait pc => rw [hpc] at pc; simp at pc
    | waitG pc => rw [hpc] at pc; simp at pc

/-- a round that has begun ends -/
theorem APh.ends (H : Hyp N w c ci co cap em nw first) (ht : s.todo = (nw, ts) :: rs)
    (hf : s.first = first) (h : APh N (running N first nw) em h0 st0 cst ts prev s) :
    ∃ s', Reach (fastep N ci co cap em) s s' ∧ s'.todo = rs ∧ s'.mpc = .wakeE := by
  have act : ∀ s : FA w c, Act N em h0 st0 cst nw ts rs prev first s →
      ∃ s', Reach (fastep N ci co cap em) s s' ∧ s'.todo = rs ∧ s'.mpc = .wakeE := by
    intro s h
    obtain ⟨s1, r1, a1, f1⟩ := Act.final H _ s rfl h
    obtain ⟨s2, r2, q⟩ := Act.finish H _ s1 rfl a1 f1
    exact ⟨s2, r1.trans r2, q⟩
  have wg : ∀ s : FA w c, s.todo = (nw, ts) :: rs → s.first = first → s.mpc = .wakeG →
      APh N (running N first nw) em h0 st0 cst ts prev s →
      ∃ s', Reach (fastep N ci co cap em) s s' ∧ s'.todo = rs ∧ s'.mpc = .wakeE := by
    intro s ht hf hpc h
    subst hf
    cases h with
    | wakeW j pc => rw [hpc] at pc; simp at pc
    | wakeG pc hwk got =>
      obtain ⟨s1, e, e1, e2, e3, e4, e5, e6, e7, e8, e9⟩ :=
        hwk.collector (cap := cap) (em := em) H.k hpc ht
      have hp1 : APh N (running N s.first nw) em h0 st0 cst ts prev s1 :=
        .off (msgs ts) e3 (by rw [e5]; exact e9) (by rw [e6, e7, e8]; rfl) e6 (by rw [e4, got])
      obtain ⟨s2, r2, q⟩ := act s1 (Act.of (by rw [e1, ht]) e2 hp1 (by simp [e3]) (by simp [e3]))
      exact ⟨s2, ((Reach.refl _ _).tail (a := .user) e).trans r2, q⟩
    | off ms pc => rw [hpc] at pc; simp at pc
    | load pc => rw [hpc] at pc; simp at pc
    | wait pc => rw [hpc] at pc; simp at pc
    | waitG pc => rw [hpc] at pc; simp at pc
  by_cases h1 : ∃ j, s.mpc = .wakeW j
  · obtain ⟨j, hj⟩ := h1
    obtain ⟨s1, r1, t1, f1, p1, q1⟩ := APh.wake H _ s ht hf ⟨j, hj, rfl⟩ h
    obtain ⟨s2, r2, q⟩ := wg s1 t1 f1 p1 q1
    exact ⟨s2, r1.trans r2, q⟩
  · by_cases h2 : s.mpc = .wakeG
    · exact wg s ht hf h2 h
    · exact act s (Act.of ht hf h (fun j hj => h1 ⟨j, hj⟩) h2)

end
end FF.Farm
