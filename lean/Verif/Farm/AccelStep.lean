import Verif.Farm.AccelPhase
/-!
# C66: every action, in every phase
-/
namespace FF.Farm
open FF.Node
variable {D : Type} {w : Nat → RNode D} {c : RNode D}

section
variable {N k : Nat} {em : List (Msg D) → Msg D → List (Cmd D)} {st0 : (i : Nat) → (w i).σ}
  {cst : c.σ} {h0 : List (Msg D)} {ts : List D} {s s' : FA w c} {rest : List (Msg D)}
  {ci co : Nat → Nat} {cap : Nat} {prev : List (List (Msg D))}
  {rounds : List (Option Nat × List D)}

/-- the end mark is the last message of the collector -/
theorem end_last {coll cur ms : List (Msg D)} {x : Bool} (hcoll : AllData coll) (hcur : Msg.eos ∉ cur)
    (h : coll ++ (if x then [.eos] else []) = cur ++ .eos :: ms) : x = true ∧ ms = [] ∧ cur = coll := by
  have hne : Msg.eos ∉ coll := fun hh => by have := hcoll _ hh; simp [Msg.isData] at this
  cases x with
  | false =>
    exfalso; apply hne
    simp only [Bool.false_eq_true, if_false, List.append_nil] at h
    rw [h]; simp
  | true =>
    simp only [if_true] at h
    rcases List.eq_nil_or_concat ms with rfl | ⟨r, y, rfl⟩
    · exact ⟨rfl, rfl, (List.append_inj_left' h rfl).symm⟩
    · exfalso; apply hne
      rw [List.concat_eq_append, ← List.cons_append, ← List.append_assoc] at h
      rw [List.append_inj_left' h rfl]; simp

/-- A round is over: what it did, as in `Runs`. -/
structure Done (N k : Nat) (em : List (Msg D) → Msg D → List (Cmd D)) (h0 : List (Msg D))
    (st0 : (i : Nat) → (w i).σ) (cst : c.σ) (ts : List D) (prev : List (List (Msg D))) (s' : FA w c)
    (log rec : List (Nat × Msg D)) : Prop where
  exp : Explains k (emAll em h0 (msgs ts)) log
  chan : ∀ r m, (r, m) ∈ rec → r < k
  rec_ : ∀ i, i < k → from_ rec i = stream (reinit (w i).toNode (st0 i)) (from_ log i)
  quiet : Quiet N (h0 ++ msgs ts) (nextSt k w st0 log) (c.renew (cstate c.toNode cst (rec.map Prod.snd))) s'
  got : s'.got = prev ++ [collected c.toNode cst (rec.map Prod.snd)]

theorem Run.done {nw : Option Nat} {rs : List (Option Nat × List D)}
    (h : Run N (running N s.first nw) em st0 cst h0 ts s s.inp)
    (hw : ∀ i, i < N → Steady (w i).toNode) (hc : Filter c.toNode)
    (hd : ∀ h m, ∀ x ∈ em h m, x.msg.isData = true)
    (hv : ∀ h m, Valid (running N s.first nw) (em h m))
    (hx : s.f.g.exited = true) (hres : s.res = []) (hcur : s.cur = []) (heos : s.eEos = true)
    (hpc : s.f.e.pc = .idle) (hcm : s.f.e.cmds = [])
    (hgot : s.got = prev ++ [collected c.toNode cst (s.f.g.got.map Prod.snd)]) :
    Done N (running N s.first nw) em h0 st0 cst ts prev
      { s with todo := rs, first := false, mpc := .wakeE } s.f.e.log s.f.g.got := by
  have hinp := h.eos.1 heos
  rw [hinp] at h
  obtain ⟨f1, f2, f3, f4, f5, f6, f7, f8⟩ := h.finish (running_le _ _ _) hw hc hd hv hpc hcm hx
  have hst := (h.outIs (running_le _ _ _) hw hc hd hv).1
  refine ⟨f2, f3, f4, ?_, hgot⟩
  refine { inp := hinp, res := hres, cur := hcur, inq := fun i => (f5 i).1,
           pending := fun i => (f5 i).2.1, outq := fun i => (f5 i).2.2.1, pc := hpc, cmds := hcm,
           eos := heos, hist := f1, up := fun i => (f5 i).2.2.2, next := fun i hi => ?_, gx := hx,
           gst := ?_, gneos := ?_, gnf := ?_ }
  · unfold nextSt
    split
    · rename_i hik
      show (w i).renew (after (s.nodes i) (s.f.consumed i)).st = _
      rw [f6 i hik]
      unfold FA.nodes
      rw [h.st i hik]
    · rename_i hik
      have hs := h.slept i (by omega) hi
      rw [← hs]
      cases hf : s.first with
      | true => simp [running, hf] at hik; omega
      | false => simp [FA.next, hf]
  · show c.renew s.f.g.st = _
    rw [hst]
  · show (if s.rg ≤ s.f.g.neos then 0 else s.f.g.neos) = 0
    rw [if_pos (by rw [h.rg]; exact f7)]
  · show (if s.rg ≤ s.f.g.neosnf then 0 else s.f.g.neosnf) = 0
    rw [f8]; split <;> rfl

theorem APh.step {nw : Option Nat} {rs : List (Option Nat × List D)}
    (hk : 0 < running N s.first nw) (hw : ∀ i, i < N → Steady (w i).toNode) (hc : Filter c.toNode)
    (hd : ∀ h m, ∀ x ∈ em h m, x.msg.isData = true)
    (hv : ∀ h m, Valid (running N s.first nw) (em h m)) (ht : s.todo = (nw, ts) :: rs)
    (h : APh N (running N s.first nw) em h0 st0 cst ts prev s) {a : FAAct}
    (hs : fastep N ci co cap em s a = some s') :
    (s'.todo = s.todo ∧ s'.first = s.first ∧
      APh N (running N s.first nw) em h0 st0 cst ts prev s') ∨
    (s'.todo = rs ∧ s'.first = false ∧ s'.mpc = .wakeE ∧
      ∃ log rec, Done N (running N s.first nw) em h0 st0 cst ts prev s' log rec) := by
  have hkN := running_le N s.first nw
  cases h with
  | wakeW j pc hj hwk got =>
    left
    by_cases ha : a = .user
    · subst ha
      by_cases hjk : j < running N s.first nw
      · obtain ⟨s1, e, e1, e2, e3, e4, e5⟩ := hwk.worker (cap := cap) pc ht hjk
        have : s1 = s' := Option.some.inj (e.symm.trans hs)
        subst this
        exact ⟨e1, e2, .wakeW (j + 1) e3 (by omega) e5 (by rw [e4, got])⟩
      · obtain ⟨s1, e, e1, e2, e3, e4, e5⟩ := hwk.workers (cap := cap) pc ht hjk
        have : s1 = s' := Option.some.inj (e.symm.trans hs)
        subst this
        have hjj : j = running N s.first nw := by omega
        rw [hjj] at e5
        exact ⟨e1, e2, .wakeG e3 e5 (by rw [e4, got])⟩
    · exact (hwk.still ha hs).elim
  | wakeG pc hwk got =>
    left
    by_cases ha : a = .user
    · subst ha
      obtain ⟨s1, e, e1, e2, e3, e4, e5, e6, e7, e8, e9⟩ := hwk.collector (cap := cap) (em := em) hk pc ht
      have : s1 = s' := Option.some.inj (e.symm.trans hs)
      subst this
      exact ⟨e1, e2, .off (msgs ts) e3 (by rw [e5]; exact e9) (by rw [e6, e7, e8]; rfl) e6 (by rw [e4, got])⟩
    · exact (hwk.still ha hs).elim
  | off ms pc run out cur got =>
    left
    cases a with
    | take =>
      cases hinp : s.inp with
      | nil => simp [fastep, hinp] at hs
      | cons m inp' =>
        rw [hinp, List.cons_append] at run
        obtain ⟨r1, e1, e2, e3, e4, e5, e6, e7, e8, -⟩ := run.take hs hinp
        exact ⟨e3, e2, .off ms (by rw [e4, pc]) (by rw [e1]; exact r1) (by rw [e7, e5, e8, out])
          (by rw [e5, cur]) (by rw [e6, got])⟩
    | farm a =>
      obtain ⟨r1, e1, e2, e3, e4, e5, e6, ⟨x, e7, e8⟩, -⟩ := run.farm hk hkN hc.stays hs
      exact ⟨e3, e2, .off ms (by rw [e4, pc]) (by rw [e1]; exact r1)
        (by rw [e7, e5, e8, out, List.append_assoc]) (by rw [e5, cur]) (by rw [e6, got])⟩
    | user =>
      cases ms with
      | nil =>
        simp only [fastep, fauser, ht, pc, Option.some.injEq] at hs
        subst hs
        rw [List.append_nil] at run
        exact ⟨ht.symm ▸ rfl, rfl, .load rfl (run.mono_user rfl rfl rfl rfl rfl rfl rfl rfl) out
          (by show Msg.eos ∉ s.cur; rw [cur]; simp) got⟩
      | cons m ms =>
        simp only [fastep, fauser, ht, pc] at hs
        split at hs
        · simp only [Option.some.injEq] at hs
          subst hs
          refine ⟨ht.symm ▸ rfl, rfl, .off ms rfl ?_ out cur got⟩
          have : (s.inp ++ [m]) ++ ms = s.inp ++ m :: ms := by simp
          show Run N _ em st0 cst h0 ts _ ((s.inp ++ [m]) ++ ms)
          rw [this]
          exact run.mono_user rfl rfl rfl rfl rfl rfl rfl rfl
        · simp at hs
  | load pc run out cur got =>
    left
    cases a with
    | take =>
      cases hinp : s.inp with
      | nil => simp [fastep, hinp] at hs
      | cons m inp' =>
        rw [hinp] at run
        obtain ⟨r1, e1, e2, e3, e4, e5, e6, e7, e8, -⟩ := run.take hs hinp
        exact ⟨e3, e2, .load (by rw [e4, pc]) (by rw [e1]; exact r1) (by rw [e7, e5, e8, out])
          (by rw [e5]; exact cur) (by rw [e6, got])⟩
    | farm a =>
      obtain ⟨r1, e1, e2, e3, e4, e5, e6, ⟨x, e7, e8⟩, -⟩ := run.farm hk hkN hc.stays hs
      exact ⟨e3, e2, .load (by rw [e4, pc]) (by rw [e1]; exact r1)
        (by rw [e7, e5, e8, out, List.append_assoc]) (by rw [e5]; exact cur) (by rw [e6, got])⟩
    | user =>
      obtain ⟨-, o2, o3⟩ := run.outIs hkN hw hc hd hv
      cases hr : s.res with
      | nil => simp [fastep, fauser, ht, pc, hr] at hs
      | cons m ms =>
        by_cases hm : m = .eos
        · subst hm
          simp only [fastep, fauser, ht, pc, hr, Option.some.injEq] at hs
          subst hs
          rw [out, hr] at o2
          obtain ⟨h1, h2, h3⟩ := end_last o3 cur o2.symm
          refine ⟨ht.symm ▸ rfl, rfl, .wait (Or.inl ⟨0, rfl⟩)
            (run.mono_user rfl rfl rfl rfl rfl rfl rfl rfl) h1 h2 rfl ?_⟩
          show s.got ++ [s.cur] = _
          rw [got, h3]
        · have e : fauser N cap s = some { s with res := ms, cur := s.cur ++ [m] } := by
            cases m <;> first
              | exact absurd rfl hm
              | simp only [fauser, ht, pc, hr]
          have hs' := Option.some.inj (e.symm.trans hs)
          subst hs'
          refine ⟨rfl, rfl, .load pc (run.mono_user rfl rfl rfl rfl rfl rfl rfl rfl) ?_ ?_ got⟩
          · show s.f.g.out = (s.cur ++ [m]) ++ ms
            rw [out, hr]; simp
          · show Msg.eos ∉ s.cur ++ [m]
            simp only [List.mem_append, List.mem_singleton, not_or]
            exact ⟨cur, fun hh => hm hh.symm⟩
  | wait pc run gx res cur got =>
    left
    cases a with
    | take =>
      cases hinp : s.inp with
      | nil => simp [fastep, hinp] at hs
      | cons m inp' =>
        rw [hinp] at run
        obtain ⟨r1, e1, e2, e3, e4, e5, e6, e7, e8, -⟩ := run.take hs hinp
        exact ⟨e3, e2, .wait (by rw [e4]; exact pc) (by rw [e1]; exact r1) (by rw [e7, gx])
          (by rw [e8, res]) (by rw [e5, cur]) (by rw [e6, e7, got])⟩
    | farm a =>
      obtain ⟨r1, e1, e2, e3, e4, e5, e6, ⟨x, e7, e8⟩, e9, -⟩ := run.farm hk hkN hc.stays hs
      have hg := e9 gx
      have hx : x = [] := by rw [hg] at e7; exact List.self_eq_append_right.1 e7
      subst hx
      exact ⟨e3, e2, .wait (by rw [e4]; exact pc) (by rw [e1]; exact r1) (by rw [hg, gx])
        (by rw [e8, res]; rfl) (by rw [e5, cur]) (by rw [e6, hg, got])⟩
    | user =>
      rcases pc with ⟨j, pc⟩ | pc
      · simp only [fastep, fauser, ht, pc] at hs
        split at hs
        · split at hs
          · simp only [Option.some.injEq] at hs
            subst hs
            exact ⟨ht.symm ▸ rfl, rfl, .wait (Or.inl ⟨j + 1, rfl⟩)
              (run.mono_user rfl rfl rfl rfl rfl rfl rfl rfl) gx res cur got⟩
          · simp at hs
        · simp only [Option.some.injEq] at hs
          subst hs
          exact ⟨ht.symm ▸ rfl, rfl, .wait (Or.inr rfl)
            (run.mono_user rfl rfl rfl rfl rfl rfl rfl rfl) gx res cur got⟩
      · simp only [fastep, fauser, ht, pc] at hs
        split at hs
        · rename_i h1 h2 h3
          simp only [Option.some.injEq] at hs
          subst hs
          exact ⟨ht.symm ▸ rfl, rfl, .waitG rfl
            (run.mono_user rfl rfl rfl rfl rfl rfl rfl rfl) gx res cur h1 h2 h3 got⟩
        · simp at hs
  | waitG pc run gx res cur eos epc cmds got =>
    cases a with
    | take => simp [fastep, eos] at hs
    | farm a =>
      left
      obtain ⟨r1, e1, e2, e3, e4, e5, e6, ⟨x, e7, e8⟩, e9, e10⟩ := run.farm hk hkN hc.stays hs
      have hg := e9 gx
      have he := e10 epc cmds
      have hx : x = [] := by rw [hg] at e7; exact List.self_eq_append_right.1 e7
      subst hx
      have hinp := run.eos.1 eos
      have heos' : s'.eEos = true := r1.eos.2 hinp
      exact ⟨e3, e2, .waitG (by rw [e4]; exact pc) (by rw [e1]; exact r1) (by rw [hg, gx])
        (by rw [e8, res]; rfl) (by rw [e5, cur]) heos' (by rw [he, epc]) (by rw [he, cmds])
        (by rw [e6, hg, got])⟩
    | user =>
      right
      simp only [fastep, fauser, ht, pc, gx, if_true, Option.some.injEq] at hs
      subst hs
      exact ⟨rfl, rfl, rfl, _, _, run.done hw hc hd hv gx res cur eos epc cmds got⟩

/-! ## The invariant -/

/-- The rounds that are over returned what `Runs` allows, and the current one goes on from there. -/
def Acc (N : Nat) (w : Nat → RNode D) (c : RNode D) (em : List (Msg D) → Msg D → List (Cmd D))
    (rounds : List (Option Nat × List D)) (s : FA w c) : Prop :=
  ∃ done prev h0 st0 cst, rounds = done ++ s.todo ∧ prev.length = done.length ∧
    (∀ rs outs, Runs N w c em s.first h0 st0 cst rs outs →
      Runs N w c em true [] (fun i => (w i).init) c.init (done ++ rs) (prev ++ outs)) ∧
    ((s.mpc = .wakeE ∧ Quiet N h0 st0 cst s ∧ s.got = prev) ∨
      ∃ nw ts rs, s.todo = (nw, ts) :: rs ∧ APh N (running N s.first nw) em h0 st0 cst ts prev s)

theorem Acc.start (N : Nat) (w : Nat → RNode D) (c : RNode D)
    (em : List (Msg D) → Msg D → List (Cmd D)) (rounds : List (Option Nat × List D)) :
    Acc N w c em rounds (FA.start w c rounds) :=
  ⟨[], [], [], fun i => (w i).init, c.init, rfl, rfl, fun _ _ h => h,
    Or.inl ⟨rfl, Quiet.start N w c rounds, rfl⟩⟩

theorem Acc.step (hg : Good N w c em rounds) (h : Acc N w c em rounds s) {a : FAAct}
    (hs : fastep N ci co cap em s a = some s') : Acc N w c em rounds s' := by
  obtain ⟨done, prev, h0, st0, cst, hr, hl, hch, h⟩ := h
  rcases h with ⟨hpc, hq, hgot⟩ | ⟨nw, ts, rs, ht, hp⟩
  · by_cases ha : a = .user
    · subst ha
      cases ht : s.todo with
      | nil => simp [fastep, fauser, ht] at hs
      | cons r rs =>
        obtain ⟨nw, ts⟩ := r
        obtain ⟨s1, e, e1, e2, e3, e4, e5⟩ := hq.wake (cap := cap) hpc ht
        have : s1 = s' := Option.some.inj (e.symm.trans hs)
        subst this
        refine ⟨done, prev, h0, st0, cst, by rw [e1, hr], hl, by rw [e2]; exact hch,
          Or.inr ⟨nw, ts, rs, by rw [e1, ht], ?_⟩⟩
        rw [e2]
        exact .wakeW 0 e3 (Nat.zero_le _) e5 (by rw [e4, hgot])
    · exact (hq.still ha hs).elim
  · have hmem : (nw, ts) ∈ rounds := by rw [hr, ht]; simp
    have hk := running_pos hg.pos s.first (hg.some_ _ hmem)
    have hv : ∀ h m, Valid (running N s.first nw) (em h m) := fun h m =>
      hg.em.valid h m _ hmem s.first
    rcases hp.step hk hg.w hg.c hg.em.data hv ht hs with ⟨e1, e2, e3⟩ | ⟨e1, e2, e3, log, rec, hD⟩
    · exact ⟨done, prev, h0, st0, cst, by rw [e1, hr], hl, by rw [e2]; exact hch,
        Or.inr ⟨nw, ts, rs, by rw [e1, ht], by rw [e2]; exact e3⟩⟩
    · refine ⟨done ++ [(nw, ts)], _, _, _, _, ?_, ?_, ?_, Or.inl ⟨e3, hD.quiet, hD.got⟩⟩
      · rw [e1, hr, ht]; simp
      · simp [hl]
      · intro rs' outs hR
        rw [e2] at hR
        have := hch ((nw, ts) :: rs') (collected c.toNode cst (rec.map Prod.snd) :: outs)
          ⟨log, rec, _, _, rfl, hD.exp, hD.chan, hD.rec_, rfl, hR⟩
        simpa using this

end
end FF.Farm
