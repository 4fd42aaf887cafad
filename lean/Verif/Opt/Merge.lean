/-
`merge_farms` refines, and the main refinement theorem of C60.
-/
import Verif.Opt.Refine

namespace FF.Opt

variable {α : Type}

/-! ### Combining workers -/

theorem combRow_leaf {ws r ws' : List (Sk α)} (h : combRow ws r = .ok ws')
    (hl : r.length = ws.length) :
    ∃ as bs : List (Node α), as.length = bs.length ∧ ws = as.map Sk.leaf ∧ r = bs.map Sk.leaf ∧
      ws' = (List.zipWith combNode as bs).map Sk.leaf := by
  induction ws generalizing r ws' with
  | nil =>
    cases r with
    | nil =>
      cases h
      exact ⟨[], [], rfl, rfl, rfl, rfl⟩
    | cons _ _ => simp at hl
  | cons a ws ih =>
    cases r with
    | nil => simp at hl
    | cons b r =>
      obtain ⟨c, h1, h2⟩ := bind_ok h
      obtain ⟨cs, h3, h4⟩ := bind_ok h2
      cases h4
      obtain ⟨as, bs, e1, e2, e3, e4⟩ := ih h3 (by simpa using hl)
      cases a with
      | leaf x =>
        cases b with
        | leaf y =>
          cases h1
          exact ⟨x :: as, y :: bs, by simp [e1], by simp [e2], by simp [e3], by simp [e4]⟩
        | pipe _ => cases h1
        | farm _ _ => cases h1
        | a2a _ _ => cases h1
      | pipe _ => cases h1
      | farm _ _ => cases h1
      | a2a _ _ => cases h1

theorem semEach_comb {as bs : List (Node α)} (hl : as.length = bs.length)
    {a b : List (List α)} (h : semEach ((List.zipWith combNode as bs).map Sk.leaf) a b) :
    ∃ m, semEach (as.map Sk.leaf) a m ∧ semEach (bs.map Sk.leaf) m b := by
  induction as generalizing bs a b with
  | nil =>
    cases bs with
    | nil =>
      simp only [List.zipWith_nil_left, List.map_nil] at h ⊢
      cases a <;> cases b <;> simp [semEach] at h
      exact ⟨[], by simp [semEach], by simp [semEach]⟩
    | cons _ _ => simp at hl
  | cons x as ih =>
    cases bs with
    | nil => simp at hl
    | cons y bs =>
      simp only [List.zipWith_cons_cons, List.map_cons] at h ⊢
      cases a with
      | nil => cases b <;> simp [semEach] at h
      | cons u a =>
        cases b with
        | nil => simp [semEach] at h
        | cons v b =>
          simp only [semEach, sem, beh_comb] at h
          obtain ⟨m, h1, h2⟩ := ih (by simpa using hl) h.2
          refine ⟨vals (x.beh u) :: m, ?_, ?_⟩
          · simp only [semEach, sem]; exact ⟨trivial, h1⟩
          · simp only [semEach, sem]; exact ⟨h.1, h2⟩

/-- Worker `j` of the merged farm is worker `j` of the first farm followed by worker `j` of the
second one; the two farms could have dealt the items that way. -/
theorem combRow_sem {ws r ws' : List (Sk α)} (h : combRow ws r = .ok ws')
    (hl : r.length = ws.length) {zs : List (Option Nat × α)} {ys : List α}
    (hs : semWorkers ws' zs ys) :
    ∃ mid, semWorkers ws zs mid ∧ semWorkers r (free mid) ys := by
  obtain ⟨as, bs, e1, e2, e3, e4⟩ := combRow_leaf h hl
  subst e2; subst e3; subst e4
  rw [semWorkers_gen (leaves_ne_a2a _)] at hs
  obtain ⟨zss, wss, h1, h2, h3⟩ := hs
  obtain ⟨m, h4, h5⟩ := semEach_comb e1 h2
  refine ⟨m.flatten, ?_, ?_⟩
  · rw [semWorkers_gen (leaves_ne_a2a _)]
    exact ⟨zss, m, h1, h4, shuffle_flatten m⟩
  · rw [semWorkers_gen (leaves_ne_a2a _)]
    exact ⟨m, wss, shuffle_flatten m, h5, h3⟩

theorem combRow_length {ws r ws' : List (Sk α)} (h : combRow ws r = .ok ws') :
    ws'.length = ws.length := by
  induction ws generalizing r ws' with
  | nil => cases h; rfl
  | cons a ws ih =>
    cases r with
    | nil => cases h
    | cons b r =>
      obtain ⟨c, h1, h2⟩ := bind_ok h
      obtain ⟨cs, h3, h4⟩ := bind_ok h2
      cases h4
      simp [ih h3]

/-! ### The stages of a sequence -/

/-- A stage accepted by `farm_sequence`. -/
def Good (ofarm : Bool) (nw : Nat) (s : Sk α) : Prop :=
  ∃ h ws, s = .farm h ws ∧ h.ordered = ofarm ∧ ws.length = nw ∧ h.getColl = none ∧
    h.emitter = none

theorem seqTest_good {ofarm : Bool} {nw : Nat} {s : Sk α} (h : seqTest ofarm nw s = .ok true) :
    Good ofarm nw s := by
  unfold seqTest at h
  split at h
  · rename_i ho
    cases s with
    | leaf _ => cases h
    | pipe _ => cases h
    | a2a _ _ => cases h
    | farm hd ws =>
      simp only [Res.ok.injEq, Bool.and_eq_true, beq_iff_eq, Option.isNone_iff_eq_none] at h
      exact ⟨hd, ws, rfl, ho, h.1.1, h.1.2, h.2⟩
  · cases h

theorem seqTests_good {ofarm : Bool} {nw : Nat} {ss : List (Sk α)}
    (h : seqTests ofarm nw ss = .ok true) : ∀ s ∈ ss, Good ofarm nw s := by
  induction ss with
  | nil => intro s hs; cases hs
  | cons s ss ih =>
    obtain ⟨b, h1, h2⟩ := bind_ok h
    cases b with
    | false => cases h2
    | true =>
      intro t ht
      rcases List.mem_cons.1 ht with e | e
      · rw [e]; exact seqTest_good h1
      · exact ih h2 t e

theorem farmSeq_good {ofarm : Bool} {nw : Nat} {ss : List (Sk α)} {f n sp : Nat}
    {last : Option Nat} {l : Nat} (h : farmSeq ofarm nw ss n sp last = .ok (some l))
    (hsp : f + 1 ≤ sp) (hl : ∀ k, last = some k → k + 1 = sp ∧ f < k)
    (hg : ∀ s ∈ (ss.drop (f + 1)).take (sp - (f + 1)), Good ofarm nw s) :
    f < l ∧ ∀ s ∈ (ss.drop (f + 1)).take (l - f), Good ofarm nw s := by
  induction n generalizing sp last with
  | zero => cases h
  | succ n ih =>
    have done : last = some l → f < l ∧ ∀ s ∈ (ss.drop (f + 1)).take (l - f), Good ofarm nw s := by
      intro e
      obtain ⟨e1, e2⟩ := hl l e
      refine ⟨e2, ?_⟩
      have : sp - (f + 1) = l - f := by omega
      rw [← this]; exact hg
    unfold farmSeq at h
    split at h
    · cases hx : findFrom Sk.nullEmit ss sp with
      | none => rw [hx] at h; simp only [Res.ok.injEq] at h; exact done h
      | some next =>
        rw [hx] at h
        obtain ⟨b, h1, h2⟩ := bind_ok h
        cases b with
        | false =>
          simp only [Bool.false_eq_true, if_false, Res.ok.injEq] at h2
          exact done h2
        | true =>
          have hle := (findFrom_some hx).1
          refine ih h2 (by omega) (fun k hk => by cases hk; omega) ?_
          intro s hs
          have e : next + 1 - (f + 1) = (sp - (f + 1)) + (next + 1 - sp) := by omega
          rw [e, List.take_add, List.mem_append] at hs
          rcases hs with hs | hs
          · exact hg s hs
          · apply seqTests_good h1
            rw [List.drop_drop] at hs
            have e' : f + 1 + (sp - (f + 1)) = sp := by omega
            rw [e'] at hs
            exact hs
    · simp only [Res.ok.injEq] at h; exact done h

theorem workers_ok {s : Sk α} {ws : List (Sk α)} (h : s.workers = .ok ws) :
    ∃ hd, s = .farm hd ws := by
  cases s with
  | farm hd w => cases h; exact ⟨hd, rfl⟩
  | leaf _ => cases h
  | pipe _ => cases h
  | a2a _ _ => cases h

/-- Unordered farms without user collector and emitter, one after the other. -/
theorem combRows_sem {nw : Nat} {rest : List (Sk α)} {rows : List (List (Sk α))}
    {ws ws' : List (Sk α)} (hw : ws.length = nw) (h0 : nw ≠ 0)
    (hg : ∀ s ∈ rest, Good false nw s)
    (hr : mapR Sk.workers rest = .ok rows) (h : combRows ws rows = .ok ws')
    {zs : List (Option Nat × α)} {ys : List α} (hs : semWorkers ws' zs ys) :
    ∃ mid, semWorkers ws zs mid ∧ semPipe rest mid ys := by
  induction rest generalizing ws rows zs ys with
  | nil =>
    cases hr
    cases h
    exact ⟨ys, hs, by simp [semPipe]⟩
  | cons s rest ih =>
    obtain ⟨r, h1, h2⟩ := bind_ok hr
    obtain ⟨rs, h3, h4⟩ := bind_ok h2
    cases h4
    obtain ⟨w1, h5, h6⟩ := bind_ok h
    obtain ⟨hd, w, e1, e2, e3, e4, e5⟩ := hg s (by simp)
    obtain ⟨hd', e6⟩ := workers_ok h1
    rw [e1] at e6
    cases e6
    obtain ⟨m1, g1, g2⟩ := ih (ws := w1) ((combRow_length h5).trans hw)
      (fun t ht => hg t (by simp [ht])) h3 h6 hs
    obtain ⟨m, g3, g4⟩ := combRow_sem h5 (e3.trans hw.symm) g1
    refine ⟨m, g3, ?_⟩
    rw [e1]
    simp only [semPipe, sem]
    refine ⟨m1, ⟨?_, m1, (collOut_null e4 m1).symm, Or.inr ⟨Or.inl e2, ?_⟩⟩, g2⟩
    · intro e; rw [e] at e3; exact h0 e3.symm
    · rw [e5]; exact g4

/-- A merged ordered farm has compositions as workers. -/
theorem combRows_std {ws ws' : List (Sk α)} {r : List (Sk α)} {rs : List (List (Sk α))}
    (hw : ws ≠ []) (h : combRows ws (r :: rs) = .ok ws') :
    ws' ≠ [] ∧ stdNodes ws' = none := by
  have key : ∀ (rs : List (List (Sk α))) (ws : List (Sk α)),
      (∃ n t, ws = .leaf n :: t ∧ n.comp = true) → ∀ ws', combRows ws rs = .ok ws' →
      ∃ n t, ws' = .leaf n :: t ∧ n.comp = true := by
    intro rs
    induction rs with
    | nil =>
      intro ws h ws' h'
      cases h'; exact h
    | cons r rs ih =>
      intro ws hh ws' h'
      obtain ⟨w1, h1, h2⟩ := bind_ok h'
      refine ih w1 ?_ ws' h2
      obtain ⟨n, t, e1, _⟩ := hh
      subst e1
      cases r with
      | nil => cases h1
      | cons b r =>
        obtain ⟨c, h3, h4⟩ := bind_ok h1
        obtain ⟨cs, h5, h6⟩ := bind_ok h4
        cases h6
        cases b with
        | leaf m => cases h3; exact ⟨_, _, rfl, rfl⟩
        | pipe _ => cases h3
        | farm _ _ => cases h3
        | a2a _ _ => cases h3
  obtain ⟨w1, h1, h2⟩ := bind_ok h
  have : ∃ n t, w1 = .leaf n :: t ∧ n.comp = true := by
    cases ws with
    | nil => exact absurd rfl hw
    | cons a ws =>
      cases r with
      | nil => cases h1
      | cons b r =>
        obtain ⟨c, h3, h4⟩ := bind_ok h1
        obtain ⟨cs, h5, h6⟩ := bind_ok h4
        cases h6
        cases a with
        | leaf m =>
          cases b with
          | leaf k => cases h3; exact ⟨_, _, rfl, rfl⟩
          | pipe _ => cases h3
          | farm _ _ => cases h3
          | a2a _ _ => cases h3
        | pipe _ => cases h3
        | farm _ _ => cases h3
        | a2a _ _ => cases h3
  obtain ⟨n, t, e1, e2⟩ := key rs w1 this ws' h2
  subst e1
  refine ⟨by simp, ?_⟩
  simp [stdNodes, e2]

theorem newEmit_ok {h : Hdr α} {h0 h1 : Hdr α}
    (hh : (match h.emitter with
      | none => Res.ok h0
      | some e => h0.addEmit e) = .ok h1) (he : h0.emitter = none) :
    h1.emitter = h.emitter ∧ h1.coll = h0.coll ∧ h1.ordered = h0.ordered := by
  cases hx : h.emitter with
  | none => rw [hx] at hh; cases hh; exact ⟨he, rfl, rfl⟩
  | some e =>
    rw [hx] at hh
    rw [addEmit_ok hh]
    exact ⟨rfl, rfl, rfl⟩

/-- `combine_farm_sequence` on a sequence found by `farm_sequence`. -/
theorem combineSeq_pref {h : Hdr α} {ws rest : List (Sk α)} {nf : Sk α}
    (hc : h.getColl = none) (hr : rest ≠ [])
    (hg : ∀ s ∈ rest, Good h.ordered ws.length s)
    (hh : combineSeq (.farm h ws :: rest) = .ok nf) : PRef [nf] (.farm h ws :: rest) := by
  obtain ⟨rows, h1, hh⟩ := bind_ok hh
  obtain ⟨ws', h2, hh⟩ := bind_ok hh
  obtain ⟨h3, h4, hh⟩ := bind_ok hh
  obtain ⟨h5, h6, hh⟩ := bind_ok hh
  cases hh
  obtain ⟨e1, e2, e3⟩ := newEmit_ok h4 rfl
  have hlast : rest.getLastD (.farm h ws) ∈ rest := by
    cases rest with
    | nil => exact absurd rfl hr
    | cons s rest =>
      have : (s :: rest).getLastD (.farm h ws) = (s :: rest).getLast (by simp) := by
        simp [List.getLastD_eq_getLast?, List.getLast?_eq_some_getLast]
      rw [this]
      exact List.getLast_mem _
  obtain ⟨hl, wl, g1, g2, g3, g4, g5⟩ := hg _ hlast
  rw [g1] at h6
  simp only [newColl, Res.ok.injEq] at h6
  have q1 : h5.emitter = h.emitter := by
    rw [← h6]
    split
    · rw [g4]; exact e1
    · exact e1
  have q2 : h5.ordered = h.ordered := by
    rw [← h6]
    split
    · rw [g4]; exact e3
    · exact e3
  have q3 : h5.getColl = none := by
    rw [← h6]
    split
    · rw [g4]; rfl
    · rfl
  intro xs ys hs
  rw [semPipe_single] at hs
  simp only [sem, Hdr.setOndemand] at hs
  obtain ⟨w0, vs, c1, c2⟩ := hs
  rw [collOut_null q3] at c1
  subst c1
  have hwne : ws ≠ [] := by
    intro e
    subst e
    apply w0
    have : ∀ (rows : List (List (Sk α))), combRows [] rows = .ok ws' → ws' = [] := by
      intro rows
      induction rows with
      | nil => intro h; cases h; rfl
      | cons r rows ih => intro h; exact ih h
    exact this _ h2
  have hstd : stdNodes ws' = none := by
    cases rest with
    | nil => exact absurd rfl hr
    | cons s rest =>
      obtain ⟨r, k1, k2⟩ := bind_ok h1
      obtain ⟨rs, k3, k4⟩ := bind_ok k2
      cases k4
      exact (combRows_std hwne h2).2
  rw [hstd, q2, q1] at c2
  rcases c2 with ⟨ns, _, _, k, _⟩ | ⟨k1, k2⟩
  · cases k
  · have ho : h.ordered = false := by
      rcases k1 with k1 | ⟨_, k1⟩
      · exact k1
      · simp at k1
    rw [ho] at hg
    obtain ⟨mid, m1, m2⟩ := combRows_sem rfl (by
      intro e; exact hwne (List.length_eq_zero_iff.1 e)) hg h1 h2 k2
    simp only [semPipe, sem]
    exact ⟨mid, ⟨hwne, mid, (collOut_null hc mid).symm, Or.inr ⟨Or.inl ho, m1⟩⟩, m2⟩

theorem mergeRound_pref {n f : Nat} {ss ss' : List (Sk α)} (h : mergeRound n ss f = .ok ss')
    (hn : ∃ s, ss[f]? = some s ∧ s.nullColl = true) : PRef ss' ss := by
  obtain ⟨s, hf, hn⟩ := hn
  unfold mergeRound at h
  rw [hf] at h
  cases s with
  | leaf n => cases hn
  | pipe _ => cases hn
  | a2a _ _ => cases hn
  | farm hd ws =>
    obtain ⟨last, h1, h2⟩ := bind_ok h
    cases last with
    | none => cases h2; exact PRef.refl _
    | some l =>
      simp only at h2
      split at h2
      · rename_i hfl
        obtain ⟨nf, h3, h4⟩ := bind_ok h2
        cases h4
        obtain ⟨_, hg⟩ := farmSeq_good (f := f) h1 (Nat.le_refl _) (fun k hk => by cases hk)
          (fun s hs => by simp at hs)
        have e1 : (ss.drop f).take (l + 1 - f) = .farm hd ws :: (ss.drop (f + 1)).take (l - f) := by
          have hlt := get_lt hf
          rw [List.drop_eq_getElem_cons hlt]
          have : ss[f] = .farm hd ws := by
            rw [List.getElem?_eq_getElem hlt] at hf; exact Option.some.inj hf
          rw [this]
          have : l + 1 - f = (l - f) + 1 := by omega
          rw [this, List.take_succ_cons]
        rw [e1] at h3
        by_cases hr : (ss.drop (f + 1)).take (l - f) = []
        · rw [hr] at h3 hg e1
          -- the sequence would be empty: the list ends at `f`, so no farm was found after it
          exfalso
          have hlen : ss.length ≤ f + 1 := by
            have := congrArg List.length hr
            simp at this
            omega
          have : farmSeq hd.ordered ws.length ss n (f + 1) none ≠ .ok (some l) := by
            cases n with
            | zero => simp [farmSeq]
            | succ n =>
              unfold farmSeq
              rw [if_neg (by omega)]
              simp
          exact this h1
        · have hp := combineSeq_pref (Sk.nullColl_farm hn) hr hg h3
          have hss : ss = ss.take f ++ (.farm hd ws :: (ss.drop (f + 1)).take (l - f)) ++
              ss.drop (l + 1) := by
            conv => lhs; rw [split1 hf]
            rw [List.append_assoc, List.cons_append]
            have : (ss.drop (f + 1)).take (l - f) ++ ss.drop (l + 1) = ss.drop (f + 1) := by
              have e : ss.drop (l + 1) = (ss.drop (f + 1)).drop (l - f) := by
                rw [List.drop_drop]; congr 1; omega
              rw [e, List.take_append_drop]
            rw [this]
          conv => rhs; rw [hss]
          have := hp.middle (ss.take f) (ss.drop (l + 1))
          simpa using this
      · cases h2; exact PRef.refl _

theorem mergeLoop_pref {n f : Nat} {ss ss' : List (Sk α)} (h : mergeLoop n ss f = .ok ss')
    (hn : ∃ s, ss[f]? = some s ∧ s.nullColl = true) : PRef ss' ss := by
  induction n generalizing ss f with
  | zero => cases h
  | succ n ih =>
    obtain ⟨s1, h1, h2⟩ := bind_ok h
    have p1 := mergeRound_pref h1 hn
    cases hx : findFrom Sk.nullColl s1 (f + 1) with
    | none => rw [hx] at h2; cases h2; exact p1
    | some f' => rw [hx] at h2; exact (ih h2 (findFrom_some hx).2).trans p1

theorem mergeFarms_pref {n : Nat} {ss ss' : List (Sk α)} (h : mergeFarms n ss = .ok ss') :
    PRef ss' ss := by
  unfold mergeFarms at h
  cases hx : findFrom Sk.nullColl ss 0 with
  | none => rw [hx] at h; cases h; exact PRef.refl _
  | some f => rw [hx] at h; exact mergeLoop_pref h (findFrom_some hx).2

/-! ### The recursion -/

theorem opt_pref (n : Nat) :
    (∀ (o : Opts) (ss ss' : List (Sk α)), o.introduceA2A = false → optPipe n o ss = .ok ss' →
      PRef ss' ss) ∧
    (∀ (o : Opts) (ws ws' : List (Sk α)), o.introduceA2A = false → optFarm n o ws = .ok ws' →
      WRef ws' ws) := by
  induction n with
  | zero =>
    constructor
    · intro o ss ss' _ h; simp [optPipe] at h
    · intro o ss ss' _ h; simp [optFarm] at h
  | succ n ih =>
    obtain ⟨ihP, ihF⟩ := ih
    constructor
    · intro o ss ss' ho h
      simp only [optPipe] at h
      obtain ⟨s1, h1, h⟩ := bind_ok h
      obtain ⟨s2, h2, h⟩ := bind_ok h
      obtain ⟨s3, h3, h⟩ := bind_ok h
      obtain ⟨s5, h5, h⟩ := bind_ok h
      have p1 : PRef s1 ss := by
        have a : PRef s1 (flat ss) := All2.pref ((mapR_ok h1).mono fun _ _ h =>
          onInner_ok (fun a b hab => ihP o a b ho hab) h)
        exact a.trans fun xs ys h => (flat_sem ss xs ys).1 h
      have p2 : PRef s2 s1 := by
        split at h2
        · exact mergeFarms_pref h2
        · cases h2; exact PRef.refl _
      have p3 : PRef s3 s2 := by
        rw [ho] at h3; cases h3; exact PRef.refl _
      have p5 : PRef s5 s3 := by
        split at h5
        · obtain ⟨s4, h4, h5⟩ := bind_ok h5
          have a : PRef s4 s3 := All2.pref ((mapR_ok h4).mono fun _ _ h =>
            onFarm_ok (fun a b hab => ihF level1 a b rfl hab) h)
          exact (rmLoop_pref h5).trans a
        · cases h5; exact PRef.refl _
      have p6 : PRef ss' s5 := by
        split at h
        · exact mergeEmit_pref h
        · cases h; exact PRef.refl _
      exact p6.trans (p5.trans (p3.trans (p2.trans p1)))
    · intro o ws ws' ho h
      simp only [optFarm] at h
      obtain ⟨w1, h1, h⟩ := bind_ok h
      have p1 : WRef w1 ws := RefW.all ((mapR_onPipe (fun a b hab => ihP o a b ho hab) h1).mono
        fun _ _ h => Or.inl h)
      split at h
      · have p2 : WRef ws' w1 := RefW.all ((mapR_ok h).mono fun _ _ h =>
          onWorker_ok (fun a b hab => ihP level1 a b rfl hab)
            (fun a b hab => ihF level1 a b rfl hab) h)
        exact p2.trans p1
      · cases h; exact p1

/-- **C60, refinement.**  Whatever options other than `introduce_a2a` are given, every output stream of the
optimised pipeline is an output stream the original pipeline could have produced from the same
input.  (Missing from the full property: the optimised pipeline may be refused by `prepare` or the
optimiser may not return, see the counterexamples.) -/
theorem C60_refines_partial (n : Nat) (o : Opts) (ss ss' : List (Sk α))
    (ho : o.introduceA2A = false) (h : optPipe n o ss = .ok ss') :
    Refines (.pipe ss') (.pipe ss) := by
  intro xs ys hs
  simp only [sem] at hs ⊢
  exact (opt_pref n).1 o ss ss' ho h xs ys hs

/-- The same for `optimize_static(ff_farm&)`. -/
theorem C60_farm_refines_partial (n : Nat) (o : Opts) (hd : Hdr α) (ws ws' : List (Sk α))
    (ho : o.introduceA2A = false) (h : optFarm n o ws = .ok ws') :
    Refines (.farm hd ws') (.farm hd ws) :=
  ((opt_pref n).2 o ws ws' ho h).farm hd

end FF.Opt
