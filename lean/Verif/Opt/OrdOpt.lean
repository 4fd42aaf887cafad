/-
Optimisation keeps networks of ordered farms ordered, whatever the options (C60).
-/
import Verif.Opt.PureOpt

namespace FF.Opt

variable {α : Type}

theorem ordAll_iff {ss : List (Sk α)} : OrdAll ss ↔ ∀ s ∈ ss, Ord s := by
  induction ss with
  | nil => simp [OrdAll]
  | cons s ss ih => simp [OrdAll, ih]

theorem OrdAll.append {a b : List (Sk α)} (ha : OrdAll a) (hb : OrdAll b) : OrdAll (a ++ b) := by
  rw [ordAll_iff] at *
  intro s hs
  rcases List.mem_append.1 hs with h | h
  · exact ha s h
  · exact hb s h

theorem OrdAll.take {a : List (Sk α)} (ha : OrdAll a) (k : Nat) : OrdAll (a.take k) := by
  rw [ordAll_iff] at *
  exact fun s hs => ha s (List.mem_of_mem_take hs)

theorem OrdAll.drop {a : List (Sk α)} (ha : OrdAll a) (k : Nat) : OrdAll (a.drop k) := by
  rw [ordAll_iff] at *
  exact fun s hs => ha s (List.mem_of_mem_drop hs)

theorem OrdAll.get {a : List (Sk α)} (ha : OrdAll a) {i : Nat} {s : Sk α} (h : a[i]? = some s) :
    Ord s := ordAll_iff.1 ha s (List.mem_of_getElem? h)

theorem OrdAll.cons {a : List (Sk α)} {s : Sk α} (hs : Ord s) (ha : OrdAll a) : OrdAll (s :: a) :=
  ⟨hs, ha⟩

mutual
theorem flat_ord : ∀ (ss : List (Sk α)), OrdAll ss → OrdAll (flat ss)
  | [], _ => by simp [flat, OrdAll]
  | s :: ss, h => by
    simp only [flat]
    simp only [OrdAll] at h
    exact (flat1_ord s h.1).append (flat_ord ss h.2)
theorem flat1_ord : ∀ (s : Sk α), Ord s → OrdAll (flat1 s)
  | .pipe ss, h => by
    simp only [flat1]
    exact flat_ord ss (by simpa only [Ord] using h)
  | .leaf n, h => ⟨h, trivial⟩
  | .farm hd ws, h => ⟨h, trivial⟩
  | .a2a l r, h => ⟨h, trivial⟩
end

theorem mapR_ord {f : Sk α → Res (Sk α)} {ss ss' : List (Sk α)} (h : mapR f ss = .ok ss')
    (hf : ∀ s s', f s = .ok s' → Ord s → Ord s') (ho : OrdAll ss) : OrdAll ss' := by
  induction ss generalizing ss' with
  | nil => cases h; trivial
  | cons s ss ih =>
    obtain ⟨y, h1, h2⟩ := bind_ok h
    obtain ⟨ys, h3, h4⟩ := bind_ok h2
    cases h4
    exact ⟨hf _ _ h1 ho.1, ih h3 ho.2⟩

theorem onPipe_ord {f : List (Sk α) → Res (List (Sk α))}
    (hf : ∀ a b, f a = .ok b → OrdAll a → OrdAll b) (s s' : Sk α) (h : onPipe f s = .ok s')
    (ho : Ord s) : Ord s' := by
  cases s with
  | pipe ss =>
    obtain ⟨b, h1, h2⟩ := bind_ok h
    cases h2
    simp only [Ord] at ho ⊢
    exact hf _ _ h1 ho
  | leaf _ => cases h; exact ho
  | farm _ _ => cases h; exact ho
  | a2a _ _ => cases h; exact ho

theorem onInner_ord {f : List (Sk α) → Res (List (Sk α))}
    (hf : ∀ a b, f a = .ok b → OrdAll a → OrdAll b) (s s' : Sk α) (h : onInner f s = .ok s')
    (ho : Ord s) : Ord s' := by
  cases s with
  | pipe ss => cases h; exact ho
  | leaf _ => cases h; exact ho
  | a2a _ _ => simp only [Ord] at ho
  | farm hd ws =>
    obtain ⟨b, h1, h2⟩ := bind_ok h
    cases h2
    simp only [Ord] at ho ⊢
    exact ⟨ho.1, ho.2.1, mapR_ord h1 (onPipe_ord hf) ho.2.2⟩

theorem onFarm_ord {g : List (Sk α) → Res (List (Sk α))}
    (hg : ∀ a b, g a = .ok b → OrdAll a → OrdAll b) (s s' : Sk α) (h : onFarm g s = .ok s')
    (ho : Ord s) : Ord s' := by
  cases s with
  | pipe ss => cases h; exact ho
  | leaf _ => cases h; exact ho
  | a2a _ _ => simp only [Ord] at ho
  | farm hd ws =>
    obtain ⟨b, h1, h2⟩ := bind_ok h
    cases h2
    simp only [Ord] at ho ⊢
    exact ⟨ho.1, ho.2.1, hg _ _ h1 ho.2.2⟩

theorem onWorker_ord {f g : List (Sk α) → Res (List (Sk α))}
    (hf : ∀ a b, f a = .ok b → OrdAll a → OrdAll b) (s s' : Sk α) (h : onWorker f g s = .ok s')
    (ho : Ord s) : Ord s' := by
  cases s with
  | leaf _ => cases h; exact ho
  | a2a _ _ => simp only [Ord] at ho
  | pipe ss =>
    obtain ⟨b, h1, h2⟩ := bind_ok h
    cases h2
    simp only [Ord] at ho ⊢
    exact hf _ _ h1 ho
  | farm hd ws =>
    have ho' := ho
    simp only [Ord] at ho'
    simp only [onWorker, ho'.1, if_true] at h
    cases h; exact ho

theorem addEmit_hdr {h h' : Hdr α} {e : Node α} (hh : h.addEmit e = .ok h') :
    h'.ordered = h.ordered ∧ h'.coll = h.coll := by
  unfold Hdr.addEmit at hh
  split at hh
  · cases hh
  · cases hh; exact ⟨rfl, rfl⟩

theorem combRow_ord {as bs cs : List (Sk α)} (h : combRow as bs = .ok cs) : OrdAll cs := by
  induction as generalizing bs cs with
  | nil => cases h; trivial
  | cons a as ih =>
    cases bs with
    | nil => cases h
    | cons b bs =>
      obtain ⟨c, h1, h2⟩ := bind_ok h
      obtain ⟨cs', h3, h4⟩ := bind_ok h2
      cases h4
      refine ⟨?_, ih h3⟩
      cases a with
      | leaf x =>
        cases b with
        | leaf y => cases h1; simp only [Ord]
        | pipe _ => cases h1
        | farm _ _ => cases h1
        | a2a _ _ => cases h1
      | pipe _ => cases h1
      | farm _ _ => cases h1
      | a2a _ _ => cases h1

theorem combRows_ord {ws ws' : List (Sk α)} {rows : List (List (Sk α))}
    (h : combRows ws rows = .ok ws') (ho : OrdAll ws) : OrdAll ws' := by
  induction rows generalizing ws with
  | nil => cases h; exact ho
  | cons r rs ih =>
    obtain ⟨w, h1, h2⟩ := bind_ok h
    exact ih h2 (combRow_ord h1)

theorem addColl_ord {h : Hdr α} (c : Option (Node α)) :
    (h.addColl c).ordered = h.ordered ∧ (h.addColl c).coll.gathers = true := by
  cases c <;> exact ⟨rfl, rfl⟩

theorem removeColl_ord {h : Hdr α} (ho : h.ordered = true) :
    h.removeColl.ordered = true ∧ h.removeColl.coll.gathers = true := by
  unfold Hdr.removeColl
  rw [if_pos ho]
  exact ⟨ho, rfl⟩

theorem combineSeq_ord {ss : List (Sk α)} {nf : Sk α} (h : combineSeq ss = .ok nf)
    (ho : OrdAll ss) : Ord nf := by
  cases ss with
  | nil => cases h
  | cons s rest =>
    cases s with
    | leaf _ => cases h
    | pipe _ => cases h
    | a2a _ _ => cases h
    | farm hd ws =>
      have h1 := ho.1
      simp only [Ord] at h1
      simp only [combineSeq] at h
      obtain ⟨rows, _, h⟩ := bind_ok h
      obtain ⟨ws', k2, h⟩ := bind_ok h
      obtain ⟨h3, k3, h⟩ := bind_ok h
      obtain ⟨h4, k4, h⟩ := bind_ok h
      cases h
      have e3 : h3.ordered = true := by
        cases he : hd.emitter with
        | none => rw [he] at k3; cases k3; exact h1.1
        | some e => rw [he] at k3; rw [(addEmit_hdr k3).1]; exact h1.1
      have hl : Ord (rest.getLastD (.farm hd ws)) := by
        cases hr : rest.getLast? with
        | none =>
          have : rest = [] := by simpa using hr
          rw [this]; exact ho.1
        | some z =>
          rw [List.getLastD_eq_getLast?, hr]
          exact ordAll_iff.1 ho.2 z (List.mem_of_getLast? hr)
      have e4 : h4.ordered = true ∧ h4.coll.gathers = true := by
        unfold newColl at k4
        split at k4
        · rename_i hl' ws'' he
          rw [he] at hl
          simp only [Ord] at hl
          have : hl'.hasColl = true := by unfold Hdr.hasColl; rw [hl.1]; rfl
          rw [this] at k4
          cases k4
          rw [if_pos rfl]
          rw [(addColl_ord _).1]
          exact ⟨e3, (addColl_ord _).2⟩
        · cases k4
      simp only [Ord]
      exact ⟨e4.1, e4.2, combRows_ord k2 h1.2.2⟩

theorem mergeRound_ord {n f : Nat} {ss ss' : List (Sk α)} (h : mergeRound n ss f = .ok ss')
    (ho : OrdAll ss) : OrdAll ss' := by
  unfold mergeRound at h
  split at h
  · obtain ⟨l, h1, h2⟩ := bind_ok h
    cases l with
    | none => cases h2; exact ho
    | some l =>
      simp only at h2
      split at h2
      · obtain ⟨nf, h3, h4⟩ := bind_ok h2
        cases h4
        exact (ho.take _).append (OrdAll.cons (combineSeq_ord h3 ((ho.drop _).take _)) (ho.drop _))
      · cases h2; exact ho
  · cases h

theorem mergeLoop_ord {n f : Nat} {ss ss' : List (Sk α)} (h : mergeLoop n ss f = .ok ss')
    (ho : OrdAll ss) : OrdAll ss' := by
  induction n generalizing ss f with
  | zero => cases h
  | succ n ih =>
    obtain ⟨s1, h1, h2⟩ := bind_ok h
    have p1 := mergeRound_ord h1 ho
    cases hx : findFrom Sk.nullColl s1 (f + 1) with
    | none => rw [hx] at h2; cases h2; exact p1
    | some f' => rw [hx] at h2; exact ih h2 p1

theorem mergeFarms_ord {n : Nat} {ss ss' : List (Sk α)} (h : mergeFarms n ss = .ok ss')
    (ho : OrdAll ss) : OrdAll ss' := by
  unfold mergeFarms at h
  cases hx : findFrom Sk.nullColl ss 0 with
  | none => rw [hx] at h; cases h; exact ho
  | some f => rw [hx] at h; exact mergeLoop_ord h ho

/-- `introduce_a2a` leaves ordered farms alone. -/
theorem a2aLoop_ord {n : Nat} {ss ss' : List (Sk α)} {f : Option Nat}
    (h : a2aLoop n ss f = .ok ss') (ho : OrdAll ss) : ss' = ss := by
  induction n generalizing f with
  | zero => cases f <;> cases h
  | succ n ih =>
    cases f with
    | none => simp only [a2aLoop] at h; cases h; rfl
    | some i =>
      simp only [a2aLoop] at h
      split at h
      · split at h
        · rename_i h1 w1 s2 hf _
          have := ho.get hf
          simp only [Ord] at this
          rw [if_pos this.1] at h
          exact ih h
        · cases h
      · cases h; rfl

theorem rmRound_ord {ss ss' : List (Sk α)} {f : Nat} (h : rmRound ss f = .ok ss')
    (ho : OrdAll ss) : OrdAll ss' := by
  unfold rmRound at h
  split at h
  · rename_i hd ws hf
    have hof := ho.get hf
    simp only [Ord] at hof
    have keep : ∀ m : Node α, Ord (.farm (hd.addColl (some m)) ws) := fun m => by
      simp only [Ord]
      exact ⟨by rw [(addColl_ord _).1]; exact hof.1, (addColl_ord _).2, hof.2.2⟩
    split at h
    · rename_i nx hx
      split at h
      · rw [if_pos hof.1] at h
        cases nx with
        | leaf m => cases h; exact (ho.take _).append (OrdAll.cons (keep m) (ho.drop _))
        | pipe _ => cases h
        | farm _ _ => cases h; exact ho
        | a2a _ _ => cases h; exact ho
      · cases h; exact ho
    · rw [hof.1] at h
      cases h; exact ho
  · cases h

theorem rmLoop_ord {n : Nat} {ss ss' : List (Sk α)} {next : Nat} (h : rmLoop n ss next = .ok ss')
    (ho : OrdAll ss) : OrdAll ss' := by
  induction n generalizing ss next with
  | zero => cases h
  | succ n ih =>
    simp only [rmLoop] at h
    cases hx : findFrom Sk.nullColl ss next with
    | none => rw [hx] at h; cases h; exact ho
    | some f =>
      rw [hx] at h
      obtain ⟨s1, h1, h2⟩ := bind_ok h
      exact ih h2 (rmRound_ord h1 ho)

theorem mergeEmit_ord {ss ss' : List (Sk α)} (h : mergeEmit ss = .ok ss') (ho : OrdAll ss) :
    OrdAll ss' := by
  unfold mergeEmit at h
  split at h
  · cases h; exact ho
  · cases h; exact ho
  · rename_i f _
    split at h
    · rename_i prev hd ws hp hf
      have hof := ho.get hf
      simp only [Ord] at hof
      have keep : ∀ (c : Node α) h', hd.addEmit c = .ok h' → Ord (.farm h' ws) := fun c h' hh => by
        obtain ⟨e1, e2⟩ := addEmit_hdr hh
        simp only [Ord]
        rw [e1, e2]; exact hof
      split at h
      · cases h; exact ho
      · cases prev with
        | farm hp' wp =>
          have hop := ho.get hp
          simp only [Ord] at hop
          simp only at h
          split at h
          · split at h
            · cases h
            · split at h
              · cases h
              · obtain ⟨h', h1, h2⟩ := bind_ok h
                cases h2
                refine (ho.take _).append (OrdAll.cons ?_ (OrdAll.cons (keep _ _ h1) (ho.drop _)))
                simp only [Ord]
                exact ⟨(removeColl_ord hop.1).1, (removeColl_ord hop.1).2, hop.2.2⟩
          · cases h; exact ho
        | leaf m =>
          simp only at h
          split at h
          · cases h
          · obtain ⟨h', h1, h2⟩ := bind_ok h
            cases h2
            exact (ho.take _).append (OrdAll.cons (keep _ _ h1) (ho.drop _))
        | pipe _ => cases h
        | a2a _ _ => cases h
    · cases h

theorem opt_ord (n : Nat) :
    (∀ (o : Opts) (ss ss' : List (Sk α)), optPipe n o ss = .ok ss' → OrdAll ss → OrdAll ss') ∧
    (∀ (o : Opts) (ws ws' : List (Sk α)), optFarm n o ws = .ok ws' → OrdAll ws → OrdAll ws') := by
  induction n with
  | zero =>
    constructor
    · intro o ss ss' h; simp [optPipe] at h
    · intro o ss ss' h; simp [optFarm] at h
  | succ n ih =>
    obtain ⟨ihP, ihF⟩ := ih
    constructor
    · intro o ss ss' h ho
      simp only [optPipe] at h
      obtain ⟨s1, h1, h⟩ := bind_ok h
      obtain ⟨s2, h2, h⟩ := bind_ok h
      obtain ⟨s3, h3, h⟩ := bind_ok h
      obtain ⟨s5, h5, h⟩ := bind_ok h
      have p1 : OrdAll s1 := mapR_ord h1 (onInner_ord (ihP o)) (flat_ord ss ho)
      have p2 : OrdAll s2 := by
        split at h2
        · exact mergeFarms_ord h2 p1
        · cases h2; exact p1
      have p3 : OrdAll s3 := by
        split at h3
        · rw [a2aLoop_ord h3 p2]; exact p2
        · cases h3; exact p2
      have p5 : OrdAll s5 := by
        split at h5
        · obtain ⟨s4, h4, h5⟩ := bind_ok h5
          exact rmLoop_ord h5 (mapR_ord h4 (onFarm_ord (ihF level1)) p3)
        · cases h5; exact p3
      split at h
      · exact mergeEmit_ord h p5
      · cases h; exact p5
    · intro o ws ws' h ho
      simp only [optFarm] at h
      obtain ⟨w1, h1, h⟩ := bind_ok h
      have p1 : OrdAll w1 := mapR_ord h1 (onPipe_ord (ihP o)) ho
      split at h
      · exact mapR_ord h (onWorker_ord (ihP level1)) p1
      · cases h; exact p1

/-- **C60, order.**  If the nodes keep no state, the workers of each farm all do the same and every farm of
the pipeline is an ordered farm with a collector, every output of the optimised pipeline is exactly the list a
loop over the items would compute, in that order, whatever the options. -/
theorem C60_order_partial (n : Nat) (o : Opts) (ss ss' : List (Sk α)) (F : α → List α)
    (hp : Pure (.pipe ss) F) (ho : Ord (.pipe ss))
    (h : optPipe n o ss = .ok ss') (xs ys : List α) (hs : sem (.pipe ss') xs ys) :
    ys = xs.flatMap F :=
  sem_ord _ F xs ys (C60_stateless_partial n o ss ss' F hp h).1
    (by simp only [Ord] at ho ⊢; exact (opt_ord n).1 o ss ss' h ho) hs

end FF.Opt
