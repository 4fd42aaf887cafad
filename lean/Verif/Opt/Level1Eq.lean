/-
With `OptLevel1` a pipeline keeps all its behaviours (C60).
-/
import Verif.Opt.Counter

namespace FF.Opt

variable {α : Type}

mutual
/-- Every ordered farm has a collector (as those built by `ff_OFarm` do, farm.hpp 2310-2345; `set_ordered` on a farm
without collector does not add one, farm.hpp 1100-1107). -/
def OG : Sk α → Prop
  | .leaf _ => True
  | .pipe ss => OGs ss
  | .farm h ws => (h.ordered = true → h.coll.gathers = true) ∧ OGs ws
  | .a2a l r => OGs l ∧ OGs r
/-- Lists. -/
def OGs : List (Sk α) → Prop
  | [] => True
  | s :: ss => OG s ∧ OGs ss
end

theorem ogs_iff (ss : List (Sk α)) : OGs ss ↔ ∀ s ∈ ss, OG s := by
  induction ss with
  | nil => simp [OGs]
  | cons s ss ih => simp only [OGs, ih, List.mem_cons, forall_eq_or_imp]

theorem ogs_append (a b : List (Sk α)) : OGs (a ++ b) ↔ OGs a ∧ OGs b := by
  simp only [ogs_iff, List.mem_append]
  constructor
  · intro h; exact ⟨fun s hs => h s (Or.inl hs), fun s hs => h s (Or.inr hs)⟩
  · rintro ⟨h1, h2⟩ s (hs | hs)
    · exact h1 s hs
    · exact h2 s hs

mutual
theorem flat_og : ∀ (ss : List (Sk α)), OGs ss → OGs (flat ss)
  | [], h => by simpa [flat] using h
  | s :: ss, h => by
    simp only [OGs] at h
    simp only [flat, ogs_append]
    exact ⟨flat1_og s h.1, flat_og ss h.2⟩
theorem flat1_og : ∀ (s : Sk α), OG s → OGs (flat1 s)
  | .pipe ss, h => by
    simp only [OG] at h
    simp only [flat1]
    exact flat_og ss h
  | .leaf n, h => by simp only [flat1, OGs]; exact ⟨h, trivial⟩
  | .farm hd ws, h => by simp only [flat1, OGs]; exact ⟨h, trivial⟩
  | .a2a l r, h => by simp only [flat1, OGs]; exact ⟨h, trivial⟩
end

theorem mapR_og {f : Sk α → Res (Sk α)} {R : Sk α → Sk α → Prop}
    (hf : ∀ s s', OG s → f s = .ok s' → R s s' ∧ OG s') {l l' : List (Sk α)} (hl : OGs l)
    (h : mapR f l = .ok l') : All2 R l l' ∧ OGs l' := by
  induction l generalizing l' with
  | nil => cases h; exact ⟨.nil, hl⟩
  | cons s l ih =>
    simp only [OGs] at hl
    obtain ⟨y, h1, h2⟩ := bind_ok h
    obtain ⟨ys, h3, h4⟩ := bind_ok h2
    cases h4
    obtain ⟨a1, a2⟩ := hf s y hl.1 h1
    obtain ⟨b1, b2⟩ := ih hl.2 h3
    exact ⟨.cons a1 b1, by simp only [OGs]; exact ⟨a2, b2⟩⟩

theorem onPipe_og {f : List (Sk α) → Res (List (Sk α))}
    (hf : ∀ a b, OGs a → f a = .ok b → PRef a b ∧ OGs b) (s s' : Sk α) (ho : OG s)
    (h : onPipe f s = .ok s') : RefP s s' ∧ OG s' := by
  cases s with
  | pipe ss =>
    simp only [OG] at ho
    obtain ⟨b, h1, h2⟩ := bind_ok h
    cases h2
    obtain ⟨a1, a2⟩ := hf _ _ ho h1
    exact ⟨Or.inr ⟨ss, b, rfl, rfl, a1⟩, by simp only [OG]; exact a2⟩
  | leaf n => cases h; exact ⟨Or.inl rfl, ho⟩
  | farm _ _ => cases h; exact ⟨Or.inl rfl, ho⟩
  | a2a _ _ => cases h; exact ⟨Or.inl rfl, ho⟩

theorem onInner_og {f : List (Sk α) → Res (List (Sk α))}
    (hf : ∀ a b, OGs a → f a = .ok b → PRef a b ∧ OGs b) (s s' : Sk α) (ho : OG s)
    (h : onInner f s = .ok s') : Refines s s' ∧ OG s' := by
  cases s with
  | pipe ss => cases h; exact ⟨fun _ _ h => h, ho⟩
  | leaf n => cases h; exact ⟨fun _ _ h => h, ho⟩
  | farm hd ws =>
    simp only [OG] at ho
    obtain ⟨w', h1, h2⟩ := bind_ok h
    cases h2
    obtain ⟨a1, a2⟩ := mapR_og (onPipe_og hf) ho.2 h1
    exact ⟨(RefW.all (a1.mono fun _ _ h => Or.inl h)).farm hd, by simp only [OG]; exact ⟨ho.1, a2⟩⟩
  | a2a l r =>
    simp only [OG] at ho
    obtain ⟨l', h1, h2⟩ := bind_ok h
    obtain ⟨r', h3, h4⟩ := bind_ok h2
    cases h4
    obtain ⟨a1, a2⟩ := mapR_og (onPipe_og hf) ho.1 h1
    obtain ⟨b1, b2⟩ := mapR_og (onPipe_og hf) ho.2 h3
    exact ⟨RefW.refines (Or.inr (Or.inr ⟨_, _, _, _, rfl, rfl, a1, b1⟩)),
      by simp only [OG]; exact ⟨a2, b2⟩⟩

theorem onFarm_og {g : List (Sk α) → Res (List (Sk α))}
    (hg : ∀ a b, OGs a → g a = .ok b → WRef a b ∧ OGs b) (s s' : Sk α) (ho : OG s)
    (h : onFarm g s = .ok s') : Refines s s' ∧ OG s' := by
  cases s with
  | pipe ss => cases h; exact ⟨fun _ _ h => h, ho⟩
  | leaf n => cases h; exact ⟨fun _ _ h => h, ho⟩
  | farm hd ws =>
    simp only [OG] at ho
    obtain ⟨w', h1, h2⟩ := bind_ok h
    cases h2
    obtain ⟨a1, a2⟩ := hg _ _ ho.2 h1
    exact ⟨a1.farm hd, by simp only [OG]; exact ⟨ho.1, a2⟩⟩
  | a2a l r => cases h; exact ⟨fun _ _ h => h, ho⟩

theorem removeColl_rev {h : Hdr α} (ho : h.ordered = false) (hc : h.getColl = none)
    (ws : List (Sk α)) : Refines (.farm h ws) (.farm h.removeColl ws) := by
  intro xs ys hs
  simp only [sem, Hdr.removeColl, ho] at hs ⊢
  obtain ⟨h0, vs, h1, h2⟩ := hs
  refine ⟨h0, vs, ?_, ?_⟩
  · rw [collOut_null hc] at h1; exact h1
  · rcases h2 with ⟨ns, e1, _⟩ | ⟨_, e2⟩
    · cases e1
    · exact Or.inr ⟨Or.inl rfl, e2⟩

theorem onWorker_og {f g : List (Sk α) → Res (List (Sk α))}
    (hf : ∀ a b, OGs a → f a = .ok b → PRef a b ∧ OGs b)
    (hg : ∀ a b, OGs a → g a = .ok b → WRef a b ∧ OGs b) (s s' : Sk α) (ho : OG s)
    (h : onWorker f g s = .ok s') : RefW s s' ∧ OG s' := by
  cases s with
  | pipe ss =>
    obtain ⟨a1, a2⟩ := onPipe_og hf (.pipe ss) s' ho h
    exact ⟨Or.inl a1, a2⟩
  | leaf n => cases h; exact ⟨Or.inl (Or.inl rfl), ho⟩
  | a2a l r =>
    simp only [OG] at ho
    obtain ⟨l', h1, h2⟩ := bind_ok h
    obtain ⟨r', h3, h4⟩ := bind_ok h2
    cases h4
    obtain ⟨a1, a2⟩ := mapR_og (onPipe_og hf) ho.1 h1
    obtain ⟨b1, b2⟩ := mapR_og (onPipe_og hf) ho.2 h3
    exact ⟨Or.inr (Or.inr ⟨_, _, _, _, rfl, rfl, a1, b1⟩), by simp only [OG]; exact ⟨a2, b2⟩⟩
  | farm hd ws =>
    simp only [onWorker] at h
    cases hord : hd.ordered with
    | true =>
      rw [hord] at h
      cases h
      exact ⟨Or.inl (Or.inl rfl), ho⟩
    | false =>
      simp only [OG] at ho
      simp only [hord, Bool.false_eq_true, if_false] at h
      obtain ⟨w', h1, h2⟩ := bind_ok h
      cases h2
      obtain ⟨a1, a2⟩ := hg _ _ ho.2 h1
      refine ⟨Or.inr (Or.inl ⟨_, _, _, _, rfl, rfl, ?_⟩), ?_⟩
      · intro xs ys hs
        have := a1.farm hd _ _ hs
        split
        · rename_i hc
          exact removeColl_rev hord (by simpa using hc) _ _ _ this
        · exact this
      · simp only [OG]
        refine ⟨?_, a2⟩
        split
        · intro h; unfold Hdr.removeColl at h; rw [hord] at h; simp at h
        · exact ho.1

theorem addColl_rev {h : Hdr α} (ho : h.ordered = true) (hg : h.coll.gathers = true)
    (hc : h.getColl = none) (m : Node α)
    (ws : List (Sk α)) : PRef [.farm h ws, .leaf m] [.farm (h.addColl (some m)) ws] := by
  intro xs ys hs
  simp only [semPipe, sem, Hdr.addColl, ho, hg] at hs ⊢
  obtain ⟨z, ⟨h0, vs, h1, h2⟩, y, h3, h4⟩ := hs
  subst h4
  rw [collOut_null hc] at h1
  subst h1
  rcases h2 with ⟨ns, _, _, e3, e4⟩ | ⟨e1, _⟩
  · exact ⟨_, ⟨h0, z, h3, Or.inl ⟨ns, trivial, rfl, e3, e4⟩⟩, rfl⟩
  · simp at e1

theorem leaf_mi_rev (m : Node α) :
    Refines (.leaf m) (.leaf (if m.mi then m else miNode m)) := by
  intro xs ys h
  simp only [sem] at h ⊢
  split
  · exact h
  · rw [beh_mi]; exact h

theorem rev_at {ss : List (Sk α)} {f : Nat} {s : Sk α} {a : List (Sk α)}
    (h : ss[f]? = some s) (ha : PRef [s] a) : PRef ss (ss.take f ++ a ++ ss.drop (f + 1)) := by
  conv => lhs; rw [split1 h]
  simpa using ha.middle (ss.take f) (ss.drop (f + 1))

theorem rev_at2 {ss : List (Sk α)} {f : Nat} {s t : Sk α} {a : List (Sk α)}
    (h : ss[f]? = some s) (h' : ss[f + 1]? = some t) (ha : PRef [s, t] a) :
    PRef ss (ss.take f ++ a ++ ss.drop (f + 2)) := by
  conv => lhs; rw [split2 h h']
  simpa using ha.middle (ss.take f) (ss.drop (f + 2))

theorem og_removeColl {h : Hdr α} (ho : h.ordered = false) {ws : List (Sk α)} (hw : OGs ws) :
    OG (.farm h.removeColl ws) := by
  simp only [OG]
  refine ⟨?_, hw⟩
  intro h'; unfold Hdr.removeColl at h'; rw [ho] at h'; simp at h'

theorem rmRound_rev {ss ss' : List (Sk α)} {f : Nat} (h : rmRound ss f = .ok ss')
    (hn : ∃ s, ss[f]? = some s ∧ s.nullColl = true) (hog : OGs ss) : PRef ss ss' ∧ OGs ss' := by
  obtain ⟨s, hf, hn⟩ := hn
  unfold rmRound at h
  cases s with
  | leaf n => cases hn
  | pipe _ => cases hn
  | a2a _ _ => cases hn
  | farm hd ws =>
    have hc := Sk.nullColl_farm hn
    have hm := (ogs_iff ss).1 hog _ (List.mem_of_getElem? hf)
    simp only [OG] at hm
    have at1 : hd.ordered = false →
        PRef ss (ss.take f ++ .farm hd.removeColl ws :: ss.drop (f + 1)) ∧
        OGs (ss.take f ++ .farm hd.removeColl ws :: ss.drop (f + 1)) := by
      intro ho
      constructor
      · have := rev_at (a := [.farm hd.removeColl ws]) hf
          (All2.pref (.cons (removeColl_rev ho hc ws) .nil))
        simpa using this
      · have e := hog
        rw [split1 hf, ogs_append] at e
        simp only [OGs] at e
        rw [ogs_append]
        simp only [OGs]
        exact ⟨e.1, og_removeColl ho hm.2, e.2.2⟩
    rw [hf] at h
    simp only at h
    cases hx : ss[f + 1]? with
    | none =>
      rw [hx] at h
      simp only at h
      split at h
      · rename_i hh
        cases h
        exact at1 (by simp at hh; exact hh.1)
      · cases h; exact ⟨PRef.refl _, hog⟩
    | some nx =>
      rw [hx] at h
      simp only at h
      have e := hog
      rw [split2 hf hx, ogs_append] at e
      simp only [OGs] at e
      split at h
      · split at h
        · rename_i ho
          cases nx with
          | leaf m =>
            cases h
            constructor
            · have := rev_at2 hf hx (addColl_rev ho (hm.1 ho) hc m ws)
              simpa using this
            · rw [ogs_append]
              simp only [OGs]
              refine ⟨e.1, ?_, e.2.2.2⟩
              simp only [OG, Hdr.addColl, Coll.gathers]
              exact ⟨fun _ => trivial, hm.2⟩
          | pipe _ => cases h
          | farm _ _ => cases h; exact ⟨PRef.refl _, hog⟩
          | a2a _ _ => cases h; exact ⟨PRef.refl _, hog⟩
        · rename_i ho
          have ho : hd.ordered = false := by simpa using ho
          cases nx with
          | leaf m =>
            cases h
            constructor
            · have := rev_at2 (a := [.farm hd.removeColl ws, .leaf (if m.mi then m else miNode m)])
                hf hx (All2.pref (.cons (removeColl_rev ho hc ws)
                  (.cons (leaf_mi_rev m) .nil)))
              simpa using this
            · rw [ogs_append]
              simp only [OGs]
              exact ⟨e.1, og_removeColl ho hm.2, by simp only [OG], e.2.2.2⟩
          | pipe _ => cases h
          | farm _ _ => cases h; exact at1 ho
          | a2a _ _ => cases h; exact ⟨PRef.refl _, hog⟩
      · cases h; exact ⟨PRef.refl _, hog⟩

theorem rmLoop_rev {n : Nat} {ss ss' : List (Sk α)} {next : Nat}
    (h : rmLoop n ss next = .ok ss') (hog : OGs ss) : PRef ss ss' ∧ OGs ss' := by
  induction n generalizing ss next with
  | zero => cases h
  | succ n ih =>
    unfold rmLoop at h
    cases hf : findFrom Sk.nullColl ss next with
    | none => rw [hf] at h; cases h; exact ⟨PRef.refl _, hog⟩
    | some f =>
      rw [hf] at h
      obtain ⟨s1, h1, h2⟩ := bind_ok h
      obtain ⟨a1, a2⟩ := rmRound_rev h1 (findFrom_some hf).2 hog
      obtain ⟨b1, b2⟩ := ih h2 a2
      exact ⟨a1.trans b1, b2⟩

theorem opt1_rev (n : Nat) :
    (∀ ss ss' : List (Sk α), OGs ss → optPipe n level1 ss = .ok ss' → PRef ss ss' ∧ OGs ss') ∧
    (∀ ws ws' : List (Sk α), OGs ws → optFarm n level1 ws = .ok ws' → WRef ws ws' ∧ OGs ws') := by
  induction n with
  | zero =>
    constructor
    · intro ss ss' _ h; simp [optPipe] at h
    · intro ss ss' _ h; simp [optFarm] at h
  | succ n ih =>
    obtain ⟨ihP, ihF⟩ := ih
    constructor
    · intro ss ss' hog h
      simp only [optPipe] at h
      obtain ⟨s1, h1, g1⟩ := bind_ok h
      obtain ⟨s2, h2, g2⟩ := bind_ok g1
      cases h2
      obtain ⟨s3, h3, g3⟩ := bind_ok g2
      cases h3
      obtain ⟨s5, h5, g5⟩ := bind_ok g3
      cases g5
      obtain ⟨s4, h4, h6⟩ := bind_ok h5
      obtain ⟨a1, a2⟩ := mapR_og (onInner_og ihP) (flat_og ss hog) h1
      obtain ⟨b1, b2⟩ := mapR_og (onFarm_og ihF) a2 h4
      obtain ⟨c1, c2⟩ := rmLoop_rev h6 b2
      refine ⟨?_, c2⟩
      have p0 : PRef ss (flat ss) := fun xs ys h => (flat_sem ss xs ys).2 h
      exact p0.trans ((All2.pref a1).trans ((All2.pref b1).trans c1))
    · intro ws ws' hog h
      simp only [optFarm] at h
      obtain ⟨w1, h1, g1⟩ := bind_ok h
      obtain ⟨a1, a2⟩ := mapR_og (onPipe_og ihP) hog h1
      obtain ⟨b1, b2⟩ := mapR_og (onWorker_og ihP ihF) a2 (show mapR _ w1 = .ok ws' from g1)
      exact ⟨(RefW.all (a1.mono fun _ _ h => Or.inl h)).trans (RefW.all b1), b2⟩

/-- **C60, the default level keeps every behaviour.**  If every ordered farm of the pipeline has a collector, the pipeline optimised
with `OptLevel1` has exactly the same input/output behaviours as the original one. -/
theorem C60_level1_equivalent (n : Nat) (ss ss' : List (Sk α)) (hog : OG (.pipe ss))
    (h : optPipe n level1 ss = .ok ss') (xs ys : List α) :
    sem (.pipe ss') xs ys ↔ sem (.pipe ss) xs ys := by
  constructor
  · exact C60_refines_partial n level1 ss ss' rfl h xs ys
  · intro hs
    simp only [sem, OG] at hs hog ⊢
    exact ((opt1_rev n).1 ss ss' hog h).1 xs ys hs

/-- The same for farms. -/
theorem C60_level1_farm_equivalent (n : Nat) (hd : Hdr α) (ws ws' : List (Sk α)) (hog : OGs ws)
    (h : optFarm n level1 ws = .ok ws') (xs ys : List α) :
    sem (.farm hd ws') xs ys ↔ sem (.farm hd ws) xs ys :=
  ⟨C60_farm_refines_partial n level1 hd ws ws' rfl h xs ys,
    ((opt1_rev n).2 ws ws' hog h).1.farm hd xs ys⟩

/-- An ordered farm without collector, then a node: before, results may be out of order; after `OptLevel1` the node is the
farm's collector and they are in order.  (The hypothesis of the theorem above matters.) -/
theorem C60_level1_ordered_nocollector :
    optPipe 10 level1 [farmOf 2 idN { ordered := true, coll := .none }, .leaf idN] =
      .ok [farmOf 2 idN { ordered := true, coll := .node idN }] ∧
    sem (.pipe [farmOf 2 idN { ordered := true, coll := .none }, .leaf idN]) [1, 2] [2, 1] ∧
    ¬ sem (.pipe [farmOf 2 idN { ordered := true, coll := .node idN }]) [1, 2] [2, 1] := by
  refine ⟨rfl, ?_, ?_⟩
  · simp only [sem, semPipe]
    refine ⟨[2, 1], ?_, [2, 1], rfl, rfl⟩
    simp only [farmOf, sem]
    refine ⟨by simp, [2, 1], rfl, Or.inr ⟨Or.inr ⟨rfl, rfl⟩, ?_⟩⟩
    rw [show List.replicate 2 (Sk.leaf idN) = [idN, idN].map Sk.leaf from rfl,
      semWorkers_gen (leaves_ne_a2a _)]
    refine ⟨[[1], [2]], [[1], [2]], ?_, ?_, ?_⟩
    · exact .of_push (.of_push (.nil 2) (i := 1) rfl (Or.inl rfl) rfl) (i := 0) rfl (Or.inl rfl) rfl
    · simp only [List.map_cons, List.map_nil, semEach, sem]
      exact ⟨rfl, rfl, trivial⟩
    · exact .of_push (.of_push (.nil 2) (i := 0) rfl (Or.inl rfl) rfl) (i := 1) rfl (Or.inl rfl) rfl
  · intro h
    have hp : Pure (.pipe [farmOf 2 idN { ordered := true, coll := .node idN }]) ret := by
      simp only [Pure, purePipe_single, farmOf]
      refine ⟨ret, ret, ret, rfl, ?_, ?_, by rw [kc_ret, kc_ret]⟩
      · exact pureAll_of_mem fun s hs => by
          rw [List.eq_of_mem_replicate hs]; simp only [Pure]; intro h x; rfl
      · exact fun _ _ => rfl
    have ho : Ord (.pipe [farmOf 2 idN { ordered := true, coll := .node idN }]) := by
      simp only [Ord, OrdAll, farmOf]
      exact ⟨⟨trivial, rfl, trivial, trivial, trivial⟩, trivial⟩
    have := sem_ord _ _ _ _ hp ho h
    simp [ret] at this

example : OG (.pipe sample) := by
  simp [OG, OGs, sample, farmOf, List.replicate, Coll.gathers]

end FF.Opt
