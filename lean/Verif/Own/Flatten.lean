import Verif.Own.RestC

/-!
# Flattening a pipeline keeps the invariant
-/

namespace FF.Own

variable {s : S} {g : G}

theorem mem_gather {h : Nat → Option Obj} {all : Bool} {x : Nat} {b : Bool} : ∀ {ns : List Nat},
    (x, b) ∈ gather h all ns ↔
      (∃ q ∈ ns, ∃ st' sup' dont' uniq', h q = some (.pipe st' b sup' dont' uniq') ∧ x ∈ st') ∨
      (x ∈ ns ∧ isPipe (h x) = false ∧ b = all)
  | [] => by simp [gather]
  | n :: ns => by
      have ih := mem_gather (h := h) (all := all) (x := x) (b := b) (ns := ns)
      unfold gather
      split
      · rename_i st' all' sup' dont' uniq' hn
        rw [List.mem_append, ih]
        simp only [List.mem_map, Prod.mk.injEq, List.mem_cons]
        constructor
        · rintro (⟨a, ha, rfl, rfl⟩ | ⟨q, hq, h1⟩ | ⟨h1, h2, h3⟩)
          · exact Or.inl ⟨n, Or.inl rfl, st', sup', dont', uniq', hn, ha⟩
          · exact Or.inl ⟨q, Or.inr hq, h1⟩
          · exact Or.inr ⟨Or.inr h1, h2, h3⟩
        · rintro (⟨q, rfl | hq, st2, sup2, dont2, uniq2, h1, h2⟩ | ⟨rfl | h1, h2, h3⟩)
          · rw [hn] at h1; cases h1; exact Or.inl ⟨x, h2, rfl, rfl⟩
          · exact Or.inr (Or.inl ⟨q, hq, st2, sup2, dont2, uniq2, h1, h2⟩)
          · rw [hn] at h2; simp [isPipe] at h2
          · exact Or.inr (Or.inr ⟨h1, h2, h3⟩)
      · rename_i hn
        have hnp : isPipe (h n) = false := by
          cases hh : h n with
          | none => rfl
          | some o => cases o <;> first | rfl | exact absurd hh (hn _ _ _ _ _)
        rw [List.mem_cons, ih]
        simp only [Prod.mk.injEq, List.mem_cons]
        constructor
        · rintro (⟨rfl, rfl⟩ | ⟨q, hq, h1⟩ | ⟨h1, h2, h3⟩)
          · exact Or.inr ⟨Or.inl rfl, hnp, rfl⟩
          · exact Or.inl ⟨q, Or.inr hq, h1⟩
          · exact Or.inr ⟨Or.inr h1, h2, h3⟩
        · rintro (⟨q, rfl | hq, st2, sup2, dont2, uniq2, h1, h2⟩ | ⟨rfl | h1, h2, h3⟩)
          · exact absurd h1 (hn _ _ _ _ _)
          · exact Or.inr (Or.inl ⟨q, hq, st2, sup2, dont2, uniq2, h1, h2⟩)
          · exact Or.inl ⟨rfl, h3⟩
          · exact Or.inr (Or.inr ⟨h1, h2, h3⟩)

theorem isPipe_iff {o : Option Obj} :
    isPipe o = true ↔ ∃ st all sup dont uniq, o = some (.pipe st all sup dont uniq) := by
  cases o with
  | none => simp [isPipe]
  | some ob => cases ob <;> simp [isPipe]

theorem Inv.flatten (hi : Inv s g) {p st all sup dont uniq}
    (hp : s.heap p = some (.pipe st all sup dont uniq)) (hps : p ∉ st)
    (hn : ((gather s.heap all st).map (·.1)).Nodup)
    (hq : ∀ q ∈ st, ∀ st' all' sup' dont' uniq', s.heap q = some (.pipe st' all' sup' dont' uniq') →
      q ∉ dont ∧ (∀ x ∈ st', isPipe (s.heap x) = false) ∧
      (all' = true → ∀ x ∈ st', g x = some (q, .stage) ∧ x ∉ dont)) :
    Inv (Own.flatten p s)
      (fun y => match g y with
        | some (q, .stage) =>
            if q ∈ st ∧ isPipe (s.heap q) then some (p, if all then .stage else .handed)
            else if q = p ∧ isPipe (s.heap y) then some (p, .handed) else some (q, .stage)
        | o => o) := by
  obtain ⟨a1, a2⟩ := hi.pipe_sup hp
  obtain ⟨b1, b2⟩ := hi.pipe_uniq hp
  obtain ⟨c1, c2⟩ := hi.pipe_stage hp
  have hl := hi.liveX
  have hlO := hi.liveO
  have hpp : isPipe (s.heap p) = true := by rw [hp]; rfl
  -- membership in the gathered stages
  have hW1 : ∀ y, (y, true) ∈ gather s.heap all st ↔
      (∃ q ∈ st, isPipe (s.heap q) = true ∧ g y = some (q, .stage)) ∨
      (y ∈ st ∧ isPipe (s.heap y) = false ∧ all = true) := by
    intro y
    rw [mem_gather]
    constructor
    · rintro (⟨q, h1, st', sup', dont', uniq', h2, h3⟩ | ⟨h1, h2, h3⟩)
      · exact Or.inl ⟨q, h1, by rw [h2]; rfl, ((hq q h1 _ _ _ _ _ h2).2.2 rfl y h3).1⟩
      · exact Or.inr ⟨h1, h2, h3.symm⟩
    · rintro (⟨q, h1, h2, h3⟩ | ⟨h1, h2, h3⟩)
      · obtain ⟨st', all', sup', dont', uniq', h4⟩ := isPipe_iff.1 h2
        obtain ⟨h5, h6, _⟩ := ((hi.pipe_stage h4).2 y).2 h3
        subst h5
        exact Or.inl ⟨q, h1, st', sup', dont', uniq', h4, h6⟩
      · exact Or.inr ⟨h1, h2, h3.symm⟩
  have huniq : ∀ y, (y, true) ∈ gather s.heap all st → (y, false) ∉ gather s.heap all st := by
    intro y h1 h2
    have := List.inj_on_of_nodup_map hn h1 h2 rfl
    simp at this
  have hWl : ∀ y, y ∈ (gather s.heap all st).map (·.1) ↔
      (y, true) ∈ gather s.heap all st ∨ (y, false) ∈ gather s.heap all st := by
    intro y
    rw [List.mem_map]
    constructor
    · rintro ⟨⟨a, b⟩, h1, rfl⟩; cases b
      · exact Or.inr h1
      · exact Or.inl h1
    · rintro (h | h) <;> exact ⟨_, h, rfl⟩
  have hfil : ∀ y b, y ∈ ((gather s.heap all st).filter (fun w => w.2 == b)).map (·.1) ↔
      (y, b) ∈ gather s.heap all st := by
    intro y b
    simp only [List.mem_map, List.mem_filter]
    constructor
    · rintro ⟨⟨a, c⟩, ⟨h1, h2⟩, rfl⟩
      simp only [beq_iff_eq] at h2; subst h2; exact h1
    · intro h; exact ⟨(y, b), ⟨h, by simp⟩, rfl⟩
  have hft : (gather s.heap all st).filter (fun w => w.2) =
      (gather s.heap all st).filter (fun w => w.2 == true) := by
    congr 1; funext w; simp
  have hff : (gather s.heap all st).filter (fun w => !w.2) =
      (gather s.heap all st).filter (fun w => w.2 == false) := by
    congr 1; funext w; cases w.2 <;> rfl
  -- stages of inner pipelines are no pipelines and are not exempted
  have hin : ∀ y q, q ∈ st → isPipe (s.heap q) = true → g y = some (q, .stage) →
      isPipe (s.heap y) = false ∧ y ∉ dont := by
    intro y q h1 h2 h3
    obtain ⟨st', all', sup', dont', uniq', h4⟩ := isPipe_iff.1 h2
    obtain ⟨h5, h6, _⟩ := ((hi.pipe_stage h4).2 y).2 h3
    exact ⟨(hq q h1 _ _ _ _ _ h4).2.1 y h6, ((hq q h1 _ _ _ _ _ h4).2.2 h5 y h6).2⟩
  have hqd : ∀ q ∈ st, isPipe (s.heap q) = true → q ∉ dont := by
    intro q h1 h2
    obtain ⟨st', all', sup', dont', uniq', h4⟩ := isPipe_iff.1 h2
    exact (hq q h1 _ _ _ _ _ h4).1
  -- the new responsibilities
  generalize hg' : (fun y => match g y with
        | some (q, .stage) =>
            if q ∈ st ∧ isPipe (s.heap q) then some (p, if all then Role.stage else .handed)
            else if q = p ∧ isPipe (s.heap y) then some (p, .handed) else some (q, .stage)
        | o => o) = g'
  have hG : ∀ y o r, g' y = some (o, r) ↔
      (∃ q ∈ st, isPipe (s.heap q) = true ∧ g y = some (q, .stage) ∧ o = p ∧
        r = if all then Role.stage else .handed) ∨
      (g y = some (p, .stage) ∧ isPipe (s.heap y) = true ∧ o = p ∧ r = .handed) ∨
      (g y = some (o, r) ∧ (r = .stage → ¬ (o ∈ st ∧ isPipe (s.heap o) = true) ∧
        ¬ (o = p ∧ isPipe (s.heap y) = true))) := by
    intro y o r
    rw [← hg']
    dsimp only
    rcases hgy : g y with _ | ⟨q, r'⟩
    · simp
    · by_cases hr : r' = .stage
      · subst hr
        dsimp only
        by_cases h1 : q ∈ st ∧ isPipe (s.heap q) = true
        · rw [if_pos h1]
          have hqp : q ≠ p := fun e => hps (e ▸ h1.1)
          constructor
          · intro h; cases h; exact Or.inl ⟨q, h1.1, h1.2, rfl, rfl, rfl⟩
          · rintro (⟨_, _, _, h2, rfl, rfl⟩ | ⟨h2, _⟩ | ⟨h2, h3⟩)
            · rfl
            · cases h2; exact absurd rfl hqp
            · cases h2; exact absurd h1 (h3 rfl).1
        · rw [if_neg h1]
          by_cases h2 : q = p ∧ isPipe (s.heap y) = true
          · rw [if_pos h2]
            constructor
            · intro h; cases h; exact Or.inr (Or.inl ⟨by rw [h2.1], h2.2, rfl, rfl⟩)
            · rintro (⟨q', h3, h4, h5, _⟩ | ⟨_, _, rfl, rfl⟩ | ⟨h3, h4⟩)
              · cases h5; exact absurd ⟨h3, h4⟩ h1
              · rfl
              · cases h3; exact absurd h2 (h4 rfl).2
          · rw [if_neg h2]
            constructor
            · intro h; cases h; exact Or.inr (Or.inr ⟨rfl, fun _ => ⟨h1, h2⟩⟩)
            · rintro (⟨q', h3, h4, h5, _⟩ | ⟨h3, h4, _⟩ | ⟨h3, _⟩)
              · cases h5; exact absurd ⟨h3, h4⟩ h1
              · cases h3; exact absurd ⟨rfl, h4⟩ h2
              · exact h3
      · have : (match some (q, r') with
            | some (q, Role.stage) =>
                if q ∈ st ∧ isPipe (s.heap q) then some (p, if all then Role.stage else .handed)
                else if q = p ∧ isPipe (s.heap y) then some (p, .handed) else some (q, .stage)
            | o => o) = some (q, r') := by
          cases r' <;> first | rfl | exact absurd rfl hr
        rw [this]
        constructor
        · intro h; cases h; exact Or.inr (Or.inr ⟨rfl, fun h => absurd h hr⟩)
        · rintro (⟨q', _, _, h5, _⟩ | ⟨h3, _⟩ | ⟨h3, _⟩)
          · cases h5; exact absurd rfl hr
          · cases h3; exact absurd rfl hr
          · exact h3
  simp only [Own.flatten, hp]
  generalize hsup2 : (if all then (if all then sup ++ (st.filter (fun n => isPipe (s.heap n))).filter
      (fun n => !sup.contains n) else sup) else (if all then sup ++ (st.filter (fun n => isPipe (s.heap n))).filter
      (fun n => !sup.contains n) else sup) ++ ((gather s.heap all st).filter (fun w => w.2)).map (·.1)) = sup2
  generalize hdont2 : (if all then dont ++ ((gather s.heap all st).filter (fun w => !w.2)).map (·.1) else dont)
    = dont2
  have hheap : ∀ y o, upd (emptied s.heap st) p (some (.pipe ((gather s.heap all st).map (·.1)) all sup2 dont2
      uniq)) y = some o →
      (y = p ∧ o = .pipe ((gather s.heap all st).map (·.1)) all sup2 dont2 uniq) ∨
      (y ≠ p ∧ y ∈ st ∧ ∃ st' all' sup' dont' uniq', s.heap y = some (.pipe st' all' sup' dont' uniq') ∧
        o = .pipe [] all' sup' dont' uniq') ∨
      (y ≠ p ∧ s.heap y = some o ∧ ¬ (y ∈ st ∧ isPipe (s.heap y) = true)) := by
    intro y o hy
    simp only [upd] at hy
    split at hy
    · cases hy; exact Or.inl ⟨‹_›, rfl⟩
    · rename_i hne
      simp only [emptied] at hy
      split at hy
      · rename_i st' all' sup' dont' uniq' h1
        split at hy
        · cases hy; exact Or.inr (Or.inl ⟨hne, ‹_›, _, _, _, _, _, h1, rfl⟩)
        · rename_i h2
          exact Or.inr (Or.inr ⟨hne, by rw [h1]; exact hy, fun hc => h2 hc.1⟩)
      · rename_i h1
        refine Or.inr (Or.inr ⟨hne, hy, ?_⟩)
        rintro ⟨_, h2⟩
        obtain ⟨st', all', sup', dont', uniq', h3⟩ := isPipe_iff.1 h2
        exact h1 _ _ _ _ _ h3
  have hlv : ∀ y, (upd (emptied s.heap st) p (some (.pipe ((gather s.heap all st).map (·.1)) all sup2 dont2
      uniq)) y).isSome ↔ Live s y := by
    intro y
    simp only [upd, Live]
    by_cases hy : y = p
    · subst hy; simp [hp]
    · rw [if_neg hy]
      simp only [emptied]
      split
      · rename_i h1; rw [h1]; split <;> simp
      · rfl
  have hsupm : ∀ y, y ∈ sup2 ↔ g' y = some (p, .handed) := by
    intro y
    rw [hG, ← hsup2]
    cases all
    · simp only [Bool.false_eq_true, if_false, List.mem_append, hft, hfil, hW1, and_false, or_false, a2]
      constructor
      · rintro (h | ⟨q, h1, h2, h3⟩)
        · exact Or.inr (Or.inr ⟨h, by simp⟩)
        · exact Or.inl ⟨q, h1, h2, h3, trivial, trivial⟩
      · rintro (⟨q, h1, h2, h3, _⟩ | ⟨h1, h2, _⟩ | ⟨h1, _⟩)
        · exact Or.inr ⟨q, h1, h2, h3⟩
        · exact absurd ((c2 y).2 h1).1 (by simp)
        · exact Or.inl h1
    · simp only [if_true, List.mem_append, List.mem_filter]
      constructor
      · rintro (h | ⟨⟨h1, h2⟩, h3⟩)
        · exact Or.inr (Or.inr ⟨(a2 y).1 h, by simp⟩)
        · refine Or.inr (Or.inl ⟨(c2 y).1 ⟨rfl, h1, by simpa using h3, hqd y h1 h2⟩, h2, trivial, trivial⟩)
      · rintro (⟨q, h1, h2, h3, _, h4⟩ | ⟨h1, h2, _⟩ | ⟨h1, _⟩)
        · cases h4
        · obtain ⟨_, h3, h4, h5⟩ := (c2 y).2 h1
          exact Or.inr ⟨⟨h3, h2⟩, by simpa using h4⟩
        · exact Or.inl ((a2 y).2 h1)
  have hsupn : sup2.Nodup := by
    rw [← hsup2]
    cases all
    · simp only [Bool.false_eq_true, if_false]
      refine List.nodup_append.2 ⟨a1, ?_, ?_⟩
      · exact List.Nodup.sublist (List.Sublist.map _ List.filter_sublist) hn
      · intro a ha b hb e
        subst e
        rw [hft, hfil, hW1] at hb
        rcases hb with ⟨q, _, _, h3⟩ | ⟨_, _, h3⟩
        · rw [(a2 a).1 ha] at h3; cases h3
        · cases h3
    · simp only [if_true]
      refine List.nodup_append.2 ⟨a1, ?_, ?_⟩
      · have h1 := c1 rfl
        refine List.Nodup.sublist ?_ h1
        have e : (st.filter (fun n => isPipe (s.heap n))).filter (fun n => !sup.contains n) =
            (st.filter (fun n => !(sup.contains n || dont.contains n))).filter
              (fun n => isPipe (s.heap n)) := by
          rw [List.filter_filter, List.filter_filter]
          apply List.filter_congr
          intro x hx
          by_cases h2 : isPipe (s.heap x) = true
          · have := hqd x hx h2
            simp [h2, this]
          · simp [h2]
        rw [e]
        exact List.filter_sublist
      · intro a ha b hb e
        subst e
        simp only [List.mem_filter] at hb
        have := hb.2
        simp [ha] at this
  have hstm : all = true → ∀ y, (y ∈ (gather s.heap all st).map (·.1) ∧ y ∉ sup2 ∧ y ∉ dont2) ↔
      g' y = some (p, .stage) := by
    intro ha y
    have hd : y ∈ dont2 ↔ y ∈ dont ∨ (y, false) ∈ gather s.heap all st := by
      rw [← hdont2, if_pos ha, List.mem_append, hff, hfil]
    rw [hWl, hd, hsupm, hG, hG]
    subst ha
    simp only [if_true, reduceCtorEq, and_false, exists_false, false_or, false_imp_iff, and_true, true_and,
      forall_const]
    constructor
    · rintro ⟨h1 | h1, h2, h3⟩
      · rw [hW1] at h1
        rcases h1 with ⟨q, h4, h5, h6⟩ | ⟨h4, h5, _⟩
        · exact Or.inl ⟨q, h4, h5, h6⟩
        · refine Or.inr ⟨(c2 y).1 ⟨rfl, h4, ?_, fun h => h3 (Or.inl h)⟩, fun h => hps h.1, fun h => ?_⟩
          · intro h; exact h2 (Or.inr ((a2 y).1 h))
          · rw [h5] at h; cases h
      · exact absurd (Or.inr h1) h3
    · rintro (⟨q, h1, h2, h3⟩ | ⟨h1, _, h2⟩)
      · have hw := (hW1 y).2 (Or.inl ⟨q, h1, h2, h3⟩)
        have := hin y q h1 h2 h3
        refine ⟨Or.inl hw, ?_, ?_⟩
        · rintro (⟨h4, h5⟩ | h4)
          · rw [this.1] at h5; cases h5
          · rw [h3] at h4; cases h4
        · rintro (h4 | h4)
          · exact this.2 h4
          · exact huniq y hw h4
      · obtain ⟨_, h3, h4, h5⟩ := (c2 y).2 h1
        have h6 : isPipe (s.heap y) = false := by simpa using h2
        have hw := (hW1 y).2 (Or.inr ⟨h3, h6, rfl⟩)
        refine ⟨Or.inl hw, ?_, ?_⟩
        · rintro (⟨h7, h8⟩ | h7)
          · rw [h6] at h8; cases h8
          · exact h4 ((a2 y).2 h7)
        · rintro (h7 | h7)
          · exact h5 h7
          · exact huniq y hw h7
  refine ⟨hi.ok, ?_, ?_, ?_, ?_, ?_, ?_, hi.lognd, hi.loglt⟩
  · intro o ob r hob
    rcases hheap o ob hob with ⟨rfl, rfl⟩ | ⟨_, _, st', all', sup', dont', uniq', h1, rfl⟩ | ⟨_, h1, _⟩
    · cases r <;> simp only [part, List.nodup_nil]
      · exact hsupn
      · exact b1
      · split
        · exact List.Nodup.filter _ (List.nodup_reverse.2 hn)
        · exact List.nodup_nil
    · have := hi.nodup _ _ r h1
      cases r <;> simp only [part, List.reverse_nil, List.filter_nil, ite_self, List.nodup_nil] at this ⊢ <;>
        exact this
    · exact hi.nodup _ _ _ h1
  · intro o ob r y hob
    rcases hheap o ob hob with ⟨rfl, rfl⟩ | ⟨h0, h0', st', all', sup', dont', uniq', h1, rfl⟩ | ⟨h0, h1, h2⟩
    · have hold := hi.mem _ _ r y hp
      cases r
      · exact hsupm y
      · simp only [part] at hold ⊢
        rw [hG, hold]
        constructor
        · intro h; exact Or.inr (Or.inr ⟨h, by simp⟩)
        · rintro (⟨q, _, _, _, _, h⟩ | ⟨_, _, _, h⟩ | ⟨h, _⟩)
          · cases all <;> cases h
          · cases h
          · exact h
      · simp only [part]
        cases hall : all
        · simp only [Bool.false_eq_true, if_false, List.not_mem_nil, false_iff]
          rw [hG]
          rintro (⟨q, _, _, _, _, h⟩ | ⟨_, _, _, h⟩ | ⟨h, _⟩)
          · rw [hall] at h; cases h
          · cases h
          · exact absurd ((c2 y).2 h).1 (by rw [hall]; simp)
        · rw [← hstm hall y, hall]
          simp only [if_true, List.mem_filter, List.mem_reverse, Bool.not_eq_true', Bool.or_eq_false_iff,
            List.contains_eq_mem, decide_eq_false_iff_not]
      all_goals
        simp only [part, List.not_mem_nil, false_iff]
        rw [hG]
        simp only [part, List.not_mem_nil, false_iff] at hold
        rintro (⟨q, _, _, _, _, h⟩ | ⟨_, _, _, h⟩ | ⟨h, _⟩)
        · cases all <;> cases h
        · cases h
        · exact hold h
    · have hold := hi.mem _ _ r y h1
      by_cases hr : r = .stage
      · subst hr
        simp only [part, List.reverse_nil, List.filter_nil, ite_self, List.not_mem_nil, false_iff]
        rw [hG]
        rintro (⟨q, _, _, _, h, _⟩ | ⟨_, _, _, h⟩ | ⟨_, h⟩)
        · exact h0 h
        · cases h
        · exact (h rfl).1 ⟨h0', by rw [h1]; rfl⟩
      · have e : part (.pipe [] all' sup' dont' uniq') r = part (.pipe st' all' sup' dont' uniq') r := by
          cases r <;> first | rfl | exact absurd rfl hr
        rw [e, hold, hG]
        constructor
        · intro h; exact Or.inr (Or.inr ⟨h, fun h => absurd h hr⟩)
        · rintro (⟨q, _, _, _, h, _⟩ | ⟨_, _, h, _⟩ | ⟨h, _⟩)
          · exact absurd h h0
          · exact absurd h h0
          · exact h
    · rw [hi.mem _ _ _ _ h1, hG]
      constructor
      · intro h; exact Or.inr (Or.inr ⟨h, fun _ => ⟨h2, fun h => h0 h.1⟩⟩)
      · rintro (⟨q, _, _, _, h, _⟩ | ⟨_, _, h, _⟩ | ⟨h, _⟩)
        · exact absurd h h0
        · exact absurd h h0
        · exact h
  · intro y o r h1
    rw [Live]; dsimp only; rw [hlv]
    rcases (hG y o r).1 h1 with ⟨q, _, _, h, _⟩ | ⟨h, _⟩ | ⟨h, _⟩ <;> exact hl _ _ _ h
  · intro y o r h1
    rw [Live]; dsimp only; rw [hlv]
    have hpl : Live s p := by simp [Live, hp]
    rcases (hG y o r).1 h1 with ⟨q, _, _, _, rfl, _⟩ | ⟨_, _, rfl, _⟩ | ⟨h, _⟩
    · exact hpl
    · exact hpl
    · exact hlO _ _ _ h
  · intro y h1
    rw [Live] at h1; dsimp only at h1; rw [hlv] at h1
    exact hi.lt y h1
  · intro y h1
    rw [Live]; dsimp only; rw [hlv]
    exact hi.log y h1

end FF.Own
