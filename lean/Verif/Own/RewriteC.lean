import Verif.Own.RestC

/-!
# The rewriting functions and the preparation of ordered farms keep the invariant
-/

namespace FF.Own

variable {s : S} {g : G}

theorem Inv.congr {s' : S} {g' : G} (hi : Inv s g) (hs : s = s') (hg : ∀ y, g y = g' y) : Inv s' g' := by
  subst hs
  have : g = g' := funext hg
  subst this; exact hi

theorem alloc_set {s : S} {f : Nat} {a b : Obj} (h : f ≠ s.next) :
    (s.set f a).alloc b = (s.alloc b).set f a := by
  unfold S.set S.alloc
  simp only [S.mk.injEq, and_self, and_true]
  funext j; simp only [upd]
  by_cases h1 : j = s.next
  · by_cases h2 : j = f
    · exact absurd (h2.symm.trans h1) h
    · simp [h1]; intro h3; exact absurd h3.symm h
  · simp [h1]

theorem alloc_get {s : S} {f : Nat} {b : Obj} (h : f ≠ s.next) : (s.alloc b).heap f = s.heap f := by
  simp [S.alloc, upd, h]

theorem alloc_new {s : S} {b : Obj} : (s.alloc b).heap s.next = some b := by
  simp [S.alloc, upd]

theorem alloc_new' {s : S} {f : Nat} {a b : Obj} : ((s.set f a).alloc b).heap s.next = some b := by
  simp [S.set, S.alloc, upd]

theorem live_alloc {s : S} {b : Obj} {x : Nat} (h : Live s x) : Live (s.alloc b) x := by
  simp only [Live, S.alloc, upd] at *
  split
  · rfl
  · exact h

theorem Inv.newWrap (hi : Inv s g) {n c} (h : c = true → Mine s g n) :
    Inv (s.alloc (.wrap n c)) (if c then give g [n] s.next .handed else g) := by
  have hd := fun x r => hi.gdeadO (x := x) (r := r) (Nat.le_refl _)
  cases c
  · exact hi.allocEmpty (by intro r; cases r <;> rfl)
  · have h := h rfl
    simp only [if_true]
    refine hi.alloc ?_ ?_ ?_ ?_
    · intro r; cases r <;> simp [part]
    · intro r x; cases r <;> simp only [part, if_true] <;> simple_tac
    · simple_tac
    · simple_tac

theorem set_next {s : S} {f : Nat} {a : Obj} : (s.set f a).next = s.next := rfl

theorem Inv.combEmitterNew (hi : Inv s g) {f fm x c mo} (hf : s.heap f = some (.farm fm))
    (hn : fm.emitter = none) (hx : c = true → Mine s g x) (hk : parallel (s.heap x) = false) :
    Inv (Own.combEmitter f x c mo s) (if c then give g [x] f .emitter else g) := by
  obtain ⟨a1, a2, a3, a4, a5, a6, a7⟩ := hi.farm_facts hf
  have hl := hi.liveX
  simp only [Own.combEmitter, hf, hk, hn, Bool.false_eq_true, if_false]
  simp only [Own.addEmitter, hf, hk, hn, Bool.false_eq_true, ne_eq, not_true_eq_false, or_self, if_false]
  simp only [Own.cleanupEmitter, set_get, set_set]
  cases c
  · simp only [Bool.false_eq_true, if_false]
    refine hi.farm hf a1 ?_ ?_ ?_ ?_ ?_ ?_ ?_ ?_ <;> (try dsimp only) <;> farm_tac
  · have hx := hx rfl
    simp only [if_true]
    refine hi.farm hf a1 ?_ ?_ ?_ ?_ ?_ ?_ ?_ ?_ <;> (try dsimp only) <;> farm_tac

theorem Inv.combEmitter (hi : Inv s g) {f fm e x c} (hf : s.heap f = some (.farm fm))
    (he : fm.emitter = some e) (hx : c = true → Mine s g x) (hk : parallel (s.heap x) = false) :
    Inv (Own.combEmitter f x c true s)
      (let g1 := if fm.ec then give g [e] s.next .handed else g
       let g2 := if c then give g1 [x] s.next .handed else g1
       give g2 [s.next] f .emitter) := by
  obtain ⟨a1, a2, a3, a4, a5, a6, a7⟩ := hi.farm_facts hf
  have hl := hi.liveX
  have hfl : Live s f := by simp [Live, hf]
  have hfn : f ≠ s.next := Nat.ne_of_lt (hi.lt f hfl)
  have hgn : g s.next = none := hi.gdead (Nat.le_refl _)
  have hgd : ∀ y r, g y ≠ some (s.next, r) := fun y r => hi.gdeadO (Nat.le_refl _)
  -- release the emitter, make the combine, add it
  have i1 := hi.noEmitter (c := true) hf
  have hm : AllMine (s.set f (.farm { fm with emitter := none, ec := true })) (backAll g f .emitter)
      ((if c then [x] else []) ++ (if fm.ec then [e] else [])) := by
    have hE : fm.ec = true → Mine (s.set f (.farm { fm with emitter := none, ec := true }))
        (backAll g f .emitter) e := by
      intro h
      have := (a5 e).1 ⟨h, he⟩
      exact ⟨(live_set hfl).2 (hl _ _ _ this), by simp [backAll, this]⟩
    have hX : c = true → Mine (s.set f (.farm { fm with emitter := none, ec := true }))
        (backAll g f .emitter) x := by
      intro h
      exact ⟨(live_set hfl).2 (hx h).1, by simp [backAll, (hx h).2]⟩
    have hXE : c = true → fm.ec = true → x ≠ e := by
      intro h1 h2 h3
      have := (a5 e).1 ⟨h2, he⟩
      rw [← h3, (hx h1).2] at this; cases this
    refine ⟨?_, ?_⟩
    · cases c <;> cases hc : fm.ec <;> simp_all
    · intro y hy
      cases c <;> cases hc : fm.ec <;> simp_all
      rcases hy with rfl | rfl <;> assumption
  have i2 := i1.newComb (l := x) (r := e) hm
  have hnew : Mine (Own.newComb x e c fm.ec (s.set f (.farm { fm with emitter := none, ec := true })))
      (give (backAll g f .emitter) ((if c then [x] else []) ++ (if fm.ec then [e] else [])) s.next .handed)
      s.next := by
    refine ⟨by simp only [Live, Own.newComb]; rw [alloc_new']; rfl, ?_⟩
    have h1 : s.next ∉ ((if c then [x] else []) ++ (if fm.ec then [e] else [])) := by
      intro hc
      have := hi.lt s.next ((live_set hfl).1 (hm.2 _ hc).1)
      omega
    simp [give, h1, backAll, hgn]
  have i3 := i2.addEmitterFlag (f := f) (e := s.next) (fm := { fm with emitter := none, ec := true })
    (by simp only [Own.newComb]; rw [alloc_get (s := s.set f _) hfn]; exact set_get _ _ _) rfl rfl hnew
    (by simp only [Own.newComb]; rw [alloc_new']; rfl)
  refine i3.congr ?_ ?_
  · simp only [Own.combEmitter, hf, hk, he, Bool.false_eq_true, if_false, if_true]
    simp only [Own.newComb, Own.cleanupEmitter, Own.changeEmitter, Own.addEmitter, alloc_set hfn, set_get,
      alloc_get hfn, hf, set_set, Bool.false_eq_true, if_false, he]
  · intro y
    have hb : ∀ y, backAll g f .emitter y = if fm.ec = true ∧ y = e then none else g y := by
      intro y
      unfold backAll
      by_cases h : g y = some (f, .emitter)
      · have := (a5 y).2 h
        rw [if_pos h, if_pos ⟨this.1, by have := this.2; rw [he] at this; exact (Option.some.inj this).symm⟩]
      · rw [if_neg h]
        split
        · rename_i h'; exact absurd ((a5 y).1 ⟨h'.1, by rw [he, h'.2]⟩) h
        · rfl
    simp only [give, hb, List.mem_append, List.mem_singleton, set_next]
    have hxe : c = true → fm.ec = true → x ≠ e := by
      rintro h1 h2 rfl
      have := (a5 x).1 ⟨h2, he⟩
      rw [(hx h1).2] at this; cases this
    clear i1 i2 i3 hnew hm hl a2 a4 a5 a6 a7 hb
    cases c <;> cases hc : fm.ec <;> simp [give] <;> grind

theorem Inv.combEmitterWrap (hi : Inv s g) {f fm e x c} (hf : s.heap f = some (.farm fm))
    (he : fm.emitter = some e) (hx : c = true → Mine s g x) (hk : parallel (s.heap x) = false) :
    Inv (Own.combEmitter f x c false s)
      (let g1 := if fm.ec then give g [e] s.next .handed else g
       let g2 := if c then give g1 [x] (s.next + 1) .handed else g1
       give (give g2 [s.next] (s.next + 1) .handed) [s.next + 1] f .emitter) := by
  obtain ⟨a1, a2, a3, a4, a5, a6, a7⟩ := hi.farm_facts hf
  have hl := hi.liveX
  have hfl : Live s f := by simp [Live, hf]
  have hflt := hi.lt f hfl
  have hfn : f ≠ s.next := Nat.ne_of_lt hflt
  have hfn1 : f ≠ s.next + 1 := by omega
  have hgn : g s.next = none := hi.gdead (Nat.le_refl _)
  have hgn1 : g (s.next + 1) = none := hi.gdead (Nat.le_succ _)
  have hb : ∀ y, backAll g f .emitter y = if fm.ec = true ∧ y = e then none else g y := by
    intro y
    unfold backAll
    by_cases h : g y = some (f, .emitter)
    · have := (a5 y).2 h
      rw [if_pos h, if_pos ⟨this.1, by have := this.2; rw [he] at this; exact (Option.some.inj this).symm⟩]
    · rw [if_neg h]
      split
      · rename_i h'; exact absurd ((a5 y).1 ⟨h'.1, by rw [he, h'.2]⟩) h
      · rfl
  have helt : fm.ec = true → e < s.next := fun h => hi.lt e (hl _ _ _ ((a5 e).1 ⟨h, he⟩))
  have i1 := hi.noEmitter (c := true) hf
  -- the wrapper
  have i2 := i1.newWrap (n := e) (c := fm.ec) (by
    intro h
    have := (a5 e).1 ⟨h, he⟩
    exact ⟨(live_set hfl).2 (hl _ _ _ this), by simp [backAll, this]⟩)
  simp only [set_next] at i2
  let s2 : S := (s.set f (.farm { fm with emitter := none, ec := true })).alloc (.wrap e fm.ec)
  let g2 : G := if fm.ec then give (backAll g f .emitter) [e] s.next .handed else backAll g f .emitter
  have i2' : Inv s2 g2 := i2
  have hs2n : s2.next = s.next + 1 := rfl
  have hg2n : g2 s.next = none := by
    simp only [g2]
    by_cases h : fm.ec = true
    · have := helt h
      rw [if_pos h]; simp only [give, List.mem_singleton]
      rw [if_neg (by omega), hb]; simp [hgn]
    · rw [if_neg h, hb]; simp [hgn]
  have hm : AllMine s2 g2 ((if c then [x] else []) ++ (if true then [s.next] else [])) := by
    have hN : Mine s2 g2 s.next := ⟨by simp only [s2, Live]; rw [alloc_new']; rfl, hg2n⟩
    have hX : c = true → Mine s2 g2 x ∧ x ≠ s.next := by
      intro h
      have hxe : ¬ (fm.ec = true ∧ x = e) := by
        rintro ⟨h1, rfl⟩
        have := (a5 x).1 ⟨h1, he⟩
        rw [(hx h).2] at this; cases this
      refine ⟨⟨live_alloc ((live_set hfl).2 (hx h).1), ?_⟩, Nat.ne_of_lt (hi.lt x (hx h).1)⟩
      simp only [g2]
      by_cases h' : fm.ec = true
      · rw [if_pos h']; simp only [give, List.mem_singleton]
        rw [if_neg (fun hc => hxe ⟨h', hc⟩), hb, if_neg hxe]; exact (hx h).2
      · rw [if_neg h', hb, if_neg hxe]; exact (hx h).2
    refine ⟨?_, ?_⟩
    · cases c <;> simp_all
    · intro y hy
      cases c
      · simp at hy; subst hy; exact hN
      · simp at hy; rcases hy with rfl | rfl
        · exact (hX rfl).1
        · exact hN
  have i3 := i2'.newComb (l := x) (r := s.next) (cr := true) hm
  let s3 : S := Own.newComb x s.next c true s2
  have hs3f : s3.heap f = some (.farm { fm with emitter := none, ec := true }) := by
    simp only [s3, s2, Own.newComb]
    rw [alloc_get (by simp only [S.alloc, S.set]; exact hfn1), alloc_get (by simp only [S.set]; exact hfn)]
    exact set_get _ _ _
  have hs3n : s3.heap (s.next + 1) = some (.comb x s.next ((if c then [x] else []) ++ [s.next])) := by
    have : s3.heap s2.next = _ := alloc_new (s := s2)
    simpa [hs2n] using this
  have i4 := i3.addEmitterFlag (f := f) (e := s.next + 1) (fm := { fm with emitter := none, ec := true })
    hs3f rfl rfl (by
      refine ⟨by rw [Live]; change (s3.heap (s.next + 1)).isSome = true; rw [hs3n]; rfl, ?_⟩
      have h1 : s.next + 1 ∉ ((if c then [x] else []) ++ (if true then [s.next] else [])) := by
        intro hc
        have := i2'.lt _ (hm.2 _ hc).1
        omega
      refine (if_neg h1).trans ?_
      exact i2'.gdead (Nat.le_of_eq hs2n)) (by change parallel (s3.heap (s.next + 1)) = false; rw [hs3n]; rfl)
  refine i4.congr ?_ ?_
  · have hst : Own.newComb x s.next c true s2 = (Own.newComb x s.next c true (s.alloc (.wrap e fm.ec))).set f
        (.farm { fm with emitter := none, ec := true }) := by
      simp only [Own.newComb, s2, alloc_set hfn]
      rw [alloc_set (s := s.alloc _) (by simp only [S.alloc]; exact hfn1)]
    simp only [Own.combEmitter, hf, hk, he, Bool.false_eq_true, if_false]
    have hG : ∀ (t : S), t = Own.newComb x s.next c true (s.alloc (.wrap e fm.ec)) →
        Own.addEmitter f (s.next + 1) (t.set f (.farm { fm with emitter := none, ec := true })) =
        Own.changeEmitter f (s.next + 1) true (Own.cleanupEmitter f false t) := by
      intro t ht
      have hft : t.heap f = some (.farm fm) := by
        rw [ht]
        simp only [Own.newComb]
        rw [alloc_get (by simp only [S.alloc]; exact hfn1), alloc_get hfn, hf]
      simp only [Own.cleanupEmitter, Own.changeEmitter, hft, set_get, he, Bool.false_eq_true, if_false,
        set_set]
    rw [← hG _ rfl, ← hst]
  · intro y
    simp only [g2, give, hs2n, List.mem_append, List.mem_singleton]
    have hxe : c = true → fm.ec = true → x ≠ e := by
      rintro h1 h2 rfl
      have := (a5 x).1 ⟨h2, he⟩
      rw [(hx h1).2] at this; cases this
    have hxlt : c = true → x < s.next := fun h => hi.lt x (hx h).1
    clear i1 i2 i2' i3 i4 hm hl a2 a4 a5 a6 a7 hs3f hs3n hg2n
    clear_value s2
    clear hx
    by_cases h' : fm.ec = true
    · have h3 := helt h'
      cases c <;> simp [h', give, hb] <;> grind
    · have h'' : fm.ec = false := by simpa using h'
      cases c <;> simp [h'', give, hb] <;> grind

theorem Inv.combCollector (hi : Inv s g) {f fm k x c} (hf : s.heap f = some (.farm fm))
    (he : fm.coll = some k) (hr : fm.removed = false) (hx : c = true → Mine s g x)
    (hk : parallel (s.heap x) = false) :
    Inv (Own.combCollector f x c s)
      (let g1 := if fm.cc then give g [k] s.next .handed else g
       let g2 := if c then give g1 [x] s.next .handed else g1
       give g2 [s.next] f .collector) := by
  obtain ⟨a1, a2, a3, a4, a5, a6, a7⟩ := hi.farm_facts hf
  have hl := hi.liveX
  have hfl : Live s f := by simp [Live, hf]
  have hfn : f ≠ s.next := Nat.ne_of_lt (hi.lt f hfl)
  have hgn : g s.next = none := hi.gdead (Nat.le_refl _)
  have i1 := hi.noColl (c := false) hf
  have hm : AllMine (s.set f (.farm { fm with coll := none, cc := false })) (backAll g f .collector)
      ((if fm.cc then [k] else []) ++ (if c then [x] else [])) := by
    have hE : fm.cc = true → Mine (s.set f (.farm { fm with coll := none, cc := false }))
        (backAll g f .collector) k := by
      intro h
      have := (a6 k).1 ⟨h, he⟩
      exact ⟨(live_set hfl).2 (hl _ _ _ this), by simp [backAll, this]⟩
    have hX : c = true → Mine (s.set f (.farm { fm with coll := none, cc := false }))
        (backAll g f .collector) x := by
      intro h
      exact ⟨(live_set hfl).2 (hx h).1, by simp [backAll, (hx h).2]⟩
    have hXE : c = true → fm.cc = true → k ≠ x := by
      intro h1 h2 h3
      have := (a6 k).1 ⟨h2, he⟩
      rw [h3, (hx h1).2] at this; cases this
    refine ⟨?_, ?_⟩
    · cases c <;> cases hc : fm.cc <;> simp_all
    · intro y hy
      cases c <;> cases hc : fm.cc <;> simp_all
      rcases hy with rfl | rfl <;> assumption
  have i2 := i1.newComb (l := k) (r := x) hm
  have hnew : Mine (Own.newComb k x fm.cc c (s.set f (.farm { fm with coll := none, cc := false })))
      (give (backAll g f .collector) ((if fm.cc then [k] else []) ++ (if c then [x] else [])) s.next .handed)
      s.next := by
    refine ⟨by simp only [Live, Own.newComb]; rw [alloc_new']; rfl, ?_⟩
    have h1 : s.next ∉ ((if fm.cc then [k] else []) ++ (if c then [x] else [])) := by
      intro hc
      have := hi.lt s.next ((live_set hfl).1 (hm.2 _ hc).1)
      omega
    simp [give, h1, backAll, hgn]
  have i3 := i2.addCollectorHand (f := f) (c := s.next) (cl := true)
    (fm := { fm with coll := none, cc := false })
    (by simp only [Own.newComb]; rw [alloc_get (s := s.set f _) hfn]; exact set_get _ _ _) (Or.inl rfl)
    (Or.inl rfl) hnew (by simp only [Own.newComb]; rw [alloc_new']; rfl)
  refine i3.congr ?_ ?_
  · simp only [Own.combCollector, hf, hk, he, hr, Bool.false_eq_true, if_false]
    simp only [Own.newComb, Own.cleanupCollector, Own.removeCollector, Own.addCollector, alloc_set hfn,
      set_get, alloc_get hfn, hf, set_set]
    have h1 : ∀ (a b : Obj), ((s.alloc b).set f a).heap s.next = some b := by
      intro a b; simp [S.set, S.alloc, upd, hfn.symm]
    simp [h1, parallel, set_set]
  · intro y
    have hb : ∀ y, backAll g f .collector y = if fm.cc = true ∧ y = k then none else g y := by
      intro y
      unfold backAll
      by_cases h : g y = some (f, .collector)
      · have := (a6 y).2 h
        rw [if_pos h, if_pos ⟨this.1, by have := this.2; rw [he] at this; exact (Option.some.inj this).symm⟩]
      · rw [if_neg h]
        split
        · rename_i h'; exact absurd ((a6 y).1 ⟨h'.1, by rw [he, h'.2]⟩) h
        · rfl
    simp only [give, hb, List.mem_append, List.mem_singleton, set_next]
    have hxe : c = true → fm.cc = true → x ≠ k := by
      rintro h1 h2 rfl
      have := (a6 x).1 ⟨h2, he⟩
      rw [(hx h1).2] at this; cases this
    clear i1 i2 i3 hnew hm hl a2 a4 a5 a6 a7 hb
    cases c <;> cases hc : fm.cc <;> simp [give] <;> grind

theorem Inv.combFirst (hi : Inv s g) {p n st all sup dont uniq x c}
    (hp : s.heap p = some (.pipe (n :: st) all sup dont uniq)) (hn : (n :: st).Nodup)
    (hr : g n ≠ some (p, .stage)) (hx : c = true → Mine s g x) :
    Inv (Own.combFirst p x c s)
      (let g1 := if c then give g [x] s.next .handed else g
       give g1 [s.next] p .handed) := by
  have hpn : p ≠ s.next := Nat.ne_of_lt (hi.lt p (by simp [Live, hp]))
  have hgn : g s.next = none := hi.gdead (Nat.le_refl _)
  have i1 := hi.newComb (l := x) (r := n) (cl := c) (cr := false) (by
    cases c
    · exact ⟨by simp, by simp⟩
    · exact ⟨by simp, by simpa using hx rfl⟩)
  have hp1 : (Own.newComb x n c false s).heap p = some (.pipe (n :: st) all sup dont uniq) := by
    simp only [Own.newComb]; rw [alloc_get hpn, hp]
  simp only [Bool.false_eq_true, if_false, List.append_nil] at i1
  have i2 := i1.remove (pos := 0) (rm := false) hp1 rfl hn
  simp only [Bool.false_eq_true, if_false] at i2
  have hp2 : (Own.removeStage p 0 false (Own.newComb x n c false s)).heap p =
      some (.pipe st all sup dont uniq) := by
    simp only [Own.removeStage, hp1]; simp [set_get]
  have hlv : Live (Own.removeStage p 0 false (Own.newComb x n c false s)) s.next := by
    simp only [Own.removeStage, hp1]
    simp only [List.getElem?_cons_zero]
    refine (live_set (by simp [Live, hp1])).2 ?_
    simp only [Live, Own.newComb]; rw [alloc_new]; rfl
  have hlts : c = true → x < s.next := fun h => hi.lt x (hx h).1
  have hm : Mine (Own.removeStage p 0 false (Own.newComb x n c false s))
      (back (give g (if c then [x] else []) s.next .handed) [n] p .stage)
      s.next := by
    refine ⟨hlv, ?_⟩
    have h1 : s.next ∉ (if c then [x] else []) := by
      cases c
      · simp
      · have := hlts rfl; simp; omega
    simp only [back, give, if_neg h1, hgn, reduceCtorEq, and_false, if_false]
  have i3 := i2.insert (pos := 0) hp2 (Nat.zero_le _) (i2.addStageHand hp2 hm)
  refine i3.congr ?_ ?_
  · simp only [Own.combFirst, hp]
  · intro y
    have e : back (give g (if c then [x] else []) s.next .handed) [n] p
        .stage = give g (if c then [x] else []) s.next .handed := by
      apply back_self
      intro z hz
      simp only [List.mem_singleton] at hz
      subst hz
      intro hc
      rcases give_eq.1 hc with ⟨_, h, _⟩ | ⟨_, h⟩
      · exact hpn h
      · exact hr h
    rw [e]
    cases c <;> simp [give]

theorem Inv.combLast (hi : Inv s g) {p n st all sup dont uniq x c}
    (hp : s.heap p = some (.pipe (st ++ [n]) all sup dont uniq)) (hn : (st ++ [n]).Nodup)
    (hr : all = true → g n = some (p, .stage)) (hx : c = true → Mine s g x) :
    Inv (Own.combLast p x c s)
      (let g1 := if all then give g [n] s.next .handed else g
       let g2 := if c then give g1 [x] s.next .handed else g1
       give g2 [s.next] p .handed) := by
  have hpl : Live s p := by simp [Live, hp]
  have hpn : p ≠ s.next := Nat.ne_of_lt (hi.lt p hpl)
  have hgn : g s.next = none := hi.gdead (Nat.le_refl _)
  have hl := hi.liveX
  obtain ⟨c1, c2⟩ := hi.pipe_stage hp
  have hidx : (st ++ [n])[st.length]? = some n := by simp
  have hlen : (st ++ [n]).length - 1 = st.length := by simp
  have her : (st ++ [n]).eraseIdx st.length = st := by
    rw [List.eraseIdx_append_of_length_le (Nat.le_refl _)]; simp
  have i1 := hi.remove (pos := st.length) (rm := false) hp hidx hn
  simp only [Bool.false_eq_true, if_false] at i1
  have hrm : ∀ t : S, t.heap p = some (.pipe (st ++ [n]) all sup dont uniq) →
      Own.removeStage p st.length false t = t.set p (.pipe st all sup dont uniq) := by
    intro t ht
    simp only [Own.removeStage, ht, hidx, her, Bool.false_eq_true, if_false]
  rw [hrm s hp] at i1
  have hb : ∀ y, back g [n] p .stage y = if all = true ∧ y = n then none else g y := by
    intro y
    unfold back
    by_cases h : y ∈ [n] ∧ g y = some (p, .stage)
    · have := (c2 y).2 h.2
      rw [if_pos h, if_pos ⟨this.1, by simpa using h.1⟩]
    · rw [if_neg h]
      split
      · rename_i h'; exact absurd ⟨by simp [h'.2], by rw [h'.2]; exact hr h'.1⟩ h
      · rfl
  have hm : AllMine (s.set p (.pipe st all sup dont uniq)) (back g [n] p .stage)
      ((if all then [n] else []) ++ (if c then [x] else [])) := by
    have hN : all = true → Mine (s.set p (.pipe st all sup dont uniq)) (back g [n] p .stage) n := by
      intro h
      exact ⟨(live_set hpl).2 (hl _ _ _ (hr h)), by rw [hb]; simp [h]⟩
    have hX : c = true → Mine (s.set p (.pipe st all sup dont uniq)) (back g [n] p .stage) x := by
      intro h
      exact ⟨(live_set hpl).2 (hx h).1, by rw [hb]; simp [(hx h).2]⟩
    have hNX : all = true → c = true → n ≠ x := by
      intro h1 h2 h3
      have := hr h1
      rw [h3, (hx h2).2] at this; cases this
    refine ⟨?_, ?_⟩
    · cases c <;> cases all <;> simp_all
    · intro y hy
      cases c <;> cases all <;> simp_all
      rcases hy with rfl | rfl <;> assumption
  have i2 := i1.newComb (l := n) (r := x) hm
  have hp2 : (Own.newComb n x all c (s.set p (.pipe st all sup dont uniq))).heap p =
      some (.pipe st all sup dont uniq) := by
    simp only [Own.newComb]; rw [alloc_get (s := s.set p _) hpn]; exact set_get _ _ _
  have hnot : s.next ∉ ((if all then [n] else []) ++ (if c then [x] else [])) := by
    intro hc
    have := hi.lt _ ((live_set hpl).1 (hm.2 _ hc).1)
    omega
  have hm2 : Mine (Own.newComb n x all c (s.set p (.pipe st all sup dont uniq)))
      (give (back g [n] p .stage) ((if all then [n] else []) ++ (if c then [x] else [])) s.next .handed)
      s.next := by
    refine ⟨by simp only [Live, Own.newComb]; rw [alloc_new']; rfl, ?_⟩
    simp only [give, hnot, if_false, hb, hgn, ite_self]
  have i3 := i2.insert (pos := st.length) hp2 (Nat.le_refl _) (i2.addStageHand hp2 hm2)
  refine i3.congr ?_ ?_
  · simp only [Own.combLast, hp, List.getLast?_append, List.getLast?_singleton, Option.some_or, hlen]
    congr 1
    rw [hrm]
    · simp only [Own.newComb]; exact alloc_set hpn
    · simp only [Own.newComb]; rw [alloc_get hpn, hp]
  · intro y
    simp only [give, hb, List.mem_append, List.mem_singleton, set_next]
    cases c <;> cases all <;> simp [give] <;> grind

/-- Preparing an ordered farm. -/
theorem Inv.prepareOrdered (hi : Inv s g) {f fm} (hf : s.heap f = some (.farm fm))
    (hk : fm.workers.head?.map (fun w => parallel (s.heap w) || isComp (s.heap w)) = some false) :
    Inv (Own.prepareOrdered f s)
      (fun y => if s.next ≤ y ∧ y < s.next + fm.workers.length then some (f, .worker)
        else if g y = some (f, .worker) then some (s.next + fm.workers.idxOf y, .handed) else g y) := by
  obtain ⟨a1, a2, a3, a4, a5, a6, a7⟩ := hi.farm_facts hf
  have hl := hi.liveX
  have hfl : Live s f := by simp [Live, hf]
  have hflt := hi.lt f hfl
  simp only [Own.prepareOrdered, hf, hk, ne_eq, not_true_eq_false, if_false]
  generalize hfm' : ({ fm with workers := (List.range fm.workers.length).map (s.next + ·), wc := true } : Farm)
    = fm'
  generalize hh : (fun i => if i < s.next then s.heap i
    else (fm.workers[i - s.next]?).map (fun w => Obj.wrap w fm.wc)) = h
  have hheap : ∀ y o, upd h f (some (.farm fm')) y = some o →
      (y = f ∧ o = .farm fm') ∨ (y ≠ f ∧ y < s.next ∧ s.heap y = some o) ∨
      (∃ w, s.next ≤ y ∧ fm.workers[y - s.next]? = some w ∧ o = .wrap w fm.wc) := by
    intro y o hy
    simp only [upd] at hy
    split at hy
    · cases hy; exact Or.inl ⟨‹_›, rfl⟩
    · rename_i hne
      rw [← hh] at hy
      dsimp only at hy
      split at hy
      · exact Or.inr (Or.inl ⟨hne, ‹_›, hy⟩)
      · obtain ⟨w, h1, h2⟩ := Option.map_eq_some_iff.1 hy
        exact Or.inr (Or.inr ⟨w, by omega, h1, h2.symm⟩)
  have hlv : ∀ y, (upd h f (some (.farm fm')) y).isSome ↔
      Live s y ∨ (s.next ≤ y ∧ y < s.next + fm.workers.length) := by
    intro y
    simp only [upd, Live]
    by_cases hy : y = f
    · subst hy; simp [hf]
    · rw [if_neg hy, ← hh]
      dsimp only
      by_cases hlt : y < s.next
      · rw [if_pos hlt]; constructor
        · exact Or.inl
        · rintro (h' | h')
          · exact h'
          · omega
      · rw [if_neg hlt, Option.isSome_map, hi.dead (Nat.le_of_not_lt hlt)]
        rw [Option.isSome_iff_exists]
        simp only [List.getElem?_eq_some_iff, Option.isSome_none, Bool.false_eq_true, false_or]
        constructor
        · rintro ⟨_, h1, _⟩; omega
        · intro h1; exact ⟨_, by omega, rfl⟩
  -- the new responsibilities
  have hg : ∀ y o r, (if s.next ≤ y ∧ y < s.next + fm.workers.length then some (f, Role.worker)
        else if g y = some (f, .worker) then some (s.next + fm.workers.idxOf y, .handed) else g y) = some (o, r)
      ↔ (s.next ≤ y ∧ y < s.next + fm.workers.length ∧ o = f ∧ r = .worker) ∨
        (g y = some (f, .worker) ∧ o = s.next + fm.workers.idxOf y ∧ r = .handed) ∨
        (g y = some (o, r) ∧ ¬ (o = f ∧ r = .worker)) := by
    intro y o r
    have hdead : s.next ≤ y → g y = none := fun h => hi.gdead h
    split
    · rename_i h1
      have := hdead h1.1
      constructor
      · intro h2; cases h2; exact Or.inl ⟨h1.1, h1.2, rfl, rfl⟩
      · rintro (⟨_, _, rfl, rfl⟩ | ⟨h2, _⟩ | ⟨h2, _⟩)
        · rfl
        · rw [this] at h2; cases h2
        · rw [this] at h2; cases h2
    · rename_i h1
      split
      · rename_i h2
        constructor
        · intro h3; cases h3; exact Or.inr (Or.inl ⟨h2, rfl, rfl⟩)
        · rintro (⟨h3, h4, _⟩ | ⟨_, rfl, rfl⟩ | ⟨h3, h4⟩)
          · exact absurd ⟨h3, h4⟩ h1
          · rfl
          · rw [h2] at h3; cases h3; exact absurd ⟨rfl, rfl⟩ h4
      · rename_i h2
        constructor
        · intro h3; refine Or.inr (Or.inr ⟨h3, ?_⟩)
          rintro ⟨rfl, rfl⟩; exact h2 h3
        · rintro (⟨h3, h4, _⟩ | ⟨h3, _⟩ | ⟨h3, _⟩)
          · exact absurd ⟨h3, h4⟩ h1
          · exact absurd h3 h2
          · exact h3
  have hidx : ∀ y, g y = some (f, .worker) → fm.workers.idxOf y < fm.workers.length := by
    intro y hy
    exact List.idxOf_lt_length_iff.2 ((a4 y).2 hy).2
  have hws : fm'.workers = (List.range fm.workers.length).map (s.next + ·) := by rw [← hfm']
  have hwsm : ∀ y, y ∈ fm'.workers ↔ s.next ≤ y ∧ y < s.next + fm.workers.length := by
    intro y
    rw [hws, List.mem_map]
    constructor
    · rintro ⟨i, hi', rfl⟩; simp only [List.mem_range] at hi'; omega
    · intro h1; exact ⟨y - s.next, by simp only [List.mem_range]; omega, by omega⟩
  have hwsn : fm'.workers.Nodup := by
    rw [hws]
    exact List.Nodup.map (fun a b h => by simpa using h) List.nodup_range
  have hf' : fm'.wc = true ∧ fm'.sup = fm.sup ∧ fm'.ec = fm.ec ∧ fm'.emitter = fm.emitter ∧
      fm'.cc = fm.cc ∧ fm'.coll = fm.coll := by rw [← hfm']; simp
  obtain ⟨f1, f2, f3, f4, f5, f6⟩ := hf'
  have hne : ∀ i, f ≠ s.next + i := by intro i; omega
  refine ⟨hi.ok, ?_, ?_, ?_, ?_, ?_, ?_, hi.lognd, ?_⟩
  · intro o ob r hob
    rcases hheap o ob hob with ⟨rfl, rfl⟩ | ⟨_, _, h1⟩ | ⟨w, _, _, rfl⟩
    · have := hi.nodup _ _ r hf
      cases r <;> simp only [part, f1, f2, f3, f4, f5, f6, if_true] at this ⊢ <;> try exact this
      exact hwsn
    · exact hi.nodup _ _ _ h1
    · cases r <;> simp only [part, List.nodup_nil]
      split <;> simp
  · intro o ob r y hob
    rw [hg]
    rcases hheap o ob hob with ⟨rfl, rfl⟩ | ⟨h0, h0', h1⟩ | ⟨w, h0, h1, rfl⟩
    · have hold := hi.mem _ _ r y hf
      by_cases hr : r = .worker
      · subst hr
        simp only [part, f1, if_true, hwsm]
        constructor
        · rintro ⟨h1, h2⟩; exact Or.inl ⟨h1, h2, trivial, trivial⟩
        · rintro (⟨h1, h2, _⟩ | ⟨_, h2, _⟩ | ⟨_, h2⟩)
          · exact ⟨h1, h2⟩
          · exact absurd h2 (hne _)
          · exact absurd ⟨trivial, trivial⟩ h2
      · have hpp : part (.farm fm') r = part (.farm fm) r := by
          cases r <;> simp only [part, f2, f3, f4, f5, f6]
          exact absurd rfl hr
        rw [hpp, hold]
        constructor
        · intro h1; exact Or.inr (Or.inr ⟨h1, fun hc => hr hc.2⟩)
        · rintro (⟨_, _, _, h2⟩ | ⟨_, h2, _⟩ | ⟨h1, _⟩)
          · exact absurd h2 hr
          · exact absurd h2 (hne _)
          · exact h1
    · rw [hi.mem _ _ _ _ h1]
      constructor
      · intro h2; exact Or.inr (Or.inr ⟨h2, fun hc => h0 hc.1⟩)
      · rintro (⟨_, _, h2, _⟩ | ⟨_, h2, _⟩ | ⟨h2, _⟩)
        · exact absurd h2 h0
        · omega
        · exact h2
    · have hof : o ≠ f := by omega
      have hgo : ∀ y r, g y ≠ some (o, r) := fun y r => hi.gdeadO h0
      obtain ⟨hlt, hw⟩ := List.getElem?_eq_some_iff.1 h1
      by_cases hr : r = .handed
      · subst hr
        simp only [part]
        constructor
        · intro h2
          split at h2
          · rename_i hwc
            simp only [List.mem_singleton] at h2
            subst h2
            refine Or.inr (Or.inl ⟨(a4 y).1 ⟨hwc, hw ▸ List.getElem_mem _⟩, ?_, trivial⟩)
            have : fm.workers.idxOf y = o - s.next := by
              rw [← hw]; exact (a3 hwc).idxOf_getElem _ _
            omega
          · cases h2
        · rintro (⟨_, _, h2, _⟩ | ⟨h2, h3, _⟩ | ⟨h2, _⟩)
          · exact absurd h2 hof
          · obtain ⟨hwc, hyw⟩ := (a4 y).2 h2
            rw [if_pos hwc, List.mem_singleton, ← hw]
            have hlt' := hidx y h2
            have : o - s.next = fm.workers.idxOf y := by omega
            simp only [this]
            exact (List.getElem_idxOf hlt').symm
          · exact absurd h2 (hgo y _)
      · constructor
        · intro h2; exfalso; cases r <;> simp_all [part]
        · rintro (⟨_, _, h2, _⟩ | ⟨_, _, h2⟩ | ⟨h2, _⟩)
          · exact absurd h2 hof
          · exact absurd h2 hr
          · exact absurd h2 (hgo y _)
  · intro y o r h1
    rw [Live]
    dsimp only at h1 ⊢
    rw [hlv]
    rcases (hg y o r).1 h1 with ⟨h2, h3, _⟩ | ⟨h2, _⟩ | ⟨h2, _⟩
    · exact Or.inr ⟨h2, h3⟩
    · exact Or.inl (hl _ _ _ h2)
    · exact Or.inl (hl _ _ _ h2)
  · intro y o r h1
    rw [Live]
    dsimp only at h1 ⊢
    rw [hlv]
    rcases (hg y o r).1 h1 with ⟨_, _, rfl, _⟩ | ⟨h2, rfl, _⟩ | ⟨h2, _⟩
    · exact Or.inl hfl
    · have := hidx y h2; exact Or.inr ⟨by omega, by omega⟩
    · exact Or.inl (hi.liveO _ _ _ h2)
  · intro y h1
    rw [Live] at h1
    dsimp only at h1 ⊢
    rcases (hlv y).1 h1 with h2 | ⟨_, h2⟩
    · have := hi.lt y h2; omega
    · exact h2
  · intro y h1
    rw [Live]
    dsimp only at h1 ⊢
    rw [hlv]
    by_cases hy : y < s.next
    · rw [← hi.log y hy]
      constructor
      · rintro (h2 | h2)
        · exact h2
        · omega
      · exact Or.inl
    · constructor
      · intro _ hc; have := hi.loglt y hc; omega
      · intro _; exact Or.inr ⟨by omega, h1⟩
  · intro y h1
    have := hi.loglt y h1
    dsimp only; omega

end FF.Own
