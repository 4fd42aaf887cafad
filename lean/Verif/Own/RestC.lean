import Verif.Own.FarmC

/-!
# Calls on all-to-all blocks and combines, copies, and the rewriting of networks
-/

namespace FF.Own

variable {s : S} {g : G}

/-! ## All-to-all blocks -/

theorem mem_foldl_erase : ∀ (w sup : List Nat), sup.Nodup →
    (w.foldl (fun l x => l.erase x) sup).Nodup ∧
    ∀ y, y ∈ w.foldl (fun l x => l.erase x) sup ↔ y ∈ sup ∧ y ∉ w := by
  intro w
  induction w with
  | nil => intro sup h; simp [h]
  | cons a w ih =>
    intro sup h
    obtain ⟨h1, h2⟩ := ih (sup.erase a) (h.erase a)
    refine ⟨h1, fun y => ?_⟩
    rw [List.foldl_cons, h2 y, h.mem_erase_iff]
    simp only [List.mem_cons, not_or]
    constructor
    · rintro ⟨⟨h3, h4⟩, h5⟩; exact ⟨h4, h3, h5⟩
    · rintro ⟨h3, h4, h5⟩; exact ⟨⟨h4, h3⟩, h5⟩

macro "simple_tac" : tactic => `(tactic| grind [give_eq, back_eq, backAll_eq, Mine, AllMine,
  List.nodup_append, List.nodup_cons])

theorem Inv.addFirstHand (hi : Inv s g) {a w2 sup ws} (ha : s.heap a = some (.a2a [] w2 sup))
    (hw : ws ≠ []) (hx : AllMine s g ws) : Inv (Own.addFirst a ws true s) (give g ws a .handed) := by
  obtain ⟨a1, a2, a3⟩ := hi.simple_facts ha rfl
  have hl := hi.liveX
  simp only [Own.addFirst, ha]
  simp only [ne_eq, not_true_eq_false, hw, or_self, if_false, if_true]
  refine hi.simple ha rfl ?_ ?_ ?_ ?_ ?_ <;> simple_tac

theorem Inv.addFirstPlain (hi : Inv s g) {a w1 w2 sup ws} (ha : s.heap a = some (.a2a w1 w2 sup)) :
    Inv (Own.addFirst a ws false s) g := by
  obtain ⟨a1, a2, a3⟩ := hi.simple_facts ha rfl
  have hl := hi.liveX
  simp only [Own.addFirst, ha]
  split
  · exact hi
  · refine hi.simple ha rfl ?_ ?_ ?_ ?_ ?_ <;> simple_tac

theorem Inv.addFirstErr (hi : Inv s g) {a w1 w2 sup ws c} (ha : s.heap a = some (.a2a w1 w2 sup))
    (hw : w1 ≠ [] ∨ ws = []) : Inv (Own.addFirst a ws c s) g := by
  simp only [Own.addFirst, ha]
  rw [if_pos hw]; exact hi

theorem Inv.addSecondHand (hi : Inv s g) {a w1 sup ws} (ha : s.heap a = some (.a2a w1 [] sup))
    (hw : ws ≠ []) (hx : AllMine s g ws) : Inv (Own.addSecond a ws true s) (give g ws a .handed) := by
  obtain ⟨a1, a2, a3⟩ := hi.simple_facts ha rfl
  have hl := hi.liveX
  simp only [Own.addSecond, ha]
  simp only [ne_eq, not_true_eq_false, hw, or_self, if_false, if_true]
  refine hi.simple ha rfl ?_ ?_ ?_ ?_ ?_ <;> simple_tac

theorem Inv.addSecondPlain (hi : Inv s g) {a w1 w2 sup ws} (ha : s.heap a = some (.a2a w1 w2 sup)) :
    Inv (Own.addSecond a ws false s) g := by
  obtain ⟨a1, a2, a3⟩ := hi.simple_facts ha rfl
  have hl := hi.liveX
  simp only [Own.addSecond, ha]
  split
  · exact hi
  · refine hi.simple ha rfl ?_ ?_ ?_ ?_ ?_ <;> simple_tac

theorem Inv.addSecondErr (hi : Inv s g) {a w1 w2 sup ws c} (ha : s.heap a = some (.a2a w1 w2 sup))
    (hw : w2 ≠ [] ∨ ws = []) : Inv (Own.addSecond a ws c s) g := by
  simp only [Own.addSecond, ha]
  rw [if_pos hw]; exact hi

/-- Taking nodes off the support list. -/
theorem Inv.a2aBack (hi : Inv s g) {a w1 w2 sup v1 v2 w} {rm : Bool}
    (ha : s.heap a = some (.a2a w1 w2 sup)) :
    Inv (s.set a (.a2a v1 v2 (if rm then w.foldl (fun l x => l.erase x) sup else sup)))
      (if rm then back g w a .handed else g) := by
  obtain ⟨a1, a2, a3⟩ := hi.simple_facts ha rfl
  have hl := hi.liveX
  obtain ⟨b1, b2⟩ := mem_foldl_erase w sup a1
  cases rm
  · simp only [Bool.false_eq_true, if_false]
    refine hi.simple ha rfl ?_ ?_ ?_ ?_ ?_ <;> simple_tac
  · simp only [if_true]
    refine hi.simple ha rfl ?_ ?_ ?_ ?_ ?_ <;> simple_tac

theorem Inv.changeFirst (hi : Inv s g) {a w1 w2 sup ws c rm} (ha : s.heap a = some (.a2a w1 w2 sup))
    (hw : ws ≠ []) (hx : c = true → AllMine s (if rm then back g w1 a .handed else g) ws) :
    Inv (Own.changeFirst a ws c rm s)
      (let g1 := if rm then back g w1 a .handed else g
       if c then give g1 ws a .handed else g1) := by
  have h := hi.a2aBack (v1 := []) (v2 := w2) (w := w1) (rm := rm) ha
  simp only [Own.changeFirst, ha]
  cases c
  · exact h.addFirstPlain (set_get _ _ _)
  · refine h.addFirstHand (set_get _ _ _) hw ⟨(hx rfl).1, fun x hx' => ?_⟩
    exact ⟨(live_set (by simp [Live, ha])).2 ((hx rfl).2 x hx').1, ((hx rfl).2 x hx').2⟩

theorem Inv.changeSecond (hi : Inv s g) {a w1 w2 sup ws c rm} (ha : s.heap a = some (.a2a w1 w2 sup))
    (hw : ws ≠ []) (hx : c = true → AllMine s (if rm then back g w2 a .handed else g) ws) :
    Inv (Own.changeSecond a ws c rm s)
      (let g1 := if rm then back g w2 a .handed else g
       if c then give g1 ws a .handed else g1) := by
  have h := hi.a2aBack (v1 := w1) (v2 := []) (w := w2) (rm := rm) ha
  simp only [Own.changeSecond, ha]
  cases c
  · exact h.addSecondPlain (set_get _ _ _)
  · refine h.addSecondHand (set_get _ _ _) hw ⟨(hx rfl).1, fun x hx' => ?_⟩
    exact ⟨(live_set (by simp [Live, ha])).2 ((hx rfl).2 x hx').1, ((hx rfl).2 x hx').2⟩

/-- Replacing an object on a list of a simple block by another one. -/
theorem Inv.swap (hi : Inv s g) {k ob ob' l old x} {c rm : Bool} (hk : s.heap k = some ob)
    (ho : onlyHanded ob = some l)
    (ho' : onlyHanded ob' = some (let l1 := if rm then l.erase old else l
      if c then l1 ++ [x] else l1))
    (hx : c = true → Mine s g x) :
    Inv (s.set k ob')
      (let g1 := if rm then back g [old] k .handed else g
       if c then give g1 [x] k .handed else g1) := by
  obtain ⟨a1, a2, a3⟩ := hi.simple_facts hk ho
  have hl := hi.liveX
  have he : ∀ y, y ∈ l.erase old ↔ y ≠ old ∧ y ∈ l := fun y => a1.mem_erase_iff
  have hen := a1.erase old
  cases rm <;> cases c <;> simp only [Bool.false_eq_true, if_false, if_true] at ho' ⊢ <;>
    simp only [Bool.false_eq_true, forall_const, false_implies] at hx <;>
    refine hi.simple hk ho' ?_ ?_ ?_ ?_ ?_ <;> simple_tac

theorem Inv.changeA2aNode (hi : Inv s g) {a w1 w2 sup old x c rm}
    (ha : s.heap a = some (.a2a w1 w2 sup)) (ho : old ∈ w1 ∨ old ∈ w2) (hx : c = true → Mine s g x) :
    Inv (Own.changeA2aNode a old x c rm s)
      (let g1 := if rm then back g [old] a .handed else g
       if c then give g1 [x] a .handed else g1) := by
  simp only [Own.changeA2aNode, ha]
  split
  · exact hi.swap ha rfl rfl hx
  · rw [if_pos (by tauto)]; exact hi.swap ha rfl rfl hx

/-! ## Combines -/

theorem Inv.replaceFirst (hi : Inv s g) {k l r cl x c rm} (hk : s.heap k = some (.comb l r cl))
    (hl : isComp (s.heap l) = false) (hx : c = true → Mine s g x) :
    Inv (Own.replaceFirst k x c rm s)
      (let g1 := if rm then back g [l] k .handed else g
       if c then give g1 [x] k .handed else g1) := by
  simp only [Own.replaceFirst, hk, hl, Bool.false_eq_true, if_false]
  exact hi.swap hk rfl rfl hx

theorem Inv.replaceLast (hi : Inv s g) {k l r cl x c rm} (hk : s.heap k = some (.comb l r cl))
    (hl : isComp (s.heap r) = false) (hx : c = true → Mine s g x) :
    Inv (Own.replaceLast k x c rm s)
      (let g1 := if rm then back g [r] k .handed else g
       if c then give g1 [x] k .handed else g1) := by
  simp only [Own.replaceLast, hk, hl, Bool.false_eq_true, if_false]
  exact hi.swap hk rfl rfl hx

theorem back_self {g : G} {xs : List Nat} {f : Nat} {r : Role} (h : ∀ x ∈ xs, g x ≠ some (f, r)) :
    back g xs f r = g := by
  funext y; unfold back; rw [if_neg (fun hc => h y hc.1 hc.2)]

/-- Replacing a part of a combine and deleting the old one. -/
theorem Inv.changeDel (hi : Inv s g) {k ob ob' cl old x} {c : Bool} (hk : s.heap k = some ob)
    (ho : onlyHanded ob = some cl)
    (ho' : onlyHanded ob' = some (if c then cl.erase old ++ [x] else cl.erase old))
    (hx : c = true → Mine s g x) :
    Inv (if old ∈ cl then del old (s.set k ob') else s.set k ob')
      (forget (if old ∈ cl then del old (s.set k ob') else s.set k ob')
        (let g1 := back g [old] k .handed
         if c then give g1 [x] k .handed else g1)) := by
  obtain ⟨a1, a2, a3⟩ := hi.simple_facts hk ho
  have h := hi.swap (old := old) (x := x) (c := c) (rm := true) hk ho (by simpa using ho') hx
  simp only [if_true] at h
  split
  · rename_i hold
    refine (del_spec h ?_ ?_).choose_spec.2.2.2.2.2.2
    · exact (live_set (by simp [Live, hk])).2 (hi.liveX _ _ _ ((a2 old).1 hold))
    · have hgo := (a2 old).1 hold
      cases c
      · simp [back, hgo]
      · have hne : old ≠ x := by rintro rfl; have := (hx rfl).2; rw [hgo] at this; cases this
        simp [give, back, hgo, hne]
  · rw [h.forget_eq]; exact h

theorem Inv.changeFirstComb (hi : Inv s g) {k l r cl x c} (hk : s.heap k = some (.comb l r cl))
    (hx : c = true → Mine s g x) :
    Inv (Own.changeFirstComb k x c s)
      (forget (Own.changeFirstComb k x c s)
        (let g1 := back g [l] k .handed
         if c then give g1 [x] k .handed else g1)) := by
  simp only [Own.changeFirstComb, hk]
  exact hi.changeDel hk rfl rfl hx

theorem Inv.changeLastComb (hi : Inv s g) {k l r cl x c} (hk : s.heap k = some (.comb l r cl))
    (hx : c = true → Mine s g x) :
    Inv (Own.changeLastComb k x c s)
      (forget (Own.changeLastComb k x c s)
        (let g1 := back g [r] k .handed
         if c then give g1 [x] k .handed else g1)) := by
  simp only [Own.changeLastComb, hk]
  exact hi.changeDel hk rfl rfl hx

/-! ## New objects -/

theorem Inv.allocEmpty (hi : Inv s g) {ob : Obj} (h : ∀ r, part ob r = []) : Inv (s.alloc ob) g := by
  refine hi.alloc ?_ ?_ ?_ ?_
  · intro r; rw [h]; simp
  · intro r x; rw [h]
    constructor
    · intro h; cases h
    · intro h; exact absurd h (hi.gdeadO (Nat.le_refl _))
  · intro x o r _; rfl
  · intro x r h; exact absurd h (hi.gdeadO (Nat.le_refl _))

theorem Inv.newComb (hi : Inv s g) {l r cl cr}
    (h : AllMine s g ((if cl then [l] else []) ++ (if cr then [r] else []))) :
    Inv (Own.newComb l r cl cr s)
      (give g ((if cl then [l] else []) ++ (if cr then [r] else [])) s.next .handed) := by
  unfold Own.newComb
  generalize (if cl then [l] else []) ++ (if cr then [r] else []) = xs at *
  have hd := fun x r => hi.gdeadO (x := x) (r := r) (Nat.le_refl _)
  refine hi.alloc ?_ ?_ ?_ ?_
  · intro r; cases r <;> simp [part, h.1]
  · intro r x; cases r <;> simp only [part] <;> simple_tac
  · simple_tac
  · simple_tac

theorem Inv.newPipeUnique (hi : Inv s g) {xs} (h : AllMine s g xs) :
    Inv (s.alloc (.pipe xs false [] [] xs)) (give g xs s.next .unique) := by
  have hd := fun x r => hi.gdeadO (x := x) (r := r) (Nat.le_refl _)
  refine hi.alloc ?_ ?_ ?_ ?_
  · intro r; cases r <;> simp [part, h.1]
  · intro r x; cases r <;> simp only [part, Bool.false_eq_true, if_false] <;> simple_tac
  · simple_tac
  · simple_tac

/-- A copy that takes over everything, leaving the source with nothing. -/
theorem Inv.copyMove (hi : Inv s g) {x ob ob1 ob2} (hx : s.heap x = some ob)
    (h1 : ∀ r, part ob1 r = []) (h2 : ∀ r, part ob2 r = part ob r) :
    Inv ((s.set x ob1).alloc ob2) (move g x s.next) := by
  have hlt := hi.lt x (by simp [Live, hx])
  have hd := fun y r => hi.gdeadO (x := y) (r := r) (Nat.le_refl _)
  have hlv : ∀ y, Live ((s.set x ob1).alloc ob2) y ↔ Live s y ∨ y = s.next := by
    intro y
    simp only [Live, S.set, S.alloc, upd]
    by_cases h : y = s.next
    · simp [h]
    · by_cases h' : y = x
      · subst h'; simp [h, hx]
      · simp [h, h']
  have hheap : ∀ y o, ((s.set x ob1).alloc ob2).heap y = some o →
      (y = s.next ∧ o = ob2) ∨ (y = x ∧ o = ob1) ∨ (y ≠ s.next ∧ y ≠ x ∧ s.heap y = some o) := by
    intro y o h
    simp only [S.set, S.alloc, upd] at h
    by_cases h1 : y = s.next
    · simp only [h1, if_true] at h; cases h; exact Or.inl ⟨h1, rfl⟩
    · by_cases h2 : y = x
      · simp only [h2, if_true] at h
        split at h
        · omega
        · cases h; exact Or.inr (Or.inl ⟨h2, rfl⟩)
      · simp only [h1, h2, if_false] at h; exact Or.inr (Or.inr ⟨h1, h2, h⟩)
  refine ⟨hi.ok, ?_, ?_, ?_, ?_, ?_, ?_, hi.lognd, ?_⟩
  · intro o ob' r h
    rcases hheap o ob' h with ⟨_, rfl⟩ | ⟨_, rfl⟩ | ⟨_, _, h'⟩
    · rw [h2]; exact hi.nodup _ _ _ hx
    · rw [h1]; simp
    · exact hi.nodup _ _ _ h'
  · intro o ob' r y h
    rw [move_eq]
    rcases hheap o ob' h with ⟨rfl, rfl⟩ | ⟨rfl, rfl⟩ | ⟨h3, h4, h'⟩
    · rw [h2, hi.mem _ _ _ _ hx]
      constructor
      · intro h; exact Or.inl ⟨rfl, h⟩
      · rintro (⟨_, h⟩ | ⟨_, h⟩)
        · exact h
        · exact absurd h (hd y r)
    · rw [h1]
      constructor
      · intro h; cases h
      · rintro (⟨h, _⟩ | ⟨h, _⟩)
        · omega
        · exact absurd rfl h
    · rw [hi.mem _ _ _ _ h']
      constructor
      · intro h; exact Or.inr ⟨h4, h⟩
      · rintro (⟨h, _⟩ | ⟨_, h⟩)
        · exact absurd h h3
        · exact h
  · intro y o r h
    rw [hlv]
    rcases move_eq.1 h with ⟨_, h⟩ | ⟨_, h⟩ <;> exact Or.inl (hi.liveX _ _ _ h)
  · intro y o r h
    rw [hlv]
    rcases move_eq.1 h with ⟨rfl, h⟩ | ⟨_, h⟩
    · exact Or.inr rfl
    · exact Or.inl (hi.liveO _ _ _ h)
  · intro y h
    rcases (hlv y).1 h with h | h
    · have := hi.lt y h; simp only [S.alloc, S.set]; omega
    · simp only [S.alloc, S.set]; omega
  · intro y h
    rw [hlv]
    simp only [S.alloc, S.set] at h ⊢
    by_cases hy : y = s.next
    · subst hy
      simp only [or_true, true_iff]
      intro hc; have := hi.loglt _ hc; omega
    · rw [← hi.log y (by omega)]; simp [hy]
  · intro y h
    have := hi.loglt y h
    simp only [S.alloc, S.set]; omega

theorem Inv.copy (hi : Inv s g) {x} (hx : Copyable s x) : Inv (copyObj x s) (move g x s.next) := by
  unfold Copyable at hx
  unfold copyObj
  cases h : s.heap x with
  | none => rw [h] at hx; exact hx.elim
  | some ob =>
    rw [h] at hx
    cases ob with
    | node =>
      have : move g x s.next = g := by
        funext y
        unfold move
        cases hy : g y with
        | none => rfl
        | some v =>
          obtain ⟨o, r⟩ := v
          have : o ≠ x := by
            rintro rfl
            have := (hi.mem _ _ _ _ h).2 hy
            cases r <;> simp [part] at this
          simp [this]
      rw [this]
      exact hi.allocEmpty (by intro r; cases r <;> rfl)
    | wrap n c => exact hi.copyMove h (by intro r; cases r <;> rfl) (by intro r; rfl)
    | comb l r cl => exact hi.copyMove h (by intro r; cases r <;> rfl) (by intro r; rfl)
    | pipe st all sup dont uniq =>
      dsimp only at hx; subst hx
      exact hi.copyMove h (by intro r; cases r <;> rfl) (by intro r; rfl)
    | farm f =>
      dsimp only at hx
      refine hi.copyMove h (by intro r; cases r <;> rfl) (by
        intro r
        cases r <;> simp only [part]
        by_cases h1 : f.removed = true
        · by_cases h2 : f.cc = true
          · simp [h1, h2, hx h1 h2]
          · simp [h2]
        · simp [h1])
    | a2a w1 w2 sup => exact hi.copyMove h (by intro r; cases r <;> rfl) (by intro r; rfl)

/-- Where the other objects are after a copy. -/
theorem copyObj_heap {x : Nat} (hi : Inv s g) (hx : Copyable s x) :
    Live (copyObj x s) s.next ∧ (move g x s.next) s.next = none ∧
    ∀ p, p < s.next → ((∃ st all sup dont uniq, s.heap p = some (.pipe st all sup dont uniq)) →
        ∃ st all sup dont uniq, (copyObj x s).heap p = some (.pipe st all sup dont uniq)) ∧
      (p ≠ x → (copyObj x s).heap p = s.heap p) := by
  have hg : g s.next = none := hi.gdead (Nat.le_refl _)
  refine ⟨?_, by simp [move, hg], ?_⟩
  · unfold Copyable at hx
    unfold copyObj
    cases h : s.heap x with
    | none => rw [h] at hx; exact hx.elim
    | some ob => cases ob <;> simp [Live, S.alloc, upd, S.set]
  · intro p hp
    have hpn : p ≠ s.next := by omega
    unfold Copyable at hx
    unfold copyObj
    cases h : s.heap x with
    | none => rw [h] at hx; exact hx.elim
    | some ob =>
      by_cases hpx : p = x
      · subst hpx
        refine ⟨?_, fun h => absurd rfl h⟩
        rintro ⟨st, all, sup, dont, uniq, h'⟩
        rw [h] at h'; cases h'
        simp [S.alloc, S.set, upd, hpn]
      · refine ⟨?_, fun _ => ?_⟩
        · intro h'; cases ob <;> simpa [S.alloc, S.set, upd, hpn, hpx] using h'
        · cases ob <;> simp [S.alloc, S.set, upd, hpn, hpx]

theorem Inv.addStageCopy (hi : Inv s g) {p x st all sup dont uniq}
    (hp : s.heap p = some (.pipe st all sup dont uniq)) (hx : Copyable s x) :
    Inv (Own.addStageCopy p x s) (give (move g x s.next) [s.next] p .handed) := by
  obtain ⟨h1, h2, h3⟩ := copyObj_heap hi hx
  obtain ⟨st', all', sup', dont', uniq', hp'⟩ :=
    (h3 p (hi.lt p (by simp [Live, hp]))).1 ⟨st, all, sup, dont, uniq, hp⟩
  exact (hi.copy hx).addStageHand hp' ⟨h1, h2⟩

theorem copyObj_parallel {x : Nat} (hx : Copyable s x) (hk : parallel (s.heap x) = false) :
    parallel ((copyObj x s).heap s.next) = false := by
  unfold Copyable at hx
  unfold copyObj
  cases h : s.heap x with
  | none => rw [h] at hx; exact hx.elim
  | some ob => rw [h] at hk; cases ob <;> simp_all [S.alloc, S.set, upd, parallel]

theorem Inv.addEmitterCopy (hi : Inv s g) {f fm x} (hf : s.heap f = some (.farm fm))
    (hn : fm.emitter = none) (hx : Copyable s x) (hk : parallel (s.heap x) = false) :
    Inv (Own.addEmitterCopy f x s) (give (move g x s.next) [s.next] f .emitter) := by
  obtain ⟨h1, h2, h3⟩ := copyObj_heap hi hx
  have hfx : f ≠ x := by rintro rfl; rw [hf] at hk; simp [parallel] at hk
  have hf' : (copyObj x s).heap f = some (.farm fm) := by
    rw [(h3 f (hi.lt f (by simp [Live, hf]))).2 hfx, hf]
  have hc := hi.copy hx
  obtain ⟨a1, a2, a3, a4, a5, a6, a7⟩ := hc.farm_facts hf'
  have hl := hc.liveX
  have hpar := copyObj_parallel hx hk
  simp only [Own.addEmitterCopy, hf']
  rw [if_neg (by simp [hpar, hn])]
  generalize hG : move g x s.next = G1 at *
  refine hc.farm hf' a1 ?_ ?_ ?_ ?_ ?_ ?_ ?_ ?_ <;> (try dsimp only) <;> farm_tac

end FF.Own
