/-
Basic facts about stream semantics (C60).
-/
import Verif.Opt.Model

namespace FF.Opt

variable {α : Type}

theorem vals_append (a b : List (Option Nat × α)) : vals (a ++ b) = vals a ++ vals b := by
  simp [vals]

theorem free_append (a b : List α) : free (a ++ b) = free a ++ free b := by
  simp [free]

@[simp] theorem vals_free (a : List α) : vals (free a) = a := by
  simp only [vals, free, List.map_map]
  exact (List.map_congr_left (fun _ _ => rfl)).trans (List.map_id a)

/-! ### Nodes -/

theorem run_append (n : Node α) (h xs ys : List α) :
    n.run h (xs ++ ys) = n.run h xs ++ n.run (h ++ xs) ys := by
  induction xs generalizing h with
  | nil => simp [Node.run]
  | cons x xs ih => simp [Node.run, ih]

theorem run_snoc (n : Node α) (h : List α) (x : α) :
    n.run [] (h ++ [x]) = n.run [] h ++ n.out h x := by
  rw [run_append]; simp [Node.run]

/-- A composition is the two nodes one after the other. -/
theorem run_comb (a b : Node α) (h xs : List α) :
    (combNode a b).run h xs = b.run (vals (a.run [] h)) (vals (a.run h xs)) := by
  induction xs generalizing h with
  | nil => simp [Node.run, vals]
  | cons x xs ih =>
    simp only [Node.run, ih, vals_append, run_append, List.nil_append]
    simp [combNode, vals]

theorem beh_comb (a b : Node α) (xs : List α) :
    (combNode a b).beh xs = b.beh (vals (a.beh xs)) := by
  simp [Node.beh, run_comb, Node.run, vals]

theorem vals_emits (n : Node α) (xs : List α) : vals (n.emits xs) = vals (n.beh xs) := by
  unfold Node.emits
  split <;> simp

theorem beh_mi (n : Node α) (xs : List α) : (miNode n).beh xs = n.beh xs := by
  have : ∀ h xs, (miNode n).run h xs = n.run h xs := by
    intro h xs
    induction xs generalizing h with
    | nil => rfl
    | cons x xs ih => simp only [Node.run, ih]; rfl
  simp [Node.beh, this]

/-! ### Dealing streams -/

theorem Split.push {β : Type} {zs : List (Option Nat × β)} {zss : List (List β)} {i : Nat}
    {l : List β} (h : Split zs zss) (hi : zss[i]? = some l) (xs : List β) :
    Split (free xs ++ zs) (zss.set i (xs ++ l)) := by
  induction xs with
  | nil =>
    have hlt : i < zss.length := by
      rcases Nat.lt_or_ge i zss.length with h' | h'
      · exact h'
      · rw [List.getElem?_eq_none h'] at hi; cases hi
    have hl : zss[i] = l := by
      rw [List.getElem?_eq_getElem hlt] at hi
      exact Option.some.inj hi
    have : zss.set i l = zss := by
      subst hl; exact List.set_getElem_self hlt
    simpa [free, this] using h
  | cons x xs ih =>
    have hlt : i < zss.length := by
      rcases Nat.lt_or_ge i zss.length with h' | h'
      · exact h'
      · rw [List.getElem?_eq_none h'] at hi; cases hi
    have hg : (zss.set i (xs ++ l))[i]? = some (xs ++ l) := by
      simp [List.getElem?_set, hlt]
    have := Split.cons (r := none) (x := x) ih hg (Or.inl rfl)
    rw [List.set_set] at this
    exact this

theorem Split.addFront {β : Type} {xs : List β} {zss : List (List β)}
    (h : Split (free xs) zss) : Split (free xs) ([] :: zss) := by
  induction xs generalizing zss with
  | nil =>
    generalize hz : free ([] : List β) = zs at h
    cases h with
    | nil k => exact Split.nil (k + 1)
    | cons _ _ _ => cases hz
  | cons x xs ih =>
    generalize hz : free (x :: xs) = zs at h
    cases h with
    | nil k => cases hz
    | cons h1 h2 h3 =>
      rename_i r y zs' zss' i l
      have e : (none, x) = (r, y) ∧ free xs = zs' := by
        simpa [free] using hz
      obtain ⟨e1, e2⟩ := e
      cases e1
      subst e2
      have := Split.cons (r := none) (x := x) (ih h1) (i := i + 1) (l := l) (by simpa using h2)
        (Or.inl rfl)
      simpa using this

/-- Streams may be dealt one after the other. -/
theorem shuffle_flatten (L : List (List α)) : Shuffle L L.flatten := by
  unfold Shuffle
  induction L with
  | nil => exact Split.nil 0
  | cons l L ih =>
    have := (Split.addFront ih).push (i := 0) (l := []) rfl l
    simpa [free_append] using this

/-! ### Semantics of lists of blocks -/

theorem semPipe_append (a b : List (Sk α)) (xs ys : List α) :
    semPipe (a ++ b) xs ys ↔ ∃ zs, semPipe a xs zs ∧ semPipe b zs ys := by
  induction a generalizing xs with
  | nil => simp [semPipe]
  | cons s a ih =>
    simp only [List.cons_append, semPipe, ih]
    constructor
    · rintro ⟨z, h1, z', h2, h3⟩; exact ⟨z', ⟨z, h1, h2⟩, h3⟩
    · rintro ⟨z', ⟨z, h1, h2⟩, h3⟩; exact ⟨z, h1, z', h2, h3⟩

theorem semPipe_single (s : Sk α) (xs ys : List α) : semPipe [s] xs ys ↔ sem s xs ys := by
  simp [semPipe]

/-- `PRef a b`: the stages `a` do nothing the stages `b` could not have done. -/
def PRef (a b : List (Sk α)) : Prop := ∀ xs ys, semPipe a xs ys → semPipe b xs ys

theorem PRef.refl (a : List (Sk α)) : PRef a a := fun _ _ h => h

theorem PRef.trans {a b c : List (Sk α)} (h1 : PRef a b) (h2 : PRef b c) : PRef a c :=
  fun xs ys h => h2 xs ys (h1 xs ys h)

theorem PRef.append {a b c d : List (Sk α)} (h1 : PRef a b) (h2 : PRef c d) :
    PRef (a ++ c) (b ++ d) := by
  intro xs ys h
  rw [semPipe_append] at h ⊢
  obtain ⟨z, ha, hc⟩ := h
  exact ⟨z, h1 _ _ ha, h2 _ _ hc⟩

theorem PRef.middle {a b : List (Sk α)} (h : PRef a b) (x y : List (Sk α)) :
    PRef (x ++ a ++ y) (x ++ b ++ y) :=
  ((PRef.refl x).append h).append (PRef.refl y)

/-! ### Flattening -/

mutual
theorem flat_sem : ∀ (ss : List (Sk α)) (xs ys : List α),
    semPipe (flat ss) xs ys ↔ semPipe ss xs ys
  | [], xs, ys => by simp [flat]
  | s :: ss, xs, ys => by
    simp only [flat, semPipe_append, semPipe]
    constructor
    · rintro ⟨z, h1, h2⟩
      exact ⟨z, (flat1_sem s _ _).1 h1, (flat_sem ss _ _).1 h2⟩
    · rintro ⟨z, h1, h2⟩
      exact ⟨z, (flat1_sem s _ _).2 h1, (flat_sem ss _ _).2 h2⟩
theorem flat1_sem : ∀ (s : Sk α) (xs ys : List α), semPipe (flat1 s) xs ys ↔ sem s xs ys
  | .pipe ss, xs, ys => by
    simp only [flat1, sem]
    exact flat_sem ss xs ys
  | .leaf n, xs, ys => by simp only [flat1, semPipe_single]
  | .farm h ws, xs, ys => by simp only [flat1, semPipe_single]
  | .a2a l r, xs, ys => by simp only [flat1, semPipe_single]
end

/-! ### Calls on lists -/

theorem bind_ok {β γ : Type} {r : Res β} {f : β → Res γ} {c : γ} (h : r.bind f = .ok c) :
    ∃ b, r = .ok b ∧ f b = .ok c := by
  cases r with
  | ok b => exact ⟨b, rfl, h⟩
  | ub => cases h
  | abort => cases h
  | loop => cases h

/-- Two lists related element by element. -/
inductive All2 {β γ : Type} (R : β → γ → Prop) : List β → List γ → Prop
  | nil : All2 R [] []
  | cons {x : β} {y : γ} {xs : List β} {ys : List γ} :
      R x y → All2 R xs ys → All2 R (x :: xs) (y :: ys)

theorem mapR_ok {β γ : Type} {f : β → Res γ} {xs : List β} {ys : List γ}
    (h : mapR f xs = .ok ys) : All2 (fun y x => f x = .ok y) ys xs := by
  induction xs generalizing ys with
  | nil => cases h; exact .nil
  | cons x xs ih =>
    obtain ⟨y, h1, h2⟩ := bind_ok h
    obtain ⟨ys', h3, h4⟩ := bind_ok h2
    cases h4
    exact .cons h1 (ih h3)

theorem All2.mono {β γ : Type} {R S : β → γ → Prop} {xs : List β} {ys : List γ}
    (h : All2 R xs ys) (hrs : ∀ x y, R x y → S x y) : All2 S xs ys := by
  induction h with
  | nil => exact .nil
  | cons h1 _ ih => exact .cons (hrs _ _ h1) ih

theorem All2.length {β γ : Type} {R : β → γ → Prop} {xs : List β} {ys : List γ}
    (h : All2 R xs ys) : xs.length = ys.length := by
  induction h with
  | nil => rfl
  | cons _ _ ih => simp [ih]

theorem All2.pref {a b : List (Sk α)} (h : All2 (fun x y => Refines x y) a b) : PRef a b := by
  induction h with
  | nil => exact PRef.refl _
  | cons h1 _ ih =>
    intro xs ys hs
    simp only [semPipe] at hs ⊢
    obtain ⟨z, h2, h3⟩ := hs
    exact ⟨z, h1 _ _ h2, ih _ _ h3⟩

theorem semEach_length {ws : List (Sk α)} {a b : List (List α)} (h : semEach ws a b) :
    a.length = ws.length ∧ b.length = ws.length := by
  induction ws generalizing a b with
  | nil => cases a <;> cases b <;> simp_all [semEach]
  | cons s ws ih =>
    cases a with
    | nil => cases b <;> simp [semEach] at h
    | cons x a =>
      cases b with
      | nil => simp [semEach] at h
      | cons y b =>
        simp only [semEach] at h
        obtain ⟨h1, h2⟩ := ih h.2
        exact ⟨by simp [h1], by simp [h2]⟩

theorem semEach_mono {ws' ws : List (Sk α)} (h : All2 (fun x y => Refines x y) ws' ws)
    {a b : List (List α)} (hs : semEach ws' a b) : semEach ws a b := by
  induction h generalizing a b with
  | nil => exact hs
  | cons h1 _ ih =>
    cases a with
    | nil => cases b <;> simp [semEach] at hs
    | cons x a =>
      cases b with
      | nil => simp [semEach] at hs
      | cons y b =>
        simp only [semEach] at hs ⊢
        exact ⟨h1 _ _ hs.1, ih hs.2⟩

/-- `semWorkers` of anything but a single all-to-all. -/
theorem semWorkers_gen {ws : List (Sk α)} (h : ∀ l r, ws ≠ [.a2a l r])
    (zs : List (Option Nat × α)) (ys : List α) :
    semWorkers ws zs ys ↔ ∃ zss wss, Split zs zss ∧ semEach ws zss wss ∧ Shuffle wss ys := by
  unfold semWorkers
  split
  · exact absurd rfl (h _ _)
  · rfl

end FF.Opt
