import Verif.Svector.Model
/-!
# C16: `svector` is a sequence

The specification is the operations on `List`.
-/
namespace FF.Svector
variable {A : Type}

/-! ## Specification -/

/-- The operations on a mathematical sequence; `none`: the caller breaks a precondition. -/
def spec (dflt : A) (l : List A) : Op A → Option (List A)
  | .pushBack a => some (l ++ [a])
  | .popBack => if l = [] then none else some l.dropLast
  | .resize n => some (l.take n ++ List.replicate (n - l.length) dflt)
  | .reserve _ => some l
  | .clear => some []
  | .erase i => if i < l.length then some (l.eraseIdx i) else none
  | .insertEnd a => some (l ++ [a])
  | .set i a => some (l.set i a)
  | .assign l' => some l'
  | .append l' => some (l ++ l')

/-- Histories. -/
def run {S O : Type} (f : S → O → Option S) : S → List O → Option S
  | s, [] => some s
  | s, o :: os => (f s o).bind fun s => run f s os

/-! ## Representation -/

/-- `v` holds the sequence `l`. -/
structure Rep (v : V A) (l : List A) (c : List (Option A)) : Prop where
  first : v.first = some c
  len : v.len = l.length
  cap : c.length = v.cap
  chunk : 0 < v.chunk
  data : ∀ i, i < l.length → c[i]? = some l[i]?
  fits : l.length ≤ v.cap

/-- Also allows the null block of a vector created with chunk 0. -/
def Holds (v : V A) (l : List A) : Prop :=
  (∃ c, Rep v l c) ∨ (v.first = none ∧ v.cap = 0 ∧ v.len = 0 ∧ l = [] ∧ 0 < v.chunk)

theorem Rep.reserve {v : V A} {l : List A} {c : List (Option A)} (h : Rep v l c) (n : Nat) :
    ∃ c', Rep (v.reserve n) l c' ∧ n ≤ (v.reserve n).cap ∧ (v.reserve n).len = v.len ∧
      v.cap ≤ (v.reserve n).cap := by
  unfold V.reserve
  split
  · rename_i hn
    exact ⟨c, h, hn, rfl, Nat.le_refl _⟩
  · rename_i hn
    have hc := h.cap
    rw [h.first]
    refine ⟨_, ⟨rfl, h.len, ?_, h.chunk, ?_, ?_⟩, Nat.le_refl _, rfl, by simp only; omega⟩
    · simp only [List.length_append, List.length_take, List.length_replicate]; omega
    · intro i hi
      have := h.fits
      rw [List.getElem?_append_left (by simp only [List.length_take]; omega), List.getElem?_take,
        if_pos (by omega)]
      exact h.data i hi
    · have := h.fits; simp only; omega

theorem Holds.reserve {v : V A} {l : List A} (h : Holds v l) (n : Nat) :
    Holds (v.reserve n) l ∧ n ≤ (v.reserve n).cap ∧ (v.reserve n).len = v.len := by
  rcases h with ⟨c, h⟩ | ⟨h1, h2, h3, h4, h5⟩
  · obtain ⟨c', h', hn, hl, -⟩ := h.reserve n
    exact ⟨Or.inl ⟨c', h'⟩, hn, hl⟩
  · unfold V.reserve
    split
    · rename_i hn
      exact ⟨Or.inr ⟨h1, h2, h3, h4, h5⟩, hn, rfl⟩
    · rw [h1]
      refine ⟨Or.inl ⟨_, ⟨rfl, ?_, ?_, h5, ?_, ?_⟩⟩, Nat.le_refl _, rfl⟩
      · simp [h3, h4]
      · simp
      · simp [h4]
      · simp [h4]

/-- Storing one more element when there is room. -/
theorem Rep.snoc {v : V A} {l : List A} {c : List (Option A)} (h : Rep v l c)
    (hroom : l.length < v.cap) (a : A) :
    ∃ v', (v.wr v.len (some a)).map (fun v => { v with len := v.len + 1 }) = some v' ∧
      Holds v' (l ++ [a]) ∧ v'.cap = v.cap ∧ v'.len = v.len + 1 := by
  have hlt : v.len < c.length := by rw [h.len, h.cap]; exact hroom
  refine ⟨{ v with first := some (c.set v.len (some a)), len := v.len + 1 },
    by simp [V.wr, h.first, hlt], Or.inl ⟨c.set v.len (some a), ⟨rfl, ?_, ?_, h.chunk, ?_, ?_⟩⟩,
    rfl, rfl⟩
  · simp [h.len]
  · simp [h.cap]
  · intro i hi
    simp only [List.length_append, List.length_cons, List.length_nil] at hi
    rw [List.getElem?_set]
    by_cases e : i = l.length
    · subst e
      simp [h.len, h.cap, hroom]
    · have : ¬ v.len = i := by rw [h.len]; omega
      rw [if_neg this, List.getElem?_append_left (by omega)]
      exact h.data i (by omega)
  · simp only [List.length_append, List.length_cons, List.length_nil]; omega

theorem Holds.pushBack {v : V A} {l : List A} (h : Holds v l) (a : A) :
    ∃ v', v.pushBack a = some v' ∧ Holds v' (l ++ [a]) := by
  have hchunk : 0 < v.chunk := by
    rcases h with ⟨c, h⟩ | h
    · exact h.chunk
    · exact h.2.2.2.2
  have hlen : v.len = l.length := by
    rcases h with ⟨c, h⟩ | ⟨_, _, h3, h4, _⟩
    · exact h.len
    · simp [h3, h4]
  have key : ∀ w : V A, Holds w l → l.length < w.cap →
      ∃ v', (w.wr w.len (some a)).map (fun v => { v with len := v.len + 1 }) = some v' ∧
        Holds v' (l ++ [a]) := by
    intro w hw hroom
    rcases hw with ⟨c, hw⟩ | ⟨_, h2, _⟩
    · obtain ⟨v', h1, h2, -⟩ := hw.snoc hroom a
      exact ⟨v', h1, h2⟩
    · omega
  unfold V.pushBack
  split
  · rename_i he
    obtain ⟨h1, h2, h3⟩ := h.reserve (v.cap + v.chunk)
    exact key _ h1 (by omega)
  · rename_i he
    refine key v h ?_
    rcases h with ⟨c, h⟩ | ⟨_, h2, h3, _⟩
    · have := h.fits; omega
    · omega

theorem Rep.popBack {v : V A} {l : List A} {c : List (Option A)} (h : Rep v l c) (hne : l ≠ []) :
    ∃ v', v.popBack = some v' ∧ Rep v' l.dropLast c ∧ v'.len = v.len - 1 := by
  have hpos : 0 < l.length := List.length_pos_iff.2 hne
  have hrd : v.rd (v.len - 1) = some (some l[l.length - 1]) := by
    rw [V.rd, h.first, h.len]
    simp only [Option.bind_some]
    rw [h.data _ (by omega), List.getElem?_eq_getElem (by omega)]
  refine ⟨{ v with len := v.len - 1 }, ?_, ⟨h.first, ?_, h.cap, h.chunk, ?_, ?_⟩, rfl⟩
  · simp only [V.popBack, hrd]
    rw [if_neg (by rw [h.len]; omega)]
  · simp [h.len]
  · intro i hi
    simp only [List.length_dropLast] at hi
    rw [List.getElem?_dropLast, if_pos (by omega)]
    exact h.data i (by omega)
  · have := h.fits; simp only [List.length_dropLast]; omega

theorem Rep.popTo {l : List A} {c : List (Option A)} (n : Nat) :
    ∀ (fuel : Nat) (v : V A) (l : List A), Rep v l c → l.length ≤ n + fuel →
      ∃ v', V.popTo n fuel v = some v' ∧ Rep v' (l.take n) c
  | 0, v, l, h, hf => ⟨v, rfl, by rw [List.take_of_length_le (by omega)]; exact h⟩
  | fuel + 1, v, l, h, hf => by
    rw [V.popTo]
    split
    · rename_i hgt
      rw [h.len] at hgt
      obtain ⟨v', h1, h2, -⟩ := h.popBack (by rintro rfl; simp at hgt)
      obtain ⟨v'', h3, h4⟩ := Rep.popTo (l := l) n fuel v' l.dropLast h2
        (by simp only [List.length_dropLast]; omega)
      refine ⟨v'', by rw [h1]; exact h3, ?_⟩
      rw [List.dropLast_eq_take, List.take_take, Nat.min_eq_left (by omega)] at h4
      exact h4
    · rename_i hle
      rw [h.len] at hle
      exact ⟨v, rfl, by rw [List.take_of_length_le (by omega)]; exact h⟩

theorem Holds.popTo {v : V A} {l : List A} (h : Holds v l) (n : Nat) :
    ∃ v', V.popTo n v.len v = some v' ∧ Holds v' (l.take n) := by
  rcases h with ⟨c, h⟩ | ⟨h1, h2, h3, h4, h5⟩
  · obtain ⟨v', a, b⟩ := Rep.popTo (l := l) n v.len v l h (by rw [h.len]; omega)
    exact ⟨v', a, Or.inl ⟨c, b⟩⟩
  · exact ⟨v, by rw [h3]; rfl, Or.inr ⟨h1, h2, h3, by simp [h4], h5⟩⟩

theorem growTo_spec (dflt : A) (n : Nat) :
    ∀ (fuel : Nat) (v : V A) (l : List A), Holds v l → n ≤ v.cap → n ≤ l.length + fuel →
      l.length ≤ n →
      ∃ v', V.growTo dflt n fuel v = some v' ∧
        Holds v' (l ++ List.replicate (n - l.length) dflt)
  | 0, v, l, h, _, hf, _ =>
    ⟨v, rfl, by rw [show n - l.length = 0 by omega]; simpa using h⟩
  | fuel + 1, v, l, h, hcap, hf, hle => by
    have hlen : v.len = l.length := by
      rcases h with ⟨c, h⟩ | ⟨_, _, h3, h4, _⟩
      · exact h.len
      · simp [h3, h4]
    rw [V.growTo]
    split
    · rename_i hlt
      rcases h with ⟨c, h⟩ | ⟨_, h2, _⟩
      · obtain ⟨v', h1, h2, h3, h4⟩ := h.snoc (by omega) dflt
        obtain ⟨v'', h5, h6⟩ := growTo_spec dflt n fuel v' _ h2 (by omega)
          (by simp only [List.length_append, List.length_cons, List.length_nil]; omega)
          (by simp only [List.length_append, List.length_cons, List.length_nil]; omega)
        refine ⟨v'', by rw [h1]; exact h5, ?_⟩
        rw [List.append_assoc] at h6
        rw [show n - l.length = (n - (l ++ [dflt]).length) + 1 by
          simp only [List.length_append, List.length_cons, List.length_nil]; omega,
          List.replicate_succ]
        exact h6
      · omega
    · rename_i hge
      exact ⟨v, rfl, by rw [show n - l.length = 0 by omega]; simpa using h⟩

theorem Holds.pushAll {v : V A} {l : List A} (h : Holds v l) (l' : List A) :
    ∃ v', v.pushAll l' = some v' ∧ Holds v' (l ++ l') := by
  induction l' generalizing v l with
  | nil => exact ⟨v, rfl, by simpa using h⟩
  | cons a l' ih =>
    obtain ⟨v1, h1, h2⟩ := h.pushBack a
    obtain ⟨v2, h3, h4⟩ := ih h2
    exact ⟨v2, by simp [V.pushAll, h1, h3], by simpa using h4⟩

theorem Rep.len_eq {v : V A} {l : List A} (h : Holds v l) : v.len = l.length := by
  rcases h with ⟨c, h⟩ | ⟨_, _, h3, h4, _⟩
  · exact h.len
  · simp [h3, h4]

/-- Shifting cells down by one from position `i` on (the loop of `erase`). -/
theorem moves_down (v : V A) (c : List (Option A)) (hf : v.first = some c) (i : Nat) :
    ∀ m, i + m < c.length →
      ∃ c', V.moves v ((List.range m).map fun k => (i + k, i + k + 1)) =
          some { v with first := some c' } ∧ c'.length = c.length ∧
        ∀ j, c'[j]? = if i ≤ j ∧ j < i + m then c[j + 1]? else c[j]? := by
  intro m
  have gen : ∀ (m : Nat) (v : V A) (c : List (Option A)) (i : Nat), v.first = some c →
      i + m < c.length →
      ∃ c', V.moves v ((List.range m).map fun k => (i + k, i + k + 1)) =
          some { v with first := some c' } ∧ c'.length = c.length ∧
        ∀ j, c'[j]? = if i ≤ j ∧ j < i + m then c[j + 1]? else c[j]? := by
    intro m
    induction m with
    | zero =>
      intro v c i hf _
      refine ⟨c, ?_, rfl, ?_⟩
      · simp only [List.range_zero, List.map_nil, V.moves]; rw [← hf]
      · intro j; rw [if_neg (by omega)]
    | succ m ih =>
      intro v c i hf hlt
      rw [List.range_succ_eq_map, List.map_cons, List.map_map]
      have h1 : v.rd (i + 0 + 1) = some c[i + 1] := by
        simp only [V.rd, hf, Option.bind_some, Nat.add_zero]
        exact List.getElem?_eq_getElem (by omega)
      have h2 : v.wr (i + 0) c[i + 1] = some { v with first := some (c.set i c[i + 1]) } := by
        simp only [V.wr, hf, Nat.add_zero]
        rw [if_pos (by omega)]
      have hfun : ((fun k => (i + k, i + k + 1)) ∘ Nat.succ) = fun k => (i + 1 + k, i + 1 + k + 1) := by
        funext k; simp only [Function.comp, Nat.succ_eq_add_one]; congr 1 <;> omega
      obtain ⟨c', h3, h4, h5⟩ := ih { v with first := some (c.set i c[i + 1]) }
        (c.set i c[i + 1]) (i + 1) rfl (by simp only [List.length_set]; omega)
      refine ⟨c', ?_, by rw [h4, List.length_set], ?_⟩
      · rw [V.moves, h1]
        simp only [h2, Option.bind_some, hfun]
        exact h3
      · intro j
        rw [h5 j]
        by_cases hj : i + 1 ≤ j ∧ j < i + 1 + m
        · rw [if_pos hj, if_pos (by omega), List.getElem?_set, if_neg (by omega)]
        · rw [if_neg hj, List.getElem?_set]
          by_cases e : i = j
          · subst e
            rw [if_pos rfl, if_pos (by omega), if_pos (by omega),
              List.getElem?_eq_getElem (show i + 1 < c.length by omega)]
          · rw [if_neg e, if_neg (by omega)]
  exact gen m v c i hf

theorem Rep.erase {v : V A} {l : List A} {c : List (Option A)} (h : Rep v l c) {i : Nat}
    (hi : i < l.length) : ∃ v', v.erase i = some v' ∧ Holds v' (l.eraseIdx i) := by
  have hfit := h.fits
  have hcap := h.cap
  obtain ⟨c', h1, h2, h3⟩ := moves_down { v with len := v.len - 1 } c h.first i
    (l.length - 1 - i) (by omega)
  refine ⟨{ v with len := v.len - 1, first := some c' }, ?_,
    Or.inl ⟨c', ⟨rfl, ?_, ?_, h.chunk, ?_, ?_⟩⟩⟩
  · rw [V.erase, if_pos (by rw [h.len]; exact hi), h.len]
    rw [h.len] at h1
    exact h1
  · simp only [List.length_eraseIdx, if_pos hi]
    simp [h.len]
  · rw [h2]; exact h.cap
  · intro j hj
    rw [List.length_eraseIdx, if_pos hi] at hj
    rw [h3, List.getElem?_eraseIdx]
    by_cases hlt : j < i
    · rw [if_neg (by omega), if_pos hlt]; exact h.data j (by omega)
    · rw [if_pos (by omega), if_neg hlt]; exact h.data (j + 1) (by omega)
  · rw [List.length_eraseIdx, if_pos hi]; simp only; omega

theorem Holds.set {v : V A} {l : List A} (h : Holds v l) (i : Nat) (a : A) :
    ∃ v', v.set i a = some v' ∧ Holds v' (l.set i a) := by
  obtain ⟨h1, h2, h3⟩ := h.reserve (i + 1)
  rcases h1 with ⟨c, h1⟩ | ⟨_, h4, _⟩
  · have hc := h1.cap
    refine ⟨{ v.reserve (i + 1) with first := some (c.set i (some a)) }, ?_,
      Or.inl ⟨c.set i (some a), ⟨rfl, ?_, ?_, h1.chunk, ?_, ?_⟩⟩⟩
    · simp only [V.set, V.wr, h1.first]
      rw [if_pos (by omega)]
    · simp [h1.len]
    · simp [hc]
    · intro j hj
      simp only [List.length_set] at hj
      rw [List.getElem?_set, List.getElem?_set]
      by_cases e : i = j
      · subst e
        simp [hj, hc]; omega
      · rw [if_neg e, if_neg e]; exact h1.data j hj
    · simpa using h1.fits
  · omega

theorem mk0_holds (chunk : Nat) : Holds (V.mk0 chunk : V A) [] := by
  have h0 : Holds ({ first := none, len := 0, cap := 0, chunk := if chunk = 0 then 1 else chunk } : V A)
      [] := Or.inr ⟨rfl, rfl, rfl, rfl, by simp only; split <;> omega⟩
  exact (h0.reserve chunk).1

theorem Holds.step (dflt : A) {v : V A} {l l' : List A} (h : Holds v l) (o : Op A)
    (hs : spec dflt l o = some l') : ∃ v', step dflt v o = some v' ∧ Holds v' l' := by
  cases o with
  | pushBack a => simp only [spec, Option.some.injEq] at hs; subst hs; exact h.pushBack a
  | popBack =>
    simp only [spec] at hs
    split at hs <;> simp only [Option.some.injEq, reduceCtorEq] at hs
    rename_i hne
    subst hs
    rcases h with ⟨c, h⟩ | ⟨_, _, _, h4, _⟩
    · obtain ⟨v', h1, h2, -⟩ := h.popBack hne
      exact ⟨v', h1, Or.inl ⟨c, h2⟩⟩
    · exact absurd h4 hne
  | resize n =>
    simp only [spec, Option.some.injEq] at hs; subst hs
    have hlen := Rep.len_eq h
    simp only [FF.Svector.step, V.resize]
    split
    · obtain ⟨v', h1, h2⟩ := h.popTo n
      refine ⟨v', h1, ?_⟩
      rw [show n - l.length = 0 by omega]; simpa using h2
    · obtain ⟨h1, h2, h3⟩ := h.reserve n
      obtain ⟨v', h4, h5⟩ := growTo_spec dflt n n _ l h1 h2 (by omega) (by omega)
      exact ⟨v', h4, by rw [List.take_of_length_le (by omega)]; exact h5⟩
  | reserve n =>
    simp only [spec, Option.some.injEq] at hs; subst hs
    exact ⟨_, rfl, (h.reserve n).1⟩
  | clear =>
    simp only [spec, Option.some.injEq] at hs; subst hs
    simpa [FF.Svector.step, V.clear] using h.popTo 0
  | erase i =>
    simp only [spec] at hs
    split at hs <;> simp only [Option.some.injEq, reduceCtorEq] at hs
    rename_i hi
    subst hs
    rcases h with ⟨c, h⟩ | ⟨_, _, _, h4, _⟩
    · exact h.erase hi
    · subst h4; simp at hi
  | insertEnd a =>
    simp only [spec, Option.some.injEq] at hs; subst hs
    simpa [FF.Svector.step, V.insert] using h.pushBack a
  | set i a => simp only [spec, Option.some.injEq] at hs; subst hs; exact h.set i a
  | assign l' =>
    simp only [spec, Option.some.injEq] at hs; subst hs
    obtain ⟨v1, h1, h2⟩ := h.popTo 0
    obtain ⟨v2, h3, h4⟩ := h2.pushAll l'
    exact ⟨v2, by simp [FF.Svector.step, V.assign, V.clear, h1, h3], by simpa using h4⟩
  | append l' =>
    simp only [spec, Option.some.injEq] at hs; subst hs
    exact h.pushAll l'

/-! ## The property -/

/-- What the client can observe: size, every element, first and last. -/
structure Same (v : V A) (l : List A) : Prop where
  size : v.len = l.length
  get : ∀ i, i < l.length → v.get i = l[i]?
  front : l ≠ [] → v.front = l.head?
  back : l ≠ [] → v.back = l.getLast?

theorem Holds.same {v : V A} {l : List A} (h : Holds v l) : Same v l := by
  rcases h with ⟨c, h⟩ | ⟨_, _, h3, h4, _⟩
  · have hget : ∀ i, i < l.length → v.get i = l[i]? := by
      intro i hi
      simp only [V.get, V.rd, h.first, Option.bind_some]
      rw [h.data i hi]; rfl
    refine ⟨h.len, hget, ?_, ?_⟩
    · intro hne
      have hpos := List.length_pos_iff.2 hne
      rw [V.front, if_neg (by rw [h.len]; omega), List.head?_eq_getElem?]
      exact hget 0 hpos
    · intro hne
      have hpos := List.length_pos_iff.2 hne
      rw [V.back, if_neg (by rw [h.len]; omega), List.getLast?_eq_getElem?, h.len]
      exact hget _ (by omega)
  · subst h4
    exact ⟨h3, by simp, by simp, by simp⟩

/-- **C16 (all operations except `insert` before the end)**: for every chunk and every history that
respects the preconditions of the sequence operations, the calls never leave the allocated block and
the vector shows exactly the sequence. -/
theorem C16_sequence_partial (dflt : A) (chunk : Nat) (ops : List (Op A)) (l : List A)
    (hl : run (spec dflt) [] ops = some l) :
    ∃ v, run (step dflt) (V.mk0 chunk) ops = some v ∧ Same v l := by
  have gen : ∀ (ops : List (Op A)) (v : V A) (l0 l : List A), Holds v l0 →
      run (spec dflt) l0 ops = some l → ∃ v', run (step dflt) v ops = some v' ∧ Holds v' l := by
    intro ops
    induction ops with
    | nil =>
      intro v l0 l h hl
      simp only [run, Option.some.injEq] at hl
      exact ⟨v, rfl, hl ▸ h⟩
    | cons o ops ih =>
      intro v l0 l h hl
      simp only [run] at hl
      cases hs : spec dflt l0 o with
      | none => rw [hs] at hl; simp at hl
      | some l1 =>
        rw [hs] at hl
        obtain ⟨v1, h1, h2⟩ := h.step dflt o hs
        obtain ⟨v2, h3, h4⟩ := ih v1 l1 l h2 hl
        exact ⟨v2, by simp [run, h1, h3], h4⟩
  obtain ⟨v, h1, h2⟩ := gen ops (V.mk0 chunk) [] l (mk0_holds chunk) hl
  exact ⟨v, h1, h2.same⟩

/-- **C16, copy construction** gives a vector with the same elements, usable like any other. -/
theorem C16_copy (l : List A) (ch : Nat) (hch : 0 < ch) :
    ∃ v, V.copyOf l ch = some v ∧ Holds v l ∧ Same v l := by
  unfold V.copyOf
  split
  · rename_i he
    subst he
    have h0 : Holds ({ first := none, len := 0, cap := 0, chunk := ch } : V A) [] :=
      Or.inr ⟨rfl, rfl, rfl, rfl, hch⟩
    exact ⟨_, rfl, (h0.reserve ch).1, (h0.reserve ch).1.same⟩
  · rename_i he
    cases l with
    | nil => exact absurd rfl he
    | cons a l =>
      -- the first push reserves `ch` cells, keeping the block allocated before
      have hres : ∃ v1, V.pushBack (V.mk (some (List.replicate (a :: l).length none)) 0 0 ch) a =
          some v1 ∧ Holds v1 [a] := by
        simp only [V.pushBack, if_true, Nat.zero_add, V.reserve, Nat.le_zero_eq]
        rw [if_neg (by omega)]
        simp only
        have hr : Rep (V.mk (some (List.take ch (List.replicate (a :: l).length (none : Option A)) ++
            List.replicate (ch - (List.replicate (a :: l).length (none : Option A)).length) none))
            0 ch ch) ([] : List A) _ :=
          ⟨rfl, rfl, by simp only [List.length_append, List.length_take, List.length_replicate]; omega,
            hch, by simp, by simp⟩
        obtain ⟨v', h1, h2, -⟩ := hr.snoc (by simpa using hch) a
        exact ⟨v', h1, h2⟩
      obtain ⟨v1, h1, h2⟩ := hres
      obtain ⟨v2, h3, h4⟩ := h2.pushAll l
      exact ⟨v2, by simp only [V.pushAll, h1, Option.bind_some, h3], h4, h4.same⟩

/-- Shifting cells up by one (the loop of `insert`): from the old end down to `i`. -/
theorem moves_up (i : Nat) :
    ∀ (m : Nat) (v : V A) (c : List (Option A)), v.first = some c → i + m + 1 < c.length →
      ∃ c', V.moves v ((List.range (m + 1)).map fun k => (i + m + 1 - k, i + m - k)) =
          some { v with first := some c' } ∧ c'.length = c.length ∧
        ∀ j, c'[j]? = if i + 1 ≤ j ∧ j ≤ i + m + 1 then c[j - 1]? else c[j]? := by
  intro m
  induction m with
  | zero =>
    intro v c hf hlt
    have h1 : v.rd i = some c[i] := by
      simp only [V.rd, hf, Option.bind_some]
      exact List.getElem?_eq_getElem (by omega)
    refine ⟨c.set (i + 1) c[i], ?_, by simp, ?_⟩
    · simp only [List.range_succ_eq_map, List.range_zero, List.map_nil, List.map_cons, V.moves,
        Nat.add_zero, Nat.sub_zero, h1, V.wr, hf]
      rw [if_pos (by omega)]; rfl
    · intro j
      rw [List.getElem?_set]
      by_cases e : i + 1 = j
      · subst e
        rw [if_pos rfl, if_pos (by omega), if_pos (by omega)]
        simp [List.getElem?_eq_getElem (show i < c.length by omega)]
      · rw [if_neg e, if_neg (by omega)]
  | succ m ih =>
    intro v c hf hlt
    rw [List.range_succ_eq_map, List.map_cons, List.map_map]
    have h1 : v.rd (i + (m + 1) - 0) = some c[i + m + 1] := by
      simp only [V.rd, hf, Option.bind_some, Nat.sub_zero]
      exact List.getElem?_eq_getElem (by omega)
    have h2 : v.wr (i + (m + 1) + 1 - 0) c[i + m + 1] =
        some { v with first := some (c.set (i + m + 2) c[i + m + 1]) } := by
      simp only [V.wr, hf, Nat.sub_zero]
      rw [if_pos (by omega)]; rfl
    have hfun : ((fun k => (i + (m + 1) + 1 - k, i + (m + 1) - k)) ∘ Nat.succ) =
        fun k => (i + m + 1 - k, i + m - k) := by
      funext k; simp only [Function.comp, Nat.succ_eq_add_one]; congr 1 <;> omega
    obtain ⟨c', h3, h4, h5⟩ := ih { v with first := some (c.set (i + m + 2) c[i + m + 1]) }
      (c.set (i + m + 2) c[i + m + 1]) rfl (by simp only [List.length_set]; omega)
    refine ⟨c', ?_, by rw [h4, List.length_set], ?_⟩
    · rw [V.moves, h1]
      simp only [h2, Option.bind_some, hfun]
      exact h3
    · intro j
      rw [h5 j]
      by_cases hj : i + 1 ≤ j ∧ j ≤ i + m + 1
      · rw [if_pos hj, if_pos (by omega), List.getElem?_set, if_neg (by omega)]
      · rw [if_neg hj, List.getElem?_set]
        by_cases e : i + m + 2 = j
        · subst e
          rw [if_pos rfl, if_pos (by omega), if_pos (by omega),
            show i + m + 2 - 1 = i + m + 1 by omega,
            List.getElem?_eq_getElem (show i + m + 1 < c.length by omega)]
        · rw [if_neg e, if_neg (by omega)]

/-- **C16, `insert` before the end, partial**: correct when at least two cells are free. -/
theorem C16_insert_partial (v : V A) (l : List A) (h : Holds v l) (i : Nat) (hi : i < l.length)
    (a : A) (hroom : l.length + 2 ≤ v.cap) (mv : Bool) :
    ∃ v', v.insert i a mv = some v' ∧ Holds v' (l.insertIdx i a) := by
  rcases h with ⟨c, h⟩ | ⟨_, h2, _⟩
  · have hlen := h.len
    have hcap := h.cap
    obtain ⟨c', h1, h2, h3⟩ := moves_up i (l.length - i)
      { v with len := v.len + 1 } c h.first (by omega)
    have e1 : i + (l.length - i) = l.length := by omega
    rw [e1] at h1
    have hlt : i < c'.length := by omega
    refine ⟨{ v with len := v.len + 1, first := some (c'.set i (some a)) }, ?_,
      Or.inl ⟨_, ⟨rfl, ?_, ?_, h.chunk, ?_, ?_⟩⟩⟩
    · unfold V.insert
      rw [if_neg (by omega), if_pos (by omega)]
      have hg : decide (v.len + 1 = v.cap) = false := by simp; omega
      simp only [hg, Bool.false_eq_true, if_false, false_and]
      rw [hlen]
      rw [hlen] at h1
      rw [show l.length + 1 - i = l.length - i + 1 by omega, h1]
      simp [V.wr, hlt]
    · rw [List.length_insertIdx_of_le_length (by omega)]; simp [hlen]
    · simp [h2, hcap]
    · intro j hj
      rw [List.length_insertIdx_of_le_length (by omega)] at hj
      rw [List.getElem?_set, List.getElem?_insertIdx]
      by_cases hji : j < i
      · rw [if_neg (by omega), if_pos hji, h3, if_neg (by omega)]
        exact h.data j (by omega)
      · by_cases e : j = i
        · subst e
          rw [if_pos rfl, if_pos hlt, if_neg (by omega), if_pos rfl, if_pos (by omega)]
        · rw [if_neg (by omega), h3, if_pos (by omega), if_neg hji, if_neg e]
          exact h.data (j - 1) (by omega)
    · rw [List.length_insertIdx_of_le_length (by omega)]; simp only; omega
  · omega

/-- **Finding**: `insert` before the end of a full vector writes outside the block (whether or not
`realloc` would move it); with one free cell it uses iterators into a block that may have moved. -/
theorem C16_insert_counterexample :
    (∃ v : V Nat, run (step 0) (V.mk0 2) [.pushBack 1, .pushBack 2] = some v ∧
      v.insert 0 9 false = none ∧ v.insert 0 9 true = none) ∧
    (∃ v : V Nat, run (step 0) (V.mk0 3) [.pushBack 1, .pushBack 2] = some v ∧
      v.insert 0 9 true = none) := by
  refine ⟨⟨_, rfl, ?_⟩, ⟨_, rfl, ?_⟩⟩ <;> decide

/-- **Finding**: `push_back` of an element of the vector itself is undefined when the vector is full
and the block moves. -/
theorem C16_self_push_counterexample :
    ∃ v : V Nat, run (step 0) (V.mk0 1) [.pushBack 1] = some v ∧ v.pushBackSelf 0 true = none := by
  refine ⟨_, rfl, ?_⟩; decide

/-- **Finding**: a vector that has been moved from still reports its old size, and clearing or
pushing into it is undefined. -/
theorem C16_moved_from_counterexample :
    ∃ v : V Nat, run (step 0) (V.mk0 4) [.pushBack 1] = some v ∧
      v.movedFrom.len = 1 ∧ v.movedFrom.clear = none ∧ v.movedFrom.pushBack 5 = none := by
  refine ⟨_, rfl, ?_⟩; decide

/-! ## Non-vacuity -/
def demo : List (Op Nat) :=
  [.pushBack 1, .pushBack 2, .pushBack 3, .erase 0, .set 0 7, .resize 4, .append [5], .popBack,
   .insertEnd 8]
example : run (spec 0) [] demo = some [7, 3, 0, 0, 8] := by decide
example : (run (step 0) (V.mk0 2) demo).map (fun v => ((List.range v.len).map v.get, v.cap)) =
    some ([some 7, some 3, some 0, some 0, some 8], 6) := by decide
example : ∃ v : V Nat, run (step 0) (V.mk0 4) [.pushBack 1, .pushBack 2] = some v ∧ 2 + 2 ≤ v.cap ∧
    (v.insert 0 9 true).map (fun v => (List.range v.len).map v.get) = some [some 9, some 1, some 2] :=
  ⟨_, rfl, by decide, by decide⟩

end FF.Svector
