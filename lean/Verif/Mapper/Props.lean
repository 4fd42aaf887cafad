import Verif.Mapper.Model
/-!
# C40: thread mapping
-/
namespace FF.Mapper
open FF.Pow2

/-! ## Padding -/

/-- `L` repeats `l`. -/
def Rep (l L : List Nat) : Prop := ∀ i, i < L.length → L[i]? = l[i % l.length]?

theorem pad_rep {l : List Nat} (hl : l ≠ []) : ∀ (k j : Nat) (L : List Nat), Rep l L →
    L.length = l.length + j → Rep l (pad L k j) ∧ (pad L k j).length = l.length + j + k
  | 0, j, L, h, hL => ⟨h, hL⟩
  | k + 1, j, L, h, hL => by
    have hp : 0 < l.length := List.length_pos_iff.2 hl
    have hj : j < L.length := by omega
    have hR : Rep l (L ++ [L.getD j 0]) := by
      intro i hi
      rw [List.length_append, List.length_singleton] at hi
      by_cases e : i < L.length
      · rw [List.getElem?_append_left e]; exact h i e
      · obtain rfl : i = L.length := by omega
        rw [List.getElem?_append_right (Nat.le_refl _), Nat.sub_self, hL, Nat.add_mod_left,
          ← h j hj, List.getElem?_cons_zero, List.getElem?_eq_getElem hj,
          List.getD_eq_getElem?_getD, List.getElem?_eq_getElem hj, Option.getD_some]
    have := pad_rep hl k (j + 1) (L ++ [L.getD j 0]) hR (by
      rw [List.length_append, List.length_singleton, hL]; omega)
    rw [pad]
    exact ⟨this.1, by rw [this.2]; omega⟩

theorem roundUp_spec {n : Nat} (h0 : 0 < n) (h : n < 2 ^ 32) :
    ∃ k, roundUp n = some (2 ^ k) ∧ n ≤ 2 ^ k ∧ ∀ j, n ≤ 2 ^ j → 2 ^ k ≤ 2 ^ j := by
  unfold roundUp
  by_cases hp : isPowerOf2 n = true
  · rw [if_pos hp]
    obtain ⟨k, rfl⟩ := (C41_isPowerOf2 n).1 hp
    exact ⟨k, rfl, Nat.le_refl _, fun j h => h⟩
  · rw [if_neg hp]
    have hl : isPowerOf2Long n = false := by
      unfold isPowerOf2Long
      rw [show U32 = 2 ^ 32 from rfl, Nat.mod_eq_of_lt h]
      simpa using hp
    obtain ⟨r, h1, ⟨k, rfl⟩, h2, h3⟩ := C41_nextPowerOf2 n (by omega) hl
    rw [h1]
    exact ⟨k, rfl, h2, h3⟩

/-! ## The invariant and what the calls return -/

/-- The object holds the list `l` of the user (or of the constructor). -/
structure Holds (s : S) (l : List Nat) : Prop where
  ne : l ≠ []
  size : ∃ k, s.mask + 1 = 2 ^ k ∧ s.clist.length = 2 ^ k ∧ l.length ≤ 2 ^ k ∧
    ∀ j, l.length ≤ 2 ^ j → 2 ^ k ≤ 2 ^ j
  rep : Rep l s.clist
  rr : s.rrcnt < s.clist.length
  num : ∀ c ∈ l, c < s.num

theorem install_holds {s : S} {l : List Nat} (hl : l ≠ []) (hlen : l.length < 2 ^ 32)
    (hc : ∀ c ∈ l, c < s.num) : ∃ s', s.install l = some s' ∧ Holds s' l ∧ s'.rrcnt = 0 ∧
      s'.num = s.num := by
  have hp : 0 < l.length := List.length_pos_iff.2 hl
  obtain ⟨k, h1, h2, h3⟩ := roundUp_spec hp hlen
  have hk : 0 < 2 ^ k := Nat.two_pow_pos k
  obtain ⟨hr, hn⟩ := pad_rep hl (2 ^ k - l.length) 0 l
    (fun i hi => by rw [Nat.mod_eq_of_lt hi]) rfl
  have hn : (pad l (2 ^ k - l.length) 0).length = 2 ^ k := by rw [hn]; omega
  have hi : s.install l = some { s with rrcnt := 0, mask := 2 ^ k - 1, clist := pad l (2 ^ k - l.length) 0 } := by
    rw [S.install, h1]; rfl
  refine ⟨_, hi, ⟨hl, ⟨k, by dsimp only; omega, hn, h2, h3⟩, hr, ?_, hc⟩, rfl, rfl⟩
  dsimp only
  omega

/-- The list is what the user sees: a call with a thread number. -/
theorem core_eq {s : S} {l : List Nat} (H : Holds s l) (tid : Nat) :
    ∃ k, l.length ≤ 2 ^ k ∧ (∀ j, l.length ≤ 2 ^ j → 2 ^ k ≤ 2 ^ j) ∧
      s.core tid = l[tid % 2 ^ k % l.length]? := by
  obtain ⟨k, h1, h2, h3, h4⟩ := H.size
  refine ⟨k, h3, h4, ?_⟩
  have hm : s.mask = 2 ^ k - 1 := by omega
  unfold S.core
  rw [hm, Nat.and_two_pow_sub_one_eq_mod]
  exact H.rep _ (by rw [h2]; exact Nat.mod_lt _ (Nat.two_pow_pos k))

theorem getElem_mod {l : List Nat} (hl : l ≠ []) (i : Nat) :
    ∃ c, l[i % l.length]? = some c ∧ c ∈ l := by
  have hp : 0 < l.length := List.length_pos_iff.2 hl
  have := Nat.mod_lt i hp
  exact ⟨l[i % l.length], List.getElem?_eq_getElem this, List.getElem_mem this⟩

/-- **C40**: a call with any thread number gives an element of the list; it is a core of the
machine. -/
theorem C40_core_member {s : S} {l : List Nat} (H : Holds s l) (tid : Nat) :
    ∃ c, s.core tid = some c ∧ c ∈ l ∧ c < s.num := by
  obtain ⟨k, _, _, h⟩ := core_eq H tid
  obtain ⟨c, h1, h2⟩ := getElem_mod H.ne (tid % 2 ^ k)
  exact ⟨c, by rw [h, h1], h2, H.num c h2⟩

/-- **C40**: thread `i` is mapped to `l[i]` for the first threads. -/
theorem C40_core_first {s : S} {l : List Nat} (H : Holds s l) {i : Nat} (hi : i < l.length) :
    s.core i = some l[i] := by
  obtain ⟨k, h1, _, h⟩ := core_eq H i
  rw [h, Nat.mod_eq_of_lt (show i < 2 ^ k by omega), Nat.mod_eq_of_lt hi]
  exact List.getElem?_eq_getElem hi

/-- **C40**: when the length of the list is a power of two, threads are mapped to the list
cyclically. -/
theorem C40_core_cyclic_partial {s : S} {l : List Nat} (H : Holds s l) {e : Nat}
    (he : l.length = 2 ^ e) (i : Nat) : s.core i = l[i % l.length]? := by
  obtain ⟨k, h1, h2, h⟩ := core_eq H i
  have := h2 e (by omega)
  have hk : 2 ^ k = l.length := by omega
  rw [h, hk, Nat.mod_mod]

/-- `n` calls of `getCoreId()`. -/
def S.nexts : Nat → S → Option (List Nat × S)
  | 0, s => some ([], s)
  | n + 1, s =>
    match s.next with
    | some (c, s') => (S.nexts n s').map fun (cs, s'') => (c :: cs, s'')
    | none => none

theorem next_holds {s : S} {l : List Nat} (H : Holds s l) :
    ∃ c s', s.next = some (c, s') ∧ Holds s' l ∧ s'.mask = s.mask ∧ s.core s.rrcnt = some c ∧
      s'.rrcnt = (s.rrcnt + 1) % (s.mask + 1) ∧ s'.clist = s.clist := by
  obtain ⟨k, h1, h2, h3, h4⟩ := H.size
  have hm : s.mask = 2 ^ k - 1 := by omega
  have hr := H.rr
  have hlt := Nat.mod_lt (s.rrcnt + 1) (Nat.two_pow_pos k)
  refine ⟨s.clist[s.rrcnt], { s with rrcnt := (s.rrcnt + 1) &&& s.mask }, ?_, ?_, rfl, ?_, ?_, rfl⟩
  · unfold S.next; rw [List.getElem?_eq_getElem hr]
  · refine ⟨H.ne, ⟨k, h1, h2, h3, h4⟩, H.rep, ?_, H.num⟩
    dsimp only
    rw [hm, Nat.and_two_pow_sub_one_eq_mod, h2]
    exact hlt
  · unfold S.core
    rw [hm, Nat.and_two_pow_sub_one_eq_mod, Nat.mod_eq_of_lt (by omega), List.getElem?_eq_getElem hr]
  · dsimp only
    rw [h1, hm, Nat.and_two_pow_sub_one_eq_mod]

/-- **C40**: the `n`-th call of `getCoreId()` gives the core of thread `n`: the round-robin is cyclic
over the (padded) list. -/
theorem C40_round_robin {s : S} {l : List Nat} (H : Holds s l) (n : Nat) :
    ∃ cs s', s.nexts n = some (cs, s') ∧ Holds s' l ∧ cs.length = n ∧
      ∀ i, i < n → cs[i]? = s.core (s.rrcnt + i) := by
  induction n generalizing s with
  | zero => exact ⟨[], s, rfl, H, rfl, fun i h => absurd h (by omega)⟩
  | succ n ih =>
    obtain ⟨c, s', h1, h2, h3, h4, h5, h6⟩ := next_holds H
    obtain ⟨cs, s'', g1, g2, g3, g4⟩ := ih h2
    refine ⟨c :: cs, s'', by simp [S.nexts, h1, g1], g2, by simp [g3], ?_⟩
    intro i hi
    cases i with
    | zero => simpa using h4.symm
    | succ i =>
      rw [List.getElem?_cons_succ, g4 i (by omega)]
      obtain ⟨k, k1, k2, _⟩ := H.size
      have hm : s.mask = 2 ^ k - 1 := by omega
      unfold S.core
      rw [h3, h5, h6, hm, Nat.and_two_pow_sub_one_eq_mod, Nat.and_two_pow_sub_one_eq_mod,
        show 2 ^ k - 1 + 1 = 2 ^ k by have := Nat.two_pow_pos k; omega, Nat.mod_add_mod]
      congr 2
      omega

/-! ## The calls that change the list -/

/-- **C40**: after the constructor the list is `0 .. nc-1`.  Missing: more than 512 cores and not a
power of two. -/
theorem C40_new_partial {nc : Nat} (h0 : 0 < nc) (h : nc < 2 ^ 32)
    (h512 : nc ≤ 512 ∨ ∃ k, nc = 2 ^ k) :
    ∃ s, S.new nc = some s ∧ Holds s (List.range nc) ∧ s.rrcnt = 0 ∧ s.num = nc := by
  unfold S.new
  rw [if_neg (by
    rintro ⟨a, b⟩
    rcases h512 with h | h
    · omega
    · rw [(C41_isPowerOf2 nc).2 h] at b; cases b)]
  refine install_holds ?_ (by simpa using h) ?_
  · intro e
    have := congrArg List.length e
    simp at this
    omega
  · intro c hc; simpa using hc

/-- **C40**: `setMappingList(vector)` takes a list of existing cores that is not longer than the
current (padded) list; otherwise the old list stays. -/
theorem C40_set_vector {s : S} {l v : List Nat} (H : Holds s l) (hlen : s.mask + 1 < 2 ^ 32) :
    ∃ s' b, s.setVec v = some (s', b) ∧ s'.num = s.num ∧
      (b = true → Holds s' v ∧ s'.rrcnt = 0) ∧ (b = false → Holds s' l) ∧
      (b = true ↔ v ≠ [] ∧ v.length ≤ s.mask + 1 ∧ ∀ c ∈ v, c < s.num) := by
  have hpos : 0 < s.num := by
    obtain ⟨c, h1, h2⟩ := getElem_mod H.ne 0
    have := H.num c h2
    omega
  have H0 : Holds { s with rrcnt := 0 } l := by
    refine ⟨H.ne, H.size, H.rep, ?_, H.num⟩
    have := H.rr
    dsimp only
    omega
  unfold S.setVec
  by_cases h1 : v.length > s.mask + 1 ∨ v.length = 0
  · rw [if_pos h1]
    refine ⟨_, false, rfl, rfl, by simp, fun _ => H0, by simp, ?_⟩
    rintro ⟨a, b, _⟩
    rcases h1 with h1 | h1
    · omega
    · exact absurd (List.eq_nil_of_length_eq_zero h1) a
  · rw [if_neg h1]
    by_cases h2 : (v.any fun c => decide (c > s.num - 1)) = true
    · rw [if_pos h2]
      refine ⟨_, false, rfl, rfl, by simp, fun _ => H0, by simp, ?_⟩
      rintro ⟨_, _, b⟩
      simp only [List.any_eq_true, decide_eq_true_eq] at h2
      obtain ⟨c, hc, hc'⟩ := h2
      have := b c hc
      omega
    · rw [if_neg h2]
      have hv : v ≠ [] := by rintro rfl; simp at h1
      have hc : ∀ c ∈ v, c < s.num := by
        intro c hc
        simp only [List.any_eq_true, decide_eq_true_eq, not_exists, not_and] at h2
        have := h2 c hc
        omega
      obtain ⟨s', g1, g2, g3, g4⟩ := install_holds (s := s) hv (by omega) hc
      exact ⟨s', true, by rw [g1]; rfl, g4, fun _ => ⟨g2, g3⟩, by simp, fun _ => ⟨hv, by omega, hc⟩, fun _ => rfl⟩

/-! ## The mapping string -/

def digitChar (d : Nat) : Char := Char.ofNat ('0'.toNat + d)

theorem digitVal_char {d : Nat} (h : d < 10) : digitVal (digitChar d) = d := by
  have : d = 0 ∨ d = 1 ∨ d = 2 ∨ d = 3 ∨ d = 4 ∨ d = 5 ∨ d = 6 ∨ d = 7 ∨ d = 8 ∨ d = 9 := by omega
  rcases this with rfl | rfl | rfl | rfl | rfl | rfl | rfl | rfl | rfl | rfl <;> rfl

/-- Decimal notation. -/
def dec (n : Nat) : List Char :=
  if n < 10 then [digitChar n] else dec (n / 10) ++ [digitChar (n % 10)]
termination_by n
decreasing_by omega

/-- A character that is neither a digit nor a letter. -/
theorem sep_val {c : Char} (h : isSep c = true) : digitVal c = 99 ∧ c ≠ 'x' ∧ c ≠ 'X' ∧ isSpace c ∨
    digitVal c = 99 ∧ c = ',' := by
  unfold isSep at h
  simp only [Bool.or_eq_true, beq_iff_eq] at h
  rcases h with (rfl | rfl) | rfl
  · left; decide
  · left; decide
  · right; decide

theorem digits_stop {base acc n : Nat} {rest : List Char} (hb : base ≤ 16)
    (h : rest = [] ∨ ∃ c cs, rest = c :: cs ∧ isSep c = true) :
    digits base rest acc n = (acc, n, rest) := by
  rcases h with rfl | ⟨c, cs, rfl, hc⟩
  · rfl
  · rw [digits, if_neg]
    rcases sep_val hc with h | h <;> omega

theorem digits_dec (n : Nat) : ∀ (acc k : Nat) (rest : List Char),
    ∃ k', digits 10 (dec n ++ rest) acc k = digits 10 rest (acc * 10 ^ (dec n).length + n) k' ∧
      k < k' := by
  induction n using Nat.strongRecOn with
  | ind n ih =>
    intro acc k rest
    rw [dec]
    by_cases h : n < 10
    · rw [if_pos h]
      refine ⟨k + 1, ?_, by omega⟩
      simp only [List.cons_append, List.nil_append, digits, digitVal_char h, if_pos h,
        List.length_singleton, Nat.pow_one]
    · rw [if_neg h]
      obtain ⟨k', h1, h2⟩ := ih (n / 10) (by omega) acc k ([digitChar (n % 10)] ++ rest)
      refine ⟨k' + 1, ?_, by omega⟩
      have hm : n % 10 < 10 := Nat.mod_lt _ (by omega)
      rw [List.append_assoc, h1]
      simp only [List.cons_append, List.nil_append, digits, digitVal_char hm, if_pos hm,
        List.length_append, List.length_singleton, Nat.pow_succ]
      congr 1
      have := Nat.div_add_mod n 10
      rw [Nat.add_mul, Nat.mul_assoc]
      omega

theorem dec_head {n : Nat} : ∃ d cs, dec n = digitChar d :: cs ∧ d < 10 ∧ (n ≠ 0 → d ≠ 0) := by
  induction n using Nat.strongRecOn with
  | ind n ih =>
    rw [dec]
    by_cases h : n < 10
    · rw [if_pos h]; exact ⟨n, [], rfl, h, fun h => h⟩
    · rw [if_neg h]
      obtain ⟨d, cs, h1, h2, h3⟩ := ih (n / 10) (by omega)
      exact ⟨d, cs ++ [digitChar (n % 10)], by rw [h1]; rfl, h2, fun _ => h3 (by omega)⟩

/-- A digit that is not 0. -/
theorem digit_ne {d : Nat} (h : d < 10) (h0 : d ≠ 0) : digitChar d ≠ '0' := by
  have : d = 1 ∨ d = 2 ∨ d = 3 ∨ d = 4 ∨ d = 5 ∨ d = 6 ∨ d = 7 ∨ d = 8 ∨ d = 9 := by omega
  rcases this with rfl | rfl | rfl | rfl | rfl | rfl | rfl | rfl | rfl <;> decide

theorem digit_plain {d : Nat} (h : d < 10) : isSpace (digitChar d) = false ∧
    isSep (digitChar d) = false ∧ digitChar d ≠ '-' ∧ digitChar d ≠ '+' := by
  have : d = 0 ∨ d = 1 ∨ d = 2 ∨ d = 3 ∨ d = 4 ∨ d = 5 ∨ d = 6 ∨ d = 7 ∨ d = 8 ∨ d = 9 := by omega
  rcases this with rfl | rfl | rfl | rfl | rfl | rfl | rfl | rfl | rfl | rfl <;> decide

theorem numeral_dec {n : Nat} {rest : List Char}
    (h : rest = [] ∨ ∃ c cs, rest = c :: cs ∧ isSep c = true) :
    ∃ k, numeral (dec n ++ rest) = (n, k, rest) ∧ 0 < k := by
  by_cases h0 : n = 0
  · subst h0
    have hd : dec 0 = ['0'] := by rw [dec]; rfl
    rw [hd]
    have h8 : ∀ r : List Char, r = rest → digits 8 ('0' :: r) 0 0 = (0, 1, rest) := by
      rintro r rfl
      rw [digits, if_pos (by decide)]
      exact digits_stop (by omega) h
    refine ⟨1, ?_, by omega⟩
    rcases h with rfl | ⟨c, cs, rfl, hc⟩
    · exact h8 _ rfl
    · cases cs with
      | nil => exact h8 _ rfl
      | cons d cs =>
        show (if (c = 'x' ∨ c = 'X') ∧ digitVal d < 16 then _ else _) = _
        rw [if_neg]
        · exact h8 _ rfl
        · rintro ⟨e | e, _⟩ <;> subst e <;> revert hc <;> decide
  · obtain ⟨d, cs, h1, h2, h3⟩ := dec_head (n := n)
    have hne := digit_ne h2 (h3 h0)
    have hn : numeral (dec n ++ rest) = digits 10 (dec n ++ rest) 0 0 := by
      rw [h1]
      unfold numeral
      split
      · rename_i e; simp only [List.cons_append, List.cons.injEq] at e; exact absurd e.1 hne
      · rename_i e; simp only [List.cons_append, List.cons.injEq] at e; exact absurd e.1 hne
      · rfl
    obtain ⟨k, g1, g2⟩ := digits_dec n 0 0 rest
    refine ⟨k, ?_, g2⟩
    rw [hn, g1, digits_stop (by omega) h]
    simp

theorem dropWhile_head {p : Char → Bool} {c : Char} {cs : List Char} (h : p c = false) :
    (c :: cs).dropWhile p = c :: cs := by
  rw [List.dropWhile_cons_of_neg (by simp [h])]

theorem strtoul_dec {n : Nat} {rest : List Char} (hn : n < U64)
    (h : rest = [] ∨ ∃ c cs, rest = c :: cs ∧ isSep c = true) :
    strtoul (dec n ++ rest) = some (n, rest) := by
  obtain ⟨d, cs, h1, h2, h3⟩ := dec_head (n := n)
  obtain ⟨p1, p2, p3, p4⟩ := digit_plain h2
  obtain ⟨k, g1, g2⟩ := numeral_dec (n := n) h
  have hdw : (dec n ++ rest).dropWhile isSpace = dec n ++ rest := by
    rw [h1]; exact dropWhile_head p1
  have hm : min n (U64 - 1) = n := Nat.min_eq_left (by unfold U64 at *; omega)
  unfold strtoul
  rw [hdw]
  have hs : sign (dec n ++ rest) = (false, dec n ++ rest) := by
    rw [h1]
    unfold sign
    split
    · rename_i e
      simp only [List.cons_append, List.cons.injEq] at e; exact absurd e.1 p3
    · rename_i e
      simp only [List.cons_append, List.cons.injEq] at e; exact absurd e.1 p4
    · rfl
  simp only [hs, g1, hm]
  rw [if_neg (by omega)]
  simp

/-- A mapping string: every number with the separators in front of it. -/
def render : List (List Char × Nat) → List Char
  | [] => []
  | (sep, n) :: r => sep ++ dec n ++ render r

theorem dropWhile_sep {sep cs : List Char} (h : ∀ c ∈ sep, isSep c = true) (n : Nat) :
    (sep ++ dec n ++ cs).dropWhile isSep = dec n ++ cs := by
  induction sep with
  | nil =>
    obtain ⟨d, ds, h1, h2, h3⟩ := dec_head (n := n)
    rw [h1]
    exact dropWhile_head (digit_plain h2).2.1
  | cons c sep ih =>
    rw [List.cons_append, List.cons_append, List.dropWhile_cons_of_pos (h c (by simp))]
    exact ih fun x hx => h x (by simp [hx])

theorem parse_render {num : Nat} (hnum : 0 < num) (hN : num ≤ U32) :
    ∀ (toks : List (List Char × Nat)) (fuel : Nat) (l : List Nat), toks ≠ [] →
      toks.length ≤ fuel → (∀ t ∈ toks, (∀ c ∈ t.1, isSep c = true) ∧ t.2 < num) →
      (∀ t ∈ toks.tail, t.1 ≠ []) →
      parse num fuel (render toks) l = some (l ++ toks.map Prod.snd)
  | [], _, _, h, _, _, _ => absurd rfl h
  | (sep, n) :: r, 0, _, _, h, _, _ => by simp at h
  | (sep, n) :: r, fuel + 1, l, _, hf, ht, hs => by
    have h0 := ht (sep, n) (by simp)
    dsimp only at h0
    have hrest : render r = [] ∨ ∃ c cs, render r = c :: cs ∧ isSep c = true := by
      cases r with
      | nil => exact .inl rfl
      | cons t r =>
        obtain ⟨sep', n'⟩ := t
        have hne := hs (sep', n') (by simp)
        dsimp only at hne
        cases sep' with
        | nil => exact absurd rfl hne
        | cons c cs =>
          exact .inr ⟨c, cs ++ dec n' ++ render r, rfl, (ht (c :: cs, n') (by simp)).1 c (by simp)⟩
    have hlt : n < U64 := by unfold U32 at hN; unfold U64; omega
    have hmod : n % U32 = n := Nat.mod_eq_of_lt (by omega)
    rw [parse, render, dropWhile_sep h0.1, strtoul_dec hlt hrest]
    simp only [hmod]
    rw [if_neg (by omega)]
    by_cases hr : r = []
    · subst hr
      rw [if_pos (show render [] = [] from rfl)]
      rfl
    · have hne : render r ≠ [] := by
        rcases hrest with h | ⟨c, cs, h, _⟩
        · cases r with
          | nil => exact absurd rfl hr
          | cons t r =>
            obtain ⟨sep', n'⟩ := t
            have := hs (sep', n') (by simp)
            dsimp only at this
            simp only [render, List.append_eq_nil_iff] at h
            exact absurd h.1.1 this
        · rw [h]; simp
      rw [if_neg hne, parse_render hnum hN r fuel (l ++ [n]) hr (by simpa using hf)
        (fun t h => ht t (by simp [h]))
        (fun t h => hs t (by simpa using List.mem_of_mem_tail h))]
      simp

theorem render_length (toks : List (List Char × Nat)) : toks.length ≤ (render toks).length := by
  induction toks with
  | nil => simp
  | cons t r ih =>
    obtain ⟨sep, n⟩ := t
    obtain ⟨d, cs, h1, _⟩ := dec_head (n := n)
    simp only [render, List.length_append, List.length_cons, h1]
    omega

/-- **C40**: `setMappingList(str)` with the decimal notation of any list of existing cores, separated
by any blanks, tabs and commas (none after the last number), takes that list and returns its length. -/
theorem C40_set_string {s : S} {l : List Nat} (H : Holds s l) (hN : s.num ≤ U32)
    {toks : List (List Char × Nat)} (h0 : toks ≠ []) (hlen : toks.length < 2 ^ 32)
    (ht : ∀ t ∈ toks, (∀ c ∈ t.1, isSep c = true) ∧ t.2 < s.num)
    (hs : ∀ t ∈ toks.tail, t.1 ≠ []) :
    ∃ s', s.setStr (render toks) = some (s', some toks.length) ∧ Holds s' (toks.map Prod.snd) ∧
      s'.rrcnt = 0 ∧ s'.num = s.num := by
  have hpos : 0 < s.num := by
    obtain ⟨c, h1, h2⟩ := getElem_mod H.ne 0
    have := H.num c h2
    omega
  unfold S.setStr
  rw [parse_render hpos hN toks _ [] h0 (by have := render_length toks; omega) ht hs]
  obtain ⟨s', g1, g2, g3, g4⟩ := install_holds (s := s) (l := toks.map Prod.snd) (by simpa using h0)
    (by simpa using hlen) (by
      intro c hc
      obtain ⟨t, h1, rfl⟩ := List.mem_map.1 hc
      exact (ht t h1).2)
  exact ⟨s', by simp [g1], g2, g3, g4⟩

theorem parse_num {num : Nat} (hnum : 0 < num) : ∀ (fuel : Nat) (cs : List Char) (l l' : List Nat),
    parse num fuel cs l = some l' → (∀ c ∈ l, c < num) → l' ≠ [] ∧ (∀ c ∈ l', c < num) ∧
      l'.length ≤ l.length + fuel
  | 0, _, _, _, h, _ => by simp [parse] at h
  | fuel + 1, cs, l, l', h, hl => by
    rw [parse] at h
    split at h
    · cases h
    · rename_i v rest _
      dsimp only at h
      split at h
      · cases h
      · rename_i hc
        have hl2 : ∀ c ∈ l ++ [v % U32], c < num := by
          intro c hm
          rcases List.mem_append.1 hm with hm | hm
          · exact hl c hm
          · rw [List.mem_singleton] at hm; omega
        split at h
        · simp only [Option.some.injEq] at h
          subst h
          exact ⟨by simp, hl2, by simp⟩
        · have := parse_num hnum fuel rest _ l' h hl2
          refine ⟨this.1, this.2.1, ?_⟩
          have h3 := this.2.2
          rw [List.length_append, List.length_singleton] at h3
          omega

/-- **C40**: whatever the string, either the call returns -1 and the old list stays, or the object
holds a list of existing cores. -/
theorem C40_set_string_any {s : S} {l : List Nat} (H : Holds s l) (str : List Char)
    (hlen : str.length + 1 < 2 ^ 32) :
    ∃ s' r, s.setStr str = some (s', r) ∧ s'.num = s.num ∧ (r = none → Holds s' l) ∧
      (∀ n, r = some n → ∃ l', Holds s' l' ∧ l'.length = n ∧ n ≤ str.length + 1) := by
  have hpos : 0 < s.num := by
    obtain ⟨c, h1, h2⟩ := getElem_mod H.ne 0
    have := H.num c h2
    omega
  unfold S.setStr
  cases hp : parse s.num (str.length + 1) str [] with
  | none =>
    refine ⟨_, none, rfl, rfl, fun _ => ⟨H.ne, H.size, H.rep, ?_, H.num⟩, by simp⟩
    have := H.rr
    dsimp only
    omega
  | some l' =>
    obtain ⟨g1, g2, g3⟩ := parse_num hpos _ _ _ _ hp (by simp)
    obtain ⟨s', k1, k2, k3, k4⟩ := install_holds (s := s) g1 (by simp at g3; omega) g2
    exact ⟨s', some l'.length, by simp [k1], k4, by simp, fun n hn => ⟨l', k2, by simpa using hn, by
      simp at g3 hn; omega⟩⟩

/-! ## Histories of calls -/

/-- The calls that change the object. -/
inductive Op where
  | vec (v : List Nat)
  | str (cs : List Char)
  | next

def S.apply (s : S) : Op → Option S
  | .vec v => (s.setVec v).map Prod.fst
  | .str cs => (s.setStr cs).map Prod.fst
  | .next => s.next.map Prod.snd

def S.run : S → List Op → Option S
  | s, [] => some s
  | s, o :: os => (s.apply o).bind fun s' => s'.run os

/-- **C40**: after any sequence of calls, with any vectors and any strings, every thread number gives a
core of the machine and no call reads outside the list.  Missing: as `C40_new_partial`; strings of
2^31 characters. -/
theorem C40_history_partial {nc : Nat} (h0 : 0 < nc) (h : nc ≤ 2 ^ 31)
    (h512 : nc ≤ 512 ∨ ∃ k, nc = 2 ^ k) (ops : List Op)
    (hstr : ∀ cs, Op.str cs ∈ ops → cs.length < 2 ^ 31) :
    ∃ s0 s, S.new nc = some s0 ∧ s0.run ops = some s ∧
      ∀ tid, ∃ c, s.core tid = some c ∧ c < nc := by
  obtain ⟨s0, h1, h2, _, h3⟩ := C40_new_partial h0 (by omega) h512
  have small : ∀ {s : S} {l : List Nat}, Holds s l → l.length ≤ 2 ^ 31 → s.mask + 1 ≤ 2 ^ 31 := by
    intro s l H hl
    obtain ⟨k, k1, _, _, k4⟩ := H.size
    rw [k1]; exact k4 31 hl
  have key : ∀ (ops : List Op) (s0 : S) (l : List Nat), Holds s0 l → s0.num = nc →
      l.length ≤ 2 ^ 31 → (∀ cs, Op.str cs ∈ ops → cs.length < 2 ^ 31) →
      ∃ s l', s0.run ops = some s ∧ Holds s l' ∧ s.num = nc := by
    intro ops
    induction ops with
    | nil => intro s0 l H hn _ _; exact ⟨s0, l, rfl, H, hn⟩
    | cons o os ih =>
      intro s0 l H hn hl hs
      have hs' : ∀ cs, Op.str cs ∈ os → cs.length < 2 ^ 31 := fun cs h => hs cs (by simp [h])
      have hm := small H hl
      have : ∃ s1 l1, s0.apply o = some s1 ∧ Holds s1 l1 ∧ s1.num = nc ∧ l1.length ≤ 2 ^ 31 := by
        cases o with
        | vec v =>
          obtain ⟨s', b, g1, g2, g3, g4, g5⟩ := C40_set_vector (v := v) H (by omega)
          cases b with
          | true =>
            have := (g5.1 rfl).2.1
            exact ⟨s', v, by simp [S.apply, g1], (g3 rfl).1, by omega, by omega⟩
          | false => exact ⟨s', l, by simp [S.apply, g1], g4 rfl, by omega, hl⟩
        | str cs =>
          have hc := hs cs (by simp)
          obtain ⟨s', r, g1, g2, g3, g4⟩ := C40_set_string_any H cs (by omega)
          cases r with
          | none => exact ⟨s', l, by simp [S.apply, g1], g3 rfl, by omega, hl⟩
          | some n =>
            obtain ⟨l', k1, k2, k3⟩ := g4 n rfl
            exact ⟨s', l', by simp [S.apply, g1], k1, by omega, by omega⟩
        | next =>
          obtain ⟨c, s', g1, g2, _⟩ := next_holds H
          refine ⟨s', l, by simp [S.apply, g1], g2, ?_, hl⟩
          unfold S.next at g1
          split at g1
          · simp only [Option.some.injEq, Prod.mk.injEq] at g1
            rw [← g1.2]; exact hn
          · cases g1
      obtain ⟨s1, l1, g1, g2, g3, g4⟩ := this
      obtain ⟨s, l', k1, k2, k3⟩ := ih s1 l1 g2 g3 g4 hs'
      exact ⟨s, l', by simp [S.run, g1, k1], k2, k3⟩
  obtain ⟨s, l', k1, k2, k3⟩ := key ops s0 _ h2 h3 (by simpa using h) hstr
  refine ⟨s0, s, h1, k1, fun tid => ?_⟩
  obtain ⟨c, c1, _, c3⟩ := C40_core_member k2 tid
  exact ⟨c, c1, by omega⟩

/-! ## Concrete cases and counterexamples -/

/-- Six cores; then the user asks for cores 5 and 2. -/
example : (S.new 6).bind (fun s => (s.setVec [5, 2]).map fun p => ((S.nexts 5 p.1).map Prod.fst, p.2)) =
    some (some [5, 2, 5, 2, 5], true) := by decide +kernel

example : render [([], 0), ([' '], 1), ([','], 12), ([',', ' '], 2)] = "0 1,12, 2".toList := by
  simp [render, dec, digitChar]

example : (S.new 16).bind (fun s => (s.setStr "0 1,12, 2".toList).map fun p => (p.1.clist, p.2)) =
    some ([0, 1, 12, 2], some 4) := by decide +kernel

/-- **Counterexample**: a list the length of which is not a power of two is not visited cyclically:
with 0, 1, 2 the fourth thread gets core 0 and so does the fifth. -/
theorem C40_cyclic_counterexample :
    (S.new 4).bind (fun s => (s.setVec [0, 1, 2]).map fun p => (S.nexts 6 p.1).map Prod.fst) =
      some (some [0, 1, 2, 0, 0, 1]) := by decide +kernel

/-- **Counterexample**: on a machine with 576 cores the constructor reads freed memory. -/
theorem C40_new_counterexample : S.new 576 = none := by decide +kernel

/-- **Counterexample**: lists can only get shorter: after a list of one core, a list of two cores is
refused although the machine has four. -/
theorem C40_longer_counterexample :
    (S.new 4).bind (fun s => (s.setVec [3]).bind fun p => (p.1.setVec [1, 2]).map fun p =>
      ((S.nexts 2 p.1).map Prod.fst, p.2)) = some (some [3, 3], false) := by decide +kernel

/-- **Counterexample**: a number above the 32 bits is not refused but cut: 4294967297 is core 1. -/
theorem C40_cut_counterexample :
    (S.new 4).bind (fun s => (s.setStr "4294967297".toList).map fun p => p.1.clist) = some [1] := by
  decide +kernel

/-- **Counterexample**: a blank at the end of the string makes the whole string invalid. -/
theorem C40_trailing_counterexample :
    (S.new 4).bind (fun s => (s.setStr "1 2 ".toList).map fun p => p.2) = some none := by
  decide +kernel

end FF.Mapper
