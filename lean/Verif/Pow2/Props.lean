import Verif.Pow2.Model

/-!
# C41: rounding helpers

The specification is elementary: "power of two" is `∃ k, x = 2 ^ k`, "least" is spelled out.
-/

namespace FF.Pow2

/-- `isPowerOf2` decides powers of two, for every 32-bit argument. -/
theorem C41_isPowerOf2 (x : Nat) : isPowerOf2 x = true ↔ ∃ k, x = 2 ^ k := by
  have := @Nat.ne_zero_and_sub_one_eq_zero_iff_isPowerOfTwo x
  simp only [isPowerOf2, bne_iff_ne, Bool.and_eq_true, beq_iff_eq]
  exact this

/-- Called with an `unsigned long` (as the queue constructors do) the answer is right for
values below `2^32`. -/
theorem C41_isPowerOf2Long_partial (x : Nat) (h : x < 2 ^ 32) :
    isPowerOf2Long x = true ↔ ∃ k, x = 2 ^ k := by
  rw [isPowerOf2Long, show U32 = 2 ^ 32 from rfl, Nat.mod_eq_of_lt h]
  exact C41_isPowerOf2 x

/-- … and wrong beyond: `2^32 + 1` is reported as a power of two and `2^32` is not. -/
theorem C41_isPowerOf2Long_counterexample :
    isPowerOf2Long (2 ^ 32 + 1) = true ∧ (¬ ∃ k, 2 ^ 32 + 1 = 2 ^ k) ∧
    isPowerOf2Long (2 ^ 32) = false := by
  refine ⟨by decide, ?_, by decide⟩
  rw [← C41_isPowerOf2]; decide

/-- Main loop lemma. -/
theorem nextLoop_spec (x : Nat) (hx : x ≤ 2 ^ 63) :
    ∀ n k, k + n = 63 → (k = 0 ∨ 2 ^ (k - 1) < x) →
      ∃ j, nextLoop (n + 1) x (2 ^ k) = some (2 ^ j) ∧ x ≤ 2 ^ j ∧ (j = 0 ∨ 2 ^ (j - 1) < x)
  | 0, k, hk, hlow => by
      have : k = 63 := by omega
      subst this
      refine ⟨63, ?_, hx, hlow⟩
      rw [nextLoop, if_neg (by omega)]
  | n + 1, k, hk, hlow => by
      rw [nextLoop]
      split
      · rename_i hgt
        have hp : 2 ^ k * 2 % U64 = 2 ^ (k + 1) := by
          rw [← Nat.pow_succ, U64]
          exact Nat.mod_eq_of_lt (Nat.pow_lt_pow_right (by omega) (by omega))
        rw [hp]
        exact nextLoop_spec x hx n (k + 1) (by omega) (Or.inr (by simpa using hgt))
      · rename_i hle
        exact ⟨k, rfl, by omega, hlow⟩

/-- `nextPowerOf2(x)` for `x ≤ 2^63` that is not reported as a power of two: the loop ends
and the result is the least power of two `≥ x`. -/
theorem C41_nextPowerOf2 (x : Nat) (hx : x ≤ 2 ^ 63) (hn : isPowerOf2Long x = false) :
    ∃ r, nextPowerOf2 64 x = some (some r) ∧ (∃ k, r = 2 ^ k) ∧ x ≤ r ∧
      ∀ k, x ≤ 2 ^ k → r ≤ 2 ^ k := by
  obtain ⟨j, h1, h2, h3⟩ := nextLoop_spec x hx 63 0 rfl (Or.inl rfl)
  refine ⟨2 ^ j, ?_, ⟨j, rfl⟩, h2, ?_⟩
  · simp only [nextPowerOf2, hn]
    simp only [Nat.pow_zero] at h1
    rw [h1]; rfl
  · intro k hk
    apply Nat.pow_le_pow_right (by omega)
    rcases h3 with h3 | h3
    · omega
    · have : 2 ^ (j - 1) < 2 ^ k := by omega
      have := (Nat.pow_lt_pow_iff_right (a := 2) (by omega)).1 this
      omega

/-- Every number of loop tests from the first sufficient one gives the same result, so the
`64` in `C41_nextPowerOf2` is not a bound on the program. -/
theorem nextLoop_mono : ∀ (f g x p r : Nat), f ≤ g → nextLoop f x p = some r →
    nextLoop g x p = some r
  | 0, _, _, _, _, _, h => by simp [nextLoop] at h
  | f + 1, 0, _, _, _, hfg, _ => by omega
  | f + 1, g + 1, x, p, r, hfg, h => by
      rw [nextLoop] at h ⊢
      split at h
      · rename_i hc; rw [if_pos hc]; exact nextLoop_mono f g _ _ _ (by omega) h
      · rename_i hc; rw [if_neg hc]; exact h

/-- States of `p` visited by the loop when `x > 2^63`: powers of two up to `2^63`, then `0`
for ever. -/
theorem nextLoop_none (x : Nat) (hx : 2 ^ 63 < x) :
    ∀ f p, (p = 0 ∨ ∃ k, k ≤ 63 ∧ p = 2 ^ k) → nextLoop f x p = none
  | 0, _, _ => rfl
  | f + 1, p, hp => by
      have hle : p ≤ 2 ^ 63 := by
        rcases hp with rfl | ⟨k, hk, rfl⟩
        · omega
        · exact Nat.pow_le_pow_right (by omega) hk
      rw [nextLoop, if_pos (by omega)]
      apply nextLoop_none x hx f
      rcases hp with rfl | ⟨k, hk, rfl⟩
      · left; decide
      · by_cases h63 : k = 63
        · subst h63; left; decide
        · right
          refine ⟨k + 1, by omega, ?_⟩
          rw [← Nat.pow_succ, U64]
          exact Nat.mod_eq_of_lt (Nat.pow_lt_pow_right (by omega) (by omega))

/-- Above `2^63` no power of two fits in an `unsigned long` and the loop never ends. -/
theorem C41_nextPowerOf2_diverges (x : Nat) (hx : 2 ^ 63 < x) (fuel : Nat) :
    nextLoop fuel x 1 = none :=
  nextLoop_none x hx fuel 1 (Or.inr ⟨0, by omega, rfl⟩)

/-- `nextMultipleOfIf(x, m)` is the least multiple of `m` that is `≥ x`, whenever that
multiple fits in an `unsigned`. -/
theorem C41_nextMultipleOfIf (x m : Nat) (hm : 0 < m) (hfit : x + m ≤ 2 ^ 32) :
    ∃ r, nextMultipleOfIf x m = some r ∧ m ∣ r ∧ x ≤ r ∧ ∀ r', m ∣ r' → x ≤ r' → r ≤ r' := by
  have hd := Nat.div_add_mod x m
  have hlt := Nat.mod_lt x hm
  by_cases h0 : x % m = 0
  · refine ⟨x, ?_, Nat.dvd_of_mod_eq_zero h0, Nat.le_refl _, fun _ _ h => h⟩
    simp [nextMultipleOfIf, Nat.pos_iff_ne_zero.1 hm, h0]
  · refine ⟨m * (x / m + 1), ?_, ⟨_, rfl⟩, ?_, ?_⟩
    · have e1 : (x + U32 - x % m) % U32 = m * (x / m) := by
        rw [show x + U32 - x % m = m * (x / m) + U32 by omega, Nat.add_mod_right]
        apply Nat.mod_eq_of_lt; simp only [U32]; omega
      simp only [nextMultipleOfIf, Nat.pos_iff_ne_zero.1 hm, if_false, bne_iff_ne, ne_eq, h0,
        not_false_eq_true, if_true, e1, Nat.mul_add, Nat.mul_one, Option.some.injEq]
      apply Nat.mod_eq_of_lt; simp only [U32]; omega
    · rw [Nat.mul_add]; omega
    · rintro r' ⟨q, rfl⟩ hq
      apply Nat.mul_le_mul_left
      have : m * (x / m) < m * q := by omega
      exact Nat.lt_of_mul_lt_mul_left this

/-- Near the top of the 32-bit range the result wraps: the least multiple of 8 above
`2^32 - 1` does not fit and the function returns 0. -/
theorem C41_nextMultipleOfIf_wraps : nextMultipleOfIf (2 ^ 32 - 1) 8 = some 0 := by decide

/-- Low three bits survive subtracting 8 modulo `2^64`, so a common bit remains unless the
alignment is a multiple of 8; the alignment test accepts exactly the powers of two that are
multiples of `sizeof(void*)`. -/
theorem C41_alignment_test (a : Nat) (ha : a < 2 ^ 64) :
    isPowerOfTwoMultiple a 8 = true ↔ ∃ k, 3 ≤ k ∧ a = 2 ^ k := by
  have hU : U64 = 2 ^ 64 := rfl
  simp only [isPowerOfTwoMultiple, bne_iff_ne, Bool.and_eq_true, beq_iff_eq]
  constructor
  · rintro ⟨hne, hand⟩
    have hlow : a % 8 = 0 := by
      have h1 : ((a &&& ((a + U64 - 8) % U64)) % 2 ^ 3) = 0 := by rw [hand]
      rw [Nat.and_mod_two_pow] at h1
      have h2 : (a + U64 - 8) % U64 % 2 ^ 3 = a % 2 ^ 3 := by rw [hU]; omega
      rw [h2, Nat.and_self] at h1
      exact h1
    have hge : 8 ≤ a := by omega
    obtain ⟨b, rfl⟩ : ∃ b, a = b * 2 ^ 3 := ⟨a / 8, by omega⟩
    have h3 : (b * 2 ^ 3 + U64 - 8) % U64 = (b - 1) * 2 ^ 3 := by
      rw [hU]; omega
    rw [h3, ← Nat.shiftLeft_eq, ← Nat.shiftLeft_eq, ← Nat.shiftLeft_and_distrib,
      Nat.shiftLeft_eq] at hand
    have hb : b &&& (b - 1) = 0 := by omega
    obtain ⟨k, hk⟩ := (Nat.and_sub_one_eq_zero_iff_isPowerOfTwo (n := b) (by omega)).1 hb
    exact ⟨k + 3, by omega, by rw [hk, Nat.pow_add]⟩
  · rintro ⟨k, hk, rfl⟩
    obtain ⟨j, rfl⟩ : ∃ j, k = j + 3 := ⟨k - 3, by omega⟩
    have hpos : 0 < 2 ^ j := Nat.two_pow_pos j
    refine ⟨by rw [Nat.pow_add]; omega, ?_⟩
    have h3 : (2 ^ (j + 3) + U64 - 8) % U64 = (2 ^ j - 1) * 2 ^ 3 := by
      rw [hU, Nat.pow_add] at *; omega
    rw [h3, Nat.pow_add, ← Nat.shiftLeft_eq, ← Nat.shiftLeft_eq, ← Nat.shiftLeft_and_distrib,
      (Nat.and_sub_one_eq_zero_iff_isPowerOfTwo (by omega)).2 ⟨j, rfl⟩]
    rfl

/-! ## Non-vacuity -/

example : nextPowerOf2 64 1000 = some (some 1024) := by decide
example : isPowerOf2Long 1000 = false ∧ (1000 : Nat) ≤ 2 ^ 63 := by decide
example : nextMultipleOfIf 13 8 = some 16 ∧ nextMultipleOfIf 16 8 = some 16 := by decide
example : isPowerOfTwoMultiple 64 8 = true ∧ isPowerOfTwoMultiple 24 8 = false ∧
    isPowerOfTwoMultiple 4 8 = false := by decide

end FF.Pow2
