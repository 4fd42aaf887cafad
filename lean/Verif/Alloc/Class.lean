import Verif.Pow2.Props
import Mathlib.Data.Nat.Log
import Mathlib.Data.Nat.Bitwise
import Mathlib.Tactic.IntervalCases
/-!
# Size classes and alignment arithmetic of `ff_allocator` (`ff/allocator.hpp`)
-/
namespace FF.Alloc

/-- `MAX_SLABBUFFER_SIZE` (ff/allocator.hpp:139). -/
def maxSlab : Nat := 8192
/-- `POW2_MIN`, `POW2_MAX` (ff/allocator.hpp:140-141). -/
def pow2Min : Nat := 5
def pow2Max : Nat := 13
/-- `buffersize` (ff/allocator.hpp:144-145); `N_SLABBUFFER` (139) is its length. -/
def bufferSize : List Nat := [32, 64, 128, 256, 512, 1024, 2048, 4096, 8192]

/-- `while(sz >>= 1) ++e;` (ff/allocator.hpp:901). -/
def width (sz e : Nat) : Nat :=
  if sz / 2 = 0 then e else width (sz / 2) (e + 1)
termination_by sz
decreasing_by omega

/-- `ff_allocator::getslabs(size_t)` (ff/allocator.hpp:897-911); `none` stands for -1. -/
def getslabs (size : Nat) : Option Nat :=
  if size = 0 then none
  else
    let e := width (size - 1) 1
    if e < pow2Min then some 0 else if pow2Max < e then none else some (e - pow2Min)

/-- Where a request is served. -/
inductive Path where
  | system
  | slab (c : Nat)
  /-- the array of caches is indexed with -1 -/
  | undef
  deriving DecidableEq

/-- The decision of `malloc` (ff/allocator.hpp:1131-1132, 1141); `nsl` is the number of buffers the
user asked for in each class (0: do not use the class). -/
def path (nsl : Nat → Nat) (size : Nat) : Path :=
  if maxSlab < size then .system
  else match getslabs size with
    | none => .undef
    | some c => if nsl c = 0 then .system else .slab c

/-- `isPowerOfTwoMultiple` (ff/allocator.hpp:225-227) on 64 bit unsigned numbers. -/
def isPowerOfTwoMultiple (a m : Nat) : Bool :=
  a != 0 && (a &&& ((a + 18446744073709551616 - m) % 18446744073709551616)) == 0

/-- `(x + alignment) & ~(alignment-1)` (ff/allocator.hpp:1178-1179, 1193) on 64 bit numbers. -/
def alignUp (x a : Nat) : Nat := (x + a) &&& (18446744073709551615 - (a - 1))

/-! ## Lemmas -/

theorem width_eq (sz : Nat) : ∀ e, width sz e = e + Nat.log 2 sz := by
  induction sz using Nat.strongRecOn with
  | ind sz ih =>
    intro e
    rw [width]
    by_cases h : sz / 2 = 0
    · rw [if_pos h, Nat.log_of_lt (by omega)]; rfl
    · rw [if_neg h, ih (sz / 2) (by omega), Nat.log_div_base]
      have : 0 < Nat.log 2 sz := Nat.log_pos (by omega) (by omega)
      omega

theorem bufferSize_get {c : Nat} (h : c < 9) : bufferSize[c]? = some (2 ^ (c + 5)) := by
  interval_cases c <;> rfl

/-- The size of class `c`. -/
def bsz (c : Nat) : Nat := 32 * 2 ^ c

theorem bsz_get {c : Nat} (h : c < 9) : bufferSize[c]? = some (bsz c) := by
  rw [bufferSize_get h, bsz, Nat.pow_add, Nat.mul_comm]

theorem bsz_le {c d : Nat} (h : c ≤ d) : bsz c ≤ bsz d :=
  Nat.mul_le_mul_left _ (Nat.pow_le_pow_right (by omega) h)

theorem bsz_ge (c : Nat) : 32 ≤ bsz c := by
  have := bsz_le (Nat.zero_le c)
  exact this

theorem bsz_mod (c : Nat) : bsz c % 8 = 0 := by
  unfold bsz; omega

/-- **C37**: a request of 1 to 8192 bytes gets the smallest class that holds it. -/
theorem C37_smallest_class (n : Nat) (h0 : 0 < n) (h1 : n ≤ 8192) :
    ∃ c b, getslabs n = some c ∧ bufferSize[c]? = some b ∧ n ≤ b ∧
      ∀ (d b' : Nat), bufferSize[d]? = some b' → n ≤ b' → b ≤ b' := by
  have hlen : ∀ d b', bufferSize[d]? = some b' → d < 9 ∧ b' = bsz d := by
    intro d b' hd
    have h9 : d < 9 := by
      by_contra hn
      rw [List.getElem?_eq_none (by show 9 ≤ d; omega)] at hd
      cases hd
    rw [bsz_get h9] at hd
    exact ⟨h9, (Option.some.inj hd).symm⟩
  have hw : width (n - 1) 1 = 1 + Nat.log 2 (n - 1) := width_eq _ _
  by_cases hs : n ≤ 32
  · have hlt : Nat.log 2 (n - 1) < 5 := Nat.log_lt_of_lt_pow' (by omega) (by omega)
    refine ⟨0, 32, ?_, rfl, hs, fun d b' hd _ => ?_⟩
    · simp only [getslabs, if_neg (show n ≠ 0 by omega), hw]
      unfold pow2Min pow2Max
      by_cases h4 : 1 + Nat.log 2 (n - 1) < 5
      · rw [if_pos h4]
      · rw [if_neg h4, if_neg (by omega)]
        congr 1
        omega
    · rw [(hlen d b' hd).2]; exact bsz_ge d
  · have hlt : Nat.log 2 (n - 1) < 13 := Nat.log_lt_of_lt_pow (by omega) (by omega)
    have hge : 5 ≤ Nat.log 2 (n - 1) := Nat.le_log_of_pow_le (by omega) (by omega)
    have hup : n - 1 < 2 ^ (Nat.log 2 (n - 1) + 1) := Nat.lt_pow_succ_log_self (by omega) _
    have hlo : 2 ^ Nat.log 2 (n - 1) ≤ n - 1 := Nat.pow_log_le_self 2 (by omega)
    generalize Nat.log 2 (n - 1) = e at *
    have hb : bsz (1 + e - 5) = 2 ^ (e + 1) := by
      unfold bsz
      rw [show (32 : Nat) = 2 ^ 5 from rfl, ← Nat.pow_add]
      congr 1; omega
    refine ⟨1 + e - 5, 2 ^ (e + 1), ?_, ?_, by omega, fun d b' hd hn => ?_⟩
    · simp only [getslabs, if_neg (show n ≠ 0 by omega), hw]
      unfold pow2Min pow2Max
      rw [if_neg (by omega), if_neg (by omega)]
    · rw [bsz_get (by omega), hb]
    · rw [(hlen d b' hd).2] at hn ⊢
      rw [← hb]
      refine bsz_le ?_
      by_contra hc
      have h2 := bsz_le (show d ≤ 1 + e - 5 - 1 by omega)
      have h3 : bsz (1 + e - 5 - 1) = 2 ^ e := by
        unfold bsz
        rw [show (32 : Nat) = 2 ^ 5 from rfl, ← Nat.pow_add]
        congr 1; omega
      omega

/-- **C37**: requests of more than 8192 bytes go to the system; smaller ones go to a cache, that of
the smallest class that holds them, unless the user has switched this class off. -/
theorem C37_path (nsl : Nat → Nat) (n : Nat) (h0 : 0 < n) :
    (8192 < n → path nsl n = .system) ∧
    (n ≤ 8192 → ∃ c b, bufferSize[c]? = some b ∧ n ≤ b ∧
      (∀ (d b' : Nat), bufferSize[d]? = some b' → n ≤ b' → b ≤ b') ∧
      path nsl n = if nsl c = 0 then .system else .slab c) := by
  refine ⟨fun h => by unfold path; rw [if_pos (by unfold maxSlab; omega)], fun h => ?_⟩
  obtain ⟨c, b, h1, h2, h3, h4⟩ := C37_smallest_class n h0 h
  exact ⟨c, b, h2, h3, h4, by unfold path; rw [if_neg (by unfold maxSlab; omega), h1]⟩

/-- A request of 0 bytes makes `malloc` index the array of caches with -1. -/
theorem C37_zero_counterexample (nsl : Nat → Nat) : path nsl 0 = .undef := rfl

example : getslabs 32 = some 0 ∧ getslabs 33 = some 1 ∧ getslabs 8192 = some 8 := by
  simp [getslabs, width, pow2Min, pow2Max]

/-- The class of a slab request, with its size. -/
theorem path_slab {nsl : Nat → Nat} {n c : Nat} (h : path nsl n = .slab c) :
    c < 9 ∧ n ≤ bsz c ∧ 0 < nsl c ∧ 0 < n := by
  have hn : n ≤ 8192 := by
    by_contra hc
    unfold path at h
    rw [if_pos (by unfold maxSlab; omega)] at h
    cases h
  have h0 : 0 < n := by
    rcases Nat.eq_zero_or_pos n with rfl | h0
    · cases h
    · exact h0
  obtain ⟨d, b, h1, h2, h3, _⟩ := C37_smallest_class n h0 hn
  unfold path at h
  rw [if_neg (by unfold maxSlab; omega), h1] at h
  dsimp only at h
  split at h
  · cases h
  · rename_i hne
    have hd : d = c := by injection h
    subst hd
    have h9 : d < 9 := by
      by_contra hn
      rw [List.getElem?_eq_none (by show 9 ≤ d; omega)] at h2
      cases h2
    rw [bsz_get h9] at h2
    have := Option.some.inj h2
    exact ⟨h9, by omega, by omega, h0⟩

/-! ## Alignment -/

theorem and_eight (a b : Nat) : (8 * a) &&& (8 * b) = 8 * (a &&& b) := by
  have := @Nat.shiftLeft_and_distrib 3 a b
  simp only [Nat.shiftLeft_eq] at this
  rw [Nat.mul_comm 8 a, Nat.mul_comm 8 b, Nat.mul_comm 8]
  exact this.symm

theorem and_low (a b : Nat) : (a &&& b) % 8 = (a % 8) &&& (b % 8) := by
  have := @Nat.and_mod_two_pow a b 3
  simpa using this

/-- The alignments that `posix_memalign` accepts are the powers of two that are multiples of the
size of a pointer. -/
theorem C38_alignments (a : Nat) (h : a < 18446744073709551616) :
    isPowerOfTwoMultiple a 8 = true ↔ ∃ k, 3 ≤ k ∧ a = 2 ^ k := by
  unfold isPowerOfTwoMultiple
  simp only [Bool.and_eq_true, bne_iff_ne, beq_iff_eq]
  by_cases h8 : 8 ≤ a
  · have e : (a + 18446744073709551616 - 8) % 18446744073709551616 = a - 8 := by omega
    rw [e]
    by_cases hm : a % 8 = 0
    · obtain ⟨b, rfl⟩ : ∃ b, a = 8 * b := ⟨a / 8, by omega⟩
      have e2 : 8 * b - 8 = 8 * (b - 1) := by omega
      rw [e2, and_eight]
      have hp := FF.Pow2.C41_isPowerOf2 b
      simp only [FF.Pow2.isPowerOf2, Bool.and_eq_true, bne_iff_ne, beq_iff_eq] at hp
      constructor
      · rintro ⟨h1, h2⟩
        obtain ⟨k, hk⟩ := hp.1 ⟨by omega, by omega⟩
        exact ⟨k + 3, by omega, by rw [hk, Nat.pow_add]; omega⟩
      · rintro ⟨k, h3, hk⟩
        obtain ⟨j, rfl⟩ : ∃ j, k = j + 3 := ⟨k - 3, by omega⟩
        rw [Nat.pow_add] at hk
        have := (hp.2 ⟨j, by omega⟩)
        exact ⟨by omega, by rw [this.2]⟩
    · constructor
      · rintro ⟨_, h2⟩
        have h3 := and_low a (a - 8)
        rw [h2, show (a - 8) % 8 = a % 8 by omega, Nat.and_self] at h3
        omega
      · rintro ⟨k, h3, hk⟩
        obtain ⟨j, rfl⟩ : ∃ j, k = j + 3 := ⟨k - 3, by omega⟩
        rw [Nat.pow_add] at hk
        omega
  · constructor
    · rintro ⟨h1, h2⟩
      exfalso
      revert h1 h2
      have : a < 8 := by omega
      interval_cases a <;> decide
    · rintro ⟨k, h3, hk⟩
      have : 2 ^ 3 ≤ 2 ^ k := Nat.pow_le_pow_right (by omega) h3
      omega

/-- Masking with `~(2^k - 1)` rounds down to a multiple of `2^k`. -/
theorem mask_eq {x k : Nat} (hk : k < 64) (hx : x < 18446744073709551616) :
    x &&& (18446744073709551615 - (2 ^ k - 1)) = x / 2 ^ k * 2 ^ k := by
  have hk2 : 2 ^ k ≤ 2 ^ 63 := Nat.pow_le_pow_right (by omega) (by omega)
  have e : 18446744073709551615 - (2 ^ k - 1) = 2 ^ k * (2 ^ (64 - k) - 1) := by
    rw [Nat.mul_sub, ← Nat.pow_add, show k + (64 - k) = 64 by omega]
    have : 0 < 2 ^ k := Nat.two_pow_pos k
    omega
  rw [e]
  apply Nat.eq_of_testBit_eq
  intro i
  rw [Nat.testBit_and, Nat.mul_comm (x / 2 ^ k), Nat.testBit_two_pow_mul, Nat.testBit_two_pow_mul,
    Nat.testBit_two_pow_sub_one, Nat.testBit_div_two_pow]
  by_cases hi : k ≤ i
  · simp only [ge_iff_le, hi, decide_true, Bool.true_and]
    rw [show i - k + k = i by omega]
    by_cases h64 : i < 64
    · simp [show i - k < 64 - k by omega]
    · have hz : x.testBit i = false := by
        apply Nat.testBit_lt_two_pow
        calc x < 2 ^ 64 := hx
          _ ≤ 2 ^ i := Nat.pow_le_pow_right (by omega) (by omega)
      simp [hz]
  · simp [hi]

/-- What `(x + alignment) & ~(alignment-1)` computes: the first multiple of the alignment after
`x`. -/
theorem alignUp_spec {x a : Nat} (hp : isPowerOfTwoMultiple a 8 = true)
    (ha : a < 18446744073709551616) (h : x + a < 18446744073709551616) :
    alignUp x a % a = 0 ∧ x < alignUp x a ∧ alignUp x a ≤ x + a ∧ a % 8 = 0 ∧ 8 ≤ a := by
  obtain ⟨k, h3, rfl⟩ := (C38_alignments a ha).1 hp
  have hk : k < 64 := by
    by_contra hc
    have : 2 ^ 64 ≤ 2 ^ k := Nat.pow_le_pow_right (by omega) (by omega)
    omega
  unfold alignUp
  rw [mask_eq hk h]
  have hpos : 0 < 2 ^ k := Nat.two_pow_pos k
  have hdm := Nat.div_add_mod (x + 2 ^ k) (2 ^ k)
  have hlt := Nat.mod_lt (x + 2 ^ k) hpos
  rw [Nat.mul_comm] at hdm
  obtain ⟨j, rfl⟩ : ∃ j, k = j + 3 := ⟨k - 3, by omega⟩
  have h8 : 2 ^ (j + 3) = 8 * 2 ^ j := by rw [Nat.pow_add]; omega
  have hj : 0 < 2 ^ j := Nat.two_pow_pos j
  refine ⟨Nat.mul_mod_left _ _, by omega, by omega, by omega, by omega⟩

end FF.Alloc
