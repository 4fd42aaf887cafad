import Verif.Farm.FarmLive
import Mathlib.Tactic.Linarith
import Mathlib.Tactic.Ring
import Mathlib.Data.List.Nodup
/-!
# Index ranges of the parallel loops

The specification of the loops, and the arithmetic of ranges `[a, b)` with a step.
-/
namespace FF.Parfor
open FF.Farm (sumN)

/-- **Specification.** The indices of `for (i = first; i < last; i += step)`, in order. -/
def indices (first last step : Int) : List Int :=
  (List.range ((last - first + step - 1) / step).toNat).map fun (k : Nat) => first + (k : Int) * step

/-- 1 if `x` is one of the indices of `for (i = a; i < b; i += step)`, 0 otherwise. -/
def on (a b step x : Int) : Nat := if a ≤ x ∧ x < b ∧ step ∣ x - a then 1 else 0

theorem on_empty {a b step x : Int} (h : b ≤ a) : on a b step x = 0 := by
  unfold on; rw [if_neg]; rintro ⟨h1, h2, _⟩; omega

theorem on_le (a b step x : Int) : on a b step x ≤ 1 := by unfold on; split <;> omega

theorem mem_indices {first last step x : Int} (hs : 1 ≤ step) :
    x ∈ indices first last step ↔ first ≤ x ∧ x < last ∧ step ∣ x - first := by
  have hdm := Int.mul_ediv_add_emod (last - first + step - 1) step
  have h1 := Int.emod_nonneg (last - first + step - 1) (by omega : step ≠ 0)
  have h2 := Int.emod_lt_of_pos (last - first + step - 1) (by omega : 0 < step)
  set q := (last - first + step - 1) / step with hq
  simp only [indices, List.mem_map, List.mem_range]
  constructor
  · rintro ⟨k, hk, rfl⟩
    have hk' : (k : Int) + 1 ≤ q := by omega
    refine ⟨?_, ?_, ⟨k, by ring⟩⟩
    · nlinarith [Int.natCast_nonneg k]
    · nlinarith
  · rintro ⟨ha, hb, k, hk⟩
    have hk0 : 0 ≤ k := by
      by_contra hn
      have : step * k ≤ -step := by nlinarith
      omega
    refine ⟨k.toNat, ?_, ?_⟩
    · have : k + 1 ≤ q := by
        by_contra hn
        have : step * q ≤ step * k := by nlinarith
        omega
      omega
    · rw [Int.toNat_of_nonneg hk0]; linarith [mul_comm k step]

theorem nodup_indices {first last step : Int} (hs : 1 ≤ step) : (indices first last step).Nodup := by
  unfold indices
  apply List.Nodup.map _ List.nodup_range
  intro a b h
  have h' : (a : Int) * step = b * step := by simpa using h
  have := Int.eq_of_mul_eq_mul_right (by omega : step ≠ 0) h'
  exact_mod_cast this

theorem count_indices {first last step x : Int} (hs : 1 ≤ step) :
    (indices first last step).count x = on first last step x := by
  unfold on
  split
  · rename_i h
    exact List.count_eq_one_of_mem (nodup_indices hs) ((mem_indices hs).2 h)
  · rename_i h
    exact List.count_eq_zero_of_not_mem (fun hm => h ((mem_indices hs).1 hm))

/-- splitting off the first `m` indices -/
theorem on_split {a c step x m : Int} (hs : 1 ≤ step) (hm : 1 ≤ m) (hc : a + (m - 1) * step + 1 ≤ c) :
    on a c step x = on a (a + (m - 1) * step + 1) step x + on (a + m * step) c step x := by
  unfold on
  by_cases hd : step ∣ x - a
  · have hd' : step ∣ x - (a + m * step) := by
      have := Int.dvd_sub hd (Dvd.intro_left m rfl : step ∣ m * step)
      rwa [show x - a - m * step = x - (a + m * step) by ring] at this
    obtain ⟨k, hk⟩ := hd
    by_cases hkm : k < m
    · have h1 : x < a + (m - 1) * step + 1 := by
        have : step * k ≤ step * (m - 1) := by nlinarith
        linarith [mul_comm step (m - 1)]
      have h2 : ¬ (a + m * step ≤ x) := by
        have : step * (k + 1) ≤ step * m := by nlinarith
        have : step * k + step ≤ m * step := by linarith [mul_comm step m, mul_add step k 1]
        omega
      have h3 : step ∣ x - a := ⟨k, hk⟩
      by_cases ha : a ≤ x
      · rw [if_pos ⟨ha, by omega, h3⟩, if_pos ⟨ha, h1, h3⟩, if_neg (fun h => h2 h.1)]
      · rw [if_neg (fun h => ha h.1), if_neg (fun h => ha h.1), if_neg (fun h => h2 h.1)]
    · have h1 : ¬ x < a + (m - 1) * step + 1 := by
        have : step * m ≤ step * k := by nlinarith
        have : m * step = (m - 1) * step + step := by ring
        linarith [mul_comm step m]
      have h2 : a + m * step ≤ x := by
        have : step * m ≤ step * k := by nlinarith
        linarith [mul_comm step m]
      have h3 : step ∣ x - a := ⟨k, hk⟩
      have ha : a ≤ x := by
        have : 0 ≤ m * step := by nlinarith
        omega
      by_cases hx : x < c
      · rw [if_pos ⟨ha, hx, h3⟩, if_neg (fun h => h1 h.2.1), if_pos ⟨h2, hx, hd'⟩]
      · rw [if_neg (fun h => hx h.2.1), if_neg (fun h => h1 h.2.1), if_neg (fun h => hx h.2.1)]
  · have hd' : ¬ step ∣ x - (a + m * step) := by
      intro h
      apply hd
      have := Int.dvd_add h (Dvd.intro_left m rfl : step ∣ m * step)
      rwa [show x - (a + m * step) + m * step = x - a by ring] at this
    rw [if_neg (fun h => hd h.2.2), if_neg (fun h => hd h.2.2), if_neg (fun h => hd' h.2.2)]

/-- one iteration of the loop -/
theorem on_next {a c step x : Int} (hs : 1 ≤ step) (hc : a < c) :
    on a c step x = (if x = a then 1 else 0) + on (a + step) c step x := by
  have h := on_split (x := x) (m := 1) hs (by omega) (by omega : a + (1 - 1) * step + 1 ≤ c)
  rw [h, one_mul]
  congr 1
  unfold on
  by_cases hx : x = a
  · rw [if_pos hx, if_pos]; subst hx; exact ⟨by omega, by omega, by simp⟩
  · rw [if_neg hx, if_neg]; rintro ⟨h1, h2, _⟩; omega

/-- one task of at most `chunk` indices, and what remains -/
theorem on_take {a c step chunk x e : Int} (hs : 1 ≤ step) (hk : 1 ≤ chunk)
    (he : e = min (a + ((chunk - 1) * step + 1)) c) :
    on a c step x = on a e step x + on (e - 1 + step) c step x := by
  by_cases h : a + ((chunk - 1) * step + 1) ≤ c
  · rw [min_eq_left h] at he
    have h1 := on_split (x := x) hs hk (by omega : a + (chunk - 1) * step + 1 ≤ c)
    have h2 : e = a + (chunk - 1) * step + 1 := by omega
    have h3 : e - 1 + step = a + chunk * step := by rw [h2]; ring
    rw [h3, h2]; exact h1
  · rw [min_eq_right (by omega)] at he
    subst he
    rw [on_empty (a := e - 1 + step) (by omega)]
    omega

theorem min_def' (a b : Int) : min a b = if a ≤ b then a else b := by
  split
  · exact min_eq_left ‹_›
  · exact min_eq_right (by omega)

/-- the capacity that is left after a task -/
theorem cap_take {a c step chunk e n : Int} (hs : 1 ≤ step)
    (he : e = min (a + ((chunk - 1) * step + 1)) c)
    (h : c ≤ a ∨ c ≤ a + n * (chunk * step)) (hk : 1 ≤ chunk) :
    c ≤ e - 1 + step ∨ c ≤ e - 1 + step + (n - 1) * (chunk * step) := by
  have hks : step ≤ chunk * step := by nlinarith
  have e1 : (chunk - 1) * step = chunk * step - step := by ring
  have e2 : (n - 1) * (chunk * step) = n * (chunk * step) - chunk * step := by ring
  rw [min_def'] at he
  split at he
  · rcases h with h | h
    · omega
    · right; rw [e2]; omega
  · left; omega

/-- no task is left when nothing remains -/
theorem tight_take {a c step chunk e n : Int} (hs : 1 ≤ step) (hk : 1 ≤ chunk)
    (he : e = min (a + ((chunk - 1) * step + 1)) c)
    (h : n ≤ 0 ∨ a + (n - 1) * (chunk * step) < c) :
    n - 1 ≤ 0 ∨ e - 1 + step + (n - 1 - 1) * (chunk * step) < c := by
  have hks : step ≤ chunk * step := by nlinarith
  have e1 : (chunk - 1) * step = chunk * step - step := by ring
  have e2 : (n - 1 - 1) * (chunk * step) = (n - 1) * (chunk * step) - chunk * step := by ring
  rcases h with h | h
  · left; omega
  · by_cases hn : n - 1 ≤ 0
    · left; exact hn
    · right
      rw [min_def'] at he
      split at he
      · rw [e2]; omega
      · have : chunk * step ≤ (n - 1) * (chunk * step) := by nlinarith
        omega

/-! ## Sums -/

theorem sumN_add (f g : Nat → Nat) (n : Nat) : sumN (fun i => f i + g i) n = sumN f n + sumN g n := by
  induction n with
  | zero => rfl
  | succ n ih => simp only [sumN]; omega

theorem sumN_zero {f : Nat → Nat} {n : Nat} (h : ∀ i, i < n → f i = 0) : sumN f n = 0 := by
  induction n with
  | zero => rfl
  | succ n ih => simp only [sumN]; rw [ih (fun i hi => h i (by omega)), h n (by omega)]

theorem sumN_le {f g : Nat → Nat} {n : Nat} (h : ∀ i, i < n → f i ≤ g i) : sumN f n ≤ sumN g n := by
  induction n with
  | zero => exact Nat.le_refl _
  | succ n ih =>
    simp only [sumN]
    have := ih (fun i hi => h i (by omega)); have := h n (by omega); omega

/-- only one term changes -/
theorem sumN_change {f g : Nat → Nat} {n i : Nat} (hi : i < n) (h : ∀ j, j < n → j ≠ i → f j = g j) :
    sumN f n + g i = sumN g n + f i := by
  induction n with
  | zero => omega
  | succ n ih =>
    simp only [sumN]
    by_cases hn : i = n
    · subst hn
      rw [Farm.sumN_congr (fun j hj => h j (by omega) (by omega))]; omega
    · have := ih (by omega) (fun j hj => h j (by omega))
      rw [h n (by omega) (by omega)]; omega

/-- one term drops by `X`, the others grow by at most `c` -/
theorem sumN_drop {f g : Nat → Nat} {n i X c : Nat} (hi : i < n) (h0 : f i + X ≤ g i)
    (h : ∀ j, j < n → j ≠ i → f j ≤ g j + c) : sumN f n + X ≤ sumN g n + c * n := by
  induction n with
  | zero => omega
  | succ n ih =>
    simp only [sumN, Nat.mul_succ]
    by_cases hn : i = n
    · subst hn
      have : sumN f i ≤ sumN g i + c * i := by
        have := sumN_le (f := f) (g := fun j => g j + c) (n := i) (fun j hj => h j (by omega) (by omega))
        have e : sumN (fun j => g j + c) i = sumN g i + c * i := by
          rw [sumN_add]
          congr 1
          clear this h h0 ih hi
          induction i with
          | zero => rfl
          | succ k ih => simp only [sumN, Nat.mul_succ]; omega
        omega
      omega
    · have := ih (by omega) (fun j hj => h j (by omega))
      have := h n (by omega) (by omega)
      omega

theorem sumN_ge {f : Nat → Nat} {n i : Nat} (hi : i < n) : f i ≤ sumN f n := by
  induction n with
  | zero => omega
  | succ n ih =>
    simp only [sumN]
    by_cases hn : i = n
    · subst hn; omega
    · have := ih (by omega); omega

example : indices 3 11 4 = [3, 7] := by decide

end FF.Parfor
