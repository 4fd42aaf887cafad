import Verif.Common.Trans
/-!
# The byte limit of batches in the configuration of groups (C83)

Models `convertToBytes` (ff/distributed/ff_dutils.hpp 446-481) and its use for the option `batchByteSize` of a group
(ff/distributed/ff_dgroups.hpp 281-286).

A string is a list of characters.  `size_t` has 64 bits: a stored value is taken modulo `2^64`, and reading a numeral
that does not fit gives the largest value (the `>>` of a stream).  `isdigit` and `tolower` are those of the "C" locale.
-/
namespace FF.Dist.Bytes

/-- `2^64` -/
def W : Nat := 18446744073709551616

theorem W_pos : 0 < W := by decide

theorem W_eq : W = 18446744073709551616 := rfl

/-- `std::isdigit` (ff_dutils.hpp 452) -/
def isDigit (c : Char) : Bool := '0'.toNat ≤ c.toNat && c.toNat ≤ '9'.toNat

/-- `std::tolower` (467) -/
def lower (c : Char) : Char := if 'A'.toNat ≤ c.toNat && c.toNat ≤ 'Z'.toNat then Char.ofNat (c.toNat + 32) else c

/-- `std::istringstream(digits) >> value` (461) -/
def readNum (ds : List Char) : Nat :=
  let v := ds.foldl (fun v c => 10 * v + (c.toNat - '0'.toNat)) 0
  if v < W then v else W - 1

/-- `convertToBytes` (446-481): `none` is the exception `std::invalid_argument` -/
def convertToBytes (input : List Char) : Option Nat :=
  if input = [] then some 0
  else
    let digits := input.takeWhile isDigit
    if digits = [] then none
    else
      let value := readNum digits
      let suffix := (input.dropWhile isDigit).map lower
      if suffix = [] then some value
      else if suffix = ['k'] then some (value * 1024 % W)
      else if suffix = ['m'] then some (value * 1024 % W * 1024 % W)
      else if suffix = ['g'] then some (value * 1024 % W * 1024 % W * 1024 % W)
      else none

/-- the limit of a group whose option `batchByteSize` is the given string, or is missing (ff_dgroups.hpp 262, 281-286;
the exception is caught and only a message is printed) -/
def limit (dflt : Nat) : Option (List Char) → Nat
  | none => dflt
  | some str => (convertToBytes str).getD dflt

/-! ## Specification -/

/-- `ds` is a decimal numeral of `n` -/
inductive Decimal : List Char → Nat → Prop
  | digit (d : Nat) (h : d < 10) : Decimal [Char.ofNat (48 + d)] d
  | snoc (ds : List Char) (n d : Nat) (h : d < 10) : Decimal ds n → Decimal (ds ++ [Char.ofNat (48 + d)]) (10 * n + d)

/-- the units a user can write, and their sizes in bytes -/
inductive Unit' : List Char → Nat → Prop
  | byte : Unit' [] 1
  | k : Unit' ['k'] (2 ^ 10)
  | K : Unit' ['K'] (2 ^ 10)
  | m : Unit' ['m'] (2 ^ 20)
  | M : Unit' ['M'] (2 ^ 20)
  | g : Unit' ['g'] (2 ^ 30)
  | G : Unit' ['G'] (2 ^ 30)

/-! ## Proofs -/

theorem digit_facts : ∀ d, d < 10 → isDigit (Char.ofNat (48 + d)) = true ∧ (Char.ofNat (48 + d)).toNat - '0'.toNat = d := by
  decide

theorem Decimal.facts {ds : List Char} {n : Nat} (h : Decimal ds n) :
    ds ≠ [] ∧ (∀ c ∈ ds, isDigit c = true) ∧ ds.foldl (fun v c => 10 * v + (c.toNat - '0'.toNat)) 0 = n := by
  induction h with
  | digit d h =>
    obtain ⟨h1, h2⟩ := digit_facts d h
    refine ⟨by simp, ?_, ?_⟩
    · intro c hc
      simp only [List.mem_singleton] at hc
      rw [hc]; exact h1
    · simp only [List.foldl_cons, List.foldl_nil]; omega
  | snoc ds n d h _ ih =>
    obtain ⟨h1, h2⟩ := digit_facts d h
    obtain ⟨i1, i2, i3⟩ := ih
    refine ⟨by simp, ?_, ?_⟩
    · intro c hc
      rcases List.mem_append.1 hc with hc | hc
      · exact i2 c hc
      · simp only [List.mem_singleton] at hc
        rw [hc]; exact h1
    · rw [List.foldl_append, i3]
      simp only [List.foldl_cons, List.foldl_nil]; omega

/-- every non-empty list of digits is a numeral -/
theorem decimal_of_digits {ds : List Char} (hne : ds ≠ []) (h : ∀ c ∈ ds, isDigit c = true) : ∃ n, Decimal ds n := by
  have one : ∀ c, isDigit c = true → ∃ d, d < 10 ∧ c = Char.ofNat (48 + d) := by
    intro c hc
    have e1 : '0'.toNat = 48 := rfl
    have e2 : '9'.toNat = 57 := rfl
    simp only [isDigit, Bool.and_eq_true, decide_eq_true_eq] at hc
    refine ⟨c.toNat - 48, by omega, ?_⟩
    have : 48 + (c.toNat - 48) = c.toNat := by omega
    rw [this, Char.ofNat_toNat]
  have more : ∀ (cs acc : List Char) (n : Nat), Decimal acc n → (∀ c ∈ cs, isDigit c = true) → ∃ n', Decimal (acc ++ cs) n' := by
    intro cs
    induction cs with
    | nil => intro acc n ha _; exact ⟨n, by simpa using ha⟩
    | cons c cs ih =>
      intro acc n ha hc
      obtain ⟨d, hd, rfl⟩ := one c (hc c (by simp))
      obtain ⟨n', h'⟩ := ih _ _ (.snoc acc n d hd ha) (fun x hx => hc x (by simp [hx]))
      exact ⟨n', by simpa using h'⟩
  cases ds with
  | nil => exact absurd rfl hne
  | cons c cs =>
    obtain ⟨d, hd, rfl⟩ := one c (h c (by simp))
    obtain ⟨n', h'⟩ := more cs _ _ (.digit d hd) (fun x hx => h x (by simp [hx]))
    exact ⟨n', by simpa using h'⟩

theorem Unit'.not_digit {u : List Char} {m : Nat} (h : Unit' u m) : u.takeWhile isDigit = [] ∧ u.dropWhile isDigit = u := by
  cases h <;> decide

theorem take_digits {ds u : List Char} (h : ∀ c ∈ ds, isDigit c = true) :
    (ds ++ u).takeWhile isDigit = ds ++ u.takeWhile isDigit ∧ (ds ++ u).dropWhile isDigit = u.dropWhile isDigit := by
  induction ds with
  | nil => simp
  | cons c cs ih =>
    obtain ⟨h1, h2⟩ := ih (fun x hx => h x (by simp [hx]))
    have hc := h c (by simp)
    simp [hc, h1, h2]

/-- a character whose lower case is the letter `l` is `l` or its upper case -/
theorem lower_eq {c l : Char} (h : lower c = l) : c = l ∨ c = Char.ofNat (l.toNat - 32) := by
  unfold lower at h
  split at h
  · rename_i hc
    right
    have e1 : 'A'.toNat = 65 := rfl
    have e2 : 'Z'.toNat = 90 := rfl
    simp only [Bool.and_eq_true, decide_eq_true_eq] at hc
    have hv : (Char.ofNat (c.toNat + 32)).toNat = c.toNat + 32 := by
      have : ∀ n, n < 26 → (Char.ofNat (n + 65 + 32)).toNat = n + 65 + 32 := by decide
      have := this (c.toNat - 65) (by omega)
      have e : c.toNat - 65 + 65 + 32 = c.toNat + 32 := by omega
      rw [e] at this; exact this
    rw [← h, hv]
    have : c.toNat + 32 - 32 = c.toNat := by omega
    rw [this, Char.ofNat_toNat]
  · exact Or.inl h

theorem mod_twice (v a b w : Nat) : v * a % w * b % w = v * (a * b) % w := by
  rw [Nat.mod_mul_mod, Nat.mul_assoc]

theorem pick {u : List Char} {m : Nat} (hu : Unit' u m) (f : Nat → Nat) (dflt : Nat) :
    (if u.map lower = [] then some (f 1)
      else if u.map lower = ['k'] then some (f (2 ^ 10))
      else if u.map lower = ['m'] then some (f (2 ^ 20))
      else if u.map lower = ['g'] then some (f (2 ^ 30))
      else none).getD dflt = f m := by
  generalize h1 : f 1 = x1
  generalize h2 : f (2 ^ 10) = x2
  generalize h3 : f (2 ^ 20) = x3
  generalize h4 : f (2 ^ 30) = x4
  cases hu with
  | byte => rw [h1]; rfl
  | k => rw [h2]; rfl
  | K => rw [h2]; rfl
  | m => rw [h3]; rfl
  | M => rw [h3]; rfl
  | g => rw [h4]; rfl
  | G => rw [h4]; rfl

/-- **C83** (all strings that are accepted).  The limit for a numeral of `n` followed by a unit of `m` bytes is `n * m`
modulo `2^64`, where a number that does not fit in 64 bits is read as `2^64 - 1`. -/
theorem C83_value {ds u : List Char} {n m : Nat} (hd : Decimal ds n) (hu : Unit' u m) (dflt : Nat) :
    limit dflt (some (ds ++ u)) = min n (W - 1) * m % W := by
  obtain ⟨h1, h2, h3⟩ := hd.facts
  obtain ⟨u1, u2⟩ := hu.not_digit
  obtain ⟨t1, t2⟩ := take_digits (u := u) h2
  rw [u1, List.append_nil] at t1
  rw [u2] at t2
  have hr : readNum ds = min n (W - 1) := by
    have hW := W_pos
    unfold readNum
    simp only [h3]
    by_cases hn : n < W
    · rw [if_pos hn]; omega
    · rw [if_neg hn]; omega
  have hne : ds ++ u ≠ [] := by simp [h1]
  simp only [limit, convertToBytes, hne, if_false, t1, t2, h1, hr]
  generalize hv : min n (W - 1) = v
  have hW := W_pos
  have hvW : v < W := by omega
  have e2 : (1024 * 1024 : Nat) = 2 ^ 20 := by decide
  have e3 : (2 ^ 20 * 1024 : Nat) = 2 ^ 30 := by decide
  have e1 : (1024 : Nat) = 2 ^ 10 := by decide
  have hm2 : v * 1024 % W * 1024 % W = v * 2 ^ 20 % W := by rw [mod_twice, e2]
  have hm3 : v * 1024 % W * 1024 % W * 1024 % W = v * 2 ^ 30 % W := by rw [hm2, mod_twice, e3]
  have hm1 : v * 1024 % W = v * 2 ^ 10 % W := by rw [e1]
  have hm0 : v * 1 % W = v := by rw [Nat.mul_one, Nat.mod_eq_of_lt hvW]
  rw [hm3, hm2, hm1]
  have hp := pick hu (fun m => v * m % W) dflt
  simp only [hm0] at hp
  exact hp

/-- **C83** (partial: sizes below `2^64` bytes).  The limit is the number of bytes written. -/
theorem C83_exact_partial {ds u : List Char} {n m : Nat} (hd : Decimal ds n) (hu : Unit' u m) (hfit : n * m < W)
    (dflt : Nat) : limit dflt (some (ds ++ u)) = n * m := by
  have hm : 1 ≤ m := by cases hu <;> decide
  have hn : n ≤ n * m := Nat.le_mul_of_pos_right n hm
  rw [C83_value hd hu]
  have : min n (W - 1) = n := by omega
  rw [this, Nat.mod_eq_of_lt hfit]

/-- **C83** (strings that are not accepted).  The default is kept exactly for those non-empty strings that are not a
numeral followed by a unit: `convertToBytes` throws. -/
theorem C83_refused {str : List Char} (hne : str ≠ []) :
    convertToBytes str = none ↔ ¬ ∃ ds u n m, str = ds ++ u ∧ Decimal ds n ∧ Unit' u m := by
  constructor
  · rintro h ⟨ds, u, n, m, rfl, hd, hu⟩
    have h0 := C83_value hd hu 0
    have h1 := C83_value hd hu 1
    simp only [limit, h, Option.getD_none] at h0 h1
    omega
  · intro h
    refine Classical.byContradiction fun hc => h ?_
    unfold convertToBytes at hc
    rw [if_neg hne] at hc
    simp only at hc
    split at hc
    · exact absurd rfl hc
    · rename_i hdg
      obtain ⟨n, hn⟩ := decimal_of_digits hdg (fun c hcm => by
        have := List.all_takeWhile (p := isDigit) (l := str)
        exact List.all_eq_true.1 this c hcm)
      have single : ∀ l, (str.dropWhile isDigit).map lower = [l] →
          str.dropWhile isDigit = [l] ∨ str.dropWhile isDigit = [Char.ofNat (l.toNat - 32)] := by
        intro l he
        match hs : str.dropWhile isDigit, he with
        | [c], he =>
          simp only [List.map_cons, List.map_nil, List.cons.injEq, and_true] at he
          rcases lower_eq he with h1 | h1
          · left; rw [h1]
          · right; rw [h1]
      have hu : ∃ m, Unit' (str.dropWhile isDigit) m := by
        split at hc
        · rename_i hs
          rw [List.map_eq_nil_iff.1 hs]; exact ⟨_, .byte⟩
        · split at hc
          · rename_i hs
            rcases single 'k' hs with h1 | h1 <;> rw [h1]
            · exact ⟨_, .k⟩
            · exact ⟨_, .K⟩
          · split at hc
            · rename_i hs
              rcases single 'm' hs with h1 | h1 <;> rw [h1]
              · exact ⟨_, .m⟩
              · exact ⟨_, .M⟩
            · split at hc
              · rename_i hs
                rcases single 'g' hs with h1 | h1 <;> rw [h1]
                · exact ⟨_, .g⟩
                · exact ⟨_, .G⟩
              · exact absurd rfl hc
      obtain ⟨m, hm⟩ := hu
      exact ⟨_, _, n, m, (List.takeWhile_append_dropWhile (p := isDigit) (l := str)).symm, hn, hm⟩

/-- the default is kept for a string that is refused -/
theorem C83_default {str : List Char} (hne : str ≠ []) (dflt : Nat)
    (h : ¬ ∃ ds u n m, str = ds ++ u ∧ Decimal ds n ∧ Unit' u m) : limit dflt (some str) = dflt := by
  simp [limit, (C83_refused hne).2 h]

/-- **C83** (sizes that do not fit).  A size of `2^64` bytes or more is neither refused nor rounded down to the largest
limit: the limit is smaller than the size written, whatever it is, and for every multiple of `2^34` below `2^64`
written in gigabytes it is 0. -/
theorem C83_too_large_counterexample {ds u : List Char} {n m : Nat} (hd : Decimal ds n) (hu : Unit' u m) (hbig : W ≤ n * m)
    (dflt : Nat) : limit dflt (some (ds ++ u)) < n * m ∧
      (∀ j, n = 2 ^ 34 * j → n < W → u = ['g'] → limit dflt (some (ds ++ u)) = 0) := by
  have hv := C83_value hd hu dflt
  refine ⟨?_, ?_⟩
  · rw [hv]
    have : min n (W - 1) * m % W < W := Nat.mod_lt _ W_pos
    omega
  · intro j hj hn hg
    subst hg
    cases hu
    rw [hv]
    have : min n (W - 1) = n := by omega
    rw [this, hj]
    have : 2 ^ 34 * j * 2 ^ 30 = W * j := by rw [W_eq]; omega
    rw [this, Nat.mul_mod_right]

/-- **C83** (the empty string).  It gives the limit 0, not the default. -/
theorem C83_empty_counterexample (dflt : Nat) : limit dflt (some []) = 0 := rfl

/-! ## Non-vacuity -/

/-- "64k" -/
example : limit 1 (some ['6', '4', 'k']) = 65536 :=
  C83_exact_partial (ds := ['6', '4']) (u := ['k']) (.snoc ['6'] 6 4 (by decide) (.digit 6 (by decide))) .k (by rw [W_eq]; decide) 1

/-- "64kb" is refused -/
example : convertToBytes ['6', '4', 'k', 'b'] = none := by decide

/-- "17179869184g" -/
example : convertToBytes ['1', '7', '1', '7', '9', '8', '6', '9', '1', '8', '4', 'g'] = some 0 := by decide

end FF.Dist.Bytes
