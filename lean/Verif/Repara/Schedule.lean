import Verif.Repara.Command
import Verif.Dist.Endpoint
/-!
# The schedule id of a command (C85)

Models `Kernel::getScheduleID` (ff/repara/rprkernels.hpp 563-568).  `std::stol` is modelled as `std::stoi` in
`Dist/Endpoint`, with the range of a `long` of 64 bits.
-/
namespace FF.Repara.Command
open FF.Dist.Bytes (isDigit)
open FF.Dist.Endpoint (isSpace)

/-- `std::stol`: `none` is one of its exceptions -/
def stol (s : List Char) : Option Int :=
  let s := s.dropWhile isSpace
  let (neg, s) := match s with
    | '-' :: r => (true, r)
    | '+' :: r => (false, r)
    | r => (false, r)
  let digits := s.takeWhile isDigit
  if digits = [] then none
  else
    let v : Nat := digits.foldl (fun v c => 10 * v + (c.toNat - '0'.toNat)) 0
    if neg then (if v ≤ 9223372036854775808 then some (-(v : Int)) else none)
    else (if v < 9223372036854775808 then some (v : Int) else none)

/-- `getScheduleID(cmd)` (563-568): a failed assertion or an exception is `none`; a `long` becomes a `size_t` -/
def scheduleID (cmd : List Char) : Option Nat :=
  if cmd = [] then some 0
  else do
    let t ← upto ';' cmd
    let v ← stol t
    some (v % 18446744073709551616).toNat

theorem digit_is {n : Nat} (h : n < 10) :
    isDigit (digit n) = true ∧ isSpace (digit n) = false ∧ digit n ≠ '-' ∧ digit n ≠ '+' ∧
      (digit n).toNat - '0'.toNat = n := by
  have : n = 0 ∨ n = 1 ∨ n = 2 ∨ n = 3 ∨ n = 4 ∨ n = 5 ∨ n = 6 ∨ n = 7 ∨ n = 8 ∨ n = 9 := by omega
  rcases this with rfl | rfl | rfl | rfl | rfl | rfl | rfl | rfl | rfl | rfl <;> decide

theorem dec_is (n : Nat) : ∀ c ∈ dec n, isDigit c = true ∧ isSpace c = false ∧ c ≠ '-' ∧ c ≠ '+' := by
  induction n using Nat.strongRecOn with
  | ind n ih =>
    rw [dec]
    split
    · rename_i h
      intro c hc
      simp only [List.mem_singleton] at hc
      subst hc; obtain ⟨a, b, c, d, _⟩ := digit_is h; exact ⟨a, b, c, d⟩
    · rename_i h
      intro c hc
      rcases List.mem_append.1 hc with hc | hc
      · exact ih (n / 10) (by omega) c hc
      · simp only [List.mem_singleton] at hc
        subst hc; obtain ⟨a, b, c, d, _⟩ := digit_is (Nat.mod_lt n (by decide)); exact ⟨a, b, c, d⟩

theorem dec_value (n : Nat) : (dec n).foldl (fun v c => 10 * v + (c.toNat - '0'.toNat)) 0 = n := by
  induction n using Nat.strongRecOn with
  | ind n ih =>
    rw [dec]
    split
    · rename_i h
      simp only [List.foldl_cons, List.foldl_nil]
      rw [(digit_is h).2.2.2.2]; omega
    · rename_i h
      rw [List.foldl_append, ih (n / 10) (by omega)]
      simp only [List.foldl_cons, List.foldl_nil]
      rw [(digit_is (Nat.mod_lt n (by decide))).2.2.2.2]; omega

theorem take_all {p : Char → Bool} {l : List Char} (h : ∀ c ∈ l, p c = true) : l.takeWhile p = l := by
  induction l with
  | nil => rfl
  | cons c l ih => simp [List.takeWhile, h c (by simp), ih fun c hc => h c (by simp [hc])]

theorem stol_dec (n : Nat) : stol (dec n) = if n < 9223372036854775808 then some (n : Int) else none := by
  have hne : dec n ≠ [] := by rw [dec]; split <;> simp
  have hv := dec_value n
  have hd := dec_is n
  cases hl : dec n with
  | nil => exact absurd hl hne
  | cons c l =>
    rw [hl] at hv hd
    have hc := hd c (by simp)
    have e1 : (c :: l).dropWhile isSpace = c :: l := by simp [List.dropWhile, hc.2.1]
    have e2 : (c :: l).takeWhile isDigit = c :: l := take_all fun x hx => (hd x hx).1
    unfold stol
    simp only [e1]
    split
    · rename_i h; simp only [List.cons.injEq] at h; exact absurd h.1 hc.2.2.1
    · rename_i h; simp only [List.cons.injEq] at h; exact absurd h.1 hc.2.2.2
    · simp only [e2, hv]
      simp

/-- **C85** (the schedule).  The schedule id of a command is the number written at its beginning, whatever follows;
numbers outside the range of a `long` are refused. -/
theorem C85_schedule (n : Nat) (es : List Entry) :
    scheduleID (command (dec n) es) = if n < 9223372036854775808 then some n else none := by
  have hne : command (dec n) es ≠ [] := by simp [command]
  unfold scheduleID
  rw [if_neg hne]
  unfold command
  rw [upto_app fun h => (dec_ne n _ h).1 rfl]
  simp only [Option.bind_eq_bind, Option.bind_some]
  rw [stol_dec]
  split
  · simp only [Option.bind_some, Option.some.injEq]; omega
  · rfl

/-- the digits of a number can be the schedule id of the other theorems -/
theorem dec_plain (n : Nat) : Plain (dec n) :=
  ⟨fun h => (dec_ne n _ h).1 rfl, fun h => (dec_ne n _ h).2.1 rfl, fun h => (dec_ne n _ h).2.2.1 rfl⟩

example : scheduleID "17;$kernel_1;GPU:0;URF;SF;$kernel_2;CPU:0;R;$".toList = some 17 := by decide +kernel

end FF.Repara.Command
