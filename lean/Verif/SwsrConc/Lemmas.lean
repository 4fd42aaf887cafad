import Verif.SwsrConc.Model
/-!
# The inductive invariant of the concurrent SPSC queue
-/
namespace FF.SwsrConc
open FF.Swsr (next)
variable {A V : Type}

/-! ## Lists -/

theorem split_at {β : Type} {l : List β} {m : Nat} {e : β} (h : l[m]? = some e) :
    ∃ ys, l = l.take m ++ e :: ys ∧ l.eraseIdx m = l.take m ++ ys := by
  induction l generalizing m with
  | nil => simp at h
  | cons x l ih =>
    cases m with
    | zero => simp at h; subst h; exact ⟨l, by simp, by simp⟩
    | succ m =>
      simp at h
      obtain ⟨ys, h1, h2⟩ := ih h
      exact ⟨ys, by simpa using h1, by simpa using h2⟩

def posOf : PEnt A V → Option Nat
  | .slot _ _ _ k => some k
  | .pay _ _ _ => none

def pend (sb : List (PEnt A V)) : List Nat := sb.filterMap posOf

theorem mem_pend {sb : List (PEnt A V)} {k : Nat} :
    k ∈ pend sb ↔ ∃ ep i a, PEnt.slot ep i a k ∈ sb := by
  simp only [pend, List.mem_filterMap]
  constructor
  · rintro ⟨e, h1, h2⟩
    cases e with
    | pay => simp [posOf] at h2
    | slot ep i a k' => simp [posOf] at h2; subst h2; exact ⟨_, _, _, h1⟩
  · rintro ⟨ep, i, a, h⟩; exact ⟨_, h, rfl⟩

theorem pend_append (xs ys : List (PEnt A V)) : pend (xs ++ ys) = pend xs ++ pend ys := by
  simp [pend]

theorem slotFwd_append (xs ys : List (PEnt A V)) (i : Nat) :
    slotFwd (xs ++ ys) i = (slotFwd ys i).or (slotFwd xs i) := by
  unfold slotFwd
  rw [List.foldl_append]
  generalize List.foldl _ none xs = r
  clear xs
  induction ys generalizing r with
  | nil => simp
  | cons e ys ih =>
    simp only [List.foldl_cons]
    rw [ih]
    cases e with
    | pay => rfl
    | slot ep j a k =>
      by_cases hj : j = i
      · simp only [hj, if_true]
        rw [ih (r := some a)]
        cases List.foldl _ none ys <;> simp
      · simp only [hj, if_false]

theorem payFwd_append [DecidableEq A] (xs ys : List (PEnt A V)) (a : A) :
    payFwd (xs ++ ys) a = (payFwd ys a).or (payFwd xs a) := by
  unfold payFwd
  rw [List.foldl_append]
  generalize List.foldl _ none xs = r
  clear xs
  induction ys generalizing r with
  | nil => simp
  | cons e ys ih =>
    simp only [List.foldl_cons]
    rw [ih]
    cases e with
    | slot => rfl
    | pay ep b v =>
      by_cases hj : b = a
      · simp only [hj, if_true]
        rw [ih (r := some v)]
        cases List.foldl _ none ys <;> simp
      · simp only [hj, if_false]

theorem slotFwd_cons_none (e : PEnt A V) (ys : List (PEnt A V)) (i : Nat) :
    slotFwd (e :: ys) i = (slotFwd ys i).or (slotFwd [e] i) := slotFwd_append [e] ys i

theorem payFwd_cons [DecidableEq A] (e : PEnt A V) (ys : List (PEnt A V)) (a : A) :
    payFwd (e :: ys) a = (payFwd ys a).or (payFwd [e] a) := payFwd_append [e] ys a

theorem slotFwd_none {sb : List (PEnt A V)} {i : Nat} :
    slotFwd sb i = none ↔ ∀ ep a k, PEnt.slot ep i a k ∉ sb := by
  induction sb with
  | nil => simp [slotFwd]
  | cons e ys ih =>
    rw [slotFwd_cons_none, Option.or_eq_none_iff, ih]
    cases e with
    | pay => simp [slotFwd]
    | slot ep j a k =>
      simp only [slotFwd, List.foldl_cons, List.foldl_nil, List.mem_cons, not_or, PEnt.slot.injEq]
      by_cases hj : j = i
      · subst hj
        simp
        exact ⟨ep, a, k, by simp⟩
      · simp [hj, Ne.symm hj]

theorem payFwd_none [DecidableEq A] {sb : List (PEnt A V)} {a : A} :
    payFwd sb a = none ↔ ∀ ep v, PEnt.pay ep a v ∉ sb := by
  induction sb with
  | nil => simp [payFwd]
  | cons e ys ih =>
    rw [payFwd_cons, Option.or_eq_none_iff, ih]
    cases e with
    | slot => simp [payFwd]
    | pay ep b v =>
      simp only [payFwd, List.foldl_cons, List.foldl_nil, List.mem_cons, not_or, PEnt.pay.injEq]
      by_cases hj : b = a
      · subst hj
        simp
        exact ⟨ep, v, by simp⟩
      · simp [hj, Ne.symm hj]

theorem next_mod {n p : Nat} (hn : 0 < n) : next n (p % n) = (p + 1) % n := by
  have := Nat.mod_lt p hn
  unfold next
  rw [Nat.add_mod]
  by_cases h1 : n = 1
  · subst h1; simp [Nat.mod_one]
  · rw [Nat.mod_eq_of_lt (show 1 < n by omega)]
    split
    · have : p % n + 1 = n := by omega
      rw [this]; simp
    · rw [Nat.mod_eq_of_lt (show p % n + 1 < n by omega)]

end FF.SwsrConc
