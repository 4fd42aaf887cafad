/-!
# Byte addressed memory

Memory as the allocators see it: a value for every byte address.  A pointer or a counter takes 8
bytes, little endian.
-/
namespace FF.Mem

/-- Memory: address ↦ byte. -/
abbrev Mem := Nat → Nat

/-- The 8 byte word at address `a`. -/
def ld (m : Mem) (a : Nat) : Nat :=
  m a % 256 + 256 * (m (a + 1) % 256) + 65536 * (m (a + 2) % 256) + 16777216 * (m (a + 3) % 256) +
    4294967296 * (m (a + 4) % 256) + 1099511627776 * (m (a + 5) % 256) +
    281474976710656 * (m (a + 6) % 256) + 72057594037927936 * (m (a + 7) % 256)

/-- Stores the 8 byte word `v` at address `a`. -/
def st (m : Mem) (a v : Nat) : Mem := fun x =>
  if x = a then v % 256
  else if x = a + 1 then v / 256 % 256
  else if x = a + 2 then v / 65536 % 256
  else if x = a + 3 then v / 16777216 % 256
  else if x = a + 4 then v / 4294967296 % 256
  else if x = a + 5 then v / 1099511627776 % 256
  else if x = a + 6 then v / 281474976710656 % 256
  else if x = a + 7 then v / 72057594037927936 % 256
  else m x

/-- Stores one byte (what the user of a block does). -/
def stb (m : Mem) (a v : Nat) : Mem := fun x => if x = a then v else m x

theorem ld_congr {m m' : Mem} {a : Nat} (h : ∀ x, a ≤ x → x < a + 8 → m x = m' x) :
    ld m a = ld m' a := by
  unfold ld
  rw [h a (by omega) (by omega), h (a + 1) (by omega) (by omega), h (a + 2) (by omega) (by omega),
    h (a + 3) (by omega) (by omega), h (a + 4) (by omega) (by omega),
    h (a + 5) (by omega) (by omega), h (a + 6) (by omega) (by omega),
    h (a + 7) (by omega) (by omega)]

theorem st_out {m : Mem} {a v x : Nat} (h : x < a ∨ a + 8 ≤ x) : st m a v x = m x := by
  unfold st
  repeat rw [if_neg (by omega)]

theorem ld_st_same {m : Mem} {a v : Nat} (h : v < 18446744073709551616) : ld (st m a v) a = v := by
  simp only [ld, st, if_true, Nat.add_right_cancel_iff, Nat.add_eq_left, Nat.reduceEqDiff,
    if_false, Nat.left_eq_add, Nat.add_left_cancel_iff]
  omega

theorem ld_st_disj {m : Mem} {a b v : Nat} (h : b + 8 ≤ a ∨ a + 8 ≤ b) :
    ld (st m a v) b = ld m b :=
  ld_congr fun x _ _ => st_out (by omega)

theorem ld_stb_disj {m : Mem} {a b v : Nat} (h : a < b ∨ b + 8 ≤ a) :
    ld (stb m a v) b = ld m b :=
  ld_congr fun x h1 h2 => by unfold stb; rw [if_neg (by omega)]

end FF.Mem
