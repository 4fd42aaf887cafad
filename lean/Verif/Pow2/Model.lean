/-!
# Rounding helpers

Model of the integer helpers used to size queues and to check alignments.
C++ unsigned arithmetic is modelled on `Nat` with the wrap-around written out.
-/

namespace FF.Pow2

/-- One past the largest `unsigned` (32 bits on the platforms FastFlow supports). -/
def U32 : Nat := 2 ^ 32
/-- One past the largest `unsigned long` / `size_t` (64 bits). -/
def U64 : Nat := 2 ^ 64

/-- `static inline bool isPowerOf2(unsigned x)` (`/repo/ff/utils.hpp` 206–208:
`return (x != 0 && (x & (x-1)) == 0);`), applied to an already 32-bit argument. -/
def isPowerOf2 (x : Nat) : Bool := x != 0 && (x &&& (x - 1)) == 0

/-- What a caller holding an `unsigned long` gets: the argument is first converted to
`unsigned` (implicit conversion at `/repo/ff/utils.hpp` 211 and
`/repo/ff/mpmc/MPMCqueues.hpp` 163). -/
def isPowerOf2Long (x : Nat) : Bool := isPowerOf2 (x % U32)

/-- The loop `while (x > p) p <<= 1;` of `nextPowerOf2` (`/repo/ff/utils.hpp` 212–213) on
64-bit `unsigned long`.  `none` means "not finished after `fuel` tests of the condition". -/
def nextLoop : (fuel x p : Nat) → Option Nat
  | 0, _, _ => none
  | fuel + 1, x, p => if x > p then nextLoop fuel x (p * 2 % U64) else some p

/-- `nextPowerOf2(unsigned long x)` (`/repo/ff/utils.hpp` 210–215): an assertion that `x`
is not already a power of two (result `some none` = the assertion fires), then the loop. -/
def nextPowerOf2 (fuel x : Nat) : Option (Option Nat) :=
  if isPowerOf2Long x then some none else (nextLoop fuel x 1).map some

/-- `nextMultipleOfIf(unsigned x, unsigned m)` (`/repo/ff/utils.hpp` 226–229:
`unsigned r = x % m; return (r ? (x-r+m):x);`).  `none`: division by zero (undefined). -/
def nextMultipleOfIf (x m : Nat) : Option Nat :=
  if m = 0 then none
  else
    let r := x % m
    some (if r != 0 then ((x + U32 - r) % U32 + m) % U32 else x)

/-- `isPowerOfTwoMultiple(size_t alignment, size_t multiple)` (`/repo/ff/allocator.hpp`
225–227: `return alignment && ((alignment & (alignment-multiple))==0);`), 64-bit unsigned
subtraction. -/
def isPowerOfTwoMultiple (alignment multiple : Nat) : Bool :=
  alignment != 0 && (alignment &&& ((alignment + U64 - multiple) % U64)) == 0

end FF.Pow2
