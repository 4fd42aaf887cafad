import Verif.Pow2.Props
/-!
# Thread mapping (`ff/mapper.hpp`)

`threadMapper` keeps a list of core numbers, padded to a power of two, and gives out cores by index
or round-robin.
-/
namespace FF.Mapper
open FF.Pow2

/-- The fields (ff/mapper.hpp:375-378). -/
structure S where
  rrcnt : Nat
  mask : Nat
  num : Nat
  clist : List Nat
  deriving DecidableEq

/-- `for(i=List.size(), j=0; i<size; ++i, j++) List.push_back(List[j])` with `k` rounds left and
index `j` (ff/mapper.hpp:249-250, 277-278, 149-150; the two
`setMappingList` reserve the memory before, ff/mapper.hpp:246, 274). -/
def pad (l : List Nat) : Nat → Nat → List Nat
  | 0, _ => l
  | k + 1, j => pad (l ++ [l.getD j 0]) k (j + 1)

/-- `if (!isPowerOf2(size)) size = nextPowerOf2(size)` (ff/mapper.hpp:243-246, 271-274, 147-148).
Sizes are below 2^32.  `none`: the loop of `nextPowerOf2` does not end, which does not happen for
such sizes. -/
def roundUp (n : Nat) : Option Nat :=
  if isPowerOf2 n then some n
  else match nextPowerOf2 64 n with
    | some (some r) => some r
    | _ => none

/-- The end of both `setMappingList` (ff/mapper.hpp:241-251, 270-279). -/
def S.install (s : S) (l : List Nat) : Option S :=
  (roundUp l.length).map fun size =>
    { s with rrcnt := 0, mask := size - 1, clist := pad l (size - l.length) 0 }

/-- The constructor without a mapping string (ff/mapper.hpp:136-157); `nc` is the number of cores.
`CList` starts with capacity 512 (ff/svector.hpp:66-76) and `reserve(size)` makes it hold `nc`
elements.  `none`: with more than 512 cores, not a power of two, the vector is full when the padding
starts and `CList.push_back(CList[j])` moves the memory its argument refers to (ff/svector.hpp:190-193):
the element is read after it was freed. -/
def S.new (nc : Nat) : Option S :=
  if nc > 512 ∧ isPowerOf2 nc = false then none
  else (S.mk 0 0 nc []).install (List.range nc)

/-- `setMappingList(const std::vector<size_t>&)` (ff/mapper.hpp:255-281).  The pair tells whether the
list was taken. -/
def S.setVec (s : S) (v : List Nat) : Option (S × Bool) :=
  if v.length > s.mask + 1 ∨ v.length = 0 then some ({ s with rrcnt := 0 }, false)
  else if v.any (fun c => decide (c > s.num - 1)) then some ({ s with rrcnt := 0 }, false)
  else (s.install v).map fun s' => (s', true)

/-- `getCoreId()` (ff/mapper.hpp:289-294); `none`: read outside the list. -/
def S.next (s : S) : Option (Nat × S) :=
  match s.clist[s.rrcnt]? with
  | some id => some (id, { s with rrcnt := (s.rrcnt + 1) &&& s.mask })
  | none => none

/-- `getCoreId(tid)` (ff/mapper.hpp:319-324). -/
def S.core (s : S) (tid : Nat) : Option Nat := s.clist[tid &&& s.mask]?

/-! ## The mapping string -/

/-- Separators (ff/mapper.hpp:224). -/
def isSep (c : Char) : Bool := c == ' ' || c == '\t' || c == ','

/-- White space skipped by `strtoul` (`isspace` in the C locale). -/
def isSpace (c : Char) : Bool :=
  c == ' ' || c == '\t' || c == '\n' || c == '\r' || c == '\x0b' || c == '\x0c'

/-- Value of a digit for `strtoul`. -/
def digitVal (c : Char) : Nat :=
  if '0' ≤ c ∧ c ≤ '9' then c.toNat - '0'.toNat
  else if 'a' ≤ c ∧ c ≤ 'z' then c.toNat - 'a'.toNat + 10
  else if 'A' ≤ c ∧ c ≤ 'Z' then c.toNat - 'A'.toNat + 10
  else 99

/-- Reads digits: accumulated value, number of digits, rest of the string. -/
def digits (base : Nat) : List Char → Nat → Nat → Nat × Nat × List Char
  | [], acc, n => (acc, n, [])
  | c :: cs, acc, n =>
    if digitVal c < base then digits base cs (acc * base + digitVal c) (n + 1)
    else (acc, n, c :: cs)

/-- The digits with the prefix of base 0: `0x` hexadecimal, `0` octal, else decimal. -/
def numeral : List Char → Nat × Nat × List Char
  | '0' :: x :: d :: cs =>
    if (x = 'x' ∨ x = 'X') ∧ digitVal d < 16 then digits 16 (d :: cs) 0 0
    else digits 8 ('0' :: x :: d :: cs) 0 0
  | '0' :: cs => digits 8 ('0' :: cs) 0 0
  | cs => digits 10 cs 0 0

/-- The optional sign. -/
def sign : List Char → Bool × List Char
  | '-' :: r => (true, r)
  | '+' :: r => (false, r)
  | r => (false, r)

/-- `strtoul(str, &end, 0)` of the C library (called at ff/mapper.hpp:226): value and rest; `none`: no
conversion. -/
def strtoul (cs : List Char) : Option (Nat × List Char) :=
  let p := sign (cs.dropWhile isSpace)
  let q := numeral p.2
  if q.2.1 = 0 then none
  else
    let v := min q.1 (U64 - 1)
    some (if p.1 then (U64 - v) % U64 else v, q.2.2)

/-- The loop of `setMappingList(const char*)` (ff/mapper.hpp:223-239).  `cpuid` is `unsigned`: the
value of `strtoul` is cut to 32 bits.  Every round reads at least one character, so the length of the
string bounds the number of rounds. -/
def parse (num : Nat) : Nat → List Char → List Nat → Option (List Nat)
  | 0, _, _ => none
  | fuel + 1, cs, l =>
    match strtoul (cs.dropWhile isSep) with
    | none => none
    | some (v, rest) =>
      let cpuid := v % U32
      if cpuid > num - 1 then none
      else
        let l := l ++ [cpuid]
        if rest = [] then some l else parse num fuel rest l

/-- `setMappingList(const char*)` (ff/mapper.hpp:217-253); the second component is the return value,
`none` for -1. -/
def S.setStr (s : S) (str : List Char) : Option (S × Option Nat) :=
  match parse s.num (str.length + 1) str [] with
  | none => some ({ s with rrcnt := 0 }, none)
  | some l => (s.install l).map fun s' => (s', some l.length)

end FF.Mapper
