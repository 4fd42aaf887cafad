/-!
# C71: the buffer that tasks are serialised into

Source: `/repo/ff/distributed/ff_serializationBuffer.hpp` 8-70 (`serBuffer`), `/repo/ff/node.hpp` 1672-1679 (its use:
one buffer per thread and task type, `ar << task`, `getBufferAndReset`).

The base class `std::streambuf` is the one of the C++ standard: `sputc` stores at `pptr()` if `pptr() < epptr()` and
calls `overflow` otherwise, and `xsputn` copies as much as there is room for, calls `overflow` for the next character
and goes on.  `pbump` takes an `int`.  `realloc` and `malloc` do not fail; `malloc` returns memory with any contents.
-/
namespace FF.SerBuf

/-- `serBuffer` -/
structure B where
  /-- the memory at `m_buffer` -/
  mem : Nat → Nat
  /-- `m_capacity`; `epptr() - pbase()` -/
  cap : Nat
  /-- `pptr() - pbase()` -/
  pos : Int
  /-- a store outside of the memory that was allocated -/
  bad : Bool

/-- `headerSize` (9): the memory has that many more bytes -/
def slack : Nat := 17

/-- `static_cast<int>` -/
def toInt (n : Int) : Int := (n + 2 ^ 31) % 2 ^ 32 - 2 ^ 31

/-- A `size_t`. -/
def toSize (n : Nat) : Nat := n % 2 ^ 64

/-- `*pptr() = c; pbump(1)` -/
def B.store (b : B) (c : Nat) : B :=
  if 0 ≤ b.pos ∧ b.pos < b.cap + slack then
    { b with mem := fun i => if i = b.pos.toNat then c else b.mem i, pos := b.pos + 1 }
  else { b with pos := b.pos + 1, bad := true }

/-- `resizeBuffer` (31-47): `realloc` keeps the contents -/
def B.resize (b : B) (n : Nat) : B :=
  if n ≤ b.cap then b else { b with cap := n, pos := toInt b.pos }

/-- `overflow` (57-65) -/
def B.overflow (b : B) (c : Nat) : B := (b.resize (toSize (b.cap * 2))).store c

/-- `sputc` of `std::streambuf` -/
def B.put (b : B) (c : Nat) : B := if b.pos < b.cap then b.store c else b.overflow c

/-- The copy in `xsputn`: stores as much as there is room for, without any test. -/
def B.copy (b : B) (l : List Nat) : B := l.foldl B.store b

/-- `xsputn` of `std::streambuf` -/
def B.write (b : B) (l : List Nat) : B :=
  match l with
  | [] => b
  | c :: cs =>
    if b.pos < b.cap then
      let n := ((b.cap : Int) - b.pos).toNat
      (b.copy ((c :: cs).take (n - 1 + 1))).write (cs.drop (n - 1))
    else (b.overflow c).write cs
termination_by l.length
decreasing_by
  · simp only [List.length_drop, List.length_cons]; omega
  · simp only [List.length_cons]; omega

/-- `getBufferAndReset` (49-54): the bytes and their number; the buffer afterwards, with new memory `mem` -/
def B.take (b : B) (mem : Nat → Nat) : List Nat × B :=
  ((List.range b.pos.toNat).map b.mem, { b with mem := mem, pos := 0 })

/-- `serBuffer()` (11-14): capacity 2 -/
def B.init (mem : Nat → Nat) : B := { mem := mem, cap := 2, pos := 0, bad := false }

/-- `serializeF` (node.hpp 1674-1679): the archive writes the pieces `ws`; the bytes of the message. -/
def serialize (b : B) (ws : List (List Nat)) (mem : Nat → Nat) : List Nat × B := (ws.foldl B.write b).take mem

/-- A thread serialises tasks one after the other: the bytes of their messages, and the buffer at the end. -/
def serializeAll (mem : Nat → Nat) : B → List (List (List Nat)) → List (List Nat) × B
  | b, [] => ([], b)
  | b, t :: ts =>
    let r := serialize b t mem
    let r' := serializeAll mem r.2 ts
    (r.1 :: r'.1, r'.2)

end FF.SerBuf
