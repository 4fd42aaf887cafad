import Mathlib.Data.List.Basic
import Mathlib.Algebra.BigOperators.Group.List.Basic
/-!
# C42: the wire format of the distributed runtime

Sender side: `uBuffer::push`, `flush` and `pushHeader_` of `ff/distributed/ff_dsenderMTCL.hpp`; receiver
side: `handleBatch` of `ff/distributed/ff_dreceiverMTCL.hpp`.  A frame is one message of the transport: a
list of bytes.
-/
namespace FF.Net

/-- `SINGLE_SEND_SIZE_THRESHOLD` (ff/dff.hpp, 512 KiB). -/
abbrev THRESH : Nat := 524288

/-- `headerSize` (ff/distributed/ff_ddefines.hpp:125): 2 + 2 + 1 + 8 bytes. -/
abbrev HS : Nat := 13

/-- `message2_t` (ff/distributed/ff_ddefines.hpp:76-123): the fields that travel.  `size` is the length of
the payload. -/
structure Msg where
  src : Int
  dest : Int
  type : Nat
  data : List Nat
  deriving DecidableEq, Repr

/-- `k` bytes, big endian (`htons`, `htonl`, `htobe64`: ff/distributed/ff_dsenderMTCL.hpp:131-143). -/
def be : Nat → Nat → List Nat
  | 0, _ => []
  | k + 1, n => be k (n / 256) ++ [n % 256]

/-- The number in big endian bytes (ff/distributed/ff_dreceiverMTCL.hpp:52-64). -/
def unbe (l : List Nat) : Nat := l.foldl (fun a b => a * 256 + b) 0

/-- An `int` as `addr_t` (a `short`) in the header: 16 bits. -/
def addr (x : Int) : Nat := (x % 65536).toNat

/-- The `short` read back. -/
def unaddr (n : Nat) : Int := if n < 32768 then (n : Int) else (n : Int) - 65536

/-- `pushHeader_` (ff/distributed/ff_dsenderMTCL.hpp:145-150). -/
def header (m : Msg) (size : Nat) : List Nat :=
  be 2 (addr m.dest) ++ be 2 (addr m.src) ++ [m.type] ++ be 8 size

/-- The frame of a batch: payloads, headers, number of messages (`push` 445-450 and `flush` 466-471). -/
def batchFrame (ms : List Msg) : List Nat :=
  (ms.map Msg.data).flatten ++ (ms.map fun m => header m m.data.length).flatten ++ be 4 ms.length

/-- The frames of a direct send (ff/distributed/ff_dsenderMTCL.hpp:406-434). -/
def directFrames (m : Msg) : List (List Nat) :=
  if m.data.length > THRESH then [header m m.data.length ++ be 4 1, m.data]
  else [m.data ++ header m m.data.length ++ be 4 1]

/-- What the receiver makes of a frame: messages for the next node; a message whose payload is the next
frame; logical end of stream. -/
inductive Item where
  | data (m : Msg)
  | big (src dest : Int) (type size : Nat)
  | eos (src : Int)
  deriving DecidableEq, Repr

/-- The header fields at `l`: destination, source, type, size. -/
def unheader (l : List Nat) : Int × Int × Nat × Nat :=
  (unaddr (unbe (l.take 2)), unaddr (unbe ((l.drop 2).take 2)), (l.drop 4).headD 0,
    unbe ((l.drop 5).take 8))

/-- The loop over the batch (ff/distributed/ff_dreceiverMTCL.hpp:110-140); `none`: read outside the
frame. -/
def decodeLoop : Nat → List Nat → List Nat → Option (List Item)
  | 0, _, _ => some []
  | n + 1, pay, hs =>
    if hs.length < HS then none
    else
      let h := unheader hs
      if h.2.2.2 ≠ 0 then
        if pay.length < h.2.2.2 then none
        else (decodeLoop n (pay.drop h.2.2.2) (hs.drop HS)).map
          (Item.data ⟨h.2.1, h.1, h.2.2.1, pay.take h.2.2.2⟩ :: ·)
      else if h.2.1 ≠ -1 then (decodeLoop n pay (hs.drop HS)).map (Item.eos h.2.1 :: ·)
      else decodeLoop n pay (hs.drop HS)

/-- The number of messages in the batch, an `int` (ff/distributed/ff_dreceiverMTCL.hpp:74). -/
def count (f : List Nat) : Int :=
  let n := unbe (f.drop (f.length - 4))
  if n < 2147483648 then n else (n : Int) - 4294967296

/-- `handleBatch` (ff/distributed/ff_dreceiverMTCL.hpp:66-145).  A big payload is received from the handle
by the caller of this function in the model. -/
def decode (f : List Nat) : Option (List Item) :=
  if f.length < 4 then none
  else if count f = 1 then
    if f.length < HS + 4 then none
    else
      let h := unheader (f.drop (f.length - HS - 4))
      if h.2.2.2 ≠ 0 then
        if h.2.2.2 > THRESH then some [.big h.2.1 h.1 h.2.2.1 h.2.2.2]
        else if f.length < h.2.2.2 then none
        else some [.data ⟨h.2.1, h.1, h.2.2.1, f.take h.2.2.2⟩]
      else if h.2.1 ≠ -1 then some [.eos h.2.1]
      else some []
  else
    let n := (count f).toNat
    if f.length < n * HS + 4 then none
    else decodeLoop n f (f.drop (f.length - n * HS - 4))

/-! ## Specification -/

/-- The documented ranges: node identifiers are 16 bit, the type is one byte, the size is 64 bit. -/
structure Msg.Ok (m : Msg) : Prop where
  src : -32768 ≤ m.src ∧ m.src < 32768
  dest : -32768 ≤ m.dest ∧ m.dest < 32768
  size : m.data.length < 2 ^ 64

/-- What should arrive: the message itself, or the end of stream of its source if there is no payload
(nothing if it has no source). -/
def arrives (m : Msg) : List Item :=
  if m.data = [] then (if m.src = -1 then [] else [.eos m.src]) else [.data m]

/-! ## Numbers -/

theorem be_length (k n : Nat) : (be k n).length = k := by
  induction k generalizing n with
  | zero => rfl
  | succ k ih => simp [be, ih]

theorem unbe_append (l : List Nat) (b : Nat) : unbe (l ++ [b]) = unbe l * 256 + b := by
  simp [unbe]

theorem unbe_be (k : Nat) : ∀ n, n < 256 ^ k → unbe (be k n) = n := by
  induction k with
  | zero => intro n h; simp at h; subst h; rfl
  | succ k ih =>
    intro n h
    rw [be, unbe_append, ih (n / 256) (by
      rw [Nat.div_lt_iff_lt_mul (by omega), ← Nat.pow_succ]; exact h)]
    omega

theorem unaddr_addr {x : Int} (h1 : -32768 ≤ x) (h2 : x < 32768) : unaddr (addr x) = x := by
  unfold unaddr addr
  split <;> omega

theorem addr_lt (x : Int) : addr x < 256 ^ 2 := by unfold addr; omega

theorem header_length (m : Msg) (n : Nat) : (header m n).length = HS := by
  simp [header, be_length]

theorem unheader_header {m : Msg} (h : m.Ok) (rest : List Nat) :
    unheader (header m m.data.length ++ rest) = (m.dest, m.src, m.type, m.data.length) := by
  have e : header m m.data.length ++ rest =
      be 2 (addr m.dest) ++ (be 2 (addr m.src) ++ ([m.type] ++ (be 8 m.data.length ++ rest))) := by
    simp [header]
  have d2 : (header m m.data.length ++ rest).drop 2 =
      be 2 (addr m.src) ++ ([m.type] ++ (be 8 m.data.length ++ rest)) := by
    rw [e, List.drop_left' (be_length 2 _)]
  have d4 : (header m m.data.length ++ rest).drop 4 = m.type :: (be 8 m.data.length ++ rest) := by
    rw [show (4 : Nat) = 2 + 2 from rfl, ← List.drop_drop, d2, List.drop_left' (be_length 2 _)]; rfl
  have d5 : (header m m.data.length ++ rest).drop 5 = be 8 m.data.length ++ rest := by
    rw [show (5 : Nat) = 4 + 1 from rfl, ← List.drop_drop, d4]; rfl
  unfold unheader
  rw [d2, d4, d5, e, List.take_left' (be_length 2 _), List.take_left' (be_length 2 _),
    List.take_left' (be_length 8 _), unbe_be 2 _ (addr_lt _), unbe_be 2 _ (addr_lt _),
    unbe_be 8 _ h.size, unaddr_addr h.dest.1 h.dest.2, unaddr_addr h.src.1 h.src.2]
  rfl

theorem headers_length (ms : List Msg) :
    ((ms.map fun m => header m m.data.length).flatten).length = ms.length * HS := by
  induction ms with
  | nil => rfl
  | cons m ms ih => simp only [List.map_cons, List.flatten_cons, List.length_append, header_length, ih,
      List.length_cons, Nat.add_mul, Nat.one_mul]; omega

theorem decodeLoop_spec : ∀ (ms : List Msg), (∀ m ∈ ms, m.Ok) → ∀ rest rest',
    decodeLoop ms.length ((ms.map Msg.data).flatten ++ rest)
      ((ms.map fun m => header m m.data.length).flatten ++ rest') = some (ms.flatMap arrives)
  | [], _, _, _ => rfl
  | m :: ms, h, rest, rest' => by
    have hm := h m (by simp)
    have ih := decodeLoop_spec ms (fun x hx => h x (by simp [hx]))
    simp only [List.map_cons, List.flatten_cons, List.append_assoc, List.length_cons, decodeLoop,
      unheader_header hm, List.drop_left' (header_length m _), List.flatMap_cons]
    rw [if_neg (by rw [List.length_append, header_length]; omega)]
    by_cases h0 : m.data = []
    · rw [if_neg (by simp [h0])]
      simp only [h0, List.nil_append, arrives, if_true]
      by_cases h1 : m.src = -1
      · rw [if_neg (by simp [h1]), if_pos h1, ih]; rfl
      · rw [if_pos h1, if_neg h1, ih]; rfl
    · rw [if_pos (by simpa using h0), if_neg (by rw [List.length_append]; omega),
        List.drop_left' rfl, List.take_left' rfl, ih]
      simp [arrives, h0]

theorem frame_count {l : List Nat} {n : Nat} (hn : n < 2 ^ 31) : count (l ++ be 4 n) = n := by
  unfold count
  have : (l ++ be 4 n).drop ((l ++ be 4 n).length - 4) = be 4 n := by
    rw [List.length_append, be_length, Nat.add_sub_cancel, List.drop_left' rfl]
  dsimp only
  rw [this, unbe_be 4 n (by omega), if_pos (by omega)]

/-! ## C42 -/

/-- **C42**: every batch of two messages or more, with any payloads, is decoded to the same messages in the
same order. -/
theorem C42_batch {ms : List Msg} (h2 : 2 ≤ ms.length) (hn : ms.length < 2 ^ 31)
    (hok : ∀ m ∈ ms, m.Ok) : decode (batchFrame ms) = some (ms.flatMap arrives) := by
  unfold decode
  have hc : count (batchFrame ms) = ms.length := frame_count hn
  have hlen : (batchFrame ms).length = ((ms.map Msg.data).flatten).length + ms.length * HS + 4 := by
    simp only [batchFrame, List.length_append, headers_length, be_length]
  rw [hc, if_neg (by omega), if_neg (by omega)]
  simp only [Int.toNat_natCast]
  rw [if_neg (by omega)]
  have hd : (batchFrame ms).drop ((batchFrame ms).length - ms.length * HS - 4) =
      (ms.map fun m => header m m.data.length).flatten ++ be 4 ms.length := by
    rw [hlen, batchFrame, List.append_assoc]
    exact List.drop_left' (by omega)
  rw [hd]
  have := decodeLoop_spec ms hok
    ((ms.map fun m => header m m.data.length).flatten ++ be 4 ms.length) (be 4 ms.length)
  rw [← List.append_assoc] at this
  exact this

/-- **C42**: a frame with one message.  Missing: payloads above the threshold for a separate send, that were
put in a batch all the same (see `C42_single_counterexample`). -/
theorem C42_single_partial {m : Msg} (hok : m.Ok) (hs : m.data.length ≤ THRESH) :
    decode (batchFrame [m]) = some (arrives m) := by
  unfold decode
  have hc : count (batchFrame [m]) = 1 := frame_count (n := 1) (by omega)
  have hlen : (batchFrame [m]).length = m.data.length + HS + 4 := by
    simp only [batchFrame, List.length_append, be_length, List.map_cons, List.map_nil,
      List.flatten_cons, List.flatten_nil, List.append_nil, header_length]
  rw [hc, if_neg (by omega), if_pos rfl, if_neg (by omega)]
  have hd : (batchFrame [m]).drop ((batchFrame [m]).length - HS - 4) =
      header m m.data.length ++ be 4 1 := by
    rw [hlen]
    simp only [batchFrame, List.map_cons, List.map_nil, List.flatten_cons, List.flatten_nil,
      List.append_nil, List.append_assoc, List.length_singleton]
    exact List.drop_left' (by omega)
  rw [hd]
  simp only [unheader_header hok]
  by_cases h0 : m.data = []
  · rw [if_neg (by simp [h0])]
    simp only [arrives, h0, if_true]
    by_cases h1 : m.src = -1
    · rw [if_neg (by simp [h1]), if_pos h1]
    · rw [if_pos h1, if_neg h1]
  · rw [if_pos (by simpa using h0), if_neg (by omega), if_neg (by omega)]
    have ht : (batchFrame [m]).take m.data.length = m.data := by
      simp only [batchFrame, List.map_cons, List.map_nil, List.flatten_cons, List.flatten_nil,
        List.append_nil, List.append_assoc]
      exact List.take_left' rfl
    rw [ht]
    simp [arrives, h0]

theorem directFrames_small {m : Msg} (hs : m.data.length ≤ THRESH) :
    directFrames m = [batchFrame [m]] := by
  unfold directFrames
  rw [if_neg (by omega)]
  simp [batchFrame]

/-- **C42**: a message sent directly, up to the threshold. -/
theorem C42_direct {m : Msg} (hok : m.Ok) (hs : m.data.length ≤ THRESH) :
    ∃ f, directFrames m = [f] ∧ decode f = some (arrives m) :=
  ⟨_, directFrames_small hs, C42_single_partial hok hs⟩

/-- **C42**: a message above the threshold: the first frame announces it with the right size, the second
frame is the payload. -/
theorem C42_direct_big {m : Msg} (hok : m.Ok) (hs : THRESH < m.data.length) :
    ∃ f, directFrames m = [f, m.data] ∧
      decode f = some [.big m.src m.dest m.type m.data.length] := by
  unfold directFrames
  rw [if_pos hs]
  refine ⟨_, rfl, ?_⟩
  unfold decode
  have hc : count (header m m.data.length ++ be 4 1) = 1 := frame_count (n := 1) (by omega)
  have hlen : (header m m.data.length ++ be 4 1).length = HS + 4 := by
    simp only [List.length_append, be_length, header_length]
  rw [hc, if_neg (by omega), if_pos rfl, if_neg (by omega), hlen, Nat.add_sub_cancel_left,
    Nat.sub_self, List.drop_zero]
  simp only [unheader_header hok]
  rw [if_pos (by omega), if_pos hs]

/-! ## Where it fails -/

/-- **C42, counterexample**: when the byte limit of a batch is above the threshold, a message between the
two that is alone in its batch is sent in one frame, but decoded as if its payload came in the next
frame: the next frame is swallowed. -/
theorem C42_single_counterexample {m : Msg} (hok : m.Ok) (hs : THRESH < m.data.length) :
    decode (batchFrame [m]) = some [.big m.src m.dest m.type m.data.length] := by
  unfold decode
  have hc : count (batchFrame [m]) = 1 := frame_count (n := 1) (by omega)
  have hlen : (batchFrame [m]).length = m.data.length + HS + 4 := by
    simp only [batchFrame, List.length_append, be_length, List.map_cons, List.map_nil,
      List.flatten_cons, List.flatten_nil, List.append_nil, header_length]
  rw [hc, if_neg (by omega), if_pos rfl, if_neg (by omega)]
  have hd : (batchFrame [m]).drop ((batchFrame [m]).length - HS - 4) =
      header m m.data.length ++ be 4 1 := by
    rw [hlen]
    simp only [batchFrame, List.map_cons, List.map_nil, List.flatten_cons, List.flatten_nil,
      List.append_nil, List.append_assoc, List.length_singleton]
    exact List.drop_left' (by omega)
  rw [hd]
  simp only [unheader_header hok]
  rw [if_pos (by omega), if_pos hs]

/-- **C42, counterexample**: a message without payload (a task that serializes to nothing, or an end of
stream for one destination) arrives as an end of stream of its source for all destinations. -/
theorem C42_empty_counterexample :
    decode (batchFrame [⟨3, 7, 0, []⟩]) = some [.eos 3] := by decide

/-- **C42, counterexample**: node identifiers above 32767 are cut to 16 bits. -/
theorem C42_identifier_counterexample :
    decode (batchFrame [⟨3, 40000, 0, [1]⟩]) = some [.data ⟨3, -25536, 0, [1]⟩] := by decide

/-! ## A concrete batch -/

example : batchFrame [⟨3, 7, 0, [10, 20]⟩, ⟨-1, 258, 1, [30]⟩] =
    [10, 20, 30, 0, 7, 0, 3, 0, 0, 0, 0, 0, 0, 0, 0, 2, 1, 2, 255, 255, 1, 0, 0, 0, 0, 0, 0, 0, 1,
      0, 0, 0, 2] := by decide

example : decode (batchFrame [⟨3, 7, 0, [10, 20]⟩, ⟨5, -1, 0, []⟩, ⟨-1, 258, 1, [30]⟩]) =
    some [.data ⟨3, 7, 0, [10, 20]⟩, .eos 5, .data ⟨-1, 258, 1, [30]⟩] := by decide

example : (⟨-1, 258, 1, [30]⟩ : Msg).Ok := ⟨by decide, by decide, by decide⟩

end FF.Net
