import Mathlib.Data.List.Nodup
import Mathlib.Data.List.Range
import Verif.Common.Mem
/-!
# C46: complete reads and writes (`ff/distributed/ff_network.hpp`)

The kernel decides at every call how much it transfers.  Here it is an arbitrary function from the
number of the call to an answer.
-/
namespace FF.Net.Io
open FF.Mem

/-- Answer of one system call.  `got m` transfers `m + 1` bytes, or all that were asked for if that is
less: any number from 1 to the requested one.  `eof` is the answer 0, `err` the answer -1 (a signal
included, `EINTR`). -/
inductive Res where
  | err
  | eof
  | got (m : Nat)
  deriving DecidableEq

/-- The kernel stores bytes: address and value. -/
def writes (m : Mem) (l : List (Nat × Nat)) : Mem := l.foldl (fun m p => stb m p.1 p.2) m

/-- Addresses `b, …, b+l-1`. -/
def span (b l : Nat) : List Nat := (List.range l).map (b + ·)

/-- The bytes `pos, …, pos+r-1` of the incoming stream. -/
def bytes (inp : Nat → Nat) (pos r : Nat) : List Nat := (List.range r).map fun i => inp (pos + i)

/-- `readn` (ff/distributed/ff_network.hpp:83-96): `n` the requested size, `c` the number of the next
system call, `pos` the position in the incoming stream.  Result: return value, memory, position. -/
def readn (k : Nat → Res) (inp : Nat → Nat) (n : Nat) (c nleft : Nat) (mem : Mem) (ptr pos : Nat) :
    Int × Mem × Nat :=
  if h : nleft = 0 then ((n : Int) - nleft, mem, pos)
  else match k c with
    | .err => if nleft = n then (-1, mem, pos) else ((n : Int) - nleft, mem, pos)
    | .eof => ((n : Int) - nleft, mem, pos)
    | .got m =>
      let r := min (m + 1) nleft
      readn k inp n (c + 1) (nleft - r) (writes mem ((span ptr r).zip (bytes inp pos r)))
        (ptr + r) (pos + r)
termination_by nleft
decreasing_by omega

/-- `writen` (ff/distributed/ff_network.hpp:112-125); `out` is what the kernel has taken. -/
def writen (k : Nat → Res) (mem : Mem) (n : Nat) (c nleft ptr : Nat) (out : List Nat) :
    Int × List Nat :=
  if h : nleft = 0 then ((n : Int) - nleft, out)
  else match k c with
    | .err => if nleft = n then (-1, out) else ((n : Int) - nleft, out)
    | .eof => ((n : Int) - nleft, out)
    | .got m =>
      let r := min (m + 1) nleft
      writen k mem n (c + 1) (nleft - r) (ptr + r) (out ++ (span ptr r).map mem)
termination_by nleft
decreasing_by omega

/-- The addresses covered by a vector of buffers (base, length), in order. -/
def addrs (v : List (Nat × Nat)) : List Nat := v.flatMap fun p => span p.1 p.2

/-- `while (cur < count && r >= v[cur].iov_len) r -= v[cur++].iov_len;` and then the adjustment of
`v[cur]` (ff/distributed/ff_network.hpp:103-107, 132-136).  The list is `v + cur`. -/
def advance : List (Nat × Nat) → Nat → List (Nat × Nat)
  | [], _ => []
  | (b, l) :: v, r => if l ≤ r then advance v (r - l) else (b + r, l - r) :: v

/-- The memory of one `readv` of `r` bytes: the buffers are filled in order. -/
def scatter : Mem → List (Nat × Nat) → (Nat → Nat) → Nat → Nat → Mem
  | mem, [], _, _, _ => mem
  | mem, (b, l) :: v, inp, pos, r =>
    let q := min l r
    scatter (writes mem ((span b q).zip (bytes inp pos q))) v inp (pos + q) (r - q)

/-- The bytes taken by one `writev` of `r` bytes. -/
def gather : Mem → List (Nat × Nat) → Nat → List Nat
  | _, [], _ => []
  | mem, (b, l) :: v, r => (span b (min l r)).map mem ++ gather mem v (r - min l r)

/-- Sum of the lengths. -/
def total (v : List (Nat × Nat)) : Nat := (v.map Prod.snd).sum

theorem advance_total : ∀ (v : List (Nat × Nat)) (r : Nat), r ≤ total v →
    total (advance v r) = total v - r
  | [], r, h => by simp [total, advance] at *
  | (b, l) :: v, r, h => by
    simp only [total, List.map_cons, List.sum_cons] at h ⊢
    unfold advance
    by_cases hl : l ≤ r
    · rw [if_pos hl]
      have := advance_total v (r - l) (by unfold total; omega)
      unfold total at this
      omega
    · rw [if_neg hl]
      simp only [List.map_cons, List.sum_cons]
      omega

/-- `readvn` (ff/distributed/ff_network.hpp:98-110); `v` is `v + cur`.  The kernel answers 0 when the
buffers have no room. -/
def readvn (k : Nat → Res) (inp : Nat → Nat) (c : Nat) (v : List (Nat × Nat)) (mem : Mem)
    (pos : Nat) : Int × Mem × Nat :=
  match k c with
  | .err => (-1, mem, pos)
  | .eof => (0, mem, pos)
  | .got m =>
    if h : total v = 0 then (0, mem, pos)
    else
      let r := min (m + 1) (total v)
      let mem := scatter mem v inp pos r
      if advance v r = [] then (1, mem, pos + r)
      else readvn k inp (c + 1) (advance v r) mem (pos + r)
termination_by total v
decreasing_by
  rw [advance_total _ _ (Nat.min_le_right _ _)]
  omega

/-- `writevn` (ff/distributed/ff_network.hpp:127-139).  The answer 0 does not end the loop: the call
is repeated; `none`: more than `fuel` rounds. -/
def writevn (k : Nat → Res) (mem : Mem) : Nat → Nat → List (Nat × Nat) → List Nat →
    Option (Int × List Nat)
  | 0, _, _, _ => none
  | fuel + 1, c, v, out =>
    match k c with
    | .err => some (-1, out)
    | .eof =>
      if advance v 0 = [] then some (1, out) else writevn k mem fuel (c + 1) (advance v 0) out
    | .got m =>
      let r := min (m + 1) (total v)
      let out := out ++ gather mem v r
      if advance v r = [] then some (1, out)
      else writevn k mem fuel (c + 1) (advance v r) out

/-! ## Lemmas -/

theorem writes_out {l : List (Nat × Nat)} {m : Mem} {a : Nat} (h : a ∉ l.map Prod.fst) :
    writes m l a = m a := by
  induction l generalizing m with
  | nil => rfl
  | cons p l ih =>
    simp only [List.map_cons, List.mem_cons, not_or] at h
    have := ih (m := stb m p.1 p.2) h.2
    unfold writes at this ⊢
    rw [List.foldl_cons, this]
    unfold stb
    rw [if_neg h.1]

theorem writes_append (m : Mem) (l l' : List (Nat × Nat)) :
    writes m (l ++ l') = writes (writes m l) l' := by
  unfold writes; rw [List.foldl_append]

theorem writes_get {as bs : List Nat} {m : Mem} (hn : as.Nodup) (hl : as.length ≤ bs.length) {i : Nat}
    (hi : i < as.length) : writes m (as.zip bs) as[i] = bs[i] := by
  induction as generalizing bs m i with
  | nil => simp at hi
  | cons a as ih =>
    cases bs with
    | nil => simp at hl
    | cons b bs =>
      rw [List.nodup_cons] at hn
      simp only [List.zip_cons_cons]
      cases i with
      | zero =>
        have : a ∉ ((as.zip bs).map Prod.fst) := by
          intro hm
          rw [List.map_fst_zip (by simpa using hl)] at hm
          exact hn.1 hm
        have := writes_out (m := stb m a b) this
        unfold writes at this ⊢
        simp only [List.foldl_cons, List.getElem_cons_zero, this]
        simp [stb]
      | succ i =>
        have := ih (bs := bs) (m := stb m a b) hn.2 (by simpa using hl) (i := i) (by simpa using hi)
        unfold writes at this ⊢
        simpa using this

theorem span_length (b l : Nat) : (span b l).length = l := by simp [span]

theorem bytes_length (inp : Nat → Nat) (b l : Nat) : (bytes inp b l).length = l := by simp [bytes]

theorem span_add (b l l' : Nat) : span b (l + l') = span b l ++ span (b + l) l' := by
  unfold span
  rw [List.range_add, List.map_append, List.map_map]
  congr 1
  apply List.map_congr_left
  intro i _
  simp [Nat.add_assoc]

theorem bytes_add (inp : Nat → Nat) (b l l' : Nat) :
    bytes inp b (l + l') = bytes inp b l ++ bytes inp (b + l) l' := by
  unfold bytes
  rw [List.range_add, List.map_append, List.map_map]
  congr 1
  apply List.map_congr_left
  intro i _
  simp [Nat.add_assoc]

theorem span_nodup (b l : Nat) : (span b l).Nodup := by
  unfold span
  exact List.Nodup.map (fun x y h => by simpa using h) List.nodup_range

theorem zip_split {as as' bs bs' : List Nat} (h : as.length = bs.length) :
    (as ++ as').zip (bs ++ bs') = as.zip bs ++ as'.zip bs' := List.zip_append h

theorem addrs_length (v : List (Nat × Nat)) : (addrs v).length = total v := by
  unfold addrs total
  rw [List.length_flatMap]
  simp [span_length]

theorem addrs_cons (b l : Nat) (v : List (Nat × Nat)) : addrs ((b, l) :: v) = span b l ++ addrs v := by
  simp [addrs]

theorem total_cons (b l : Nat) (v : List (Nat × Nat)) : total ((b, l) :: v) = l + total v := by
  simp [total]

theorem addrs_advance : ∀ (v : List (Nat × Nat)) (r : Nat), addrs (advance v r) = (addrs v).drop r
  | [], r => by simp [addrs, advance]
  | (b, l) :: v, r => by
    unfold advance
    rw [addrs_cons]
    by_cases hl : l ≤ r
    · rw [if_pos hl, addrs_advance v, List.drop_append, span_length,
        List.drop_eq_nil_of_le (as := span b l) (by rw [span_length]; exact hl)]
      rfl
    · rw [if_neg hl, addrs_cons, List.drop_append_of_le_length (by rw [span_length]; omega)]
      congr 1
      have h := span_add b r (l - r)
      rw [show r + (l - r) = l by omega] at h
      rw [h, List.drop_left' (span_length b r)]

theorem scatter_eq : ∀ (v : List (Nat × Nat)) (mem : Mem) (inp : Nat → Nat) (pos r : Nat),
    r ≤ total v → scatter mem v inp pos r = writes mem (((addrs v).take r).zip (bytes inp pos r))
  | [], mem, inp, pos, r, h => by simp [scatter, addrs, writes]
  | (b, l) :: v, mem, inp, pos, r, h => by
    rw [total_cons] at h
    unfold scatter
    rw [addrs_cons]
    by_cases hl : l ≤ r
    · dsimp only
      rw [Nat.min_eq_left hl, scatter_eq v _ _ _ _ (by omega), ← writes_append,
        List.take_append, span_length, List.take_of_length_le (l := span b l) (by rw [span_length]; exact hl)]
      have hb := bytes_add inp pos l (r - l)
      rw [show l + (r - l) = r by omega] at hb
      rw [hb, zip_split (by rw [span_length, bytes_length])]
    · dsimp only
      rw [Nat.min_eq_right (by omega), Nat.sub_self, scatter_eq v _ _ _ _ (by omega)]
      have h := span_add b r (l - r)
      rw [show r + (l - r) = l by omega] at h
      rw [h, List.append_assoc, List.take_left' (span_length b r)]
      simp [bytes, writes]

theorem gather_eq : ∀ (v : List (Nat × Nat)) (mem : Mem) (r : Nat),
    gather mem v r = ((addrs v).take r).map mem
  | [], mem, r => by simp [gather, addrs]
  | (b, l) :: v, mem, r => by
    unfold gather
    rw [addrs_cons, gather_eq v]
    by_cases hl : l ≤ r
    · rw [Nat.min_eq_left hl, List.take_append, span_length, List.map_append,
        List.take_of_length_le (l := span b l) (by rw [span_length]; exact hl)]
    · rw [Nat.min_eq_right (by omega), Nat.sub_self]
      have h := span_add b r (l - r)
      rw [show r + (l - r) = l by omega] at h
      rw [h, List.append_assoc, List.take_left' (span_length b r)]
      simp

theorem advance_zero_nil {v : List (Nat × Nat)} : advance v 0 = [] ↔ total v = 0 := by
  induction v with
  | nil => simp [advance, total]
  | cons p v ih =>
    obtain ⟨b, l⟩ := p
    unfold advance
    rw [total_cons]
    by_cases hl : l ≤ 0
    · rw [if_pos hl, Nat.zero_sub, ih]; omega
    · rw [if_neg hl]; simp; omega

theorem advance_nil : ∀ {v : List (Nat × Nat)} {r : Nat}, r ≤ total v →
    (advance v r = [] ↔ total v = r)
  | [], r, h => by simp [total, advance] at *; omega
  | (b, l) :: v, r, h => by
    rw [total_cons] at h ⊢
    unfold advance
    by_cases hl : l ≤ r
    · rw [if_pos hl, advance_nil (by omega)]; omega
    · rw [if_neg hl]; simp; omega

/-! ## readn -/

theorem readn_eq {k : Nat → Res} {inp : Nat → Nat} {n c nleft : Nat} {mem : Mem} {ptr pos : Nat}
    (hle : nleft ≤ n) :
    ∃ m ret, m ≤ nleft ∧ readn k inp n c nleft mem ptr pos =
        (ret, writes mem ((span ptr m).zip (bytes inp pos m)), pos + m) ∧
      (ret = (n : Int) - nleft + m ∨ (ret = -1 ∧ m = 0 ∧ nleft = n ∧ 0 < n ∧ k c = .err)) ∧
      (m < nleft → ∃ c', c ≤ c' ∧ (k c' = .err ∨ k c' = .eof)) := by
  induction nleft using Nat.strongRecOn generalizing c mem ptr pos with
  | ind nleft ih =>
    rw [readn]
    split
    · refine ⟨0, _, by omega, rfl, .inl (by omega), by omega⟩
    · rename_i h0
      split
      · rename_i hk
        split
        · rename_i hn
          exact ⟨0, _, by omega, rfl, .inr ⟨rfl, rfl, hn, by omega, hk⟩, fun _ => ⟨c, Nat.le_refl _, .inl hk⟩⟩
        · exact ⟨0, _, by omega, rfl, .inl (by omega), fun _ => ⟨c, Nat.le_refl _, .inl hk⟩⟩
      · rename_i hk
        exact ⟨0, _, by omega, rfl, .inl (by omega), fun _ => ⟨c, Nat.le_refl _, .inr hk⟩⟩
      · rename_i q hk
        dsimp only
        obtain ⟨r, hr, hr1, hr2⟩ : ∃ r, min (q + 1) nleft = r ∧ 1 ≤ r ∧ r ≤ nleft :=
          ⟨_, rfl, by omega, by omega⟩
        rw [hr]
        clear hr
        obtain ⟨m, ret, h1, h2, h3, h4⟩ := ih (nleft - r) (by omega) (c := c + 1)
          (mem := writes mem ((span ptr r).zip (bytes inp pos r))) (ptr := ptr + r) (pos := pos + r)
          (by omega)
        refine ⟨r + m, ret, by omega, ?_, ?_, ?_⟩
        · rw [h2, span_add, bytes_add, zip_split (by rw [span_length, bytes_length]), writes_append,
            Nat.add_assoc]
        · clear h4
          rcases h3 with h3 | ⟨_, _, h3, _⟩
          · left; omega
          · omega
        · intro h
          obtain ⟨c', h5, h6⟩ := h4 (by omega)
          exact ⟨c', by omega, h6⟩

/-- **C46** for `readn`: whatever the kernel does, the memory at `ptr` gets the next bytes of the
stream in order, nothing outside the `n` bytes changes, and the answer is the number of bytes, or -1 if
the first call fails.  Fewer than `n` bytes only after an error or the end of the stream. -/
theorem C46_readn (k : Nat → Res) (inp : Nat → Nat) (n : Nat) (mem : Mem) (ptr pos : Nat) :
    ∃ ret mem' m, readn k inp n 0 n mem ptr pos = (ret, mem', pos + m) ∧ m ≤ n ∧
      (∀ i, i < m → mem' (ptr + i) = inp (pos + i)) ∧
      (∀ a, a < ptr ∨ ptr + m ≤ a → mem' a = mem a) ∧
      (ret = m ∨ (ret = -1 ∧ m = 0 ∧ k 0 = .err)) ∧
      (m < n → ∃ c, k c = .err ∨ k c = .eof) := by
  obtain ⟨m, ret, h1, h2, h3, h4⟩ := readn_eq (k := k) (inp := inp) (c := 0) (mem := mem) (ptr := ptr)
    (pos := pos) (Nat.le_refl n)
  refine ⟨ret, _, m, h2, h1, ?_, ?_, ?_, ?_⟩
  · intro i hi
    have := writes_get (as := span ptr m) (bs := bytes inp pos m) (m := mem) (span_nodup ptr m)
      (by rw [span_length, bytes_length]) (i := i) (by rw [span_length]; exact hi)
    simpa [span, bytes] using this
  · intro a ha
    apply writes_out
    rw [List.map_fst_zip (by rw [span_length, bytes_length])]
    simp only [span, List.mem_map, List.mem_range, not_exists, not_and]
    intro i hi
    omega
  · rcases h3 with h3 | h3
    · left; omega
    · exact .inr ⟨h3.1, h3.2.1, h3.2.2.2.2⟩
  · intro h
    obtain ⟨c, _, hc⟩ := h4 h
    exact ⟨c, hc⟩

/-- **C46** for `readn`: without errors exactly `n` bytes are read. -/
theorem C46_readn_complete (k : Nat → Res) (hk : ∀ c, ∃ m, k c = .got m) (inp : Nat → Nat) (n : Nat)
    (mem : Mem) (ptr pos : Nat) :
    ∃ mem', readn k inp n 0 n mem ptr pos = ((n : Int), mem', pos + n) ∧
      (∀ i, i < n → mem' (ptr + i) = inp (pos + i)) := by
  obtain ⟨ret, mem', m, h1, h2, h3, h4, h5, h6⟩ := C46_readn k inp n mem ptr pos
  have hno : ∀ c, ¬ (k c = .err ∨ k c = .eof) := by
    rintro c h
    obtain ⟨m, hm⟩ := hk c
    rw [hm] at h
    rcases h with h | h <;> cases h
  have hm : m = n := by
    by_contra hne
    obtain ⟨c, hc⟩ := h6 (by omega)
    exact hno c hc
  subst hm
  refine ⟨mem', ?_, h3⟩
  rcases h5 with rfl | ⟨_, _, h⟩
  · exact h1
  · exact absurd (.inl h) (hno 0)

/-- Five bytes, read as 2 + 1 + 2. -/
example :
    let r := readn (fun c => match c with | 0 => .got 1 | 1 => .got 0 | _ => .got 7)
      (fun i => 10 + i) 5 0 5 (fun _ => 0) 100 3
    r.1 = 5 ∧ (span 99 7).map r.2.1 = [0, 13, 14, 15, 16, 17, 0] ∧ r.2.2 = 8 := by
  simp [readn]
  decide

/-- The connection is closed after two bytes. -/
example : (readn (fun c => if c = 0 then .got 1 else .eof) (fun i => 10 + i) 5 0 5 (fun _ => 0) 100 3).1
    = 2 := by
  simp [readn]

/-! ## writen -/

theorem writen_eq {k : Nat → Res} {mem : Mem} {n c nleft ptr : Nat} {out : List Nat} (hle : nleft ≤ n) :
    ∃ m ret, m ≤ nleft ∧ writen k mem n c nleft ptr out = (ret, out ++ (span ptr m).map mem) ∧
      (ret = (n : Int) - nleft + m ∨ (ret = -1 ∧ m = 0 ∧ nleft = n ∧ 0 < n ∧ k c = .err)) ∧
      (m < nleft → ∃ c', c ≤ c' ∧ (k c' = .err ∨ k c' = .eof)) := by
  induction nleft using Nat.strongRecOn generalizing c out ptr with
  | ind nleft ih =>
    have hz : ∀ r : Int, (r, out) = (r, out ++ (span ptr 0).map mem) := fun r => by simp [span]
    rw [writen]
    split
    · refine ⟨0, _, by omega, hz _, .inl (by omega), by omega⟩
    · rename_i h0
      split
      · rename_i hk
        split
        · rename_i hn
          exact ⟨0, _, by omega, hz _, .inr ⟨rfl, rfl, hn, by omega, hk⟩, fun _ => ⟨c, Nat.le_refl _, .inl hk⟩⟩
        · exact ⟨0, _, by omega, hz _, .inl (by omega), fun _ => ⟨c, Nat.le_refl _, .inl hk⟩⟩
      · rename_i hk
        exact ⟨0, _, by omega, hz _, .inl (by omega), fun _ => ⟨c, Nat.le_refl _, .inr hk⟩⟩
      · rename_i q hk
        dsimp only
        obtain ⟨r, hr, hr1, hr2⟩ : ∃ r, min (q + 1) nleft = r ∧ 1 ≤ r ∧ r ≤ nleft :=
          ⟨_, rfl, by omega, by omega⟩
        rw [hr]
        clear hr
        obtain ⟨m, ret, h1, h2, h3, h4⟩ := ih (nleft - r) (by omega) (c := c + 1)
          (out := out ++ (span ptr r).map mem) (ptr := ptr + r) (by omega)
        refine ⟨r + m, ret, by omega, ?_, ?_, ?_⟩
        · rw [h2, span_add, List.map_append, List.append_assoc]
        · clear h4
          rcases h3 with h3 | ⟨_, _, h3, _⟩
          · left; omega
          · omega
        · intro h
          obtain ⟨c', h5, h6⟩ := h4 (by omega)
          exact ⟨c', by omega, h6⟩

/-- **C46** for `writen`: the kernel gets the first bytes at `ptr`, in order; the answer is their
number, or -1 if the first call fails.  Fewer than `n` only after an error or the answer 0. -/
theorem C46_writen (k : Nat → Res) (mem : Mem) (n ptr : Nat) (out : List Nat) :
    ∃ ret m, writen k mem n 0 n ptr out = (ret, out ++ (List.range m).map fun i => mem (ptr + i)) ∧
      m ≤ n ∧ (ret = m ∨ (ret = -1 ∧ m = 0 ∧ k 0 = .err)) ∧
      (m < n → ∃ c, k c = .err ∨ k c = .eof) := by
  obtain ⟨m, ret, h1, h2, h3, h4⟩ := writen_eq (k := k) (mem := mem) (c := 0) (ptr := ptr) (out := out)
    (Nat.le_refl n)
  refine ⟨ret, m, ?_, h1, ?_, ?_⟩
  · rw [h2, span, List.map_map]; rfl
  · rcases h3 with h3 | h3
    · left; omega
    · exact .inr ⟨h3.1, h3.2.1, h3.2.2.2.2⟩
  · intro h
    obtain ⟨c, _, hc⟩ := h4 h
    exact ⟨c, hc⟩

/-- **C46** for `writen`: without errors exactly the `n` bytes are written. -/
theorem C46_writen_complete (k : Nat → Res) (hk : ∀ c, ∃ m, k c = .got m) (mem : Mem) (n ptr : Nat)
    (out : List Nat) :
    writen k mem n 0 n ptr out = ((n : Int), out ++ (List.range n).map fun i => mem (ptr + i)) := by
  obtain ⟨ret, m, h1, h2, h5, h6⟩ := C46_writen k mem n ptr out
  have hno : ∀ c, ¬ (k c = .err ∨ k c = .eof) := by
    rintro c h
    obtain ⟨m, hm⟩ := hk c
    rw [hm] at h
    rcases h with h | h <;> cases h
  have hm : m = n := by
    by_contra hne
    obtain ⟨c, hc⟩ := h6 (by omega)
    exact hno c hc
  subst hm
  rcases h5 with rfl | ⟨_, _, h⟩
  · exact h1
  · exact absurd (.inl h) (hno 0)

example : writen (fun c => if c = 0 then .got 1 else .got 0) (fun a => a % 7) 4 0 4 100 [9] =
    (4, [9, 2, 3, 4, 5]) := by
  simp [writen]
  decide

/-! ## readvn -/

theorem readvn_eq {k : Nat → Res} {inp : Nat → Nat} {T : Nat} {v : List (Nat × Nat)} (hT : total v = T)
    {c : Nat} {mem : Mem} {pos : Nat} :
    ∃ m ret, m ≤ T ∧ readvn k inp c v mem pos =
        (ret, writes mem (((addrs v).take m).zip (bytes inp pos m)), pos + m) ∧
      ((ret = 1 ∧ m = T ∧ 0 < T) ∨ (ret = 0 ∧ ((∃ c', k c' = .eof) ∨ T = 0)) ∨
        (ret = -1 ∧ ∃ c', k c' = .err)) := by
  induction T using Nat.strongRecOn generalizing c mem pos v with
  | ind T ih =>
    have hz : ∀ r : Int, (r, mem, pos) =
        (r, writes mem (((addrs v).take 0).zip (bytes inp pos 0)), pos + 0) := fun r => rfl
    rw [readvn]
    split
    · rename_i hk
      exact ⟨0, _, by omega, hz _, .inr (.inr ⟨rfl, _, hk⟩)⟩
    · rename_i hk
      exact ⟨0, _, by omega, hz _, .inr (.inl ⟨rfl, .inl ⟨_, hk⟩⟩)⟩
    · rename_i q hk
      split
      · rename_i h0
        exact ⟨0, _, by omega, hz _, .inr (.inl ⟨rfl, .inr (by omega)⟩)⟩
      · rename_i h0
        dsimp only
        obtain ⟨r, hr, hr1, hr2⟩ : ∃ r, min (q + 1) (total v) = r ∧ 1 ≤ r ∧ r ≤ total v :=
          ⟨_, rfl, by omega, by omega⟩
        rw [hr, scatter_eq _ _ _ _ _ hr2]
        clear hr
        have hnil := advance_nil (v := v) (r := r) (by omega)
        split
        · rename_i hn
          have := hnil.1 hn
          exact ⟨r, _, by omega, rfl, .inl ⟨rfl, by omega, by omega⟩⟩
        · rename_i hn
          have hne : total v ≠ r := fun e => hn (hnil.2 e)
          have hadv := advance_total v r (by omega)
          obtain ⟨m, ret, h1, h2, h3⟩ := ih (T - r) (by omega) (v := advance v r) (by omega) (c := c + 1)
            (mem := writes mem (((addrs v).take r).zip (bytes inp pos r))) (pos := pos + r)
          refine ⟨r + m, ret, by omega, ?_, ?_⟩
          · rw [h2, addrs_advance, ← writes_append, ← zip_split, ← bytes_add, ← List.take_add,
              Nat.add_assoc]
            rw [List.length_take, bytes_length, addrs_length]
            omega
          · rcases h3 with h3 | h3 | h3
            · exact .inl ⟨h3.1, by omega, by omega⟩
            · refine .inr (.inl ⟨h3.1, ?_⟩)
              rcases h3.2 with h | h
              · exact .inl h
              · omega
            · exact .inr (.inr h3)

/-- **C46** for `readvn`: the bytes of the stream go to the addresses of the buffers in order, nothing
else changes; 1 means that all buffers are full, 0 that the stream has ended (or the buffers have no
room), -1 an error. -/
theorem C46_readvn (k : Nat → Res) (inp : Nat → Nat) (v : List (Nat × Nat)) (hn : (addrs v).Nodup)
    (mem : Mem) (pos : Nat) :
    ∃ ret mem' m, readvn k inp 0 v mem pos = (ret, mem', pos + m) ∧ m ≤ total v ∧
      (∀ i (hi : i < (addrs v).length), i < m → mem' (addrs v)[i] = inp (pos + i)) ∧
      (∀ a, a ∉ addrs v → mem' a = mem a) ∧
      ((ret = 1 ∧ m = total v ∧ 0 < total v) ∨ (ret = 0 ∧ ((∃ c, k c = .eof) ∨ total v = 0)) ∨
        (ret = -1 ∧ ∃ c, k c = .err)) := by
  obtain ⟨m, ret, h1, h2, h3⟩ := readvn_eq (k := k) (inp := inp) (v := v) rfl (c := 0) (mem := mem)
    (pos := pos)
  have hlen := addrs_length v
  refine ⟨ret, _, m, h2, h1, ?_, ?_, h3⟩
  · intro i hi him
    have hnt : ((addrs v).take m).Nodup := hn.sublist (List.take_sublist _ _)
    have := writes_get (as := (addrs v).take m) (bs := bytes inp pos m) (m := mem) hnt
      (by rw [List.length_take, bytes_length]; omega) (i := i) (by rw [List.length_take]; omega)
    simpa [bytes] using this
  · intro a ha
    apply writes_out
    rw [List.map_fst_zip (by rw [List.length_take, bytes_length]; omega)]
    exact fun h => ha (List.mem_of_mem_take h)

/-- **C46** for `readvn`: without errors all the buffers are filled and the answer is 1. -/
theorem C46_readvn_complete (k : Nat → Res) (hk : ∀ c, ∃ m, k c = .got m) (inp : Nat → Nat)
    (v : List (Nat × Nat)) (hn : (addrs v).Nodup) (h0 : 0 < total v) (mem : Mem) (pos : Nat) :
    ∃ mem', readvn k inp 0 v mem pos = (1, mem', pos + total v) ∧
      (∀ i (hi : i < (addrs v).length), mem' (addrs v)[i] = inp (pos + i)) := by
  obtain ⟨ret, mem', m, h1, h2, h3, h4, h5⟩ := C46_readvn k inp v hn mem pos
  rcases h5 with ⟨rfl, rfl, _⟩ | ⟨_, ⟨c, h⟩ | h⟩ | ⟨_, c, h⟩
  · exact ⟨mem', h1, fun i hi => h3 i hi (by rw [← addrs_length]; exact hi)⟩
  · obtain ⟨m, hm⟩ := hk c; rw [hm] at h; cases h
  · omega
  · obtain ⟨m, hm⟩ := hk c; rw [hm] at h; cases h

/-- Buffers of 3, 0 and 2 bytes, read as 1 + 3 + 1. -/
example :
    let r := readvn (fun c => match c with | 0 => .got 0 | 1 => .got 2 | _ => .got 7)
      (fun i => 10 + i) 0 [(100, 3), (300, 0), (200, 2)] (fun _ => 0) 0
    r.1 = 1 ∧ (span 100 4).map r.2.1 = [10, 11, 12, 0] ∧ (span 200 3).map r.2.1 = [13, 14, 0] := by
  simp [readvn, total, advance, scatter]
  decide

example : (addrs [(100, 3), (300, 0), (200, 2)]).Nodup := by decide

/-- **Counterexample**: with empty buffers `readvn` reports a closed connection although nothing is
missing. -/
theorem C46_readvn_empty_counterexample (k : Nat → Res) (hk : ∀ c, ∃ m, k c = .got m)
    (inp : Nat → Nat) (mem : Mem) (pos : Nat) : (readvn k inp 0 [(100, 0)] mem pos).1 = 0 := by
  obtain ⟨m, hm⟩ := hk 0
  rw [readvn, hm]
  simp [total]

/-- **Counterexample**: after a part of the bytes has been read, an interrupted call makes `readvn`
answer -1, as if nothing had been read: the caller cannot continue. -/
theorem C46_readvn_interrupted_counterexample (inp : Nat → Nat) (mem : Mem) :
    let r := readvn (fun c => if c = 0 then .got 1 else .err) inp 0 [(100, 4)] mem 0
    r.1 = -1 ∧ r.2.2 = 2 := by
  simp [readvn, total, advance]

/-! ## writevn -/

theorem writevn_eq {k : Nat → Res} {mem : Mem} {T : Nat} {v : List (Nat × Nat)} (hT : total v = T)
    {fuel c : Nat} {out : List Nat} {p : Int × List Nat} (h : writevn k mem fuel c v out = some p) :
    ∃ m, m ≤ T ∧ p.2 = out ++ ((addrs v).take m).map mem ∧
      ((p.1 = 1 ∧ m = T) ∨ (p.1 = -1 ∧ ∃ c', k c' = .err)) := by
  induction fuel generalizing T c v out with
  | zero => simp [writevn] at h
  | succ fuel ih =>
    rw [writevn] at h
    split at h
    · rename_i hk
      simp only [Option.some.injEq] at h; subst h
      exact ⟨0, by omega, by simp, .inr ⟨rfl, _, hk⟩⟩
    · split at h
      · rename_i hn
        simp only [Option.some.injEq] at h; subst h
        have := advance_zero_nil.1 hn
        exact ⟨0, by omega, by simp, .inl ⟨rfl, by omega⟩⟩
      · have hadv := advance_total v 0 (by omega)
        obtain ⟨m, h1, h2, h3⟩ := ih (T := T) (by omega) h
        refine ⟨m, h1, ?_, h3⟩
        rw [h2, addrs_advance, List.drop_zero]
    · rename_i q hk
      dsimp only at h
      obtain ⟨r, hr, hr2⟩ : ∃ r, min (q + 1) (total v) = r ∧ r ≤ total v :=
        ⟨_, rfl, by omega⟩
      rw [hr, gather_eq] at h
      clear hr
      have hnil := advance_nil (v := v) (r := r) (by omega)
      split at h
      · rename_i hn
        simp only [Option.some.injEq] at h; subst h
        have := hnil.1 hn
        exact ⟨r, by omega, rfl, .inl ⟨rfl, by omega⟩⟩
      · have hadv := advance_total v r (by omega)
        obtain ⟨m, h1, h2, h3⟩ := ih (T := T - r) (by omega) h
        refine ⟨r + m, by omega, ?_, ?_⟩
        · rw [h2, addrs_advance, List.append_assoc, ← List.map_append, ← List.take_add]
        · rcases h3 with h3 | h3
          · exact .inl ⟨h3.1, by omega⟩
          · exact .inr h3

theorem writevn_ends {k : Nat → Res} {mem : Mem} {T : Nat} {v : List (Nat × Nat)} (hT : total v = T)
    {fuel c : Nat} {out : List Nat} (hk : ∀ c', c ≤ c' → ∃ m, k c' = .got m) (hf : T < fuel) :
    ∃ p, writevn k mem fuel c v out = some p := by
  induction fuel generalizing T c v out with
  | zero => omega
  | succ fuel ih =>
    obtain ⟨q, hq⟩ := hk c (Nat.le_refl _)
    rw [writevn, hq]
    dsimp only
    split
    · exact ⟨_, rfl⟩
    · rename_i hn
      obtain ⟨r, hr⟩ : ∃ r, min (q + 1) (total v) = r := ⟨_, rfl⟩
      rw [hr] at hn ⊢
      have hadv := advance_total v r (by omega)
      have hnil := advance_nil (v := v) (r := r) (by omega)
      have : total v ≠ r := fun e => hn (hnil.2 e)
      exact ih (T := T - r) (by omega) (fun c' h => hk c' (by omega)) (by omega)

/-- **C46** for `writevn`: when it ends, a prefix of the bytes of the buffers has been written in
order; 1 means all of them, -1 an error. -/
theorem C46_writevn (k : Nat → Res) (mem : Mem) (fuel : Nat) (v : List (Nat × Nat)) (out : List Nat)
    {ret : Int} {out' : List Nat} (h : writevn k mem fuel 0 v out = some (ret, out')) :
    ∃ m, m ≤ total v ∧ out' = out ++ ((addrs v).take m).map mem ∧
      ((ret = 1 ∧ m = total v) ∨ (ret = -1 ∧ ∃ c, k c = .err)) := writevn_eq rfl h

/-- **C46** for `writevn`: without errors and empty answers, all the bytes are written, the answer is
1, and the loop ends after at most `total v + 1` calls. -/
theorem C46_writevn_complete (k : Nat → Res) (hk : ∀ c, ∃ m, k c = .got m) (mem : Mem)
    (v : List (Nat × Nat)) (out : List Nat) :
    writevn k mem (total v + 1) 0 v out = some (1, out ++ (addrs v).map mem) := by
  obtain ⟨p, hp⟩ := writevn_ends (k := k) (mem := mem) (v := v) rfl (c := 0) (out := out)
    (fun c _ => hk c) (Nat.lt_succ_self _)
  obtain ⟨ret, out'⟩ := p
  obtain ⟨m, h1, h2, h3⟩ := C46_writevn k mem _ v out hp
  rcases h3 with ⟨rfl, rfl⟩ | ⟨_, c, h⟩
  · rw [hp, h2, ← addrs_length, List.take_length]
  · obtain ⟨m, hm⟩ := hk c; rw [hm] at h; cases h

/-- **Counterexample**: `writevn` never ends while the kernel answers 0 (`writen` returns then). -/
theorem C46_writevn_spins_counterexample (mem : Mem) (out : List Nat) (fuel : Nat) :
    writevn (fun _ => .eof) mem fuel 0 [(100, 4)] out = none := by
  suffices h : ∀ c, writevn (fun _ => .eof) mem fuel c [(100, 4)] out = none from h 0
  induction fuel with
  | zero => intro c; rfl
  | succ fuel ih =>
    intro c
    rw [writevn]
    simpa [advance] using ih (c + 1)

example : writevn (fun c => if c = 0 then .got 0 else .got 2) (fun a => a) 9 0
    [(100, 3), (300, 0), (200, 2)] [] = some (1, [100, 101, 102, 200, 201]) := by decide

/-- **C46**: what is written with `writevn` from any buffers, and read with `readn` however the kernel
splits the transfers on both sides, is the same sequence of bytes. -/
theorem C46_round_trip (kw kr : Nat → Res) (hw : ∀ c, ∃ m, kw c = .got m) (hr : ∀ c, ∃ m, kr c = .got m)
    (mem mem2 : Mem) (v : List (Nat × Nat)) (ptr : Nat) :
    ∃ out mem', writevn kw mem (total v + 1) 0 v [] = some (1, out) ∧
      (readn kr (fun i => out.getD i 0) (total v) 0 (total v) mem2 ptr 0).2.1 = mem' ∧
      (List.range (total v)).map (fun i => mem' (ptr + i)) = (addrs v).map mem := by
  refine ⟨_, _, C46_writevn_complete kw hw mem v [], rfl, ?_⟩
  obtain ⟨mem', h1, h2⟩ := C46_readn_complete kr hr
    (fun i => ([] ++ (addrs v).map mem).getD i 0) (total v) mem2 ptr 0
  rw [h1]
  apply List.ext_getElem
  · simp [addrs_length]
  · intro i hi hi'
    simp only [List.length_map, List.length_range] at hi hi'
    have := h2 i hi
    simp only [List.getElem_map, List.getElem_range]
    rw [this]
    simp [hi']

end FF.Net.Io
