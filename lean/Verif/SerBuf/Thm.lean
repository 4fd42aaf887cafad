import Verif.SerBuf.Model
/-! # C71: the theorems -/
namespace FF.SerBuf

/-- `l` has been written, and the capacity is a power of two that is less than twice that, or 2, or as it was. -/
structure Ok (b : B) (l : List Nat) : Prop where
  pos : b.pos = l.length
  room : l.length ≤ b.cap
  cap : 1 ≤ b.cap
  mem : ∀ i (h : i < l.length), b.mem i = l[i]
  good : b.bad = false

theorem Ok.store {b : B} {l : List Nat} (h : Ok b l) (c : Nat) (hr : l.length < b.cap) : Ok (b.store c) (l ++ [c]) ∧
    (b.store c).cap = b.cap := by
  have hp := h.pos
  have hb : b.store c = { b with mem := fun i => if i = b.pos.toNat then c else b.mem i, pos := b.pos + 1 } :=
    if_pos ⟨by omega, by omega⟩
  rw [hb]
  refine ⟨⟨by simp [hp], by simp; omega, h.cap, fun i hi => ?_, h.good⟩, rfl⟩
  simp only [List.length_append, List.length_cons, List.length_nil] at hi
  by_cases e : i = l.length
  · subst e; simp [hp]
  · have : i < l.length := by omega
    have hne : ¬ i = b.pos.toNat := by omega
    simp only [hne, if_false, List.getElem_append_left this]
    exact h.mem i this

theorem Ok.overflow {b : B} {l : List Nat} (h : Ok b l) (c : Nat) (hr : l.length = b.cap) (hs : l.length < 2 ^ 31) :
    Ok (b.overflow c) (l ++ [c]) ∧ (b.overflow c).cap = b.cap * 2 := by
  have hp := h.pos
  have hc := h.cap
  have e : toSize (b.cap * 2) = b.cap * 2 := Nat.mod_eq_of_lt (by omega)
  have hb : b.resize (toSize (b.cap * 2)) = { b with cap := b.cap * 2, pos := b.pos } := by
    rw [e, B.resize, if_neg (by omega)]
    congr 1
    simp only [toInt]; omega
  unfold B.overflow
  rw [hb]
  have h' : Ok { b with cap := b.cap * 2, pos := b.pos } l :=
    ⟨h.pos, by simp only; omega, by simp only; omega, h.mem, h.good⟩
  exact h'.store c (by simp only; omega)

theorem Ok.copy {b : B} {l : List Nat} (h : Ok b l) (m : List Nat) (hr : l.length + m.length ≤ b.cap) :
    Ok (b.copy m) (l ++ m) ∧ (b.copy m).cap = b.cap := by
  induction m generalizing b l with
  | nil => simpa [B.copy] using h
  | cons c m ih =>
    simp only [List.length_cons] at hr
    obtain ⟨h1, h2⟩ := h.store c (by omega)
    obtain ⟨h3, h4⟩ := ih h1 (by rw [h2]; simp; omega)
    refine ⟨?_, h4.trans h2⟩
    simpa [B.copy] using h3

/-- The capacity after writing: the old one if that was enough, and less than twice the number of bytes otherwise; doubled. -/
theorem Ok.write {b : B} {l : List Nat} (h : Ok b l) (m : List Nat) (hs : l.length + m.length ≤ 2 ^ 31) :
    Ok (b.write m) (l ++ m) ∧ (∃ j, (b.write m).cap = b.cap * 2 ^ j) ∧
    ((b.write m).cap = b.cap ∨ (b.write m).cap < 2 * (l.length + m.length)) := by
  induction hn : m.length using Nat.strongRecOn generalizing b l m with
  | ind n ih =>
    match m with
    | [] => rw [B.write]; exact ⟨by simpa using h, ⟨0, by simp⟩, Or.inl rfl⟩
    | c :: cs =>
      rw [B.write]
      simp only [List.length_cons] at hn hs
      have hp := h.pos
      have hroom := h.room
      split
      · rename_i hlt
        generalize hk : ((b.cap : Int) - b.pos).toNat = k
        have hk1 : 1 ≤ k := by omega
        have hkc : l.length + k = b.cap := by omega
        have e : k - 1 + 1 = k := by omega
        simp only [e]
        have hsplit : (c :: cs).take k ++ cs.drop (k - 1) = c :: cs := by
          have : cs.drop (k - 1) = (c :: cs).drop k := by
            rw [← e, List.drop_succ_cons]; simp
          rw [this, List.take_append_drop]
        have hlen : ((c :: cs).take k).length + (cs.drop (k - 1)).length = cs.length + 1 := by
          rw [← List.length_append, hsplit, List.length_cons]
        have htk : ((c :: cs).take k).length ≤ k := by rw [List.length_take]; omega
        have htk1 : 1 ≤ ((c :: cs).take k).length := by rw [List.length_take, List.length_cons]; omega
        obtain ⟨h1, h2⟩ := h.copy ((c :: cs).take k) (by omega)
        obtain ⟨h3, ⟨j, h4⟩, h5⟩ := ih (cs.drop (k - 1)).length (by omega) h1 (cs.drop (k - 1)) (by simp only [List.length_append]; omega) rfl
        rw [h2] at h4 h5
        refine ⟨by rw [List.append_assoc, hsplit] at h3; exact h3, ⟨j, h4⟩, ?_⟩
        rcases h5 with h5 | h5
        · exact Or.inl h5
        · refine Or.inr ?_
          simp only [List.length_append] at h5
          omega
      · rename_i hge
        obtain ⟨h1, h2⟩ := h.overflow c (by omega) (by omega)
        obtain ⟨h3, ⟨j, h4⟩, h5⟩ := ih cs.length (by omega) h1 cs (by simp only [List.length_append, List.length_cons, List.length_nil]; omega) rfl
        rw [h2] at h4 h5
        refine ⟨by simpa using h3, ⟨j + 1, by rw [h4, Nat.pow_succ, Nat.mul_assoc, Nat.mul_comm 2]⟩, Or.inr ?_⟩
        simp only [List.length_append, List.length_cons, List.length_nil] at h5 ⊢
        rcases h5 with h5 | h5 <;> omega

theorem Ok.writes {b : B} {l : List Nat} (h : Ok b l) (ws : List (List Nat)) (hs : l.length + ws.flatten.length ≤ 2 ^ 31) :
    Ok (ws.foldl B.write b) (l ++ ws.flatten) := by
  induction ws generalizing b l with
  | nil => simpa using h
  | cons w ws ih =>
    simp only [List.flatten_cons, List.length_append] at hs
    have h1 := (h.write w (by omega)).1
    have := ih h1 (by simp only [List.length_append]; omega)
    simpa [List.append_assoc] using this

/-- A buffer that has been emptied. -/
def Empty (b : B) : Prop := b.pos = 0 ∧ 1 ≤ b.cap ∧ b.bad = false

theorem Empty.ok {b : B} (h : Empty b) : Ok b [] := ⟨h.1, Nat.zero_le _, h.2.1, fun i hi => absurd hi (by simp), h.2.2⟩

theorem Ok.take {b : B} {l : List Nat} (h : Ok b l) (mem : Nat → Nat) : (b.take mem).1 = l ∧ Empty (b.take mem).2 := by
  refine ⟨?_, rfl, h.cap, h.good⟩
  simp only [B.take, h.pos, Int.toNat_natCast]
  refine List.ext_getElem (by simp) fun i h1 h2 => ?_
  simp only [List.getElem_map, List.getElem_range]
  exact h.mem i h2

theorem serialize_ok {b : B} (h : Empty b) (ws : List (List Nat)) (mem : Nat → Nat) (hs : ws.flatten.length ≤ 2 ^ 31) :
    (serialize b ws mem).1 = ws.flatten ∧ Empty (serialize b ws mem).2 := by
  have := (h.ok.writes ws (by simpa using hs)).take mem
  simpa [serialize] using this

theorem serializeAll_ok (mem : Nat → Nat) (ts : List (List (List Nat))) {b : B} (h : Empty b)
    (hs : ∀ t ∈ ts, t.flatten.length ≤ 2 ^ 31) :
    (serializeAll mem b ts).1 = ts.map List.flatten ∧ Empty (serializeAll mem b ts).2 := by
  induction ts generalizing b with
  | nil => exact ⟨rfl, h⟩
  | cons t ts ih =>
    obtain ⟨h1, h2⟩ := serialize_ok h t mem (hs t List.mem_cons_self)
    obtain ⟨h3, h4⟩ := ih h2 fun x hx => hs x (List.mem_cons_of_mem _ hx)
    exact ⟨by simp only [serializeAll, h1, h3, List.map_cons], h4⟩

/-- **C71**, partial.  A thread serialises any number of tasks, each of them written by the archive in any number of pieces
of any sizes: the bytes of each message are exactly the pieces of that task one after the other, whatever was
serialised before, and no store is outside of the memory allocated.  Missing: tasks of more than `2 ^ 31` bytes, see
`C71_large_counterexample`. -/
theorem C71_bytes_partial (mem mem' : Nat → Nat) (ts : List (List (List Nat))) (hs : ∀ t ∈ ts, t.flatten.length ≤ 2 ^ 31) :
    (serializeAll mem' (B.init mem) ts).1 = ts.map List.flatten ∧ (serializeAll mem' (B.init mem) ts).2.bad = false := by
  obtain ⟨h1, -, -, h2⟩ := serializeAll_ok mem' ts (b := B.init mem) ⟨rfl, by simp [B.init], rfl⟩ hs
  exact ⟨h1, h2⟩

/-- Character by character or in one call: the same. -/
theorem C71_put_write (b : B) (l m : List Nat) (h : Ok b l) (hs : l.length + m.length ≤ 2 ^ 31) :
    Ok (b.write m) (l ++ m) ∧ Ok (m.foldl B.put b) (l ++ m) := by
  refine ⟨(h.write m hs).1, ?_⟩
  induction m generalizing b l with
  | nil => simpa using h
  | cons c m ih =>
    simp only [List.length_cons] at hs
    have h1 : Ok (b.put c) (l ++ [c]) := by
      unfold B.put
      have hp := h.pos
      have hroom := h.room
      split
      · exact (h.store c (by omega)).1
      · exact (h.overflow c (by omega) (by omega)).1
    have := ih (b.put c) (l ++ [c]) h1 (by simp only [List.length_append, List.length_cons, List.length_nil]; omega)
    simpa using this

theorem store_bad (b : B) (c : Nat) (h : b.bad = true) : (b.store c).bad = true := by
  unfold B.store; split
  · exact h
  · rfl

/-- **C71, counterexample**.  A task of `2 ^ 31 + 1` bytes, written into a new buffer: when the buffer is doubled from
`2 ^ 31` bytes on, the number of bytes written is passed to `pbump` as an `int` and becomes negative, and the next byte
is stored in front of the buffer. -/
theorem C71_large_counterexample (mem : Nat → Nat) (l : List Nat) (c : Nat) (hl : l.length = 2 ^ 31) :
    (((B.init mem).write l).write [c]).bad = true := by
  have h0 : Ok (B.init mem) [] := ⟨rfl, Nat.zero_le _, by simp [B.init], fun i hi => absurd hi (by simp), rfl⟩
  obtain ⟨h1, ⟨j, h2⟩, h3⟩ := h0.write l (by simp [hl])
  simp only [List.nil_append, List.length_nil, Nat.zero_add] at h1 h3
  generalize hb : (B.init mem).write l = b at *
  have hroom := h1.room
  have hp := h1.pos
  rw [hl] at h3 hroom hp
  have hcap : b.cap = 2 ^ 31 := by
    have hj : b.cap = 2 ^ (j + 1) := by rw [h2, Nat.pow_succ]; simp [B.init, Nat.mul_comm]
    have hlt : b.cap < 2 ^ 32 := by
      rcases h3 with h3 | h3
      · rw [h3]; simp [B.init]
      · omega
    rw [hj] at hroom hlt ⊢
    have a1 : 31 ≤ j + 1 := (Nat.pow_le_pow_iff_right (by omega)).1 hroom
    have a2 : j + 1 < 32 := (Nat.pow_lt_pow_iff_right (by omega)).1 hlt
    have : j + 1 = 31 := by omega
    rw [this]
  have hnl : ¬ b.pos < b.cap := by rw [hp, hcap]; omega
  rw [B.write]
  simp only [hnl, if_false]
  rw [B.write]
  unfold B.overflow
  have e : toSize (b.cap * 2) = 2 ^ 32 := by rw [hcap]; rfl
  rw [e, B.resize, if_neg (by rw [hcap]; omega)]
  have ep : toInt b.pos = -2 ^ 31 := by rw [hp]; rfl
  simp only [ep, B.store]
  rw [if_neg (by omega)]

/-- A concrete case: two tasks written in pieces, into a buffer with other contents. -/
example : (serializeAll (fun _ => 9) (B.init fun _ => 8) [[[1], [2, 3, 4]], [], [[5, 6, 7], [], [8, 9, 10, 11, 12, 13]]]).1 =
    [[1, 2, 3, 4], [], [5, 6, 7, 8, 9, 10, 11, 12, 13]] :=
  (C71_bytes_partial (fun _ => 8) (fun _ => 9) _ (by simp)).1

/-- There are such lists. -/
example : ∃ l : List Nat, l.length = 2 ^ 31 := ⟨List.replicate (2 ^ 31) 0, List.length_replicate⟩

end FF.SerBuf
