import Verif.Squeue.Model
/-!
# C17: `squeue` is a double-ended sequence

The full property is false: draining the queue from the front exactly at the end of its last chunk
leaves a state from which the next `push_back` makes `front()` read outside its chunk.  The partial
theorem covers every history that avoids this, the second theorem shows that no other condition is
missing: every history that meets the condition breaks at the next `push_back`.
-/
namespace FF.Squeue
variable {A : Type}

/-! ## Specification -/

/-- The sequence and the number of elements removed from the front, after one operation. -/
def spec (s : List A × Nat) : Op A → List A × Nat
  | .pushBack a => (s.1 ++ [a], s.2)
  | .popBack => (s.1.dropLast, s.2)
  | .popFront => (s.1.tail, if s.1 = [] then s.2 else s.2 + 1)

def after (ops : List (Op A)) : List A × Nat := ops.foldl spec ([], 0)

/-- No `pop_front` of the history removes the only element when the number of elements removed from
the front becomes a multiple of the chunk size. -/
def Safe (chunk : Nat) (ops : List (Op A)) : Prop :=
  ∀ pre suf, ops = pre ++ Op.popFront :: suf →
    (after pre).1.length = 1 → ¬ chunk ∣ (after pre).2 + 1

/-! ## Invariant -/

structure Inv (q : Q A) (l : List A) (p : Nat) : Prop where
  cpos : 0 < q.chunk
  nel : q.nel = l.length
  ne : 0 < q.data.length
  tl : ∀ ck, q.data[q.tail]? = some ck → ck.t + 1 = (p + l.length : Nat) - (q.tail * q.chunk : Nat)
  lo : q.tail * q.chunk ≤ p + l.length
  lo' : 0 < q.tail → q.tail * q.chunk < p + l.length
  hi : p + l.length ≤ q.tail * q.chunk + q.chunk
  hlo : q.head * q.chunk ≤ p
  hhi : p < q.head * q.chunk + q.chunk
  chunks : ∀ j, q.head ≤ j → ∀ ck, q.data[j]? = some ck →
    ∃ ce, ck.entry = some ce ∧ ce.length = q.chunk ∧
      (ck.h = if j = q.head then p - q.head * q.chunk else 0) ∧
      ∀ i, i < q.chunk → p ≤ j * q.chunk + i → j * q.chunk + i < p + l.length →
        ce[i]? = some l[j * q.chunk + i - p]?

theorem mul_lt_le {a b c : Nat} (h : a < b) : a * c + c ≤ b * c := by
  have := Nat.mul_le_mul_right c (Nat.succ_le_of_lt h)
  rwa [Nat.succ_mul] at this

theorem tail_lt {q : Q A} {l p} (h : Inv q l p) : q.tail < q.data.length := by
  have := h.ne; unfold Q.tail; omega

theorem head_le {q : Q A} {l p} (h : Inv q l p) (hn : 0 < l.length) : q.head ≤ q.tail := by
  rcases Nat.lt_or_ge q.tail q.head with hlt | hge
  · have := mul_lt_le (c := q.chunk) hlt
    have := h.hi; have := h.hlo; omega
  · exact hge

theorem init_inv {chunk : Nat} (hc : 0 < chunk) : Inv (Q.mk0 chunk : Q A) [] 0 where
  cpos := hc
  nel := rfl
  ne := by simp [Q.mk0]
  tl := by
    intro ck hck
    simp only [Q.mk0, Q.tail, List.length_cons, List.length_nil, List.getElem?_cons_zero,
      Nat.zero_add, Nat.sub_self, Option.some.injEq] at hck
    subst hck; simp [Q.tail, Q.mk0]
  lo := by simp [Q.tail, Q.mk0]
  lo' := by simp [Q.tail, Q.mk0]
  hi := by simp
  hlo := by simp [Q.mk0]
  hhi := by simp [Q.mk0]; exact hc
  chunks := by
    intro j _ ck hck
    cases j with
    | zero =>
      simp only [Q.mk0, List.getElem?_cons_zero, Option.some.injEq] at hck
      subst hck
      refine ⟨List.replicate chunk none, rfl, by simp [Q.mk0], by simp [Q.mk0], ?_⟩
      intro i _ _ h
      simp [Q.mk0] at h
    | succ j => simp [Q.mk0] at hck

/-- Reading the element at absolute position `x`. -/
theorem Inv.rd {q : Q A} {l p} (h : Inv q l p) {j : Nat} {i : Int} {x : Nat} (hj : q.head ≤ j)
    (hjt : j ≤ q.tail) (hx : (j * q.chunk : Nat) + i = (p + x : Nat)) (hi0 : 0 ≤ i)
    (hic : i < q.chunk) (hxl : x < l.length) : rd q.data j i = l[x]? := by
  have hlt := tail_lt h
  obtain ⟨ce, h1, h2, -, h4⟩ := h.chunks j hj q.data[j] (List.getElem?_eq_getElem (by omega))
  obtain ⟨m, rfl⟩ := Int.eq_ofNat_of_zero_le hi0
  have e := h4 m (by omega) (by omega) (by omega)
  unfold FF.Squeue.rd
  rw [List.getElem?_eq_getElem (show j < q.data.length by omega)]
  have hd : q.data[j] = { h := q.data[j].h, t := q.data[j].t, entry := some ce } := by rw [← h1]
  rw [hd]
  simp only [h2]
  rw [if_pos ⟨hi0, hic⟩, Int.toNat_natCast, e,
    show j * q.chunk + m - p = x by omega]
  rfl

theorem Inv.front {q : Q A} {l p} (h : Inv q l p) (hn : l ≠ []) : q.front = l.head? := by
  have hpos := List.length_pos_iff.2 hn
  have hle := head_le h hpos
  have hlt := tail_lt h
  have hg : q.data[q.head]? = some q.data[q.head] := List.getElem?_eq_getElem (by omega)
  obtain ⟨ce, h1, h2, h3, -⟩ := h.chunks q.head (Nat.le_refl _) _ hg
  rw [if_pos rfl] at h3
  have := h.hlo; have := h.hhi
  rw [Q.front, if_neg (by rw [h.nel]; omega), hg]
  simp only
  rw [h.rd (x := 0) (Nat.le_refl _) hle (by omega) (by omega) (by omega) hpos,
    List.head?_eq_getElem?]

theorem Inv.back {q : Q A} {l p} (h : Inv q l p) (hn : l ≠ []) : q.back = l.getLast? := by
  have hpos := List.length_pos_iff.2 hn
  have hle := head_le h hpos
  have hlt := tail_lt h
  have hg : q.data[q.tail]? = some q.data[q.tail] := List.getElem?_eq_getElem (by omega)
  have ht := h.tl _ hg
  have := h.lo; have := h.lo'; have := h.hi; have := h.cpos
  rw [Q.back, if_neg (by rw [h.nel]; omega), hg]
  simp only
  have h0 : 0 ≤ q.data[q.tail].t := by
    rcases Nat.eq_zero_or_pos q.tail with e | e
    · have : q.tail * q.chunk = 0 := by rw [e, Nat.zero_mul]
      omega
    · have := h.lo' e; omega
  rw [h.rd (x := l.length - 1) hle (Nat.le_refl _) (by omega) h0 (by omega) (by omega),
    List.getLast?_eq_getElem?]

theorem Inv.pushBack {q : Q A} {l p} (h : Inv q l p) (a : A) :
    ∃ q', q.pushBack a = some q' ∧ Inv q' (l ++ [a]) p := by
  have hlt := tail_lt h
  have hg : q.data[q.tail]? = some q.data[q.tail] := List.getElem?_eq_getElem hlt
  have ht := h.tl _ hg
  have hlo := h.lo; have hlo' := h.lo'; have hhi := h.hi; have hc := h.cpos
  have hhlo := h.hlo; have hhhi := h.hhi
  have hdl : q.data.length = q.tail + 1 := by unfold Q.tail at *; omega
  unfold Q.pushBack
  rw [hg]
  simp only
  split
  · -- a new chunk
    rename_i he
    have heq : p + l.length = q.tail * q.chunk + q.chunk := by omega
    have hht : q.head ≤ q.tail + 1 := by
      rcases Nat.lt_or_ge (q.tail + 1) q.head with hl | hl
      · have := mul_lt_le (c := q.chunk) hl
        rw [Nat.succ_mul] at this; omega
      · exact hl
    have hget : (q.data.set q.tail { q.data[q.tail] with t := q.data[q.tail].t + 1 } ++
        [Ck.mk 0 0 (newchunk q.chunk)])[q.tail + 1]? =
        some { h := 0, t := 0, entry := newchunk (A := A) q.chunk } := by
      rw [List.getElem?_append_right (by simp; omega)]
      simp [hdl]
    refine ⟨{ q with
      data := ((q.data.set q.tail { q.data[q.tail] with t := q.data[q.tail].t + 1 } ++
        [Ck.mk 0 0 (newchunk q.chunk)]).set (q.tail + 1)
          { h := 0, t := 0, entry := some ((List.replicate q.chunk none).set 0 (some a)) })
      nel := q.nel + 1 }, ?_, ?_⟩
    · unfold wr
      rw [hget]
      simp only [newchunk, List.length_replicate]
      rw [if_pos (by omega)]
      rfl
    · have htail' : Q.tail { q with
          data := ((q.data.set q.tail { q.data[q.tail] with t := q.data[q.tail].t + 1 } ++
            [Ck.mk 0 0 (newchunk q.chunk)]).set (q.tail + 1)
              { h := 0, t := 0, entry := some ((List.replicate q.chunk none).set 0 (some a)) })
          nel := q.nel + 1 } = q.tail + 1 := by
        simp only [Q.tail, List.length_set, List.length_append, List.length_cons, List.length_nil]
        unfold Q.tail at hdl; omega
      refine ⟨hc, by simp [h.nel], by simp, ?_, ?_, ?_, ?_, hhlo, hhhi, ?_⟩
      · intro ck hck
        rw [htail'] at hck
        simp only [List.getElem?_set, if_true] at hck
        rw [if_pos (by simp; omega), Option.some.injEq] at hck
        subst hck
        rw [htail']
        simp only [List.length_append, List.length_cons, List.length_nil, Nat.succ_mul]
        omega
      · rw [htail']
        simp only [List.length_append, List.length_cons, List.length_nil, Nat.succ_mul]; omega
      · intro _
        rw [htail']
        simp only [List.length_append, List.length_cons, List.length_nil, Nat.succ_mul]; omega
      · rw [htail']
        simp only [List.length_append, List.length_cons, List.length_nil, Nat.succ_mul]; omega
      · intro j hj ck hck
        simp only at hj hck ⊢
        rw [List.getElem?_set] at hck
        by_cases e : q.tail + 1 = j
        · subst e
          rw [if_pos rfl, if_pos (by simp; omega), Option.some.injEq] at hck
          subst hck
          refine ⟨_, rfl, by simp, ?_, ?_⟩
          · simp only
            split
            · rename_i e2
              rw [← e2, Nat.succ_mul]
              rw [← e2, Nat.succ_mul] at hhlo
              omega
            · rfl
          · intro i hi h1 h2
            simp only [List.length_append, List.length_cons, List.length_nil, Nat.succ_mul] at h2
            have hi0 : i = 0 := by omega
            subst hi0
            rw [show (q.tail + 1) * q.chunk + 0 - p = l.length by rw [Nat.succ_mul]; omega]
            simp [hc]
        · rw [if_neg e] at hck
          have hjl : j < q.data.length + 1 := by
            have := (List.getElem?_eq_some_iff.1 hck).1; simp at this; omega
          rw [List.getElem?_append_left (by simp; omega), List.getElem?_set] at hck
          have hjt : j * q.chunk + q.chunk ≤ q.tail * q.chunk + q.chunk := by
            have := Nat.mul_le_mul_right q.chunk (show j ≤ q.tail by omega); omega
          by_cases e2 : q.tail = j
          · subst e2
            rw [if_pos rfl, if_pos (by omega), Option.some.injEq] at hck
            obtain ⟨ce, h1, h2, h3, h4⟩ := h.chunks q.tail hj _ hg
            subst hck
            refine ⟨ce, h1, h2, h3, ?_⟩
            intro i hi h5 h6
            rw [List.getElem?_append_left (by omega)]
            exact h4 i hi h5 (by omega)
          · rw [if_neg e2] at hck
            obtain ⟨ce, h1, h2, h3, h4⟩ := h.chunks j hj _ hck
            refine ⟨ce, h1, h2, h3, ?_⟩
            intro i hi h5 h6
            rw [List.getElem?_append_left (by omega)]
            exact h4 i hi h5 (by omega)
  · -- room in the tail chunk
    rename_i he
    have hroom : p + l.length < q.tail * q.chunk + q.chunk := by omega
    have hht : q.head ≤ q.tail := by
      rcases Nat.lt_or_ge q.tail q.head with hl | hl
      · have := mul_lt_le (c := q.chunk) hl; omega
      · exact hl
    obtain ⟨ce, h1, h2, h3, h4⟩ := h.chunks q.tail hht _ hg
    have hpos : 0 ≤ q.data[q.tail].t + 1 := by omega
    obtain ⟨m, hm⟩ := Int.eq_ofNat_of_zero_le hpos
    have hm' : m + q.tail * q.chunk = p + l.length := by omega
    refine ⟨{ q with
      data := (q.data.set q.tail { q.data[q.tail] with t := q.data[q.tail].t + 1 }).set q.tail
        { h := q.data[q.tail].h, t := q.data[q.tail].t + 1, entry := some (ce.set m (some a)) }
      nel := q.nel + 1 }, ?_, ?_⟩
    · have htn : (q.data[q.tail].t + 1).toNat = m := by rw [hm]; rfl
      unfold wr
      rw [List.getElem?_set, if_pos rfl, if_pos hlt]
      simp only [h1]
      rw [if_pos (by rw [h2]; omega), htn]
      rfl
    · have htail' : Q.tail { q with
          data := (q.data.set q.tail { q.data[q.tail] with t := q.data[q.tail].t + 1 }).set q.tail
            { h := q.data[q.tail].h, t := q.data[q.tail].t + 1, entry := some (ce.set m (some a)) }
          nel := q.nel + 1 } = q.tail := by
        simp only [Q.tail, List.length_set]
      refine ⟨hc, by simp [h.nel], by simpa using h.ne, ?_, ?_, ?_, ?_, hhlo, hhhi, ?_⟩
      · intro ck hck
        rw [htail'] at hck ⊢
        simp only [List.getElem?_set, if_true, List.length_set] at hck
        rw [if_pos hlt, Option.some.injEq] at hck
        subst hck
        simp only [List.length_append, List.length_cons, List.length_nil]; omega
      · rw [htail']; simp only [List.length_append, List.length_cons, List.length_nil]; omega
      · rw [htail']; simp only [List.length_append, List.length_cons, List.length_nil]; omega
      · rw [htail']; simp only [List.length_append, List.length_cons, List.length_nil]; omega
      · intro j hj ck hck
        simp only at hj hck ⊢
        rw [List.getElem?_set] at hck
        by_cases e : q.tail = j
        · subst e
          rw [if_pos rfl, if_pos (by simpa using hlt), Option.some.injEq] at hck
          subst hck
          refine ⟨_, rfl, by simpa using h2, h3, ?_⟩
          intro i hi h5 h6
          simp only [List.length_append, List.length_cons, List.length_nil] at h6
          rw [List.getElem?_set]
          by_cases e2 : m = i
          · subst e2
            rw [if_pos rfl, if_pos (by omega), show q.tail * q.chunk + m - p = l.length by omega]
            simp
          · rw [if_neg e2, List.getElem?_append_left (by omega)]
            exact h4 i hi h5 (by omega)
        · rw [if_neg e, List.getElem?_set, if_neg e] at hck
          have hjl := (List.getElem?_eq_some_iff.1 hck).1
          have := mul_lt_le (c := q.chunk) (show j < q.tail by omega)
          obtain ⟨ce, h1, h2, h3, h4⟩ := h.chunks j hj _ hck
          refine ⟨ce, h1, h2, h3, ?_⟩
          intro i hi h5 h6
          rw [List.getElem?_append_left (by omega)]
          exact h4 i hi h5 (by omega)

theorem Inv.popBack {q : Q A} {l p} (h : Inv q l p) :
    ∃ q', q.popBack = some q' ∧ Inv q' l.dropLast p := by
  by_cases hn : l = []
  · subst hn
    exact ⟨q, by rw [Q.popBack, if_pos (by simpa using h.nel)], h⟩
  have hpos := List.length_pos_iff.2 hn
  have hle := head_le h hpos
  have hlt := tail_lt h
  have hg : q.data[q.tail]? = some q.data[q.tail] := List.getElem?_eq_getElem (by omega)
  have ht := h.tl _ hg
  have hlo := h.lo; have hlo' := h.lo'; have hhi := h.hi; have hc := h.cpos
  have hhlo := h.hlo; have hhhi := h.hhi
  have hdl : q.data.length = q.tail + 1 := by unfold Q.tail at *; omega
  have h0 : 0 ≤ q.data[q.tail].t := by
    rcases Nat.eq_zero_or_pos q.tail with e | e
    · have : q.tail * q.chunk = 0 := by rw [e, Nat.zero_mul]
      omega
    · have := h.lo' e; omega
  have hrd := h.rd (x := l.length - 1) hle (Nat.le_refl _) (by omega) h0 (by omega) (by omega)
  rw [List.getElem?_eq_getElem (by omega)] at hrd
  unfold Q.popBack
  rw [if_neg (by rw [h.nel]; omega), hg]
  simp only [hrd]
  split
  · rename_i hz
    obtain ⟨hz, htp⟩ := hz
    have heq : p + l.length = q.tail * q.chunk + 1 := by omega
    obtain ⟨T, hT⟩ : ∃ T, q.tail = T + 1 := ⟨q.tail - 1, by omega⟩
    have hTc : q.tail * q.chunk = T * q.chunk + q.chunk := by rw [hT, Nat.succ_mul]
    have hgd : q.data.dropLast[q.tail - 1]? = some q.data[T] := by
      rw [List.getElem?_dropLast, if_pos (by omega), hT]
      exact List.getElem?_eq_getElem (by omega)
    rw [hgd]
    simp only
    refine ⟨_, rfl, ?_⟩
    have htail' : Q.tail { q with
        data := q.data.dropLast.set (q.tail - 1) { q.data[T] with t := (q.chunk : Int) - 1 }
        nel := q.nel - 1 } = T := by
      simp only [Q.tail, List.length_set, List.length_dropLast]; omega
    refine ⟨hc, by simp [h.nel], by simp; omega, ?_, ?_, ?_, ?_, hhlo, hhhi, ?_⟩
    · intro ck hck
      rw [htail'] at hck ⊢
      simp only [List.getElem?_set] at hck
      rw [if_pos (by omega), if_pos (by simp; omega), Option.some.injEq] at hck
      subst hck
      simp only [List.length_dropLast]; omega
    · rw [htail']; simp only [List.length_dropLast]; omega
    · rw [htail']; simp only [List.length_dropLast]; omega
    · rw [htail']; simp only [List.length_dropLast]; omega
    · intro j hj ck hck
      simp only at hj hck ⊢
      rw [List.getElem?_set] at hck
      by_cases e : q.tail - 1 = j
      · rw [if_pos e, if_pos (by simp; omega), Option.some.injEq] at hck
        have hjT : j = T := by omega
        subst hjT
        obtain ⟨ce, h1, h2, h3, h4⟩ := h.chunks j hj q.data[j] (List.getElem?_eq_getElem (by omega))
        subst hck
        refine ⟨ce, h1, h2, h3, ?_⟩
        intro i hi h5 h6
        simp only [List.length_dropLast] at h6
        rw [List.getElem?_dropLast, if_pos (by omega)]
        exact h4 i hi h5 (by omega)
      · rw [if_neg e, List.getElem?_dropLast] at hck
        split at hck
        · obtain ⟨ce, h1, h2, h3, h4⟩ := h.chunks j hj _ hck
          refine ⟨ce, h1, h2, h3, ?_⟩
          intro i hi h5 h6
          simp only [List.length_dropLast] at h6
          rw [List.getElem?_dropLast, if_pos (by omega)]
          exact h4 i hi h5 (by omega)
        · simp at hck
  · rename_i hz
    refine ⟨_, rfl, ?_⟩
    have htail' : Q.tail { q with
        data := q.data.set q.tail { q.data[q.tail] with t := q.data[q.tail].t - 1 }
        nel := q.nel - 1 } = q.tail := by
      simp only [Q.tail, List.length_set]
    have hz' : 0 < q.tail → 0 < q.data[q.tail].t := by
      intro htp
      rcases Int.lt_or_eq_of_le h0 with h | h
      · exact h
      · exact absurd ⟨h.symm, htp⟩ hz
    refine ⟨hc, by simp [h.nel], by simp; omega, ?_, ?_, ?_, ?_, hhlo, hhhi, ?_⟩
    · intro ck hck
      rw [htail'] at hck ⊢
      simp only [List.getElem?_set, if_true] at hck
      rw [if_pos hlt, Option.some.injEq] at hck
      subst hck
      simp only [List.length_dropLast]; omega
    · rw [htail']; simp only [List.length_dropLast]; omega
    · rw [htail']; simp only [List.length_dropLast]; omega
    · rw [htail']; simp only [List.length_dropLast]; omega
    · intro j hj ck hck
      simp only at hj hck ⊢
      rw [List.getElem?_set] at hck
      have key : ∃ ck0, q.data[j]? = some ck0 ∧ ck.entry = ck0.entry ∧ ck.h = ck0.h := by
        by_cases e : q.tail = j
        · subst e
          rw [if_pos rfl, if_pos hlt, Option.some.injEq] at hck
          subst hck
          exact ⟨_, hg, rfl, rfl⟩
        · rw [if_neg e] at hck
          exact ⟨_, hck, rfl, rfl⟩
      obtain ⟨ck0, k1, k2, k3⟩ := key
      obtain ⟨ce, h1, h2, h3, h4⟩ := h.chunks j hj _ k1
      refine ⟨ce, k2 ▸ h1, h2, k3 ▸ h3, ?_⟩
      intro i hi h5 h6
      simp only [List.length_dropLast] at h6
      rw [List.getElem?_dropLast, if_pos (by omega)]
      exact h4 i hi h5 (by omega)

theorem Inv.popFront {q : Q A} {l p} (h : Inv q l p) (hn : l ≠ [])
    (hsafe : l.length = 1 → ¬ q.chunk ∣ p + 1) :
    ∃ q', q.popFront = some q' ∧ Inv q' l.tail (p + 1) := by
  have hpos := List.length_pos_iff.2 hn
  have hle := head_le h hpos
  have hlt := tail_lt h
  have hg : q.data[q.head]? = some q.data[q.head] := List.getElem?_eq_getElem (by omega)
  obtain ⟨ce, h1, h2, h3, h4⟩ := h.chunks q.head (Nat.le_refl _) _ hg
  rw [if_pos rfl] at h3
  have hlo := h.lo; have hlo' := h.lo'; have hhi := h.hi; have hc := h.cpos
  have hhlo := h.hlo; have hhhi := h.hhi
  have hdl : q.data.length = q.tail + 1 := by unfold Q.tail at *; omega
  have hrd := h.rd (i := q.data[q.head].h) (x := 0) (Nat.le_refl _) hle (by omega) (by omega)
    (by omega) hpos
  rw [List.getElem?_eq_getElem hpos] at hrd
  unfold Q.popFront
  rw [if_neg (by rw [h.nel]; omega), hg]
  simp only [hrd]
  -- what both branches keep
  have tlkeep : ∀ (c1 : Ck A) (hd' : Nat), c1.t = q.data[q.head].t → ∀ ck,
      (q.data.set q.head c1)[q.tail]? = some ck →
      ck.t + 1 = ((p + 1 + l.tail.length : Nat) : Int) - (q.tail * q.chunk : Nat) := by
    intro c1 _ hc1 ck hck
    have hlen : p + 1 + l.tail.length = p + l.length := by simp only [List.length_tail]; omega
    rw [hlen]
    rw [List.getElem?_set] at hck
    by_cases e : q.head = q.tail
    · rw [if_pos e, if_pos (by omega), Option.some.injEq] at hck
      subst hck
      rw [hc1]
      exact h.tl _ (by rw [← e]; exact hg)
    · rw [if_neg e] at hck
      exact h.tl _ hck
  have hlen : p + 1 + l.tail.length = p + l.length := by simp only [List.length_tail]; omega
  split
  · rename_i hz
    obtain ⟨hz, htp⟩ := hz
    refine ⟨_, rfl, ?_⟩
    have htail' : Q.tail { q with
        data := q.data.set q.head { q.data[q.head] with h := q.data[q.head].h + 1, entry := none }
        nel := q.nel - 1
        head := q.head + 1 } = q.tail := by
      simp only [Q.tail, List.length_set]
    have hpe : p + 1 = q.head * q.chunk + q.chunk := by omega
    refine ⟨hc, by simp [h.nel], by simp; omega, ?_, ?_, ?_, ?_, ?_, ?_, ?_⟩
    · rw [htail']; exact tlkeep _ 0 rfl
    · rw [htail', hlen]; exact hlo
    · rw [htail', hlen]; exact hlo'
    · rw [htail', hlen]; exact hhi
    · simp only [Nat.succ_mul]; omega
    · simp only [Nat.succ_mul]; omega
    · intro j hj ck hck
      simp only at hj hck ⊢
      rw [List.getElem?_set, if_neg (by omega)] at hck
      obtain ⟨ce, k1, k2, k3, k4⟩ := h.chunks j (by omega) _ hck
      rw [if_neg (by omega)] at k3
      refine ⟨ce, k1, k2, ?_, ?_⟩
      · rw [k3]
        split
        · rw [Nat.succ_mul]; omega
        · rfl
      · intro i hi h5 h6
        rw [hlen] at h6
        rw [k4 i hi (by omega) h6, List.getElem?_tail]
        congr 2; omega
  · rename_i hz
    refine ⟨_, rfl, ?_⟩
    have htail' : Q.tail { q with
        data := q.data.set q.head { q.data[q.head] with h := q.data[q.head].h + 1 }
        nel := q.nel - 1 } = q.tail := by
      simp only [Q.tail, List.length_set]
    have hhh : p + 1 < q.head * q.chunk + q.chunk := by
      rcases Nat.lt_or_ge (p + 1) (q.head * q.chunk + q.chunk) with hl | hl
      · exact hl
      · exfalso
        have hpe : p + 1 = q.head * q.chunk + q.chunk := by omega
        have hnt : ¬ q.tail > q.head := fun ht => hz ⟨by omega, ht⟩
        have hte : q.tail = q.head := by omega
        rw [hte] at hhi
        exact hsafe (by omega) ⟨q.head + 1, by rw [hpe, Nat.mul_succ, Nat.mul_comm]⟩
    refine ⟨hc, by simp [h.nel], by simp; omega, ?_, ?_, ?_, ?_, by simp only; omega, hhh, ?_⟩
    · rw [htail']; exact tlkeep _ 0 rfl
    · rw [htail', hlen]; exact hlo
    · rw [htail', hlen]; exact hlo'
    · rw [htail', hlen]; exact hhi
    · intro j hj ck hck
      simp only at hj hck ⊢
      rw [List.getElem?_set] at hck
      by_cases e : q.head = j
      · subst e
        rw [if_pos rfl, if_pos (by omega), Option.some.injEq] at hck
        subst hck
        refine ⟨ce, h1, h2, ?_, ?_⟩
        · rw [if_pos rfl]; simp only; omega
        · intro i hi h5 h6
          rw [hlen] at h6
          rw [h4 i hi (by omega) h6, List.getElem?_tail]
          congr 2; omega
      · rw [if_neg e] at hck
        obtain ⟨ce, k1, k2, k3, k4⟩ := h.chunks j hj _ hck
        rw [if_neg (by omega)] at k3
        refine ⟨ce, k1, k2, ?_, ?_⟩
        · rw [k3, if_neg (by omega)]
        · intro i hi h5 h6
          rw [hlen] at h6
          rw [k4 i hi (by omega) h6, List.getElem?_tail]
          congr 2; omega

/-! ## The property -/

theorem run_append (q : Q A) (o1 o2 : List (Op A)) :
    run q (o1 ++ o2) = (run q o1).bind fun q => run q o2 := by
  induction o1 generalizing q with
  | nil => rfl
  | cons o os ih =>
    simp only [List.cons_append, run]
    cases step q o with
    | none => rfl
    | some q' => simp only [Option.bind_some]; exact ih q'

theorem run_inv {chunk : Nat} (hc : 0 < chunk) (ops : List (Op A)) (hs : Safe chunk ops) :
    ∃ q, run (Q.mk0 chunk) ops = some q ∧ Inv q (after ops).1 (after ops).2 ∧ q.chunk = chunk := by
  have gen : ∀ n (ops : List (Op A)), ops.length = n → Safe chunk ops →
      ∃ q, run (Q.mk0 chunk) ops = some q ∧ Inv q (after ops).1 (after ops).2 ∧ q.chunk = chunk := by
    intro n
    induction n with
    | zero =>
      intro ops hl _
      rw [List.length_eq_zero_iff] at hl; subst hl
      exact ⟨_, rfl, init_inv hc, rfl⟩
    | succ n ih =>
      intro ops hl hs
      obtain ⟨pre, o, rfl⟩ : ∃ pre o, ops = pre ++ [o] := by
        have hne : ops ≠ [] := by rintro rfl; simp at hl
        exact ⟨ops.dropLast, ops.getLast hne, (List.dropLast_concat_getLast hne).symm⟩
      obtain ⟨q, h1, h2, h3⟩ := ih pre (by simpa using hl) (by
        intro p s he
        exact hs p (s ++ [o]) (by rw [he]; simp))
      have haft : after (pre ++ [o]) = spec (after pre) o := by simp [after]
      rw [run_append, h1, haft]
      simp only [Option.bind_some, run, Option.bind_fun_some]
      have hch : ∀ q' : Q A, step q o = some q' → q'.chunk = chunk := by
        intro q' hq'
        rw [← h3]
        cases o with
        | pushBack a =>
          simp only [step, Q.pushBack] at hq'
          repeat (split at hq' <;> try (simp only [reduceCtorEq] at hq'))
          all_goals
            simp only [Option.map_eq_some_iff] at hq'
            obtain ⟨d, -, rfl⟩ := hq'; rfl
        | popBack =>
          simp only [step, Q.popBack] at hq'
          repeat' (split at hq')
          all_goals first
            | (simp only [reduceCtorEq] at hq'; done)
            | (simp only [Option.some.injEq] at hq'; subst hq'; rfl)
        | popFront =>
          simp only [step, Q.popFront] at hq'
          repeat' (split at hq')
          all_goals first
            | (simp only [reduceCtorEq] at hq'; done)
            | (simp only [Option.some.injEq] at hq'; subst hq'; rfl)
      cases o with
      | pushBack a =>
        obtain ⟨q', k1, k2⟩ := h2.pushBack a
        exact ⟨q', k1, k2, hch q' k1⟩
      | popBack =>
        obtain ⟨q', k1, k2⟩ := h2.popBack
        exact ⟨q', k1, k2, hch q' k1⟩
      | popFront =>
        by_cases he : (after pre).1 = []
        · have e : spec (after pre) Op.popFront = after pre := by
            simp only [spec, he, List.tail_nil, if_true]
            rw [← he]
          rw [e]
          refine ⟨q, ?_, h2, h3⟩
          have := h2.nel
          simp only [step, Q.popFront]
          rw [if_pos (by rw [this, he]; rfl)]
        · obtain ⟨q', k1, k2⟩ := h2.popFront he (by
            intro h; rw [h3]; exact hs pre [] (by simp) h)
          refine ⟨q', k1, ?_, hch q' k1⟩
          simp only [spec, if_neg he]
          exact k2
  exact gen _ ops rfl hs

/-- **C17, partial**: for every chunk size and every history that does not drain the queue from the
front exactly at a multiple of the chunk size, no operation is undefined and `size`, `front` and
`back` are those of the sequence. -/
theorem C17_sequence_partial {chunk : Nat} (hc : 0 < chunk) (ops : List (Op A))
    (hs : Safe chunk ops) :
    ∃ q, run (Q.mk0 chunk) ops = some q ∧ q.nel = (after ops).1.length ∧
      ((after ops).1 ≠ [] → q.front = (after ops).1.head? ∧ q.back = (after ops).1.getLast?) := by
  obtain ⟨q, h1, h2, -⟩ := run_inv hc ops hs
  exact ⟨q, h1, h2.nel, fun hn => ⟨h2.front hn, h2.back hn⟩⟩

/-- **Finding, for every chunk size**: a history that is safe until a `pop_front` drains the queue at
a multiple of the chunk size is broken from the next `push_back` on: the queue has one element but
`front()` reads outside its chunk. -/
theorem C17_drain_counterexample {chunk : Nat} (hc : 0 < chunk) (pre : List (Op A))
    (hs : Safe chunk pre) (h1 : (after pre).1.length = 1) (hd : chunk ∣ (after pre).2 + 1) (a : A) :
    ∃ q, run (Q.mk0 chunk) (pre ++ [.popFront, .pushBack a]) = some q ∧ q.nel = 1 ∧
      q.front = none ∧ (after (pre ++ [.popFront, .pushBack a])).1 = [a] := by
  obtain ⟨q, r1, h, hch⟩ := run_inv hc pre hs
  generalize hl : (after pre).1 = l at h h1
  generalize hp : (after pre).2 = p at h hd
  have hn : l ≠ [] := by rintro rfl; simp at h1
  have hpos := List.length_pos_iff.2 hn
  have hle := head_le h hpos
  have hlt := tail_lt h
  have hg : q.data[q.head]? = some q.data[q.head] := List.getElem?_eq_getElem (by omega)
  obtain ⟨ce, k1, k2, k3, k4⟩ := h.chunks q.head (Nat.le_refl _) _ hg
  rw [if_pos rfl] at k3
  have hlo := h.lo; have hlo' := h.lo'; have hhi := h.hi; have hc := h.cpos
  have hhlo := h.hlo; have hhhi := h.hhi
  have hdl : q.data.length = q.tail + 1 := by unfold Q.tail at *; omega
  have hrd := h.rd (i := q.data[q.head].h) (x := 0) (Nat.le_refl _) hle (by omega) (by omega)
    (by omega) hpos
  rw [List.getElem?_eq_getElem hpos] at hrd
  -- the front is in the last cell of the tail chunk
  have hpe : p + 1 = q.head * q.chunk + q.chunk := by
    obtain ⟨m, hm⟩ := hd
    rw [← hch] at hm
    rw [Nat.mul_comm] at hm
    have e1 : q.head < m := by
      rcases Nat.lt_or_ge q.head m with e | e
      · exact e
      · have := Nat.mul_le_mul_right q.chunk e; omega
    have := mul_lt_le (c := q.chunk) e1
    omega
  have hte : q.tail = q.head := by
    rcases Nat.lt_or_ge q.head q.tail with e | e
    · have := mul_lt_le (c := q.chunk) e
      have := hlo' (by omega)
      omega
    · omega
  have ht := h.tl q.data[q.head] (by rw [hte]; exact hg)
  rw [hte] at ht
  have htt : q.data[q.head].t = (q.chunk : Int) - 1 := by omega
  let q1 : Q A := { q with
    data := q.data.set q.head { q.data[q.head] with h := q.data[q.head].h + 1 }
    nel := q.nel - 1 }
  have e1 : q.popFront = some q1 := by
    unfold Q.popFront
    rw [if_neg (by rw [h.nel]; omega), hg]
    simp only [hrd]
    rw [if_neg (by omega)]
  have ht1 : q1.tail = q.head := by
    simp only [q1, Q.tail, List.length_set]
    unfold Q.tail at hte; exact hte
  have hg1 : q1.data[q1.tail]? = some { q.data[q.head] with h := q.data[q.head].h + 1 } := by
    rw [ht1]
    simp only [q1, List.getElem?_set, if_true]
    rw [if_pos (by omega)]
  have hnel1 : q1.nel = 0 := by have := h.nel; simp only [q1]; omega
  have hget : (q1.data.set q1.tail { q.data[q.head] with h := q.data[q.head].h + 1, t := q.data[q.head].t + 1 } ++
      [Ck.mk 0 0 (newchunk q.chunk)])[q1.tail + 1]? =
      some { h := 0, t := 0, entry := newchunk (A := A) q.chunk } := by
    rw [List.getElem?_append_right (by simp [q1, ht1]; omega)]
    simp [q1, ht1, hdl, hte]
  let q2 : Q A := { q1 with
    data := (q1.data.set q1.tail { q.data[q.head] with h := q.data[q.head].h + 1, t := q.data[q.head].t + 1 } ++
      [Ck.mk 0 0 (newchunk q.chunk)]).set (q1.tail + 1)
      { h := 0, t := 0, entry := some ((List.replicate q.chunk none).set 0 (some a)) }
    nel := q1.nel + 1 }
  have e2 : q1.pushBack a = some q2 := by
    unfold Q.pushBack
    rw [hg1]
    simp only [htt]
    rw [if_pos rfl]
    unfold wr
    rw [htt] at hget
    rw [show q1.chunk = q.chunk from rfl, hget]
    simp only [newchunk, List.length_replicate]
    rw [if_pos (by omega)]
    simp only [q2, htt]
    rfl
  refine ⟨q2, ?_, ?_, ?_, ?_⟩
  · rw [run_append, r1]
    simp only [Option.bind_some, run, step, e1, e2]
  · simp [q2, hnel1]
  · have hg2 : q2.data[q2.head]? = some { q.data[q.head] with h := q.data[q.head].h + 1, t := q.data[q.head].t + 1 } := by
      show (List.set _ _ _)[q.head]? = _
      rw [List.getElem?_set, if_neg (by omega), List.getElem?_append_left (by simp [q1]; omega),
        List.getElem?_set, if_pos ht1, if_pos (by simp [q1, ht1]; omega)]
    rw [Q.front, if_neg (by simp [q2])]
    rw [hg2]
    simp only
    unfold rd
    rw [hg2]
    simp only [k1]
    rw [if_neg (by omega)]
  · have haft : after (pre ++ [Op.popFront, Op.pushBack a]) =
        spec (spec (after pre) .popFront) (.pushBack a) := by simp [after]
    rw [haft]
    simp only [spec, hl]
    match l, h1 with
    | [x], _ => rfl

/-- **Finding**: `at` only looks inside the first chunk, and accepts the index `size()`. -/
theorem C17_at_counterexample :
    ∃ q : Q Nat, run (Q.mk0 2) [.pushBack 1, .pushBack 2, .pushBack 3] = some q ∧ q.nel = 3 ∧
      q.at 2 = none := by
  refine ⟨_, rfl, ?_⟩; decide

/-! ## Non-vacuity -/
def demo : List (Op Nat) :=
  [.pushBack 1, .pushBack 2, .pushBack 3, .popFront, .popFront, .popBack, .pushBack 4, .pushBack 5,
   .popFront]
example : after demo = ([5], 3) := by decide
example : (run (Q.mk0 2) demo).map (fun q => (q.front, q.back, q.nel, q.head, q.tail)) =
    some (some 5, some 5, 1, 1, 1) := by decide
/-- a sufficient check of `Safe` -/
example : Safe 2 demo := by
  intro pre suf h h1
  have hlen := congrArg List.length h
  simp only [demo, List.length_cons, List.length_nil, List.length_append] at hlen
  have hp : pre = demo.take pre.length := by rw [h]; simp
  have : pre.length ≤ 8 := by omega
  have hc : ∀ n ≤ 8, (after (demo.take n)).1.length = 1 → demo[n]? = some (Op.popFront) →
      ¬ 2 ∣ (after (demo.take n)).2 + 1 := by
    intro n hn
    have : n = 0 ∨ n = 1 ∨ n = 2 ∨ n = 3 ∨ n = 4 ∨ n = 5 ∨ n = 6 ∨ n = 7 ∨ n = 8 := by omega
    rcases this with rfl | rfl | rfl | rfl | rfl | rfl | rfl | rfl | rfl <;>
      simp [demo, after, spec]
  rw [hp]
  rw [hp] at h1
  exact hc _ this h1 (by rw [h]; simp)
/-- the bad situation is reachable -/
example : ∃ q : Q Nat, run (Q.mk0 2) [.pushBack 1, .pushBack 2, .popFront, .popFront, .pushBack 3] =
    some q ∧ q.nel = 1 ∧ q.front = none := by
  refine ⟨_, rfl, ?_⟩; decide

end FF.Squeue
