import Verif.Swsr.Run
/-!
# Helper lemmas for the call-by-call model of the bounded SPSC queue
-/
namespace FF.Swsr
variable {α : Type}

/-- Position `p + i` on a ring of `n` slots (`p < n`, `i ≤ n`). -/
def wrap (n p i : Nat) : Nat := if p + i < n then p + i else p + i - n

theorem wrap_lt {n p i : Nat} (_hp : p < n) (_hi : i ≤ n) : wrap n p i < n := by
  unfold wrap; split <;> omega

theorem wrap_inj {n p i j : Nat} (_hp : p < n) (hi : i < n) (hj : j < n)
    (h : wrap n p i = wrap n p j) : i = j := by
  unfold wrap at h; split at h <;> split at h <;> omega

theorem next_wrap {n p i : Nat} (hp : p < n) (hi : i < n) :
    next n (wrap n p i) = wrap n p (i + 1) := by
  unfold next wrap; split <;> split <;> (try split) <;> omega

theorem next_lt {n p : Nat} (hp : p < n) : next n p < n := by
  unfold next; split <;> omega

theorem wrap_next {n p i : Nat} (hp : p < n) (hi : i + 1 ≤ n) :
    wrap n (next n p) i = wrap n p (i + 1) := by
  unfold next wrap; split <;> split <;> (try split) <;> omega

theorem wrap_surj {n p j : Nat} (hp : p < n) (hj : j < n) : ∃ i, i < n ∧ wrap n p i = j := by
  by_cases h : p ≤ j
  · exact ⟨j - p, by omega, by unfold wrap; split <;> omega⟩
  · exact ⟨j + n - p, by omega, by unfold wrap; split <;> omega⟩

/-- The queue `q` stores exactly `xs`. -/
structure Rep (q : Q α) (xs : List α) : Prop where
  pos : 0 < q.size
  blen : q.buf.length = q.size
  pr : q.pread < q.size
  len : xs.length ≤ q.size
  pw : q.pwrite = wrap q.size q.pread xs.length
  slot : ∀ i, i < q.size → q.buf[wrap q.size q.pread i]? = some xs[i]?

theorem Rep.pwlt {q : Q α} {xs} (h : Rep q xs) : q.pwrite < q.size := by
  rw [h.pw]; exact wrap_lt h.pr h.len

theorem wrap_full {n p : Nat} : wrap n p n = p := by unfold wrap; split <;> omega
theorem wrap_zero {n p : Nat} (hp : p < n) : wrap n p 0 = p := by unfold wrap; split <;> omega

theorem Rep.rd_pread {q : Q α} {xs} (h : Rep q xs) : q.rd q.pread = some xs.head? := by
  have := h.slot 0 h.pos
  rw [wrap_zero h.pr] at this
  simp [Q.rd, this, List.head?_eq_getElem?]

theorem Rep.rd_pwrite {q : Q α} {xs} (h : Rep q xs) :
    q.rd q.pwrite = some (if xs.length < q.size then none else xs.head?) := by
  split
  · rename_i hl
    have := h.slot xs.length hl
    rw [← h.pw] at this
    simpa [Q.rd] using this
  · have hl : xs.length = q.size := by have := h.len; omega
    have hp : q.pwrite = q.pread := by rw [h.pw, hl, wrap_full]
    rw [hp, h.rd_pread]

theorem Rep.empty_eq {q : Q α} {xs} (h : Rep q xs) : q.empty = some xs.isEmpty := by
  unfold Q.empty; rw [h.rd_pread]; cases xs <;> simp

theorem Rep.available_eq {q : Q α} {xs} (h : Rep q xs) :
    q.available = some (decide (xs.length < q.size)) := by
  unfold Q.available; rw [h.rd_pwrite]
  by_cases hl : xs.length < q.size
  · simp [hl]
  · have := h.pos
    cases xs with
    | nil => simp at hl; omega
    | cons x r => simp at hl; simp [show ¬ (r.length + 1 < q.size) by omega]

theorem Rep.push {q : Q α} {xs} (h : Rep q xs) (a : α) :
    ∃ q', q.push (some a) = some (q', decide (xs.length < q.size)) ∧
      Rep q' (if xs.length < q.size then xs ++ [a] else xs) ∧ q'.size = q.size
        ∧ q'.mbuf = q.mbuf ∧ q'.pread = q.pread := by
  unfold Q.push
  rw [h.available_eq]
  by_cases hl : xs.length < q.size
  · have hpw := h.pwlt
    refine ⟨_, by simp [hl, Q.wr, h.blen, hpw]; rfl, ?_, by simp, by simp, by simp⟩
    simp only [hl, if_true]
    constructor <;> simp
    · exact h.pos
    · exact h.blen
    · exact h.pr
    · omega
    · rw [h.pw, next_wrap h.pr hl]
    · intro i hi
      rw [List.getElem?_set, h.pw]
      by_cases hii : i = xs.length
      · subst hii; simp [h.blen]; exact wrap_lt h.pr (by omega)
      · have : wrap q.size q.pread xs.length ≠ wrap q.size q.pread i := by
          intro he; exact hii (wrap_inj h.pr hi hl he.symm)
        simp [this, h.slot i hi, List.getElem?_append]
        intro h1
        rw [List.getElem?_eq_none (by omega)]
        simp; omega
  · exact ⟨q, by simp [hl], by simpa [hl] using h, rfl, rfl, rfl⟩

theorem Rep.inc {q : Q α} {x : α} {xs} (h : Rep q (x :: xs)) :
    ∃ q', q.inc = some q' ∧ Rep q' xs ∧ q'.size = q.size ∧ q'.mbuf = q.mbuf := by
  have hpr := h.pr
  have hlen := h.len
  simp at hlen
  refine ⟨{ q with pread := next q.size q.pread, buf := q.buf.set q.pread none },
    by simp [Q.inc, Q.wr, h.blen, hpr], ?_, rfl, rfl⟩
  constructor <;> simp
  · exact h.pos
  · exact h.blen
  · exact next_lt hpr
  · omega
  · rw [wrap_next hpr hlen]; simpa using h.pw
  · intro i hi
    rw [wrap_next hpr hi, List.getElem?_set]
    by_cases hii : i + 1 = q.size
    · simp [hii, wrap_full, h.blen, hpr]
      omega
    · have h0 : q.pread ≠ wrap q.size q.pread (i + 1) := by
        intro he
        have := wrap_inj (i := 0) (j := i + 1) hpr h.pos (by omega) (by rw [wrap_zero hpr]; exact he)
        omega
      simp [h0]
      have := h.slot (i + 1) (by omega)
      simpa using this

theorem Rep.pop {q : Q α} {xs} (h : Rep q xs) :
    ∃ q', q.pop = some (q', xs.head?.map some) ∧ Rep q' xs.tail ∧ q'.size = q.size
      ∧ q'.mbuf = q.mbuf := by
  unfold Q.pop
  rw [h.empty_eq]
  cases xs with
  | nil => exact ⟨q, by simp, h, rfl, rfl⟩
  | cons x xs =>
    obtain ⟨q', h1, h2, h3, h4⟩ := h.inc
    exact ⟨q', by simp [h.rd_pread, h1], h2, h3, h4⟩

theorem Rep.length_eq {q : Q α} {xs} (h : Rep q xs) : q.length = some xs.length := by
  unfold Q.length
  have hpw := h.pw
  have hlen := h.len
  have hpr := h.pr
  unfold wrap at hpw
  rw [h.rd_pwrite]
  split
  · split at hpw <;> simp <;> omega
  · split
    · split at hpw <;> simp <;> omega
    · have : xs.length = 0 ∨ xs.length = q.size := by split at hpw <;> omega
      have := h.pos
      simp
      rcases ‹xs.length = 0 ∨ _› with h0 | h0
      · simp [h0]; omega
      · cases xs with
        | nil => simp at h0; omega
        | cons x xs => simp [h0]

theorem Rep.resetFalse {q : Q α} {xs} (h : Rep q xs) :
    ∃ q', q.reset false = some q' ∧ Rep q' ([] : List α) ∧ q'.size = q.size := by
  refine ⟨{ q with pread := 0, pwrite := 0, mbuf := [],
                    buf := List.replicate q.size none ++ q.buf.drop q.size },
    by simp [Q.reset, h.blen], ?_, rfl⟩
  constructor <;> simp
  · exact h.pos
  · rw [h.blen]; omega
  · exact h.pos
  · rw [wrap_zero h.pos]
  · intro i hi
    have := wrap_lt (p := 0) (i := i) h.pos (by omega)
    simp [List.getElem?_append, this]

theorem Rep.init {n : Nat} (hn : 0 < n) : ∃ q : Q α, Q.init n = some q ∧ Rep q [] ∧ q.size = n
    ∧ q.pwrite = 0 ∧ q.pread = 0 ∧ q.mbuf = [] := by
  refine ⟨_, by simp [Q.init, Q.reset, Nat.ne_of_gt hn]; rfl, ?_, rfl, rfl, rfl, rfl⟩
  constructor <;> simp
  · exact hn
  · exact hn
  · rw [wrap_zero hn]
  · intro i hi
    have := wrap_lt (i := i) hn (by omega)
    simp [this]

/-- One call on the model is one call on the specification. -/
theorem Rep.step {q : Q α} {xs} (h : Rep q xs) (op : Op α) :
    ∃ q', q.step op = some (q', (Spec.step q.size xs op).2) ∧
      Rep q' (Spec.step q.size xs op).1 ∧ q'.size = q.size := by
  cases op with
  | push a =>
    obtain ⟨q', h1, h2, h3, -⟩ := h.push a
    refine ⟨q', ?_, ?_, h3⟩
    · simp only [Q.step, h1, Spec.step]
      by_cases hl : xs.length < q.size <;> simp [hl]
    · simp only [Spec.step]
      by_cases hl : xs.length < q.size <;> simp [hl] at h2 ⊢ <;> exact h2
  | pop =>
    obtain ⟨q', h1, h2, h3, -⟩ := h.pop
    refine ⟨q', ?_, ?_, h3⟩
    · cases xs <;> simp [Q.step, h1, Spec.step]
    · cases xs <;> simpa [Spec.step] using h2
  | empty => exact ⟨q, by simp [Q.step, h.empty_eq, Spec.step], by simpa [Spec.step] using h, rfl⟩
  | available =>
    exact ⟨q, by simp [Q.step, h.available_eq, Spec.step], by simpa [Spec.step] using h, rfl⟩
  | top =>
    exact ⟨q, by simp [Q.step, Q.top, h.rd_pread, Spec.step], by simpa [Spec.step] using h, rfl⟩
  | length => exact ⟨q, by simp [Q.step, h.length_eq, Spec.step], by simpa [Spec.step] using h, rfl⟩
  | buffersize =>
    exact ⟨q, by simp [Q.step, Q.buffersize, Spec.step], by simpa [Spec.step] using h, rfl⟩
  | reset =>
    obtain ⟨q', h1, h2, h3⟩ := h.resetFalse
    exact ⟨q', by simp [Q.step, h1, Spec.step], by simpa [Spec.step] using h2, h3⟩

theorem Rep.run {q : Q α} {xs} (h : Rep q xs) (ops : List (Op α)) :
    q.run ops = some (Spec.run q.size xs ops) := by
  induction ops generalizing q xs with
  | nil => rfl
  | cons op ops ih =>
    obtain ⟨q', h1, h2, h3⟩ := h.step op
    have := ih h2
    rw [h3] at this
    simp [Q.run, h1, this, Spec.run]

theorem Rep.final {q : Q α} {xs} (h : Rep q xs) (ops : List (Op α)) :
    ∃ q', q.final ops = some q' ∧ Rep q' (Spec.final q.size xs ops) ∧ q'.size = q.size := by
  induction ops generalizing q xs with
  | nil => exact ⟨q, rfl, h, rfl⟩
  | cons op ops ih =>
    obtain ⟨q', h1, h2, h3⟩ := h.step op
    obtain ⟨q'', g1, g2, g3⟩ := ih h2
    rw [h3] at g2
    exact ⟨q'', by simp [Q.final, h1, g1], g2, by omega⟩

end FF.Swsr
