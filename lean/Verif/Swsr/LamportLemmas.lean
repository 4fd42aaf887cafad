import Verif.Swsr.Lemmas
/-!
# Helper lemmas for the call-by-call model of `Lamport_Buffer`
-/
namespace FF.Swsr
variable {α : Type}

structure LRep (q : L α) (xs : List α) : Prop where
  pos : 0 < q.size
  blen : q.buf.length = q.size
  pr : q.pread < q.size
  len : xs.length < q.size
  pw : q.pwrite = wrap q.size q.pread xs.length
  slot : ∀ i, i < xs.length → q.buf[wrap q.size q.pread i]? = some xs[i]?

theorem LRep.init {n : Nat} (hn : 0 < n) : LRep (L.init n : L α) [] := by
  constructor <;> simp [L.init]
  · exact hn
  · exact hn
  · exact hn
  · rw [wrap_zero hn]

theorem LRep.empty_eq {q : L α} {xs} (h : LRep q xs) : q.empty = xs.isEmpty := by
  have hpw := h.pw
  have hlen := h.len
  have hpr := h.pr
  unfold L.empty
  cases xs with
  | nil => simp [wrap_zero hpr] at hpw ⊢; exact hpw
  | cons x xs =>
    simp at hpw hlen ⊢
    rw [hpw]; unfold wrap; split <;> omega

theorem LRep.available_eq {q : L α} {xs} (h : LRep q xs) :
    q.available = decide (xs.length < q.size - 1) := by
  have hpw := h.pw
  have hlen := h.len
  have hpr := h.pr
  unfold L.available
  rw [hpw, next_wrap hpr hlen]
  by_cases hl : xs.length < q.size - 1
  · simp [hl]; unfold wrap; split <;> omega
  · simp [hl]; unfold wrap; split <;> omega

theorem LRep.push {q : L α} {xs} (h : LRep q xs) (a : α) :
    ∃ q', q.push (some a) = some (q', decide (xs.length < q.size - 1)) ∧
      LRep q' (if xs.length < q.size - 1 then xs ++ [a] else xs) ∧ q'.size = q.size := by
  have hav := h.available_eq
  unfold L.available at hav
  unfold L.push
  by_cases hl : xs.length < q.size - 1
  · have hpw : q.pwrite < q.size := by rw [h.pw]; exact wrap_lt h.pr (by omega)
    simp [hl] at hav
    refine ⟨{ q with buf := q.buf.set q.pwrite (some a), pwrite := next q.size q.pwrite },
      by simp [hav, L.wr, h.blen, hpw, hl], ?_, rfl⟩
    simp only [hl, if_true]
    constructor <;> simp
    · exact h.pos
    · exact h.blen
    · exact h.pr
    · omega
    · rw [h.pw, next_wrap h.pr (by omega)]
    · intro i hi
      rw [List.getElem?_set, h.pw]
      by_cases hii : i = xs.length
      · subst hii; simp [h.blen]; exact wrap_lt h.pr (by omega)
      · have : wrap q.size q.pread xs.length ≠ wrap q.size q.pread i := by
          intro he; exact hii (wrap_inj h.pr (by omega) (by omega) he.symm)
        simp [this, h.slot i (by omega), List.getElem?_append]
        omega
  · simp [hl] at hav
    exact ⟨q, by simp [hl, hav], by simpa [hl] using h, rfl⟩

theorem LRep.pop {q : L α} {xs} (h : LRep q xs) :
    ∃ q', q.pop = some (q', xs.head?.map some) ∧ LRep q' xs.tail ∧ q'.size = q.size := by
  unfold L.pop
  rw [h.empty_eq]
  cases xs with
  | nil => exact ⟨q, by simp, h, rfl⟩
  | cons x xs =>
    have hpr := h.pr
    have hlen := h.len
    simp at hlen
    have h0 := h.slot 0 (by simp)
    rw [wrap_zero hpr] at h0
    refine ⟨{ q with pread := next q.size q.pread }, by simp [L.rd, h0], ?_, rfl⟩
    constructor <;> simp
    · exact h.pos
    · exact h.blen
    · exact next_lt hpr
    · omega
    · rw [wrap_next hpr (by omega)]; simpa using h.pw
    · intro i hi
      rw [wrap_next hpr (by omega)]
      simpa using h.slot (i + 1) (by simpa using hi)

theorem LRep.reset {q : L α} {xs} (h : LRep q xs) : LRep q.reset ([] : List α) := by
  constructor <;> simp [L.reset]
  · exact h.pos
  · exact h.pos
  · exact h.pos
  · rw [wrap_zero h.pos]

theorem LRep.length_eq {q : L α} {xs} (h : LRep q xs) (hne : xs ≠ []) :
    q.length = some xs.length := by
  have hpw := h.pw
  have hlen := h.len
  have hpr := h.pr
  have : 0 < xs.length := List.length_pos_iff.mpr hne
  unfold wrap at hpw
  unfold L.length
  split
  · split at hpw <;> simp <;> omega
  · split
    · split at hpw <;> simp <;> omega
    · split at hpw <;> omega

/-- calls other than `top` (absent) and `length` (wrong on empty queues, see Props) -/
def Lop : Op α → Bool
  | .top => false
  | .length => false
  | .buffersize => false
  | _ => true

theorem LRep.step {q : L α} {xs} (h : LRep q xs) (op : Op α)
    (hop : Lop op = true ∨ (op = .length ∧ xs ≠ [])) :
    ∃ q', q.step op = some (q', (Spec.step (q.size - 1) xs op).2) ∧
      LRep q' (Spec.step (q.size - 1) xs op).1 ∧ q'.size = q.size := by
  cases op with
  | push a =>
    obtain ⟨q', h1, h2, h3⟩ := h.push a
    refine ⟨q', ?_, ?_, h3⟩
    · simp only [L.step, h1, Spec.step]
      by_cases hl : xs.length < q.size - 1 <;> simp [hl]
    · simp only [Spec.step]
      by_cases hl : xs.length < q.size - 1 <;> simp [hl] at h2 ⊢ <;> exact h2
  | pop =>
    obtain ⟨q', h1, h2, h3⟩ := h.pop
    refine ⟨q', ?_, ?_, h3⟩
    · cases xs <;> simp [L.step, h1, Spec.step]
    · cases xs <;> simpa [Spec.step] using h2
  | empty => exact ⟨q, by simp [L.step, h.empty_eq, Spec.step], by simpa [Spec.step] using h, rfl⟩
  | available =>
    exact ⟨q, by simp [L.step, h.available_eq, Spec.step], by simpa [Spec.step] using h, rfl⟩
  | top => simp [Lop] at hop
  | length =>
    rcases hop with hop | ⟨-, hop⟩
    · simp [Lop] at hop
    · exact ⟨q, by simp [L.step, h.length_eq hop, Spec.step], by simpa [Spec.step] using h, rfl⟩
  | buffersize => simp [Lop] at hop
  | reset => exact ⟨q.reset, by simp [L.step, Spec.step], by simpa [Spec.step] using h.reset, rfl⟩

end FF.Swsr
