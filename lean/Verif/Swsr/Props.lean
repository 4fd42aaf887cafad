import Verif.Swsr.MultiLemmas
import Verif.Swsr.LamportLemmas
/-!
# C03, C04, C05, C06 (and the call-by-call half of C07): properties of the bounded SPSC queues

The specification is `Spec.step` in `Spec.lean`: a bounded first-in first-out list.
-/
namespace FF.Swsr
variable {α : Type}

/-- **C03.** For every size `n ≥ 1` and every history of calls on a freshly initialised
`SWSR_Ptr_Buffer(n)`, every call answers what a bounded FIFO of capacity `n` answers, and no call
has undefined behaviour. -/
theorem C03_bounded_fifo (n : Nat) (hn : 0 < n) (ops : List (Op α)) :
    ∃ q : Q α, Q.init n = some q ∧ q.run ops = some (Spec.run n [] ops) := by
  obtain ⟨q, h1, h2, h3, -⟩ := Rep.init (α := α) hn
  exact ⟨q, h1, by rw [h2.run ops, h3]⟩

/-- **C03**, indices: after every history both indices are inside the buffer, whose length is
still `n`, and at most `n` elements are stored. -/
theorem C03_indices_in_range (n : Nat) (hn : 0 < n) (ops : List (Op α)) :
    ∃ q q' : Q α, Q.init n = some q ∧ q.final ops = some q' ∧
      q'.pread < n ∧ q'.pwrite < n ∧ q'.buf.length = n ∧
      (Spec.final n [] ops).length ≤ n := by
  obtain ⟨q, h1, h2, h3, -⟩ := Rep.init (α := α) hn
  obtain ⟨q', g1, g2, g3⟩ := h2.final ops
  refine ⟨q, q', h1, g1, ?_, ?_, ?_, ?_⟩
  · have := g2.pr; omega
  · have := g2.pwlt; omega
  · rw [g2.blen]; omega
  · have := g2.len; rw [h3] at this; omega

/-- Size 0 is refused. -/
theorem C03_size_zero : (Q.init 0 : Option (Q α)) = none := rfl

/-- A NULL push is a failed assertion, never a silent store. -/
theorem C03_null_push (q : Q α) : q.push none = none := rfl

-- non-vacuity: a history that wraps around, fills and drains a queue of size 2
example : ∃ q : Q Nat, Q.init 2 = some q ∧
    q.run [.push 1, .push 2, .push 3, .available, .pop, .push 4, .length, .pop, .pop, .pop, .empty]
      = some [.bool true, .bool true, .bool false, .bool false, .item (some 1), .bool true, .num 2,
          .item (some 2), .item (some 4), .item none, .bool true] := ⟨_, rfl, by decide⟩

/-- `init(true)` (start at the end of the first cache line) on a queue of fewer than 8 slots puts
the indices outside the buffer: the first call has undefined behaviour. -/
theorem C03_startatlineend_counterexample :
    ∃ q : Q Nat, Q.init 4 true = some q ∧ q.push (some 1) = none := ⟨_, rfl, by decide⟩

/-- **C04 is false of the code**: on a queue of 8 slots, push one element, then `multipush` two:
the batch is accepted, but a following push lands beyond a gap and the consumer never sees it. -/
theorem C04_counterexample :
    ∃ q : Q Nat, Q.init 8 = some q ∧
      q.mrun [.op (.push 1), .multi [2, 3], .op (.push 4), .op .pop, .op .pop, .op .pop, .op .pop,
              .op .length]
        ≠ some (Spec.mrun 8 [] [.op (.push 1), .multi [2, 3], .op (.push 4), .op .pop, .op .pop,
              .op .pop, .op .pop, .op .length]) ∧
      q.mrun [.op (.push 1), .multi [2, 3], .op (.push 4), .op .pop, .op .pop, .op .pop, .op .pop,
              .op .length]
        = some [.bool true, .bool true, .bool true, .item (some 1), .item (some 2), .item (some 3),
              .item none, .num 2] := ⟨_, rfl, by decide, by decide⟩

/-- **C04, the part that holds.**  Full statement: for *every* history of calls and (non-empty)
batches, the answers are those of `Spec.mrun`.  Proved for the histories in which batches are
issued when the number of elements accepted so far is a multiple of the queue size (that is, the
write index is 0); `C04_counterexample` shows this restriction is needed. -/
theorem C04_multipush_partial (n : Nat) (hn : 0 < n) (ops : List (MOp α))
    (h : Spec.aligned n [] 0 ops) :
    ∃ q : Q α, Q.init n = some q ∧ q.mrun ops = some (Spec.mrun n [] ops) := by
  obtain ⟨q, h1, h2, h3, h4, -⟩ := Rep.init (α := α) hn
  refine ⟨q, h1, ?_⟩
  subst h3
  exact h2.mrun 0 (by simp [h4]) ops h

/-- **C04, where exactly it fails.**  After any history on a queue of `n` slots, a non-empty batch
that is shorter than `n` and fits is accepted, and its elements are stored in the right slots; but
the write index is the right one only if it was 0 before the call. -/
theorem C04_write_index_iff (n : Nat) (hn : 0 < n) (ops : List (Op α)) (as : List α)
    (hne : as ≠ []) (hlt : as.length < n)
    (hfit : (Spec.final n [] ops).length + as.length ≤ n) :
    ∃ q q1 q2 : Q α, Q.init n = some q ∧ q.final ops = some q1 ∧
      q1.multipush (as.map some) = some (q2, true) ∧
      (∀ i, i < n → q2.buf[(q1.pread + i) % n]? = some (Spec.final n [] ops ++ as)[i]?) ∧
      (q2.pwrite = (q1.pwrite + as.length) % n ↔ q1.pwrite = 0) := by
  obtain ⟨q, h1, h2, h3, -⟩ := Rep.init (α := α) hn
  obtain ⟨q1, g1, g2, g3⟩ := h2.final ops
  rw [h3] at g2 g3
  obtain ⟨q2, k1, -, k3⟩ := g2.multipush_gen as hne (by omega)
  obtain ⟨m1, m2, -, -, -⟩ := k3 (by omega)
  have hpw := g2.pwlt
  have hpr := g2.pr
  refine ⟨q, q1, q2, h1, g1, ?_, ?_, ?_⟩
  · rw [k1]; simp; omega
  · intro i hi
    have h := m1.slot i (by simp; omega)
    simp only at h
    rw [← h]
    congr 1
    have e1 : q2.size = n := by simpa [g3] using (k3 (by omega)).2.2.2.2
    have e2 : q2.pread = q1.pread := (k3 (by omega)).2.2.2.1
    rw [e1, e2]
    unfold wrap
    split
    · exact Nat.mod_eq_of_lt (by assumption)
    · rw [Nat.mod_eq_sub_mod (by omega), Nat.mod_eq_of_lt (by omega)]
  · have hal : 0 < as.length := List.length_pos_iff.mpr hne
    have hlen := g2.len
    have hmod : (q1.pwrite + as.length) % n =
        if q1.pwrite + as.length < n then q1.pwrite + as.length
        else q1.pwrite + as.length - n := by
      split
      · exact Nat.mod_eq_of_lt (by assumption)
      · rw [Nat.mod_eq_sub_mod (by omega), Nat.mod_eq_of_lt (by omega)]
    rw [m2, hmod, g3]
    unfold wrap next
    repeat' split
    all_goals omega

-- non-vacuity of `Spec.aligned`: batches at write index 0, also after wrapping around
example : Spec.aligned 4 ([] : List Nat) 0
    [.multi [1, 2, 3], .op .pop, .op (.push 4), .op .pop, .op .pop, .multi [5, 6], .op .pop] := by
  simp [Spec.aligned, Spec.mstep, Spec.step, Spec.accepted]

/-- Rejected batches change nothing, at any write position. -/
theorem C04_reject_unchanged (n : Nat) (hn : 0 < n) (ops : List (Op α)) (as : List α)
    (hne : as ≠ []) (hfit : n ≤ as.length ∨ n < (Spec.final n [] ops).length + as.length) :
    ∃ q q1 : Q α, Q.init n = some q ∧ q.final ops = some q1 ∧
      q1.multipush (as.map some) = some (q1, false) := by
  obtain ⟨q, h1, h2, h3, -⟩ := Rep.init (α := α) hn
  obtain ⟨q1, g1, g2, g3⟩ := h2.final ops
  rw [h3] at g2 g3
  refine ⟨q, q1, h1, g1, ?_⟩
  rcases Nat.lt_or_ge as.length n with hlt | hge
  · obtain ⟨q2, k1, k2, -⟩ := g2.multipush_gen as hne (by omega)
    have := k2 (by omega)
    subst this
    rw [k1]
    simp
    omega
  · unfold Q.multipush
    rw [if_pos (by simp; omega)]

/-- **C05 is false of the code** (same cause as C04): three rounds of `mpush` + `flush` on a queue
of 20 slots; all calls answer true, but the third element is never delivered. -/
theorem C05_counterexample :
    ∃ (q q1 q2 q3 q4 q5 q6 : Q Nat), Q.init 20 = some q ∧
      q.mpush (some 1) = some (q1, true) ∧ q1.flush = some (q2, true) ∧
      q2.mpush (some 2) = some (q3, true) ∧ q3.flush = some (q4, true) ∧
      q4.mpush (some 3) = some (q5, true) ∧ q5.flush = some (q6, true) ∧
      q6.run [.pop, .pop, .pop, .empty]
        = some [.item (some 1), .item (some 2), .item none, .bool true] :=
  ⟨_, _, _, _, _, _, _, rfl, rfl, rfl, rfl, rfl, rfl, rfl, by decide⟩

/-- **C05, the part that holds.**  Full statement: for every history of `mpush`, `flush` and `pop`
the elements come out in order.  Proved for a first batch: on a fresh queue of `n` slots, up to 16
(`MULTIPUSH_BUFFER_SIZE`) and fewer than `n` `mpush` calls followed by one `flush` all answer
true, and from then on the queue answers every history of calls like a bounded FIFO holding
those elements. -/
theorem C05_mpush_flush_partial (n : Nat) (as : List α) (h16 : as.length ≤ 16)
    (hn : as.length < n) (ops : List (Op α)) :
    ∃ q q1 q2 : Q α, Q.init n = some q ∧
      q.mpushAll as = some (q1, as.map fun _ => true) ∧ q1.flush = some (q2, true) ∧
      q2.run ops = some (Spec.run n as ops) := by
  obtain ⟨q, h1, h2, h3, h4, h5, h6⟩ := Rep.init (α := α) (n := n) (by omega)
  obtain ⟨q1, q2, k1, k2, k3, k4⟩ := mpush_flush_fresh h2 h4 h6 as h16 (by omega)
  exact ⟨q, q1, q2, h1, k1, k2, by rw [k3.run ops, k4, h3]⟩

example : (List.range 16).length ≤ 16 ∧ (List.range 16).length < 20 := by decide

/-- **C06** for `SWSR_Ptr_Buffer`: after any history of calls `length()` is the number of elements
pushed and not popped. -/
theorem C06_length (n : Nat) (hn : 0 < n) (ops : List (Op α)) :
    ∃ q q' : Q α, Q.init n = some q ∧ q.final ops = some q' ∧
      q'.length = some (Spec.final n [] ops).length := by
  obtain ⟨q, h1, h2, h3, -⟩ := Rep.init (α := α) hn
  obtain ⟨q', g1, g2, g3⟩ := h2.final ops
  rw [h3] at g2
  exact ⟨q, q', h1, g1, g2.length_eq⟩

/-- **C06 is false of `Lamport_Buffer`**: `pop` leaves the slot non-null, so `length()` of an empty
queue that has wrapped answers `size`. -/
theorem C06_lamport_counterexample :
    (L.init 2 : L Nat).run [.push 1, .pop, .push 2, .pop, .empty, .length]
      = some [.bool true, .item (some 1), .bool true, .item (some 2), .bool true, .num 2] := by
  decide

/-- Executing a history on the Lamport queue: outputs and final state. -/
def L.exec (q : L α) : List (Op α) → Option (L α × List (Out α))
  | [] => some (q, [])
  | op :: ops => do
    let (q', o) ← q.step op
    let (q'', os) ← q'.exec ops
    some (q'', o :: os)

/-- The histories without `top`/`buffersize` (which `Lamport_Buffer` lacks) and `length`. -/
def plainOps (ops : List (Op α)) : Prop :=
  ∀ op ∈ ops, op ≠ .top ∧ op ≠ .length ∧ op ≠ .buffersize

theorem LRep.exec {q : L α} {xs} (h : LRep q xs) (ops : List (Op α)) (hp : plainOps ops) :
    ∃ q', q.exec ops = some (q', Spec.run (q.size - 1) xs ops) ∧
      LRep q' (Spec.final (q.size - 1) xs ops) ∧ q'.size = q.size := by
  induction ops generalizing q xs with
  | nil => exact ⟨q, rfl, h, rfl⟩
  | cons op ops ih =>
    have h0 := hp op (by simp)
    obtain ⟨q', h1, h2, h3⟩ := h.step op (Or.inl (by cases op <;> simp_all [Lop]))
    obtain ⟨q'', g1, g2, g3⟩ := ih h2 (fun o ho => hp o (by simp [ho]))
    rw [h3] at g1 g2
    exact ⟨q'', by simp [L.exec, h1, g1, Spec.run], g2, by omega⟩

/-- **C07, call by call**: `Lamport_Buffer(n)` answers every history of `push`, `pop`, `empty`,
`available` and `reset` calls like a bounded FIFO of capacity `n - 1`; and `length()` is exact
whenever the queue is not empty. -/
theorem C07_lamport_call_by_call (n : Nat) (hn : 0 < n) (ops : List (Op α)) (hp : plainOps ops) :
    ∃ q', (L.init n : L α).exec ops = some (q', Spec.run (n - 1) [] ops) ∧
      (Spec.final (n - 1) [] ops ≠ [] →
        q'.length = some (Spec.final (n - 1) [] ops).length) := by
  obtain ⟨q', h1, h2, h3⟩ := (LRep.init (α := α) hn).exec ops hp
  exact ⟨q', h1, fun hne => h2.length_eq hne⟩

example : plainOps [Op.push 1, .push 2, .pop, .available, .reset] := by
  simp [plainOps]

end FF.Swsr
