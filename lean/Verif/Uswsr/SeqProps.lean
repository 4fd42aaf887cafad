import Verif.Uswsr.Seq
/-!
# C06/C08/C10 call by call: the unbounded queue is a FIFO queue and `length()` counts its elements
-/
namespace FF.Uswsr.Seq
open FF.Swsr (Q next Rep)
variable {A : Type}

inductive Op (A : Type) where
  | push (a : A)
  | pop
  | length

inductive Out (A : Type) where
  | pushed (ok : Bool)
  | popped (v : Option (Option A))
  | len (n : Int)
deriving DecidableEq, Repr

/-- The specification: a FIFO list, bounded by `bound` if there is one. -/
def spec (bound : Option Nat) (xs : List A) : Op A → List A × Out A
  | .push a =>
    match bound with
    | none => (xs ++ [a], .pushed true)
    | some n => if xs.length < n then (xs ++ [a], .pushed true) else (xs, .pushed false)
  | .pop => (xs.tail, .popped (xs.head?.map some))
  | .length => (xs, .len xs.length)

def specRun (bound : Option Nat) : List A → List (Op A) → List (Out A)
  | _, [] => []
  | xs, o :: os => (spec bound xs o).2 :: specRun bound (spec bound xs o).1 os

/-- One call of the model. -/
def U.call (u : U A) : Op A → Option (U A × Out A)
  | .push a => (u.push a).map fun r => (r.1, .pushed r.2)
  | .pop => u.pop.map fun r => (r.1, .popped r.2)
  | .length => u.length.map fun n => (u, .len n)

def U.run : U A → List (Op A) → Option (List (Out A))
  | _, [] => some []
  | u, o :: os => do
    let (u', out) ← u.call o
    let outs ← u'.run os
    some (out :: outs)

/-- full segments -/
def RepL (size : Nat) : List (Q A) → List (List A) → Prop
  | [], [] => True
  | q :: qs, x :: xs => Rep q x ∧ q.size = size ∧ x.length = size ∧ RepL size qs xs
  | _, _ => False

theorem RepL.snoc {size : Nat} {qs : List (Q A)} {xs : List (List A)} (h : RepL size qs xs)
    {q : Q A} {x : List A} (h1 : Rep q x) (h2 : q.size = size) (h3 : x.length = size) :
    RepL size (qs ++ [q]) (xs ++ [x]) := by
  induction qs generalizing xs with
  | nil => cases xs with
    | nil => exact ⟨h1, h2, h3, trivial⟩
    | cons => simp [RepL] at h
  | cons p ps ih => cases xs with
    | nil => simp [RepL] at h
    | cons y ys =>
      obtain ⟨a, b, c, d⟩ := h
      exact ⟨a, b, c, ih d⟩

theorem RepL.len {size : Nat} {qs : List (Q A)} {xs : List (List A)} (h : RepL size qs xs) :
    xs.flatten.length = qs.length * size := by
  induction qs generalizing xs with
  | nil => cases xs with
    | nil => simp
    | cons => simp [RepL] at h
  | cons p ps ih => cases xs with
    | nil => simp [RepL] at h
    | cons y ys =>
      obtain ⟨a, b, c, d⟩ := h
      have := ih d
      simp only [List.flatten_cons, List.length_append, List.length_cons, Nat.add_mul, this]
      omega

def URep (u : U A) (xs : List A) : Prop :=
  0 < u.size ∧
  ((∃ q, u.segs = [q] ∧ Rep q xs ∧ q.size = u.size ∧ u.inUse = 1) ∨
   (u.fixed = false ∧ ∃ r x0 ms xms w xw, u.segs = r :: (ms ++ [w]) ∧ xs = x0 ++ xms.flatten ++ xw ∧
      Rep r x0 ∧ r.size = u.size ∧ RepL u.size ms xms ∧ Rep w xw ∧ w.size = u.size ∧ xw ≠ [] ∧
      u.inUse = ms.length + 2))

/-- the bound of the specification -/
def bound (u : U A) : Option Nat := if u.fixed then some u.size else none

theorem URep.call {u : U A} {xs : List A} (h : URep u xs) (o : Op A) :
    ∃ u', u.call o = some (u', (spec (bound u) xs o).2) ∧ URep u' (spec (bound u) xs o).1 ∧
      u'.fixed = u.fixed ∧ u'.size = u.size := by
  obtain ⟨size, fixed, segs, inUse⟩ := u
  obtain ⟨hpos, h⟩ := h
  simp only at hpos h
  cases o with
  | push a =>
    rcases h with ⟨q, rfl, h1, h2, rfl⟩ | ⟨rfl, r, x0, ms, xms, w, xw, rfl, rfl, h1, h2, h3, h4, h5, h6, rfl⟩
    · by_cases hl : xs.length < size
      · obtain ⟨q', p1, p2, p3, -⟩ := h1.push a
        have hl' : xs.length < q.size := by omega
        refine ⟨{ size, fixed, segs := [q'], inUse := 1 }, ?_, ?_, rfl, rfl⟩
        · simp only [U.call, U.push, List.getLast?_singleton, h1.available_eq, p1, hl', spec, bound]
          cases fixed <;> simp [hl]
        · refine ⟨hpos, Or.inl ⟨q', rfl, ?_, by simp only; omega, rfl⟩⟩
          simp only [hl', if_true] at p2
          cases fixed <;> simpa [spec, bound, hl] using p2
      · have hl' : ¬ xs.length < q.size := by omega
        cases fixed with
        | true =>
          refine ⟨_, by
            simp [U.call, U.push, h1.available_eq, hl', spec, bound, hl], ?_, rfl, rfl⟩
          simp only [spec, bound, hl, if_true, if_false]
          exact ⟨hpos, Or.inl ⟨q, rfl, h1, h2, rfl⟩⟩
        | false =>
          obtain ⟨q0, i1, i2, i3, -⟩ := Rep.init (α := A) hpos
          obtain ⟨q', p1, p2, p3, -⟩ := i2.push a
          refine ⟨{ size, fixed := false, segs := [q, q'], inUse := 2 }, ?_, ?_, rfl, rfl⟩
          · simp [U.call, U.push, h1.available_eq, hl', i1, p1, spec, bound]
          · have hs : ([] : List A).length < q0.size := by simp; omega
            simp only [hs, if_true, List.nil_append] at p2
            refine ⟨hpos, Or.inr ⟨rfl, q, xs, [], [], q', [a], rfl, ?_, h1, h2, trivial, p2, ?_, ?_, ?_⟩⟩
            · simp [spec, bound]
            · simp only; omega
            · simp
            · simp
    · have hgl : (r :: (ms ++ [w])).getLast? = some w := by
        rw [← List.cons_append, List.getLast?_concat]
      have hdl : (r :: (ms ++ [w])).dropLast = r :: ms := by
        rw [← List.cons_append, List.dropLast_concat]
      by_cases hl : xw.length < w.size
      · obtain ⟨w', p1, p2, p3, -⟩ := h4.push a
        simp only [hl, if_true] at p2
        refine ⟨{ size, fixed := false, segs := r :: (ms ++ [w']), inUse := ms.length + 2 }, ?_, ?_,
          rfl, rfl⟩
        · simp [U.call, U.push, hgl, hdl, h4.available_eq, hl, p1, spec, bound]
        · refine ⟨hpos, Or.inr ⟨rfl, r, x0, ms, xms, w', xw ++ [a], rfl, ?_, h1, h2, h3, p2, ?_, ?_, rfl⟩⟩
          · simp [spec, bound]
          · simp only; omega
          · simp
      · obtain ⟨q0, i1, i2, i3, -⟩ := Rep.init (α := A) hpos
        obtain ⟨q', p1, p2, p3, -⟩ := i2.push a
        have hs : ([] : List A).length < q0.size := by simp; omega
        simp only [hs, if_true, List.nil_append] at p2
        have hwl : xw.length = size := by have := h4.len; omega
        refine ⟨{ size, fixed := false, segs := r :: ((ms ++ [w]) ++ [q']), inUse := ms.length + 3 },
          ?_, ?_, rfl, rfl⟩
        · simp [U.call, U.push, hgl, h4.available_eq, hl, i1, p1, spec, bound]
          omega
        · refine ⟨hpos, Or.inr ⟨rfl, r, x0, ms ++ [w], xms ++ [xw], q', [a], rfl, ?_, h1, h2,
            h3.snoc h4 h5 hwl, p2, ?_, ?_, ?_⟩⟩
          · simp [spec, bound]
          · simp only; omega
          · simp
          · simp; omega
  | pop =>
    rcases h with ⟨q, rfl, h1, h2, rfl⟩ | ⟨rfl, r, x0, ms, xms, w, xw, rfl, rfl, h1, h2, h3, h4, h5, h6, rfl⟩
    · obtain ⟨q', p1, p2, p3, -⟩ := h1.pop
      cases xs with
      | nil =>
        refine ⟨_, by simp [U.call, U.pop, h1.empty_eq, spec], ?_, rfl, rfl⟩
        exact ⟨hpos, Or.inl ⟨q, rfl, h1, h2, rfl⟩⟩
      | cons x xs =>
        refine ⟨{ size, fixed, segs := [q'], inUse := 1 }, ?_, ?_, rfl, rfl⟩
        · simp [U.call, U.pop, h1.empty_eq, p1, spec]
        · exact ⟨hpos, Or.inl ⟨q', rfl, p2, by simp only; omega, rfl⟩⟩
    · cases x0 with
      | cons x x0 =>
        obtain ⟨r', p1, p2, p3, -⟩ := h1.pop
        refine ⟨{ size, fixed := false, segs := r' :: (ms ++ [w]), inUse := ms.length + 2 }, ?_, ?_,
          rfl, rfl⟩
        · simp [U.call, U.pop, h1.empty_eq, p1, spec]
        · refine ⟨hpos, Or.inr ⟨rfl, r', x0, ms, xms, w, xw, rfl, ?_, p2, ?_, h3, h4, h5, h6, rfl⟩⟩
          · simp [spec]
          · simp only; omega
      | nil =>
        cases ms with
        | nil =>
          cases xms with
          | cons => simp [RepL] at h3
          | nil =>
            obtain ⟨w', p1, p2, p3, -⟩ := h4.pop
            refine ⟨{ size, fixed := false, segs := [w'], inUse := 1 }, ?_, ?_, rfl, rfl⟩
            · simp [U.call, U.pop, h1.empty_eq, p1, spec]
            · refine ⟨hpos, Or.inl ⟨w', rfl, ?_, by simp only; omega, rfl⟩⟩
              simpa [spec] using p2
        | cons t ms =>
          cases xms with
          | nil => simp [RepL] at h3
          | cons xt xms =>
            obtain ⟨t1, t2, t3, t4⟩ := h3
            obtain ⟨t', p1, p2, p3, -⟩ := t1.pop
            cases xt with
            | nil => simp at t3; omega
            | cons x xt =>
              refine ⟨{ size, fixed := false, segs := t' :: (ms ++ [w]), inUse := ms.length + 2 },
                ?_, ?_, rfl, rfl⟩
              · simp [U.call, U.pop, h1.empty_eq, p1, spec]; omega
              · refine ⟨hpos, Or.inr ⟨rfl, t', xt, ms, xms, w, xw, rfl, ?_, p2, ?_, t4, h4, h5, h6, rfl⟩⟩
                · simp [spec]
                · simp only; omega
  | length =>
    have hU : URep { size, fixed, segs, inUse } xs := ⟨hpos, h⟩
    refine ⟨_, ?_, hU, rfl, rfl⟩
    rcases h with ⟨q, rfl, h1, h2, rfl⟩ | ⟨rfl, r, x0, ms, xms, w, xw, rfl, rfl, h1, h2, h3, h4, h5, h6, rfl⟩
    · simp [U.call, U.length, h1.length_eq, spec]
    · have hgl : (r :: (ms ++ [w])).getLast? = some w := by
        rw [← List.cons_append, List.getLast?_concat]
      have hl := h3.len
      have e : U.length { size, fixed := false, segs := r :: (ms ++ [w]), inUse := ms.length + 2 } =
          some (x0.length + (if (ms.length : Int) + 2 - 2 > 0 then (ms.length : Int) + 2 - 2 else 0) * size
            + xw.length : Int) := by
        cases ms with
        | nil => simp [U.length, h1.length_eq, h4.length_eq]
        | cons t ms =>
          have : (t :: (ms ++ [w])).getLast? = some w := by
            rw [← List.cons_append, List.getLast?_concat]
          simp [U.length, h1.length_eq, h4.length_eq, this]
      simp only [U.call, e, spec, Option.map_some, Option.some.injEq, Prod.mk.injEq, true_and,
        Out.len.injEq, List.length_append]
      rw [hl]
      cases ms with
      | nil => simp
      | cons t ms =>
        rw [if_pos (by simp)]
        simp

theorem URep.init {n : Nat} (hn : 0 < n) (fixed : Bool) :
    ∃ u : U A, U.init n fixed = some u ∧ URep u [] ∧ bound u = if fixed then some n else none := by
  obtain ⟨q0, i1, i2, i3, -⟩ := Rep.init (α := A) hn
  exact ⟨_, by simp [U.init, i1]; rfl, ⟨hn, Or.inl ⟨q0, rfl, i2, i3, rfl⟩⟩, by simp [bound]⟩

theorem URep.run {u : U A} {xs : List A} (h : URep u xs) (os : List (Op A)) :
    u.run os = some (specRun (bound u) xs os) := by
  induction os generalizing u xs with
  | nil => rfl
  | cons o os ih =>
    obtain ⟨u', h1, h2, h3, h4⟩ := h.call o
    have := ih h2
    have hb : bound u' = bound u := by simp [bound, h3, h4]
    simp [U.run, h1, this, specRun, hb]

/-- **C06/C08/C10, call by call**: for every segment size `n > 0` and every sequence of calls to
`push`, `pop` and `length` on a fresh queue, all answers are those of a FIFO list (bounded by `n`
if the queue is fixed-size); `length()` is exactly the number of stored elements, and no call reads
or writes outside a segment. -/
theorem C06_unbounded_length {n : Nat} (hn : 0 < n) (fixed : Bool) (os : List (Op A)) :
    ∃ u : U A, U.init n fixed = some u ∧
      u.run os = some (specRun (if fixed then some n else none) [] os) := by
  obtain ⟨u, h1, h2, h3⟩ := URep.init (A := A) hn fixed
  exact ⟨u, h1, h3 ▸ h2.run os⟩

/-- non-vacuity: segments of 2 slots, 5 elements, length with a full middle segment -/
example : ((U.init 2 false).bind fun u => u.run
    [.push 1, .push 2, .push 3, .push 4, .push 5, .pop, .length]) =
    some [.pushed true, .pushed true, .pushed true, .pushed true, .pushed true,
      .popped (some (some 1)), .len 4] := by decide

/-- C06 is false after `reset()`: `in_use_buffers` keeps its old value, so with segments of one slot,
after pushing 3 elements, resetting, and pushing 2 elements, `length()` answers 4. -/
theorem C06_reset_counterexample :
    ((U.init 1 false).bind fun u => do
      let (u, _) ← u.push 1
      let (u, _) ← u.push 2
      let (u, _) ← u.push 3
      let u ← u.reset
      let (u, _) ← u.push 4
      let (u, _) ← u.push 5
      u.length) = some 4 := by decide

/-- What remains true after `reset()`: the queue is empty again, and if it had one segment the
next calls behave as on a fresh queue. -/
theorem C06_reset_partial {u : U A} {xs : List A} (h : URep u xs) (h1 : u.segs.length = 1)
    (os : List (Op A)) :
    ∃ u', u.reset = some u' ∧ u'.run os = some (specRun (bound u) [] os) := by
  obtain ⟨hpos, h⟩ := h
  rcases h with ⟨q, hs, h2, h3, h4⟩ | ⟨-, r, x0, ms, xms, w, xw, hs, -⟩
  · obtain ⟨q', r1, r2, r3⟩ := h2.resetFalse
    refine ⟨{ u with segs := [q'] }, by simp [U.reset, hs, r1], ?_⟩
    exact URep.run (u := { u with segs := [q'] }) (xs := [])
      ⟨hpos, Or.inl ⟨q', rfl, r2, by simp only; omega, h4⟩⟩ os
  · rw [hs] at h1; simp at h1

end FF.Uswsr.Seq
