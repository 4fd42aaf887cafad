import Verif.Parfor.Range
/-!
# The partition of the iteration space among the workers (C29-C32)

Models `forall_Scheduler::init_data` (ff/parallel_for_internals.hpp 469-507), `init_data_static`
(509-555) and `setloop` (813-826).

Simplifications: the integers are unbounded (`long` and `ssize_t` in the code), and the quotients that
the code computes in `double` (471-472, 517, 538-539) are exact; both agree with the code as long as no
intermediate value exceeds `2^53` in magnitude.  A failed assertion is `none`.
-/
namespace FF.Parfor
open FF.Farm (sumN)
open FF.Node (upd)

/-- `dataPair` (432-445): number of tasks, start and end of the range of one worker. -/
structure Range where
  ntask : Int
  start : Int
  stop : Int
  deriving DecidableEq, Repr

/-- `std::lrint(std::ceil(a/(double)b))` -/
def ceilDiv (a b : Int) : Int := (a + b - 1) / b

/-- 486: the number of tasks of worker `i` -/
def share (ntxw r i : Nat) : Nat := ntxw + if 1 < r ∧ i < r then 1 else 0

/-- The loop 485-492 of `init_data`, after `i` iterations: the table, `start` and `totalnumtasks`. -/
def fill (old : Nat → Range) (first last step chunk : Int) (T ntxw r : Nat) :
    Nat → (Nat → Range) × Int × Int
  | 0 => (old, first, T)
  | i + 1 =>
    let (d, s, total) := fill old first last step chunk T ntxw r i
    if 0 < total then
      let t : Int := share ntxw r i
      let e := s + (t * chunk - 1) * step + 1
      let stop := if e < last then e else last
      (upd d i ⟨t, s, stop⟩, stop - 1 + step, total - t)
    else (d, s, total)

/-- What the loop is run with: the task table, the number of tasks, the grain and the number of workers
to be started. -/
structure Loop where
  d : Nat → Range
  tt : Int
  chunk : Int
  nw : Nat
  static : Bool

/-- `init_data`, 469-507; `old` is the table of the previous loop. -/
def initData (old : Nat → Range) (first last step chunk : Int) (nw : Nat) :
    Option ((Nat → Range) × Int × Int) :=
  let T := ceilDiv (ceilDiv (last - first) step) chunk
  if T < 0 then none
  else
    let Tn := T.toNat
    let q := Tn / nw
    let r0 := Tn % nw
    let ntxw := if q = 0 ∧ 1 ≤ r0 then 1 else q
    let r := if q = 0 ∧ 1 ≤ r0 then 0 else r0
    let (d, _, lo) := fill old first last step chunk Tn ntxw r nw
    if lo = 0 then some (d, T, chunk)
    else if lo = 1 then
      let l := d (nw - 1)
      if 1 < ntxw then some (upd d (nw - 1) ⟨l.ntask + 1, l.start, last⟩, T, chunk)
      else some (upd d (nw - 1) ⟨l.ntask, l.start, last⟩, T - 1, chunk * 2)
    else none

/-- 822-826: at least one task is required, and no more workers than tasks are started -/
def finish (static : Bool) (nw : Nat) (x : (Nat → Range) × Int × Int) : Option Loop :=
  if x.2.1 < 1 then none
  else some ⟨x.1, x.2.1, x.2.2, if x.2.1 ≤ nw then x.2.1.toNat else nw, static⟩

/-- `setloop` with a positive grain: dynamic scheduling -/
def setloopDyn (old : Nat → Range) (first last step chunk : Int) (nw : Nat) : Option Loop :=
  (initData old first last step chunk nw).bind (finish false nw)

/-- What the workers rely on. -/
structure Good (first last step : Int) (D : Nat) (L : Loop) : Prop where
  cover : ∀ x, sumN (fun i => on (L.d i).start (L.d i).stop step x) L.nw = on first last step x
  cap : ∀ i, i < L.nw → (L.d i).stop ≤ (L.d i).start ∨
    (L.d i).stop ≤ (L.d i).start + (L.d i).ntask * (L.chunk * step)
  tight : L.static = false → ∀ i, i < L.nw → (L.d i).ntask ≤ 0 ∨
    (L.d i).start + ((L.d i).ntask - 1) * (L.chunk * step) < (L.d i).stop
  pos : ∀ i, i < L.nw → 1 ≤ (L.d i).ntask
  rest : ∀ i, L.nw ≤ i → (L.d i).ntask ≤ 0
  tot : L.tt = (sumN (fun i => (L.d i).ntask.toNat) L.nw : Nat)
  chunk : 1 ≤ L.chunk
  nw1 : 1 ≤ L.nw
  nwD : L.nw ≤ D

/-- the loop invariant of `fill`; `m` workers have got a range -/
structure FillInv (old : Nat → Range) (first last step chunk : Int) (T ntxw r : Nat) (i m : Nat)
    (d : Nat → Range) (s total : Int) : Prop where
  mi : m ≤ i
  live : 0 < total → m = i
  nonneg : 0 ≤ total
  old : ∀ j, m ≤ j → d j = old j
  nt : ∀ j, j < m → (d j).ntask = share ntxw r j
  tot : total = (T : Int) - (sumN (share ntxw r) m : Nat)
  cover : ∀ x, sumN (fun j => on (d j).start (d j).stop step x) m + on s last step x = on first last step x
  cap : last ≤ s + total * (chunk * step) ∨ last ≤ s
  tight : total ≤ 0 ∨ s + (total - 1) * (chunk * step) < last
  caps : ∀ j, j < m → (d j).stop ≤ (d j).start + (d j).ntask * (chunk * step)
  tights : ∀ j, j < m → (d j).start + ((d j).ntask - 1) * (chunk * step) < (d j).stop
  le : ∀ j, j < m → (d j).stop ≤ last
  lcover : 1 ≤ m → ∀ x, on (d (m - 1)).start last step x =
    on (d (m - 1)).start (d (m - 1)).stop step x + on s last step x
  lcap : 1 ≤ m → last ≤ (d (m - 1)).start + ((d (m - 1)).ntask + total) * (chunk * step)
  ltight : 1 ≤ m → (d (m - 1)).start + ((d (m - 1)).ntask + total - 1) * (chunk * step) < last

theorem fill_inv {old : Nat → Range} {first last step chunk : Int} {T ntxw r nw : Nat}
    (hs : 1 ≤ step) (hk : 1 ≤ chunk) (hnt : 1 ≤ ntxw)
    (h1 : last ≤ first + T * (chunk * step)) (h2 : T = 0 ∨ first + ((T : Int) - 1) * (chunk * step) < last)
    (ht : ∀ i, i < nw → share ntxw r i = 1 ∨ sumN (share ntxw r) (i + 1) ≤ T) (i : Nat) (hi : i ≤ nw) :
    ∃ m, FillInv old first last step chunk T ntxw r i m
      (fill old first last step chunk T ntxw r i).1
      (fill old first last step chunk T ntxw r i).2.1
      (fill old first last step chunk T ntxw r i).2.2 := by
  induction i with
  | zero =>
    refine ⟨0, ⟨by omega, by simp, by simp [fill], by simp [fill], by simp, by simp [fill, sumN], by simp [fill, sumN],
      Or.inl h1, ?_, by simp, by simp, by simp, by simp, by simp, by simp⟩⟩
    rcases h2 with h2 | h2
    · left; simp [fill, h2]
    · right; exact h2
  | succ i ih =>
    obtain ⟨m, H⟩ := ih (by omega)
    simp only [fill]
    generalize hF : fill old first last step chunk T ntxw r i = F at H ⊢
    obtain ⟨d, s, total⟩ := F
    simp only at H ⊢
    by_cases hpos : 0 < total
    · rw [if_pos hpos]
      simp only
      have hm := H.live hpos
      subst hm
      have ht1 : 1 ≤ share ntxw r m := by unfold share; omega
      have htt : (share ntxw r m : Int) ≤ total := by
        rcases ht m (by omega) with h | h
        · rw [h]; omega
        · have := H.tot; simp only [sumN] at h; push_cast at *; omega
      generalize hth : (share ntxw r m : Int) = t at *
      have ht1 : 1 ≤ t := by omega
      obtain ⟨cs, hcs⟩ : ∃ cs, cs = chunk * step := ⟨_, rfl⟩
      have hks : step ≤ cs := by rw [hcs]; nlinarith
      have e1 : (t * chunk - 1) * step = t * cs - step := by rw [hcs]; ring
      have htc : 1 ≤ t * chunk := by nlinarith
      have htcs : cs ≤ t * cs := by nlinarith
      obtain ⟨e, he⟩ : ∃ e, e = s + (t * chunk - 1) * step + 1 := ⟨_, rfl⟩
      rw [← he]
      have hstop : (if e < last then e else last) = min (s + ((t * chunk - 1) * step + 1)) last := by
        rw [min_def']; split <;> split <;> omega
      generalize hst : (if e < last then e else last) = stop at hstop ⊢
      have hle : stop ≤ e ∧ stop ≤ last ∧ (stop = e ∨ (stop = last ∧ last ≤ e)) := by
        rw [← hst]; split <;> omega
      have htot : total * cs = t * cs + (total - t) * cs := by ring
      have htot1 : (total - 1) * cs = total * cs - cs := by ring
      have htot2 : (total - t - 1) * cs = (total - t) * cs - cs := by ring
      have ht2 : (t - 1) * cs = t * cs - cs := by ring
      have hmono : 0 ≤ (total - t) * cs := by apply mul_nonneg <;> omega
      have htight : s + (total - 1) * cs < last := by
        rcases H.tight with h | h
        · omega
        · rw [hcs]; exact h
      have hcap : last ≤ s + total * cs := by
        rcases H.cap with h | h
        · rw [hcs]; exact h
        · have : 0 ≤ total * cs := by apply mul_nonneg <;> omega
          omega
      have he' : e = s + t * cs - step + 1 := by rw [he, e1]; omega
      refine ⟨m + 1, ⟨by omega, fun _ => rfl, by omega, ?_, ?_, ?_, ?_, ?_, ?_, ?_, ?_, ?_, ?_, ?_, ?_⟩⟩
      · intro j hj; rw [upd, if_neg (by omega)]; exact H.old j (by omega)
      · intro j hj
        by_cases hjm : j = m
        · subst hjm; rw [upd, if_pos rfl]; exact hth.symm
        · rw [upd, if_neg hjm]; exact H.nt j (by omega)
      · have := H.tot; simp only [sumN]; push_cast; rw [hth]; omega
      · intro x
        have hc := H.cover x
        simp only [sumN]
        rw [Farm.sumN_congr (g := fun j => on (d j).start (d j).stop step x)
          (fun j hj => by rw [upd, if_neg (by omega)])]
        simp only [upd, if_true]
        have := on_take (x := x) hs htc hstop
        omega
      · rcases hle.2.2 with h | ⟨h, _⟩
        · left; rw [← hcs]; omega
        · right; omega
      · by_cases hz : total - t ≤ 0
        · left; exact hz
        · right
          have : cs ≤ (total - t) * cs := by nlinarith
          rw [← hcs]
          rcases hle.2.2 with h | ⟨h, h'⟩ <;> omega
      · intro j hj
        by_cases hjm : j = m
        · subst hjm; simp only [upd, if_true]; rw [← hcs]; omega
        · simp only [upd, if_neg hjm]; exact H.caps j (by omega)
      · intro j hj
        by_cases hjm : j = m
        · subst hjm; simp only [upd, if_true]
          rw [← hcs]
          have : total * cs = t * cs + (total - t) * cs := htot
          rcases hle.2.2 with h | ⟨h, h'⟩ <;> omega
        · simp only [upd, if_neg hjm]; exact H.tights j (by omega)
      · intro j hj
        by_cases hjm : j = m
        · subst hjm; simp only [upd, if_true]; exact hle.2.1
        · simp only [upd, if_neg hjm]; exact H.le j (by omega)
      · intro _ x
        simp only [Nat.add_sub_cancel, upd, if_true]
        exact on_take (x := x) hs htc hstop
      · intro _
        simp only [Nat.add_sub_cancel, upd, if_true]
        rw [show t + (total - t) = total by omega, ← hcs]; exact hcap
      · intro _
        simp only [Nat.add_sub_cancel, upd, if_true]
        rw [show t + (total - t) - 1 = total - 1 by omega, ← hcs]; exact htight
    · rw [if_neg hpos]
      refine ⟨m, ⟨by have := H.mi; omega, fun h => absurd h hpos, H.nonneg, H.old, H.nt, H.tot, H.cover, H.cap,
        H.tight, H.caps, H.tights, H.le, H.lcover, H.lcap, H.ltight⟩⟩

theorem sum_share (q r k : Nat) :
    sumN (share q r) k = k * q + if 1 < r then min k r else 0 := by
  induction k with
  | zero => simp [sumN]
  | succ k ih =>
    simp only [sumN, ih, share, Nat.succ_mul]
    by_cases h1 : 1 < r
    · simp only [h1, true_and, if_true]
      split <;> omega
    · simp only [h1, false_and, if_false]; omega

theorem sum_ntask {d : Nat → Range} {f : Nat → Nat} {m : Nat} (h : ∀ j, j < m → (d j).ntask = f j) :
    sumN (fun j => (d j).ntask.toNat) m = sumN f m :=
  Farm.sumN_congr fun j hj => by rw [h j hj]; simp

theorem ceilDiv_le {a b : Int} (hb : 1 ≤ b) : a ≤ ceilDiv a b * b := by
  unfold ceilDiv
  have := Int.mul_ediv_add_emod (a + b - 1) b
  have := Int.emod_lt_of_pos (a + b - 1) (by omega : 0 < b)
  have := mul_comm b ((a + b - 1) / b)
  omega

theorem ceilDiv_lt {a b : Int} (hb : 1 ≤ b) : (ceilDiv a b - 1) * b < a := by
  unfold ceilDiv
  have := Int.mul_ediv_add_emod (a + b - 1) b
  have := Int.emod_nonneg (a + b - 1) (by omega : b ≠ 0)
  have : ((a + b - 1) / b - 1) * b = b * ((a + b - 1) / b) - b := by ring
  omega

/-- **The partition of `init_data` is correct**: the ranges of the workers cover the iteration space
exactly once, and the number of tasks of each worker is the number of tasks its range consists of. -/
theorem setloopDyn_good {old : Nat → Range} {first last step chunk : Int} {nw : Nat} {L : Loop}
    (hs : 1 ≤ step) (hk : 1 ≤ chunk) (hn : 1 ≤ nw) (ho : ∀ i, 1 ≤ i → (old i).ntask ≤ 0)
    (h : setloopDyn old first last step chunk nw = some L) : Good first last step nw L := by
  unfold setloopDyn at h
  obtain ⟨x, hx, hf⟩ := Option.bind_eq_some_iff.1 h
  unfold initData at hx
  simp only at hx
  generalize hN : ceilDiv (last - first) step = N at hx
  generalize hT : ceilDiv N chunk = T at hx
  split at hx
  · simp at hx
  rename_i hT0
  -- the tasks cover the space, and none is superfluous
  have hN1 : last - first ≤ N * step := by rw [← hN]; exact ceilDiv_le hs
  have hN2 : (N - 1) * step < last - first := by rw [← hN]; exact ceilDiv_lt hs
  have hT1 : N ≤ T * chunk := by rw [← hT]; exact ceilDiv_le hk
  have hT2 : (T - 1) * chunk < N := by rw [← hT]; exact ceilDiv_lt hk
  obtain ⟨Tn, rfl⟩ : ∃ Tn : Nat, T = Tn := ⟨T.toNat, by omega⟩
  simp only [Int.toNat_natCast] at hx
  have hc1 : last ≤ first + (Tn : Int) * (chunk * step) := by
    have : N * step ≤ (Tn : Int) * chunk * step := by nlinarith
    have : (Tn : Int) * (chunk * step) = Tn * chunk * step := by ring
    omega
  have hc2 : first + ((Tn : Int) - 1) * (chunk * step) < last := by
    have : ((Tn : Int) - 1) * chunk * step ≤ (N - 1) * step := by nlinarith
    have : ((Tn : Int) - 1) * (chunk * step) = (Tn - 1) * chunk * step := by ring
    omega
  -- no tasks: the assertion fails
  by_cases hz : Tn = 0
  · subst hz
    exfalso
    have hfill : ∀ i, (fill old first last step chunk 0 0 0 i).2.2 = 0 := by
      intro i
      induction i with
      | zero => rfl
      | succ i ih => simp only [fill]; rw [ih]; simp [ih]
    simp only [Nat.zero_div, Nat.zero_mod] at hx
    rw [if_neg (show ¬ (True ∧ 1 ≤ 0) by omega), if_neg (show ¬ (True ∧ 1 ≤ 0) by omega)] at hx
    rw [if_pos (hfill nw)] at hx
    simp only [Option.some.injEq] at hx; subst hx
    simp [finish] at hf
  have hdiv := Nat.div_add_mod Tn nw
  have hmod := Nat.mod_lt Tn (by omega : nw > 0)
  generalize hq : Tn / nw = q at *
  generalize hr : Tn % nw = r at *
  by_cases hsmall : q = 0
  · -- fewer tasks than workers
    have hr1 : r = Tn := by subst hsmall; omega
    have hA : (if q = 0 ∧ 1 ≤ r then 1 else q) = 1 := if_pos ⟨hsmall, by omega⟩
    have hB : (if q = 0 ∧ 1 ≤ r then 0 else r) = 0 := if_pos ⟨hsmall, by omega⟩
    rw [hA, hB] at hx
    obtain ⟨m, H⟩ := fill_inv (old := old) (first := first) (last := last) (nw := nw) (ntxw := 1) (r := 0) hs hk (by omega)
      hc1 (Or.inr hc2) (fun i _ => Or.inl (by simp [share])) nw (Nat.le_refl _)
    generalize hF : fill old first last step chunk Tn 1 0 nw = F at hx H
    obtain ⟨d, s, lo⟩ := F
    simp only at hx H
    have htot := H.tot
    rw [sum_share] at htot
    simp at htot
    have hmi := H.mi
    have hnn := H.nonneg
    have hlo : lo = 0 := by
      by_contra hne
      have := H.live (by omega)
      omega
    rw [if_pos hlo] at hx
    simp only [Option.some.injEq] at hx; subst hx
    have hm : m = Tn := by omega
    simp only [finish] at hf
    rw [if_neg (by omega)] at hf
    simp only [Option.some.injEq] at hf; subst hf
    have hnw' : (if (Tn : Int) ≤ nw then (Tn : Int).toNat else nw) = Tn := by
      rw [if_pos (by omega)]; simp
    subst hm
    constructor <;> simp only [hnw']
    · intro x
      have hend : last ≤ s := by
        rcases H.cap with h | h
        · rw [hlo] at h; omega
        · exact h
      have := H.cover x
      rw [on_empty (a := s) hend] at this
      exact this
    · intro i hi; exact Or.inr (H.caps i hi)
    · intro _ i hi; exact Or.inr (H.tights i hi)
    · intro i hi; rw [H.nt i hi]; simp [share]
    · intro i hi; rw [H.old i hi]; exact ho i (by omega)
    · rw [sum_ntask H.nt, sum_share]; simp
    · exact hk
    · omega
    · omega
  · -- at least as many tasks as workers
    have hA : (if q = 0 ∧ 1 ≤ r then 1 else q) = q := if_neg (fun h => hsmall h.1)
    have hB : (if q = 0 ∧ 1 ≤ r then 0 else r) = r := if_neg (fun h => hsmall h.1)
    rw [hA, hB] at hx
    have hqn : nw * q = q * nw := Nat.mul_comm _ _
    obtain ⟨m, H⟩ := fill_inv (old := old) (first := first) (last := last) (nw := nw) (ntxw := q) (r := r) hs hk (by omega)
      hc1 (Or.inr hc2) (fun i hi => Or.inr (by
        rw [sum_share]
        have : (i + 1) * q ≤ nw * q := Nat.mul_le_mul_right q hi
        split <;> omega)) nw (Nat.le_refl _)
    generalize hF : fill old first last step chunk Tn q r nw = F at hx H
    obtain ⟨d, s, lo⟩ := F
    simp only at hx H
    have htot := H.tot
    rw [sum_share] at htot
    have hmi := H.mi
    have hnn := H.nonneg
    have hm : m = nw := by
      by_contra hne
      have hl : ¬ 0 < lo := fun h => hne (H.live h)
      have : (m + 1) * q ≤ nw * q := Nat.mul_le_mul_right q (by omega)
      have : (m + 1) * q = m * q + q := by ring
      by_cases h1 : 1 < r
      · simp only [h1, if_true] at htot; push_cast at htot; omega
      · simp only [h1, if_false] at htot; push_cast at htot; omega
    subst hm
    have hlo : lo = if r = 1 then 1 else 0 := by
      by_cases h1 : 1 < r
      · simp only [h1, if_true] at htot; push_cast at htot; rw [if_neg (by omega)]; omega
      · simp only [h1, if_false] at htot; push_cast at htot; split <;> omega
    have hmq : m ≤ m * q := Nat.le_mul_of_pos_right m (by omega)
    by_cases hr1 : r = 1
    · -- one task is left over: it goes to the last worker
      rw [if_pos hr1] at hlo
      rw [if_neg (by omega), if_pos hlo] at hx
      subst hr1
      have hlc := H.lcover hn
      have hlcap := H.lcap hn
      have hltight := H.ltight hn
      have hnt := H.nt (m - 1) (by omega)
      rw [hlo] at hlcap hltight
      have hcov : ∀ (nt : Int) x, sumN (fun i => on (upd d (m - 1) ⟨nt, (d (m - 1)).start, last⟩ i).start
          (upd d (m - 1) ⟨nt, (d (m - 1)).start, last⟩ i).stop step x) m = on first last step x := by
        intro nt x
        have h1 := H.cover x
        have h2 := sumN_change (f := fun i => on (upd d (m - 1) ⟨nt, (d (m - 1)).start, last⟩ i).start
          (upd d (m - 1) ⟨nt, (d (m - 1)).start, last⟩ i).stop step x)
          (g := fun j => on (d j).start (d j).stop step x) (n := m) (i := m - 1) (by omega)
          (fun j _ hj => by simp only [upd, if_neg hj])
        simp only [upd, if_true] at h2 ⊢
        have := hlc x
        omega
      split at hx
      · rename_i hq1
        simp only [Option.some.injEq] at hx; subst hx
        simp only [finish] at hf
        rw [if_neg (by omega)] at hf
        simp only [Option.some.injEq] at hf; subst hf
        have hnw' : (if (Tn : Int) ≤ m then (Tn : Int).toNat else m) = m := by
          rw [if_neg]; omega
        constructor <;> simp only [hnw']
        · exact hcov _
        · intro i hi
          right
          by_cases hil : i = m - 1
          · subst hil; simp only [upd, if_true]; exact hlcap
          · simp only [upd, if_neg hil]; exact H.caps i hi
        · intro _ i hi
          right
          by_cases hil : i = m - 1
          · subst hil; simp only [upd, if_true]; exact hltight
          · simp only [upd, if_neg hil]; exact H.tights i hi
        · intro i hi
          by_cases hil : i = m - 1
          · subst hil; simp only [upd, if_true]; omega
          · simp only [upd, if_neg hil]; rw [H.nt i hi]; unfold share; omega
        · intro i hi
          rw [upd, if_neg (by omega), H.old i hi]; exact ho i (by omega)
        · have h2 := sumN_change (f := fun i => (upd d (m - 1) ⟨(d (m - 1)).ntask + 1, (d (m - 1)).start, last⟩ i).ntask.toNat)
            (g := fun j => (d j).ntask.toNat) (n := m) (i := m - 1) (by omega)
            (fun j _ hj => by simp only [upd, if_neg hj])
          rw [sum_ntask H.nt, sum_share] at h2
          simp only [upd, if_true] at h2
          simp only [upd]
          have : ¬ (1 < 1) := by omega
          simp only [this, if_false] at h2
          omega
        · exact hk
        · exact hn
        · omega
      · rename_i hq1
        have hq1 : q = 1 := by omega
        subst hq1
        simp only [Option.some.injEq] at hx; subst hx
        simp only [finish] at hf
        have hTm : Tn = m + 1 := by omega
        rw [if_neg (by omega)] at hf
        simp only [Option.some.injEq] at hf; subst hf
        have hnw' : (if (Tn : Int) - 1 ≤ m then ((Tn : Int) - 1).toNat else m) = m := by
          rw [if_pos (by omega)]; omega
        have hsh : share 1 1 (m - 1) = 1 := by simp [share]
        rw [hsh] at hnt
        have e2 : ∀ z : Int, z * (chunk * 2 * step) = z * (chunk * step) + z * (chunk * step) := by intro z; ring
        have hcs : step ≤ chunk * step := by nlinarith
        constructor <;> simp only [hnw']
        · exact hcov _
        · intro i hi
          right
          by_cases hil : i = m - 1
          · subst hil; simp only [upd, if_true]; rw [hnt] at hlcap ⊢; rw [e2]; omega
          · simp only [upd, if_neg hil]
            have h4 := H.caps i hi
            have h1 := H.nt i hi
            have : share 1 1 i = 1 := by simp [share]
            rw [this] at h1
            rw [h1] at h4 ⊢; rw [e2]; omega
        · intro _ i hi
          right
          by_cases hil : i = m - 1
          · subst hil; simp only [upd, if_true]
            have h3 := H.tights (m - 1) (by omega)
            rw [hnt] at hltight h3 ⊢
            have := H.le (m - 1) (by omega)
            simp only [Nat.cast_one, sub_self, zero_mul] at h3 ⊢; omega
          · simp only [upd, if_neg hil]
            have h3 := H.tights i hi
            have h1 := H.nt i hi
            have : share 1 1 i = 1 := by simp [share]
            rw [this] at h1
            rw [h1] at h3 ⊢
            simp only [Nat.cast_one, sub_self, zero_mul] at h3 ⊢; exact h3
        · intro i hi
          by_cases hil : i = m - 1
          · subst hil; simp only [upd, if_true]; omega
          · simp only [upd, if_neg hil]; rw [H.nt i hi]; simp [share]
        · intro i hi
          rw [upd, if_neg (by omega), H.old i hi]; exact ho i (by omega)
        · have h2 := sumN_change (f := fun i => (upd d (m - 1) ⟨(d (m - 1)).ntask, (d (m - 1)).start, last⟩ i).ntask.toNat)
            (g := fun j => (d j).ntask.toNat) (n := m) (i := m - 1) (by omega)
            (fun j _ hj => by simp only [upd, if_neg hj])
          rw [sum_ntask H.nt, sum_share] at h2
          simp only [upd, if_true] at h2
          simp only [upd]
          have : ¬ (1 < 1) := by omega
          simp only [this, if_false] at h2
          omega
        · omega
        · exact hn
        · omega
    · rw [if_neg hr1] at hlo
      rw [if_pos hlo] at hx
      simp only [Option.some.injEq] at hx; subst hx
      simp only [finish] at hf
      rw [if_neg (by omega)] at hf
      simp only [Option.some.injEq] at hf; subst hf
      have hnw' : (if (Tn : Int) ≤ m then (Tn : Int).toNat else m) = m := by
        split <;> omega
      constructor <;> simp only [hnw']
      · intro x
        have hend : last ≤ s := by
          rcases H.cap with h | h
          · rw [hlo] at h; omega
          · exact h
        have := H.cover x
        rw [on_empty (a := s) hend] at this
        exact this
      · intro i hi; exact Or.inr (H.caps i hi)
      · intro _ i hi; exact Or.inr (H.tights i hi)
      · intro i hi; rw [H.nt i hi]; unfold share; omega
      · intro i hi; rw [H.old i hi]; exact ho i (by omega)
      · rw [sum_ntask H.nt, sum_share]
        by_cases h1 : 1 < r
        · simp only [h1, if_true]; push_cast; omega
        · simp only [h1, if_false]; push_cast; omega
      · exact hk
      · exact hn
      · omega

theorem ceilDiv_pos {a b : Int} (ha : 1 ≤ a) (hb : 1 ≤ b) : 1 ≤ ceilDiv a b := by
  have := ceilDiv_le (a := a) hb
  by_contra h
  have : ceilDiv a b * b ≤ 0 := mul_nonpos_of_nonpos_of_nonneg (by omega) (by omega)
  omega

/-- A loop with at least one iteration is accepted. -/
theorem setloopDyn_some (old : Nat → Range) {first last step chunk : Int} {nw : Nat}
    (hs : 1 ≤ step) (hk : 1 ≤ chunk) (hn : 1 ≤ nw) (h : first < last) :
    ∃ L, setloopDyn old first last step chunk nw = some L := by
  unfold setloopDyn initData
  simp only
  have hN0 : 1 ≤ ceilDiv (last - first) step := ceilDiv_pos (by omega) hs
  generalize hN : ceilDiv (last - first) step = N at *
  have hT0 : 1 ≤ ceilDiv N chunk := ceilDiv_pos hN0 hk
  generalize hT : ceilDiv N chunk = T at *
  rw [if_neg (by omega)]
  have hN1 : last - first ≤ N * step := by rw [← hN]; exact ceilDiv_le hs
  have hN2 : (N - 1) * step < last - first := by rw [← hN]; exact ceilDiv_lt hs
  have hT1 : N ≤ T * chunk := by rw [← hT]; exact ceilDiv_le hk
  have hT2 : (T - 1) * chunk < N := by rw [← hT]; exact ceilDiv_lt hk
  obtain ⟨Tn, rfl⟩ : ∃ Tn : Nat, T = Tn := ⟨T.toNat, by omega⟩
  simp only [Int.toNat_natCast]
  have hc1 : last ≤ first + (Tn : Int) * (chunk * step) := by
    have : N * step ≤ (Tn : Int) * chunk * step := by nlinarith
    have : (Tn : Int) * (chunk * step) = Tn * chunk * step := by ring
    omega
  have hc2 : first + ((Tn : Int) - 1) * (chunk * step) < last := by
    have : ((Tn : Int) - 1) * chunk * step ≤ (N - 1) * step := by nlinarith
    have : ((Tn : Int) - 1) * (chunk * step) = (Tn - 1) * chunk * step := by ring
    omega
  have hdiv := Nat.div_add_mod Tn nw
  have hmod := Nat.mod_lt Tn (by omega : nw > 0)
  generalize hq : Tn / nw = q at *
  generalize hr : Tn % nw = r at *
  by_cases hsmall : q = 0
  · have hr1 : r = Tn := by subst hsmall; omega
    have hA : (if q = 0 ∧ 1 ≤ r then 1 else q) = 1 := if_pos ⟨hsmall, by omega⟩
    have hB : (if q = 0 ∧ 1 ≤ r then 0 else r) = 0 := if_pos ⟨hsmall, by omega⟩
    rw [hA, hB]
    obtain ⟨m, H⟩ := fill_inv (old := old) (first := first) (last := last) (nw := nw) (ntxw := 1) (r := 0) hs hk (by omega)
      hc1 (Or.inr hc2) (fun i _ => Or.inl (by simp [share])) nw (Nat.le_refl _)
    generalize hF : fill old first last step chunk Tn 1 0 nw = F at H ⊢
    obtain ⟨d, s, lo⟩ := F
    simp only at H ⊢
    have htot := H.tot
    rw [sum_share] at htot
    simp at htot
    have hmi := H.mi
    have hnn := H.nonneg
    have hlo : lo = 0 := by
      by_contra hne
      have := H.live (by omega)
      omega
    rw [if_pos hlo]
    simp only [Option.bind_some, finish]
    rw [if_neg (by omega)]
    exact ⟨_, rfl⟩
  · have hA : (if q = 0 ∧ 1 ≤ r then 1 else q) = q := if_neg (fun h => hsmall h.1)
    have hB : (if q = 0 ∧ 1 ≤ r then 0 else r) = r := if_neg (fun h => hsmall h.1)
    rw [hA, hB]
    have hqn : nw * q = q * nw := Nat.mul_comm _ _
    obtain ⟨m, H⟩ := fill_inv (old := old) (first := first) (last := last) (nw := nw) (ntxw := q) (r := r) hs hk (by omega)
      hc1 (Or.inr hc2) (fun i hi => Or.inr (by
        rw [sum_share]
        have : (i + 1) * q ≤ nw * q := Nat.mul_le_mul_right q hi
        split <;> omega)) nw (Nat.le_refl _)
    generalize hF : fill old first last step chunk Tn q r nw = F at H ⊢
    obtain ⟨d, s, lo⟩ := F
    simp only at H ⊢
    have htot := H.tot
    rw [sum_share] at htot
    have hmi := H.mi
    have hnn := H.nonneg
    have hm : m = nw := by
      by_contra hne
      have hl : ¬ 0 < lo := fun h => hne (H.live h)
      have : (m + 1) * q ≤ nw * q := Nat.mul_le_mul_right q (by omega)
      have : (m + 1) * q = m * q + q := by ring
      by_cases h1 : 1 < r
      · simp only [h1, if_true] at htot; push_cast at htot; omega
      · simp only [h1, if_false] at htot; push_cast at htot; omega
    subst hm
    have hlo : lo = if r = 1 then 1 else 0 := by
      by_cases h1 : 1 < r
      · simp only [h1, if_true] at htot; push_cast at htot; rw [if_neg (by omega)]; omega
      · simp only [h1, if_false] at htot; push_cast at htot; split <;> omega
    have hmq : m ≤ m * q := Nat.le_mul_of_pos_right m (by omega)
    by_cases hr1 : r = 1
    · rw [if_pos hr1] at hlo
      rw [if_neg (by omega), if_pos hlo]
      split <;> simp only [Option.bind_some, finish]
      · rw [if_neg (by omega)]; exact ⟨_, rfl⟩
      · rw [if_neg (by omega)]; exact ⟨_, rfl⟩
    · rw [if_neg hr1] at hlo
      rw [if_pos hlo]
      simp only [Option.bind_some, finish]
      rw [if_neg (by omega)]
      exact ⟨_, rfl⟩

end FF.Parfor
