import Verif.Parfor.StealLive
/-!
# Default static scheduling (C30)

Models `init_data_static` with `_chunk == 0` (ff/parallel_for_internals.hpp 514-534) and `setloop`
(813-826).  The workers then run as in `Verif.Parfor.Steal` with `static_scheduling` set (673), so that
each of them only uses its own entry of the table.
-/
namespace FF.Parfor
open FF.Farm (sumN)
open FF.Node (upd)

/-- The loop 525-531, after `i` iterations: the table and `start`. -/
def fillS (old : Nat → Range) (first last step q r : Int) : Nat → (Nat → Range) × Int
  | 0 => (old, first)
  | i + 1 =>
    let (d, s) := fillS old first last step q r i
    let e := s + (q - 1) * step + 1 + (if (i : Int) < r then step else 0)
    let stop := if e < last then e else last
    (upd d i ⟨1, s, stop⟩, stop - 1 + step)

/-- `init_data_static` with `_chunk == 0`; in 519 the number of iterations is converted to `size_t`, in
520 the division is that of `long`. -/
def initStatic (old : Nat → Range) (first last step : Int) (nw : Nat) : (Nat → Range) × Int × Int :=
  let N := ceilDiv (last - first) step
  let r := N % 2 ^ 64 % nw
  let q := N.tdiv nw
  ((fillS old first last step q r nw).1, nw, if r ≠ 0 then q + 1 else q)

/-- `setloop` with grain 0 -/
def setloopStatic (old : Nat → Range) (first last step : Int) (nw : Nat) : Option Loop :=
  finish true nw (initStatic old first last step nw)

/-! ## Lists of indices -/

theorem indices_nil {a b step : Int} (hs : 1 ≤ step) (h : b ≤ a) : indices a b step = [] := by
  rw [List.eq_nil_iff_forall_not_mem]
  intro x hx
  rw [mem_indices hs] at hx; omega

theorem indices_next {a c step : Int} (hs : 1 ≤ step) (h : a < c) :
    indices a c step = a :: indices (a + step) c step := by
  unfold indices
  have e : (c - a + step - 1) / step = (c - (a + step) + step - 1) / step + 1 := by
    rw [show c - a + step - 1 = (c - (a + step) + step - 1) + step * 1 by ring,
      Int.add_mul_ediv_left _ _ (by omega)]
  have hn : 0 ≤ (c - (a + step) + step - 1) / step := Int.ediv_nonneg (by omega) (by omega)
  rw [e, Int.toNat_add hn (by omega)]
  simp only [Int.toNat_one]
  rw [List.range_succ_eq_map, List.map_cons, List.map_map]
  congr 1
  · simp
  · apply List.map_congr_left
    intro k _
    simp only [Function.comp]
    push_cast; ring

theorem indices_take {step c : Int} (hs : 1 ≤ step) (n : Nat) (hn : 1 ≤ n) (a : Int) {e : Int}
    (he : e = min (a + (((n : Int) - 1) * step + 1)) c) :
    indices a c step = indices a e step ++ indices (e - 1 + step) c step := by
  have hpos : 0 ≤ ((n : Int) - 1) * step := by apply mul_nonneg <;> omega
  by_cases hac : c ≤ a
  · rw [min_eq_right (by omega)] at he
    subst he
    rw [indices_nil hs hac, indices_nil hs (by omega)]; rfl
  · induction n, hn using Nat.le_induction generalizing a with
    | base =>
      have he : e = a + 1 := by rw [he, min_eq_left] <;> simp; omega
      subst he
      rw [indices_next hs (by omega), indices_next (c := a + 1) hs (by omega), indices_nil (b := a + 1) hs (by omega)]
      simp only [add_sub_cancel_right, List.singleton_append]
    | succ n hn ih =>
      have hae : a < e := by
        rw [he, min_def']; split <;> omega
      have e2 : a + ((((n + 1 : Nat) : Int)) - 1) * step = a + step + ((n : Int) - 1) * step := by push_cast; ring
      have hpos' : 0 ≤ ((n : Int) - 1) * step := by apply mul_nonneg <;> omega
      have he' : e = min (a + step + (((n : Int) - 1) * step + 1)) c := by rw [he]; congr 1; omega
      rw [indices_next hs (by omega), indices_next hs hae, List.cons_append]
      congr 1
      by_cases hac' : c ≤ a + step
      · rw [min_eq_right (by omega)] at he'
        subst he'
        rw [indices_nil hs hac', indices_nil hs (by omega)]; rfl
      · exact ih (a + step) he' hpos' hac'

theorem take_endOf {P : Par} (hs : 1 ≤ P.step) (hk : 1 ≤ P.chunk) (c a : Int) :
    indices a c P.step = indices a (P.endOf c a) P.step ++ indices (P.next c a) c P.step := by
  obtain ⟨n, hn⟩ : ∃ n : Nat, P.chunk = n := ⟨P.chunk.toNat, by omega⟩
  have := indices_take (c := c) hs n (by omega) a (e := P.endOf c a) (by rw [← hn]; rfl)
  exact this

/-! ## Each worker executes its own block, in order -/

/-- the calls made by worker `w`, in order -/
def A.mine (s : A) (w : Nat) : List Int := (s.log.filter fun e => e.1 = w).map Prod.snd

def pendL (P : Par) (d : Nat → Range) : PC → List Int
  | .run c e => indices c e P.step
  | .sub id old => indices old (P.endOf (d id).stop old) P.step
  | _ => []

def PC.own (w : Nat) : PC → Prop
  | .l1 id | .ld id | .cas id _ | .sub id _ => id = w
  | .mx | .nt _ => False
  | _ => True

structure SInv (R : Nat → List Int) (P : Par) (s : A) : Prop where
  own : ∀ w, w < P.nw → (s.pc w).own w
  one : ∀ w, w < P.nw → (s.d w).ntask ≤ 1
  done : ∀ w, w < P.nw → s.pc w = .out → (s.d w).ntask ≤ 0
  list : ∀ w, w < P.nw → s.mine w ++ (pendL P s.d (s.pc w) ++ indices (s.d w).start (s.d w).stop P.step) = R w

variable {P : Par}

theorem SInv.move {R : Nat → List Int} {s : A} {w : Nat} {p : PC} (h : SInv R P s) (hw : w < P.nw)
    (h1 : p.own w) (h2 : p = .out → (s.d w).ntask ≤ 0) (h3 : pendL P s.d p = pendL P s.d (s.pc w)) :
    SInv R P { s with pc := upd s.pc w p } := by
  constructor
  · intro v hv
    by_cases hvw : v = w
    · subst hvw; simp only [upd, if_true]; exact h1
    · simp only [upd, if_neg hvw]; exact h.own v hv
  · exact h.one
  · intro v hv
    by_cases hvw : v = w
    · subst hvw; simp only [upd, if_true]; exact h2
    · simp only [upd, if_neg hvw]; exact h.done v hv
  · intro v hv
    by_cases hvw : v = w
    · subst hvw; simp only [upd, if_true]; rw [h3]; exact h.list v hv
    · simp only [upd, if_neg hvw]; exact h.list v hv

theorem SInv.step {R : Nat → List Int} {s s' : A} {a : Act} (hst : P.static = true) (hs : 1 ≤ P.step)
    (hk : 1 ≤ P.chunk) (h : SInv R P s) (ha : Parfor.step P s a = some s') : SInv R P s' := by
  have haw : P.away = .out := by unfold Par.away; rw [hst]; rfl
  cases a with
  | pick w m =>
    simp only [Parfor.step] at ha
    split at ha
    · rename_i hc
      have := h.own w hc.1
      rw [hc.2.2] at this; exact this.elim
    · simp at ha
  | casFail w =>
    simp only [Parfor.step] at ha
    split at ha
    · rename_i hw
      split at ha
      · rename_i id old hp
        simp only [Option.some.injEq] at ha; subst ha
        have ho := h.own w hw
        rw [hp] at ho
        exact h.move hw ho (by simp) (by rw [hp]; rfl)
      · simp at ha
    · simp at ha
  | go w =>
    simp only [Parfor.step] at ha
    split at ha
    swap
    · simp at ha
    rename_i hw
    unfold go at ha
    have ho := h.own w hw
    cases hp : s.pc w with
    | idle => rw [hp] at ha; simp at ha
    | mx => rw [hp] at ha; simp at ha
    | out => rw [hp] at ha; simp at ha
    | nt m => rw [hp] at ho; exact ho.elim
    | l1 id =>
      rw [hp] at ha ho; simp only [Option.some.injEq] at ha; subst ha
      have ho : id = w := ho
      subst ho
      by_cases hn : 0 < (s.d id).ntask
      · rw [if_pos hn]; exact h.move hw rfl (by simp) (by rw [hp]; rfl)
      · rw [if_neg hn, haw]; exact h.move hw trivial (fun _ => by omega) (by rw [hp]; rfl)
    | ld id =>
      rw [hp] at ha ho; simp only [Option.some.injEq] at ha; subst ha
      exact h.move hw ho (by simp) (by rw [hp]; rfl)
    | run cur stop =>
      rw [hp] at ha
      dsimp only at ha
      split at ha
      · rename_i hlt
        simp only [Option.some.injEq] at ha; subst ha
        constructor
        · intro v hv
          by_cases hvw : v = w
          · subst hvw; simp only [upd, if_true]; trivial
          · simp only [upd, if_neg hvw]; exact h.own v hv
        · exact h.one
        · intro v hv
          by_cases hvw : v = w
          · subst hvw; simp only [upd, if_true]; simp
          · simp only [upd, if_neg hvw]; exact h.done v hv
        · intro v hv
          have hl := h.list v hv
          by_cases hvw : v = w
          · subst hvw
            rw [hp] at hl
            simp only [A.mine, pendL, upd, if_true, List.filter_append, List.map_append] at hl ⊢
            rw [indices_next hs hlt] at hl
            rw [← hl]
            simp
          · simp only [A.mine, upd, if_neg hvw, List.filter_append, List.map_append] at hl ⊢
            rw [← hl]
            simp [Ne.symm hvw]
      · rename_i hge
        simp only [Option.some.injEq] at ha; subst ha
        exact h.move hw rfl (by simp) (by rw [hp]; simp only [pendL]; rw [indices_nil hs (by omega)])
    | cas id old =>
      rw [hp] at ha ho
      have ho : id = w := ho
      subst ho
      dsimp only at ha
      split at ha
      · rename_i hst0
        simp only [Option.some.injEq] at ha; subst ha
        constructor
        · intro v hv
          by_cases hvw : v = id
          · subst hvw; simp only [upd, if_true]; rfl
          · simp only [upd, if_neg hvw]; exact h.own v hv
        · intro v hv
          by_cases hvw : v = id
          · subst hvw; simp only [upd, if_true]; exact h.one v hv
          · simp only [upd, if_neg hvw]; exact h.one v hv
        · intro v hv
          by_cases hvw : v = id
          · subst hvw; simp only [upd, if_true]; simp
          · simp only [upd, if_neg hvw]; exact h.done v hv
        · intro v hv
          have hl := h.list v hv
          by_cases hvw : v = id
          · subst hvw
            rw [hp] at hl
            simp only [A.mine, pendL, upd, if_true, List.nil_append] at hl ⊢
            rw [hst0, take_endOf hs hk] at hl
            exact hl
          · have e : pendL P (upd s.d id ⟨(s.d id).ntask, P.next (s.d id).stop old, (s.d id).stop⟩) (s.pc v) =
                pendL P s.d (s.pc v) := by
              have hov := h.own v hv
              cases hpv : s.pc v <;> simp only [pendL]
              rename_i id' old'
              rw [hpv] at hov
              have hov : id' = v := hov
              subst hov
              simp only [upd, if_neg hvw]
            simp only [A.mine, upd, if_neg hvw] at hl e ⊢
            rw [e]
            exact hl
      · simp only [Option.some.injEq] at ha; subst ha
        exact h.move hw rfl (by simp) (by rw [hp]; rfl)
    | sub id old =>
      rw [hp] at ha ho
      have ho : id = w := ho
      subst ho
      simp only [Option.some.injEq] at ha; subst ha
      have h1 := h.one id hw
      constructor
      · intro v hv
        by_cases hvw : v = id
        · subst hvw; simp only [upd, if_true]; rw [haw]; split <;> trivial
        · simp only [upd, if_neg hvw]; exact h.own v hv
      · intro v hv
        by_cases hvw : v = id
        · subst hvw; simp only [upd, if_true]; omega
        · simp only [upd, if_neg hvw]; exact h.one v hv
      · intro v hv
        by_cases hvw : v = id
        · subst hvw; simp only [upd, if_true]; intro _; omega
        · simp only [upd, if_neg hvw]; exact h.done v hv
      · intro v hv
        have hl := h.list v hv
        by_cases hvw : v = id
        · subst hvw
          rw [hp] at hl
          simp only [A.mine, upd, if_true] at hl ⊢
          by_cases hc : old < P.endOf (s.d v).stop old
          · rw [if_pos hc]; exact hl
          · rw [if_neg hc, haw]
            simp only [pendL] at hl ⊢
            rw [indices_nil (b := P.endOf (s.d v).stop old) hs (by omega)] at hl
            exact hl
        · have e : pendL P (upd s.d id ⟨(s.d id).ntask - 1, (s.d id).start, (s.d id).stop⟩) (s.pc v) =
              pendL P s.d (s.pc v) := by
            have hov := h.own v hv
            cases hpv : s.pc v <;> simp only [pendL]
            rename_i id' old'
            rw [hpv] at hov
            have hov : id' = v := hov
            subst hov
            simp only [upd, if_neg hvw]
          simp only [A.mine, upd, if_neg hvw] at hl e ⊢
          rw [e]
          exact hl

theorem SInv.start {L : Loop} {st : Int} {D : Nat} (hs : 1 ≤ st) (hk : 1 ≤ L.chunk)
    (hone : ∀ i, i < L.nw → (L.d i).ntask = 1) (spin : Bool) :
    SInv (fun w => indices (L.d w).start (L.d w).stop st) (L.par st D) (A.start (L.par st D) L spin) := by
  cases spin with
  | true =>
    constructor <;> simp only [A.start, if_true, Loop.par]
    · intro w _; trivial
    · intro w hw; rw [hone w hw]
    · intro w _ h; simp at h
    · intro w hw
      simp only [A.mine, pendL]
      rw [indices_nil (a := 0) hs (by omega)]
      rfl
  | false =>
    have hd : ∀ i, i < L.nw → (A.start (L.par st D) L false).d i =
        ⟨0, (L.par st D).next (L.d i).stop (L.d i).start, (L.d i).stop⟩ := by
      intro i hi
      have := hone i hi
      simp only [A.start, Bool.false_eq_true, if_false]
      rw [if_pos ⟨hi, by omega⟩, this]
      rfl
    have hpc : ∀ i, i < L.nw → (A.start (L.par st D) L false).pc i =
        .run (L.d i).start ((L.par st D).endOf (L.d i).stop (L.d i).start) := by
      intro i hi
      have := hone i hi
      simp only [A.start, Bool.false_eq_true, if_false]
      rw [if_pos (by omega)]
    constructor
    · intro w hw; rw [hpc w hw]; trivial
    · intro w hw; rw [hd w hw]; simp
    · intro w hw h; rw [hpc w hw] at h; simp at h
    · intro w hw
      rw [hpc w hw, hd w hw]
      exact (take_endOf (P := L.par st D) hs hk _ _).symm

/-! ## The blocks -/

/-- number of indices given to the workers before `i` -/
def upto (q r i : Nat) : Nat := i * q + min i r

theorem fillS_spec {old : Nat → Range} {first last step : Int} {N q r nw : Nat} (hs : 1 ≤ step)
    (hN1 : first + ((N : Int) - 1) * step + 1 ≤ last) (hq : N = nw * q + r) (hr : r < nw) (i : Nat) (hi : i ≤ nw) :
    (fillS old first last step q r i).2 = first + (upto q r i : Int) * step ∧
    (∀ j, j < i → (fillS old first last step q r i).1 j =
      ⟨1, first + (upto q r j : Int) * step, first + ((upto q r (j + 1) : Int) - 1) * step + 1⟩) ∧
    (∀ j, i ≤ j → (fillS old first last step q r i).1 j = old j) := by
  induction i with
  | zero => simp [fillS, upto]
  | succ i ih =>
    obtain ⟨h1, h2, h3⟩ := ih (by omega)
    simp only [fillS]
    generalize hF : fillS old first last step q r i = F at h1 h2 h3 ⊢
    obtain ⟨d, s⟩ := F
    simp only at h1 h2 h3 ⊢
    have hup : (upto q r (i + 1) : Int) = upto q r i + q + if (i : Int) < r then 1 else 0 := by
      unfold upto
      have : (i + 1) * q = i * q + q := by ring
      split <;> omega
    have hle : upto q r (i + 1) ≤ N := by
      unfold upto
      have : (i + 1) * q ≤ nw * q := Nat.mul_le_mul_right q (by omega)
      omega
    have he : s + ((q : Int) - 1) * step + 1 + (if (i : Int) < r then step else 0) =
        first + ((upto q r (i + 1) : Int) - 1) * step + 1 := by
      rw [h1, hup]
      split <;> ring
    rw [he]
    have hle2 : first + ((upto q r (i + 1) : Int) - 1) * step + 1 ≤ last := by
      have : ((upto q r (i + 1) : Int) - 1) * step ≤ ((N : Int) - 1) * step :=
        mul_le_mul_of_nonneg_right (by omega) (by omega)
      omega
    have hst : (if first + ((upto q r (i + 1) : Int) - 1) * step + 1 < last
        then first + ((upto q r (i + 1) : Int) - 1) * step + 1 else last) =
        first + ((upto q r (i + 1) : Int) - 1) * step + 1 := by
      split <;> omega
    rw [hst]
    refine ⟨by ring, ?_, ?_⟩
    · intro j hj
      by_cases hji : j = i
      · subst hji; simp only [upd, if_true, h1]
      · simp only [upd, if_neg hji]; exact h2 j (by omega)
    · intro j hj
      simp only [upd, if_neg (by omega : ¬ j = i)]; exact h3 j (by omega)

/-- the blocks follow each other -/
theorem blocks {first step : Int} (hs : 1 ≤ step) (u : Nat → Nat) (h0 : u 0 = 0) (hu : ∀ i, u i ≤ u (i + 1)) (n : Nat) :
    (List.range n).flatMap (fun i => indices (first + (u i : Int) * step) (first + ((u (i + 1) : Int) - 1) * step + 1) step) =
    indices first (first + ((u n : Int) - 1) * step + 1) step := by
  induction n with
  | zero => simp [h0]; rw [indices_nil hs (by omega)]
  | succ n ih =>
    rw [List.range_succ, List.flatMap_append, ih]
    simp only [List.flatMap_cons, List.flatMap_nil, List.append_nil]
    have hmono := hu n
    by_cases hz : u n = 0
    · rw [hz]
      rw [indices_nil (b := first + (((0 : Nat) : Int) - 1) * step + 1) hs (by push_cast; omega)]
      simp
    · have hle : ((u n : Int) - 1) * step ≤ ((u (n + 1) : Int) - 1) * step :=
        mul_le_mul_of_nonneg_right (by omega) (by omega)
      have := indices_take (c := first + ((u (n + 1) : Int) - 1) * step + 1) hs (u n) (by omega) first
        (e := first + ((u n : Int) - 1) * step + 1) (by rw [min_eq_left (by omega)]; ring)
      rw [this]
      congr 2
      ring

theorem on_sum {f : Nat → List Int} (n : Nat) (x : Int) :
    ((List.range n).flatMap f).count x = sumN (fun i => (f i).count x) n := by
  induction n with
  | zero => rfl
  | succ n ih =>
    rw [List.range_succ, List.flatMap_append, List.count_append, ih]
    simp [sumN]

theorem ceilDiv_eq {a b : Int} (hb : 1 ≤ b) {n : Int} (h1 : a ≤ n * b) (h2 : (n - 1) * b < a) : ceilDiv a b = n := by
  unfold ceilDiv
  have e : a + b - 1 = (a - (n - 1) * b - 1) + b * n := by ring
  rw [e, Int.add_mul_ediv_left _ _ (by omega), Int.ediv_eq_zero_of_lt (by omega)]
  · omega
  · have : (n - 1) * b = n * b - b := by ring
    omega

/-- same indices below `last` and below the last index plus one -/
theorem indices_tight {first last step : Int} {N : Nat} (hs : 1 ≤ step) (h1 : last - first ≤ (N : Int) * step)
    (h2 : first + ((N : Int) - 1) * step + 1 ≤ last) :
    indices first (first + ((N : Int) - 1) * step + 1) step = indices first last step := by
  unfold indices
  congr 2
  rw [show last - first + step - 1 = (last - first) + step - 1 by ring,
    show first + ((N : Int) - 1) * step + 1 - first + step - 1 = (((N : Int) - 1) * step + 1) + step - 1 by ring]
  have e1 := ceilDiv_eq (a := last - first) hs h1 (by omega)
  have e2 := ceilDiv_eq (a := ((N : Int) - 1) * step + 1) (n := N) hs
    (by have : ((N : Int) - 1) * step = N * step - step := by ring
        omega) (by omega)
  unfold ceilDiv at e1 e2
  rw [e1, e2]

/-- What `setloop` with grain 0 prepares for a non-empty range. -/
theorem setloopStatic_good {old : Nat → Range} {first last step : Int} {nw : Nat} {L : Loop}
    (hs : 1 ≤ step) (hn : 1 ≤ nw) (hr : first < last) (hb : last - first < 2 ^ 63)
    (ho : ∀ i, 1 ≤ i → (old i).ntask ≤ 0) (h : setloopStatic old first last step nw = some L) :
    Good first last step nw L ∧ L.static = true ∧ L.nw = nw ∧ (∀ i, i < nw → (L.d i).ntask = 1) ∧
    (List.range nw).flatMap (fun i => indices (L.d i).start (L.d i).stop step) = indices first last step := by
  have hN0 : 1 ≤ ceilDiv (last - first) step := ceilDiv_pos (by omega) hs
  have hN1 : last - first ≤ ceilDiv (last - first) step * step := ceilDiv_le hs
  have hN2 : (ceilDiv (last - first) step - 1) * step < last - first := ceilDiv_lt hs
  unfold setloopStatic initStatic finish at h
  simp only at h
  generalize hN : ceilDiv (last - first) step = N at *
  obtain ⟨Nn, rfl⟩ : ∃ Nn : Nat, N = Nn := ⟨N.toNat, by omega⟩
  have hbig : (Nn : Int) % 2 ^ 64 = Nn := by
    apply Int.emod_eq_of_lt (by omega)
    have : ((Nn : Int) - 1) * 1 ≤ ((Nn : Int) - 1) * step := mul_le_mul_of_nonneg_left hs (by omega)
    have h1 : (2 : Int) ^ 63 = 9223372036854775808 := by norm_num
    have h2 : (2 : Int) ^ 64 = 18446744073709551616 := by norm_num
    omega
  rw [hbig] at h
  have hdm := Nat.div_add_mod Nn nw
  have hml := Nat.mod_lt Nn (by omega : nw > 0)
  rw [show (Nn : Int) % (nw : Int) = ((Nn % nw : Nat) : Int) by push_cast; rfl,
    show (Nn : Int).tdiv (nw : Int) = ((Nn / nw : Nat) : Int) by
      rw [Int.tdiv_eq_ediv_of_nonneg (by omega)]; push_cast; rfl] at h
  generalize Nn / nw = q at *
  generalize Nn % nw = r at *
  obtain ⟨h1, h2, h3⟩ := fillS_spec (old := old) (first := first) (last := last) (q := q) hs (by omega) hdm.symm hml nw (Nat.le_refl _)
  generalize fillS old first last step q r nw = F at h h1 h2 h3
  obtain ⟨d, s⟩ := F
  simp only at h h1 h2 h3
  rw [if_neg (by omega)] at h
  simp only [Option.some.injEq] at h; subst h
  have hnw' : (if (nw : Int) ≤ nw then (nw : Int).toNat else nw) = nw := by rw [if_pos (by omega)]; simp
  have hupn : upto q r nw = Nn := by unfold upto; rw [Nat.min_eq_right (by omega)]; omega
  have humono : ∀ i, upto q r i ≤ upto q r (i + 1) := by
    intro i; unfold upto
    have : (i + 1) * q = i * q + q := by ring
    omega
  have hflat : (List.range nw).flatMap (fun i => indices (d i).start (d i).stop step) = indices first last step := by
    rw [← indices_tight (N := Nn) hs hN1 (by omega), ← hupn, ← blocks hs (upto q r) (by simp [upto]) humono nw]
    rw [List.flatMap_def, List.flatMap_def]
    congr 1
    apply List.map_congr_left
    intro i hi
    rw [h2 i (List.mem_range.1 hi)]
  have hchunk : (1 : Int) ≤ if (r : Int) ≠ 0 then (q : Int) + 1 else q := by
    split
    · omega
    · rename_i h0
      have h0 : r = 0 := by simpa using h0
      have : q ≠ 0 := by rintro rfl; simp [h0] at hdm; omega
      omega
  refine ⟨?_, rfl, hnw', fun i hi => by simp only [h2 i hi], hflat⟩
  constructor <;> simp only [hnw']
  · intro x
    have := congrArg (List.count x) hflat
    rw [on_sum, count_indices hs] at this
    rw [← this]
    exact Farm.sumN_congr fun i hi => (count_indices hs).symm
  · intro i hi
    right
    rw [h2 i hi]
    simp only
    have hup : (upto q r (i + 1) : Int) = upto q r i + q + if i < r then 1 else 0 := by
      unfold upto
      have : (i + 1) * q = i * q + q := by ring
      split <;> omega
    rw [hup]
    by_cases hir : i < r
    · have hr0 : (r : Int) ≠ 0 := by omega
      rw [if_pos hir, if_pos hr0]
      have : ((upto q r i : Int) + q + 1 - 1) * step = (upto q r i : Int) * step + q * step := by ring
      have : (1 : Int) * (((q : Int) + 1) * step) = q * step + step := by ring
      omega
    · rw [if_neg hir]
      have e1 : ((upto q r i : Int) + q + 0 - 1) * step = (upto q r i : Int) * step + q * step - step := by ring
      split
      · have : (1 : Int) * (((q : Int) + 1) * step) = q * step + step := by ring
        omega
      · have : (1 : Int) * ((q : Int) * step) = q * step := by ring
        omega
  · intro hf; simp at hf
  · intro i hi; rw [h2 i hi]
  · intro i hi; rw [h3 i hi]; exact ho i (by omega)
  · have : sumN (fun i => (d i).ntask.toNat) nw = sumN (fun _ => 1) nw :=
      Farm.sumN_congr fun i hi => by rw [h2 i hi]; rfl
    rw [this]
    have : ∀ n, sumN (fun _ => 1) n = n := by
      intro n
      induction n with
      | zero => rfl
      | succ n ih => simp only [sumN]; omega
    rw [this]
  · exact hchunk
  · exact hn
  · exact Nat.le_refl _

/-! ## Empty ranges -/

theorem fillS_empty {old : Nat → Range} {first last step q r : Int} (hs : 1 ≤ step) (hr : last ≤ first) (hq : q ≤ 0)
    (i : Nat) : (q ≤ -1 ∨ last ≤ (fillS old first last step q r i).2) ∧
    (∀ j, j < i → ((fillS old first last step q r i).1 j).ntask = 1 ∧
      ((fillS old first last step q r i).1 j).stop ≤ ((fillS old first last step q r i).1 j).start) ∧
    (∀ j, i ≤ j → (fillS old first last step q r i).1 j = old j) := by
  induction i with
  | zero => exact ⟨Or.inr hr, by simp, by simp [fillS]⟩
  | succ i ih =>
    obtain ⟨h1, h2, h3⟩ := ih
    simp only [fillS]
    generalize hF : fillS old first last step q r i = F at h1 h2 h3 ⊢
    obtain ⟨d, s⟩ := F
    simp only at h1 h2 h3 ⊢
    have hle : (q - 1) * step ≤ -step := by nlinarith
    have hle2 : q ≤ -1 → (q - 1) * step ≤ -step - step := by intro h; nlinarith
    have hq0 : q = 0 → (q - 1) * step = -step := by rintro rfl; ring
    generalize hst : (if s + (q - 1) * step + 1 + (if (i : Int) < r then step else 0) < last
      then s + (q - 1) * step + 1 + (if (i : Int) < r then step else 0) else last) = stop
    refine ⟨?_, ?_, ?_⟩
    · rcases h1 with h1 | h1
      · exact Or.inl h1
      · by_cases hq1 : q ≤ -1
        · exact Or.inl hq1
        · right
          have := hq0 (by omega)
          rw [← hst]
          split <;> split <;> omega
    · intro j hj
      by_cases hji : j = i
      · subst hji; simp only [upd, if_true]
        refine ⟨trivial, ?_⟩
        rw [← hst]
        rcases h1 with h1 | h1
        · have := hle2 h1
          split <;> split <;> omega
        · split <;> split <;> omega
      · simp only [upd, if_neg hji]; exact h2 j (by omega)
    · intro j hj
      simp only [upd, if_neg (by omega : ¬ j = i)]; exact h3 j (by omega)

/-- a worker of a loop with an empty range -/
def EOk (P : Par) (w : Nat) (r : Range) : PC → Prop
  | .run c e => e ≤ c ∧ (r.ntask ≤ 0 ∨ (r.ntask ≤ 1 ∧ r.stop ≤ r.start))
  | .l1 id => id = w ∧ (r.ntask ≤ 0 ∨ (r.ntask ≤ 1 ∧ r.stop ≤ r.start))
  | .ld id => id = w ∧ r.ntask ≤ 1 ∧ r.stop ≤ r.start
  | .cas id old => id = w ∧ r.ntask ≤ 1 ∧ r.stop ≤ old ∧ r.stop ≤ r.start
  | .sub id old => id = w ∧ r.ntask ≤ 1 ∧ r.stop ≤ old
  | .out => r.ntask ≤ 0
  | _ => False

structure EInv (P : Par) (s : A) : Prop where
  log : s.log = []
  ok : ∀ w, w < P.nw → EOk P w (s.d w) (s.pc w)
  rest : ∀ i, P.nw ≤ i → (s.d i).ntask ≤ 0

theorem EInv.step {s s' : A} {a : Act} (hst : P.static = true) (h : EInv P s)
    (ha : Parfor.step P s a = some s') : EInv P s' := by
  have haw : P.away = .out := by unfold Par.away; rw [hst]; rfl
  have move : ∀ w p r, w < P.nw → EOk P w r p →
      EInv P ⟨upd s.d w r, upd s.pc w p, s.log⟩ := by
    intro w p r hw hp
    refine ⟨h.log, ?_, ?_⟩
    · intro v hv
      by_cases hvw : v = w
      · subst hvw; simp only [upd, if_true]; exact hp
      · simp only [upd, if_neg hvw]; exact h.ok v hv
    · intro i hi
      simp only [upd, if_neg (by omega : ¬ i = w)]; exact h.rest i hi
  have movep : ∀ w p, w < P.nw → EOk P w (s.d w) p → EInv P { s with pc := upd s.pc w p } := by
    intro w p hw hp
    have := move w p (s.d w) hw hp
    have e : upd s.d w (s.d w) = s.d := by
      funext v; by_cases hv : v = w
      · subst hv; simp only [upd, if_true]
      · simp only [upd, if_neg hv]
    rw [e] at this
    exact this
  cases a with
  | pick w m =>
    simp only [Parfor.step] at ha
    split at ha
    · rename_i hc
      have := h.ok w hc.1
      rw [hc.2.2] at this; exact this.elim
    · simp at ha
  | casFail w =>
    simp only [Parfor.step] at ha
    split at ha
    · rename_i hw
      split at ha
      · rename_i id old hp
        simp only [Option.some.injEq] at ha; subst ha
        have ho := h.ok w hw
        rw [hp] at ho
        exact movep w _ hw ⟨ho.1, Or.inr ⟨ho.2.1, ho.2.2.2⟩⟩
      · simp at ha
    · simp at ha
  | go w =>
    simp only [Parfor.step] at ha
    split at ha
    swap
    · simp at ha
    rename_i hw
    unfold go at ha
    have ho := h.ok w hw
    cases hp : s.pc w with
    | idle => rw [hp] at ha; simp at ha
    | mx => rw [hp] at ha; simp at ha
    | out => rw [hp] at ha; simp at ha
    | nt m => rw [hp] at ho; exact ho.elim
    | run cur stop =>
      rw [hp] at ha ho
      dsimp only at ha
      have ho : stop ≤ cur ∧ _ := ho
      rw [if_neg (by omega)] at ha
      simp only [Option.some.injEq] at ha; subst ha
      exact movep w _ hw ⟨rfl, ho.2⟩
    | l1 id =>
      rw [hp] at ha ho; simp only [Option.some.injEq] at ha; subst ha
      obtain ⟨rfl, ho⟩ := ho
      by_cases hn : 0 < (s.d id).ntask
      · rw [if_pos hn]
        refine movep id _ hw ⟨rfl, ?_⟩
        rcases ho with ho | ho
        · omega
        · exact ho
      · rw [if_neg hn, haw]
        exact movep id _ hw (show (s.d id).ntask ≤ 0 by omega)
    | ld id =>
      rw [hp] at ha ho; simp only [Option.some.injEq] at ha; subst ha
      obtain ⟨rfl, ho⟩ := ho
      exact movep id _ hw ⟨rfl, ho.1, ho.2, ho.2⟩
    | cas id old =>
      rw [hp] at ha ho
      obtain ⟨rfl, h1, h2, h3⟩ := ho
      dsimp only at ha
      split at ha
      · simp only [Option.some.injEq] at ha; subst ha
        exact move id _ _ hw ⟨rfl, h1, h2⟩
      · simp only [Option.some.injEq] at ha; subst ha
        exact movep id _ hw ⟨rfl, Or.inr ⟨h1, h3⟩⟩
    | sub id old =>
      rw [hp] at ha ho
      obtain ⟨rfl, h1, h2⟩ := ho
      simp only [Option.some.injEq] at ha; subst ha
      have hc : ¬ old < P.endOf (s.d id).stop old := by
        unfold Par.endOf; rw [min_def']; split <;> omega
      rw [if_neg hc, haw]
      exact move id _ _ hw (show (s.d id).ntask - 1 ≤ 0 by omega)

end FF.Parfor
