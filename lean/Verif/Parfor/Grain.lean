import Verif.Parfor.Static
/-!
# Static scheduling with a grain (C31)

Models `init_data_static` with `_chunk < 0` (ff/parallel_for_internals.hpp 535-554), the body built by
`FF_PARFOR_T_START_STATIC` (296-307) and what a worker gets from `sendTask` (584-620) or
`nextTaskConcurrent` (643-727) in this case: its own entry of the table, once.

Simplification: the workers are not interleaved here.  Each of them uses its own entry only, takes one
task from it and then returns (673), so the calls it makes are a list fixed by the entry; an execution is
any interleaving of these lists.
-/
namespace FF.Parfor
open FF.Node (upd)

/-- `for (long i = a; i < b; i += step)`: the values of `i`.  With `step <= 0` the loop of the code does
not end. -/
def seqLoop (a b step : Int) : List Int :=
  if _h : a < b ∧ 0 < step then a :: seqLoop (a + step) b step else []
termination_by (b - a).toNat
decreasing_by omega

theorem seqLoop_eq {step : Int} (hs : 1 ≤ step) (a b : Int) : seqLoop a b step = indices a b step := by
  unfold seqLoop
  split
  · rename_i h
    rw [seqLoop_eq hs (a + step) b, indices_next hs h.1]
  · rw [indices_nil hs (by omega)]
termination_by (b - a).toNat
decreasing_by omega

/-- 535-553 and 822-826: the table, the number of workers started; the assertion on the number of tasks
fails with `none`. -/
def setloopGrain (old : Nat → Range) (first last step g : Int) (nw : Nat) : Option Loop :=
  let T := ceilDiv (ceilDiv (last - first) step) g
  let n := if T < 0 then nw else min nw T.toNat
  finish true nw (fun i => if i < n then ⟨1, first + (i : Int) * g, last⟩ else old i, n, last)

/-- The calls made by a worker with the task `(a, b)`: the two loops of 303-306. -/
def blockCyclic (nw : Nat) (step g a b : Int) : List Int :=
  (seqLoop a b (nw * (g * step))).flatMap fun i => seqLoop i (min b (i + g * step)) step

/-- The calls made by worker `w`. -/
def grainCalls (L : Loop) (step g : Int) (w : Nat) : List Int :=
  blockCyclic L.nw step g (L.d w).start ((L.par step 0).endOf (L.d w).stop (L.d w).start)

/-- The log of an execution of a `parallel_for_static` loop with grain `g`.  With one worker the caller
executes the whole range (319-326); `nw = 1` in the call selects the plain loop (parallel_for.hpp
329-333). -/
inductive RunGrain (first last step g : Int) (nw : Nat) (L : Loop) : List (Nat × Int) → Prop where
  | plain : L.nw = 1 → nw = 1 → RunGrain first last step g nw L ((seqLoop first last step).map fun i => (0, i))
  | one : L.nw = 1 → nw ≠ 1 → RunGrain first last step g nw L ((blockCyclic 1 step g first last).map fun i => (0, i))
  | par (log : List (Nat × Int)) : 1 < L.nw → (∀ e ∈ log, e.1 < L.nw) →
    (∀ w, w < L.nw → (log.filter fun e => e.1 = w).map Prod.snd = grainCalls L step g w) →
    RunGrain first last step g nw L log

/-- The table after the loop: each worker has taken its task. -/
def afterGrain (L : Loop) (step : Int) : Nat → Range :=
  if L.nw = 1 then L.d
  else fun i => if i < L.nw then ⟨0, (L.par step 0).next (L.d i).stop (L.d i).start, (L.d i).stop⟩ else L.d i

/-! ## Lists -/

theorem flat_count {log : List (Nat × Int)} {n : Nat} (h : ∀ e ∈ log, e.1 < n) :
    ((List.range n).flatMap fun w => (log.filter fun e => e.1 = w).map Prod.snd).Perm (log.map Prod.snd) := by
  induction log with
  | nil =>
    have : ((List.range n).flatMap fun _ => ([] : List Int)) = [] := by simp
    simpa using this
  | cons a l ih =>
    have ih := ih fun e he => h e (List.mem_cons_of_mem _ he)
    have ha := h a (List.mem_cons_self ..)
    rw [List.map_cons]
    refine List.Perm.trans ?_ (List.Perm.cons _ ih)
    obtain ⟨w, x⟩ := a
    simp only at ha
    obtain ⟨k, rfl⟩ : ∃ k, n = w + 1 + k := ⟨n - (w + 1), by omega⟩
    have hr : List.range (w + 1 + k) = List.range w ++ [w] ++ (List.range k).map (fun i => w + 1 + i) := by
      rw [List.range_add, List.range_succ]
    rw [hr]
    simp only [List.flatMap_append, List.flatMap_cons, List.flatMap_nil, List.append_nil, List.flatMap_map]
    have e1 : (List.range w).flatMap (fun v => (((w, x) :: l).filter fun e => e.1 = v).map Prod.snd) =
        (List.range w).flatMap (fun v => (l.filter fun e => e.1 = v).map Prod.snd) := by
      rw [List.flatMap_def, List.flatMap_def]
      congr 1
      apply List.map_congr_left
      intro v hv
      have : ¬ w = v := by have := List.mem_range.1 hv; omega
      simp [this]
    have e2 : (List.range k).flatMap (fun v => (((w, x) :: l).filter fun e => e.1 = w + 1 + v).map Prod.snd) =
        (List.range k).flatMap (fun v => (l.filter fun e => e.1 = w + 1 + v).map Prod.snd) := by
      rw [List.flatMap_def, List.flatMap_def]
      congr 1
      apply List.map_congr_left
      intro v hv
      have : ¬ w = w + 1 + v := by omega
      simp [this]
    rw [e1, e2]
    have e3 : (((w, x) :: l).filter fun e => e.1 = w).map Prod.snd = x :: (l.filter fun e => e.1 = w).map Prod.snd := by
      simp
    rw [e3]
    simp only [List.append_assoc, List.cons_append]
    exact List.perm_middle

theorem mem_block {n : Nat} {g a b x : Int} (hn : 1 ≤ n) (hg : 1 ≤ g) :
    x ∈ blockCyclic n 1 g a b ↔ a ≤ x ∧ x < b ∧ (x - a) % (n * g) < g := by
  have hng : 1 ≤ (n : Int) * g := by
    have : (1 : Int) * 1 ≤ n * g := mul_le_mul (by omega) hg (by omega) (by omega)
    omega
  unfold blockCyclic
  rw [List.mem_flatMap]
  simp only [mul_one]
  constructor
  · rintro ⟨i, hi, hx⟩
    rw [seqLoop_eq hng, mem_indices hng] at hi
    rw [seqLoop_eq (by omega), mem_indices (by omega)] at hx
    obtain ⟨h1, h2, h3, h4⟩ := hi
    obtain ⟨h5, h6, _⟩ := hx
    rw [lt_min_iff] at h6
    refine ⟨by omega, h6.1, ?_⟩
    obtain ⟨k, hk⟩ := (⟨h3, h4⟩ : ∃ k, i - a = n * g * k)
    have : x - a = (x - i) + n * g * k := by omega
    rw [this, Int.add_mul_emod_self_left]
    have : (1 : Int) * g ≤ n * g := mul_le_mul_of_nonneg_right (by omega) (by omega)
    rw [Int.emod_eq_of_lt (by omega) (by omega)]
    omega
  · rintro ⟨h1, h2, h3⟩
    have hm0 := Int.emod_nonneg (x - a) (show (n : Int) * g ≠ 0 by omega)
    have hdm := Int.mul_ediv_add_emod (x - a) (n * g)
    have hd0 : 0 ≤ (x - a) / (n * g) := Int.ediv_nonneg (by omega) (by omega)
    have hp0 : 0 ≤ n * g * ((x - a) / (n * g)) := mul_nonneg (by omega) hd0
    refine ⟨a + n * g * ((x - a) / (n * g)), ?_, ?_⟩
    · rw [seqLoop_eq hng, mem_indices hng]
      refine ⟨by omega, by omega, (x - a) / (n * g), by omega⟩
    · rw [seqLoop_eq (by omega), mem_indices (by omega), lt_min_iff]
      exact ⟨by omega, ⟨by omega, by omega⟩, one_dvd _⟩

theorem nodup_block {n : Nat} {g a b : Int} (hn : 1 ≤ n) (hg : 1 ≤ g) : (blockCyclic n 1 g a b).Nodup := by
  have hng : 1 ≤ (n : Int) * g := by
    have : (1 : Int) * 1 ≤ n * g := mul_le_mul (by omega) hg (by omega) (by omega)
    omega
  have hng2 : g ≤ (n : Int) * g := by
    have : (1 : Int) * g ≤ n * g := mul_le_mul_of_nonneg_right (by omega) (by omega)
    omega
  unfold blockCyclic
  simp only [mul_one]
  rw [List.nodup_flatMap]
  refine ⟨fun i _ => by rw [seqLoop_eq (by omega)]; exact nodup_indices (by omega), ?_⟩
  rw [seqLoop_eq hng]
  refine (nodup_indices hng).pairwise_of_forall_ne fun i hi j hj hij x hx hy => ?_
  rw [mem_indices hng] at hi hj
  simp only at hx hy
  rw [seqLoop_eq (by omega), mem_indices (by omega), lt_min_iff] at hx hy
  obtain ⟨_, _, k, hk⟩ := hi
  obtain ⟨_, _, l, hl⟩ := hj
  have e : i - j = n * g * (k - l) := by rw [mul_sub]; omega
  have hz : k - l = 0 := by
    by_contra hne
    rcases lt_or_gt_of_ne hne with h | h
    · have : n * g * (k - l) ≤ n * g * (-1) := mul_le_mul_of_nonneg_left (by omega) (by omega)
      omega
    · have : n * g * 1 ≤ n * g * (k - l) := mul_le_mul_of_nonneg_left (by omega) (by omega)
      omega
  rw [hz] at e
  omega

/-- With one worker the nested loops walk the whole range, for any step. -/
theorem block_one {step g : Int} (hs : 1 ≤ step) (hg : 1 ≤ g) (a b : Int) :
    blockCyclic 1 step g a b = indices a b step := by
  obtain ⟨n, rfl⟩ : ∃ n : Nat, g = n := ⟨g.toNat, by omega⟩
  have hgs : 1 ≤ (n : Int) * step := by
    have : (1 : Int) * 1 ≤ n * step := mul_le_mul (by omega) hs (by omega) (by omega)
    omega
  have key : ∀ m : Nat, ∀ a : Int, (b - a).toNat ≤ m → blockCyclic 1 step n a b = indices a b step := by
    intro m
    induction m with
    | zero =>
      intro a hm
      unfold blockCyclic
      rw [seqLoop_eq (by omega), indices_nil (by omega) (by omega), indices_nil hs (by omega)]
      rfl
    | succ m ih =>
      intro a hm
      by_cases hab : a < b
      · have ih := ih (a + n * step) (by omega)
        unfold blockCyclic at ih ⊢
        have hgs1 : 1 ≤ ((1 : Nat) : Int) * (n * step) := by omega
        rw [seqLoop_eq hgs1] at ih ⊢
        rw [indices_next hgs1 hab, List.flatMap_cons]
        rw [show a + ((1 : Nat) : Int) * (n * step) = a + n * step by omega, ih, seqLoop_eq hs]
        have hns : ((n : Int) - 1) * step = n * step - step := by ring
        have ht := indices_take (c := b) hs n (by omega) a (e := min (a + (((n : Int) - 1) * step + 1)) b) rfl
        rw [ht]
        congr 1
        · -- both ends give the same indices
          have hp1 : (indices a (min b (a + n * step)) step).Perm (indices a (min (a + (((n : Int) - 1) * step + 1)) b) step) := by
            rw [List.perm_iff_count]
            intro x
            rw [count_indices hs, count_indices hs]
            unfold on
            congr 1
            apply propext
            rw [lt_min_iff, lt_min_iff]
            constructor
            · rintro ⟨h1, ⟨h2, h3⟩, k, hk⟩
              refine ⟨h1, ⟨?_, h2⟩, k, hk⟩
              have : k < n := by
                by_contra hc
                have : step * (n : Int) ≤ step * k := mul_le_mul_of_nonneg_left (by omega) (by omega)
                have : step * (n : Int) = n * step := by ring
                omega
              have : step * k ≤ step * ((n : Int) - 1) := mul_le_mul_of_nonneg_left (by omega) (by omega)
              have : step * ((n : Int) - 1) = n * step - step := by ring
              omega
            · rintro ⟨h1, ⟨h2, h3⟩, h4⟩
              exact ⟨h1, ⟨h3, by omega⟩, h4⟩
          have hs1 : ∀ c, (indices a c step).Pairwise (· < ·) := by
            intro c
            unfold indices
            rw [List.pairwise_map]
            refine List.pairwise_lt_range.imp ?_
            intro i j hij
            have : (i : Int) * step < j * step := by
              apply mul_lt_mul_of_pos_right _ (by omega)
              omega
            omega
          exact List.Perm.eq_of_pairwise (fun x y _ _ h1 h2 => by omega) (hs1 _) (hs1 _) hp1
        · by_cases hc : a + (((n : Int) - 1) * step + 1) ≤ b
          · rw [min_eq_left hc]; congr 1; rw [hns]; ring
          · rw [min_eq_right (by omega), indices_nil hs (by omega), indices_nil hs (by omega)]
      · unfold blockCyclic
        rw [seqLoop_eq (by omega), indices_nil (by omega) (by omega), indices_nil hs (by omega)]
        rfl
  exact key _ a (Nat.le_refl _)

/-! ## C31 -/

theorem emod_window {n : Nat} {g y : Int} {w : Nat} (hg : 1 ≤ g) (hw : w < n) (hy : 0 ≤ y) :
    (w * g ≤ y ∧ (y - w * g) % (n * g) < g) ↔ (y / g) % n = w := by
  have hn : (0 : Int) < n := by omega
  have hng : (0 : Int) < n * g := mul_pos hn (by omega)
  have hdm := Int.mul_ediv_add_emod y g
  have h0 := Int.emod_nonneg y (show g ≠ 0 by omega)
  have h1 := Int.emod_lt_of_pos y (show 0 < g by omega)
  have hdm2 := Int.mul_ediv_add_emod (y / g) n
  have h2 := Int.emod_nonneg (y / g) (show (n : Int) ≠ 0 by omega)
  have h3 := Int.emod_lt_of_pos (y / g) hn
  have hq0 : 0 ≤ y / g := Int.ediv_nonneg hy (by omega)
  have hqq : 0 ≤ y / g / n := Int.ediv_nonneg hq0 (by omega)
  generalize y / g / n = Q at *
  generalize y / g % n = R at *
  generalize y % g = S at *
  generalize y / g = U at *
  have ey : y = n * g * Q + g * R + S := by rw [← hdm, ← hdm2]; ring
  constructor
  · rintro ⟨hle, hlt⟩
    have e2 : y - w * g = (g * (R - w) + S) + n * g * Q := by rw [ey]; ring
    rw [e2, Int.add_mul_emod_self_left] at hlt
    rcases lt_trichotomy R w with h | h | h
    · exfalso
      have a1 : g * (R - w) ≤ g * (-1) := mul_le_mul_of_nonneg_left (by omega) (by omega)
      have a2 : g * (-((n : Int) - 1)) ≤ g * (R - w) := mul_le_mul_of_nonneg_left (by omega) (by omega)
      have a3 : g * (-((n : Int) - 1)) = g - n * g := by ring
      rw [← Int.add_emod_right, Int.emod_eq_of_lt (by omega) (by omega)] at hlt
      omega
    · exact h
    · exfalso
      have a1 : g * 1 ≤ g * (R - w) := mul_le_mul_of_nonneg_left (by omega) (by omega)
      have a2 : g * (R - w) ≤ g * ((n : Int) - 1) := mul_le_mul_of_nonneg_left (by omega) (by omega)
      have a3 : g * ((n : Int) - 1) = n * g - g := by ring
      rw [Int.emod_eq_of_lt (by omega) (by omega)] at hlt
      omega
  · rintro rfl
    have e2 : y - w * g = S + n * g * Q := by rw [ey]; ring
    have hp : 0 ≤ n * g * Q := mul_nonneg (by omega) hqq
    refine ⟨by omega, ?_⟩
    rw [e2, Int.add_mul_emod_self_left, Int.emod_eq_of_lt h0 (by
      have : (1 : Int) * g ≤ n * g := mul_le_mul_of_nonneg_right (by omega) (by omega)
      omega)]
    exact h1

/-- The blocks of all workers are the whole range, when the step is 1 and the range does not start below
zero. -/
theorem grain_perm {old : Nat → Range} {first last g : Int} {nw : Nat} {L : Loop} (hg : 1 ≤ g)
    (hf : 0 ≤ first) (h : setloopGrain old first last 1 g nw = some L) :
    ((List.range L.nw).flatMap (grainCalls L 1 g)).Perm (indices first last 1) := by
  unfold setloopGrain finish at h
  simp only at h
  generalize hT : ceilDiv (ceilDiv (last - first) 1) g = T at h
  generalize hnn : (if T < 0 then nw else min nw T.toNat) = n at h
  split at h
  · simp at h
  rename_i hn1
  simp only [Option.some.injEq] at h
  have hnw : n ≤ nw := by rw [← hnn]; split <;> omega
  rw [if_pos (by omega)] at h
  have hLn : L.nw = n := by rw [← h]; simp
  have hLd : ∀ i, i < n → L.d i = ⟨1, first + (i : Int) * g, last⟩ := by
    intro i hi; rw [← h]; simp only [if_pos hi]
  have hLc : L.chunk = last := by rw [← h]
  rw [hLn]
  have hcalls : ∀ w, w < n → grainCalls L 1 g w = blockCyclic n 1 g (first + w * g) last := by
    intro w hw
    unfold grainCalls Par.endOf Loop.par
    simp only [hLd w hw, hLn, hLc]
    have : 0 ≤ (w : Int) * g := mul_nonneg (by omega) (by omega)
    rw [min_eq_right (by omega)]
  have hmem : ∀ w, w < n → ∀ x, x ∈ grainCalls L 1 g w ↔ (first ≤ x ∧ x < last ∧ ((x - first) / g) % n = w) := by
    intro w hw x
    rw [hcalls w hw, mem_block (by omega) hg]
    have hwg : 0 ≤ (w : Int) * g := mul_nonneg (by omega) (by omega)
    by_cases hx : first ≤ x
    · have := emod_window (y := x - first) hg hw (by omega)
      rw [← this, show x - (first + w * g) = x - first - w * g by ring]
      constructor
      · rintro ⟨h1, h2, h3⟩; exact ⟨hx, h2, by omega, h3⟩
      · rintro ⟨h1, h2, h3, h4⟩; exact ⟨by omega, h2, h4⟩
    · constructor
      · rintro ⟨h1, _⟩; omega
      · rintro ⟨h1, _⟩; omega
  rw [List.perm_ext_iff_of_nodup _ (nodup_indices (by omega))]
  · intro x
    rw [List.mem_flatMap, mem_indices (by omega)]
    constructor
    · rintro ⟨w, hw, hx⟩
      have := (hmem w (List.mem_range.1 hw) x).1 hx
      exact ⟨this.1, this.2.1, one_dvd _⟩
    · rintro ⟨h1, h2, _⟩
      have h0 := Int.emod_nonneg ((x - first) / g) (show (n : Int) ≠ 0 by omega)
      have h3 := Int.emod_lt_of_pos ((x - first) / g) (show (0 : Int) < n by omega)
      refine ⟨(((x - first) / g) % n).toNat, List.mem_range.2 (by omega), ?_⟩
      rw [hmem _ (by omega)]
      exact ⟨h1, h2, by omega⟩
  · rw [List.nodup_flatMap]
    constructor
    · intro w hw
      rw [hcalls w (List.mem_range.1 hw)]
      exact nodup_block (by have := List.mem_range.1 hw; omega) hg
    · refine List.nodup_range.pairwise_of_forall_ne fun i hi j hj hij x hx hy => ?_
      have := (hmem i (List.mem_range.1 hi) x).1 hx
      have := (hmem j (List.mem_range.1 hj) x).1 hy
      omega

end FF.Parfor
