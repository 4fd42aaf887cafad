import Verif.Swsr.Lemmas
/-!
# Helper lemmas about `multipush`, `mpush`, `flush`
-/
namespace FF.Swsr
variable {α : Type}

theorem wrs_append (q : Q α) (a b : List (Nat × Option α)) :
    q.wrs (a ++ b) = (q.wrs a).bind (fun q' => q'.wrs b) := by
  induction a generalizing q with
  | nil => simp [Q.wrs]
  | cons x a ih =>
    obtain ⟨i, v⟩ := x
    simp only [List.cons_append, Q.wrs]
    cases h : q.wr i v with
    | none => simp
    | some q1 => simp [ih]

theorem downLoop_wrs (q : Q α) (data : List (Option α)) (l i : Nat) (hi : i < data.length)
    (hl : l < q.buf.length) (cnt : Nat) (h1 : cnt ≤ l + 1) (h2 : cnt ≤ i + 1) :
    ∃ ws b, downLoop data l i cnt = some ws ∧ q.wrs ws = some { q with buf := b } ∧
      b.length = q.buf.length ∧
      ∀ j, b[j]? = if l + 1 - cnt ≤ j ∧ j ≤ l then data[i - (l - j)]? else q.buf[j]? := by
  induction cnt with
  | zero =>
    refine ⟨[], q.buf, by simp [downLoop], by simp [Q.wrs], rfl, ?_⟩
    intro j
    simp only [Nat.sub_zero]
    rw [if_neg (by omega)]
  | succ cnt ih =>
    obtain ⟨ws, b, g1, g2, g3, g4⟩ := ih (by omega) (by omega)
    have hd : data[i - cnt]? = some data[i - cnt] := List.getElem?_eq_getElem (by omega)
    refine ⟨ws ++ [(l - cnt, data[i - cnt])], b.set (l - cnt) data[i - cnt], ?_, ?_, ?_, ?_⟩
    · unfold downLoop at g1 ⊢
      rw [List.range_succ, List.mapM_append, g1]
      simp [argAt, hd]
    · rw [wrs_append, g2]
      simp [Q.wrs, Q.wr, g3, show l - cnt < q.buf.length by omega]
    · simp [g3]
    · intro j
      rw [List.getElem?_set, g3, g4]
      by_cases hj : l - cnt = j
      · subst hj
        simp only [if_true]
        rw [if_pos (by omega), if_pos (by omega)]
        rw [show i - (l - (l - cnt)) = i - cnt by omega, hd]
      · rw [if_neg hj]
        by_cases hc : l + 1 - cnt ≤ j ∧ j ≤ l
        · rw [if_pos hc, if_pos (by omega)]
        · rw [if_neg hc, if_neg (by omega)]

/-- What `multipush` does to a queue storing `xs`, for any write position: it stores the elements
in the right slots; the write index it leaves is `pwrite + (last+1 or 0)`. -/
theorem Rep.multipush_gen {q : Q α} {xs : List α} (h : Rep q xs) (as : List α)
    (ha : as ≠ []) (hs : as.length < q.size) :
    ∃ q', q.multipush (as.map some) = some (q', decide (xs.length + as.length ≤ q.size)) ∧
      (q.size < xs.length + as.length → q' = q) ∧
      (xs.length + as.length ≤ q.size →
        Rep { q' with pwrite := wrap q.size q.pread (xs.length + as.length) } (xs ++ as) ∧
        q'.pwrite = q.pwrite + next q.size (wrap q.size q.pwrite (as.length - 1)) ∧
        q'.mbuf = [] ∧ q'.pread = q.pread ∧ q'.size = q.size) := by
  have hal : 0 < as.length := List.length_pos_iff.mpr ha
  have hpw := h.pwlt
  have hpr := h.pr
  have hlen := h.len
  unfold Q.multipush
  rw [if_neg (by simp; omega), if_neg (by simp; omega)]
  simp only [List.length_map]
  have hlast : (if q.pwrite + (as.length - 1) ≥ q.size then q.pwrite + (as.length - 1) - q.size
      else q.pwrite + (as.length - 1)) = wrap q.size q.pwrite (as.length - 1) := by
    unfold wrap; split <;> split <;> omega
  rw [hlast]
  generalize hL : wrap q.size q.pwrite (as.length - 1) = last
  have hlastlt : last < q.size := by rw [← hL]; exact wrap_lt hpw (by omega)
  by_cases hroom : xs.length + as.length ≤ q.size
  · -- room: the last slot is empty
    have hpos : last = wrap q.size q.pread (xs.length + as.length - 1) := by
      rw [← hL, h.pw]; unfold wrap; repeat' split
      all_goals omega
    have hrd : q.rd last = some none := by
      rw [hpos]
      have := h.slot (xs.length + as.length - 1) (by omega)
      rw [List.getElem?_eq_none (l := xs) (by omega)] at this
      exact this
    rw [hrd]
    -- the buffer after the loops
    have key : ∃ b, q.multiStores (as.map some) (as.length - 1) last = some { q with buf := b } ∧
        b.length = q.buf.length ∧
        (∀ k, k < as.length → b[wrap q.size q.pwrite k]? = some as[k]?) ∧
        (∀ k, as.length ≤ k → k < q.size →
          b[wrap q.size q.pwrite k]? = q.buf[wrap q.size q.pwrite k]?) := by
      unfold Q.multiStores
      by_cases hw : last < q.pwrite
      · rw [if_pos hw]
        have hlv : last + q.size = q.pwrite + (as.length - 1) := by
          rw [← hL] at hw ⊢
          unfold wrap at hw ⊢
          split at hw <;> split <;> omega
        rw [if_neg (by omega)]
        obtain ⟨ws, b, g1, g2, g3, g4⟩ := downLoop_wrs q (as.map some) last (as.length - 1)
          (by simp; omega) (by rw [h.blen]; omega)
          (as.length - 1 - (as.length - 1 - (last + 1))) (by omega) (by omega)
        obtain ⟨ws', b', g1', g2', g3', g4'⟩ := downLoop_wrs { q with buf := b } (as.map some)
          (q.size - 1) (as.length - 1 - (last + 1)) (by simp; omega)
          (by simp; rw [g3, h.blen]; omega)
          (q.size - q.pwrite) (by omega) (by omega)
        refine ⟨b', ?_, ?_, ?_, ?_⟩
        · simp only [g1, g1', g2, g2', Option.bind_eq_bind, Option.bind_some]
        · rw [g3']; exact g3
        · intro k hk
          rw [g4']
          simp only
          rw [g4]
          simp only [List.getElem?_map]
          have hk' : as[k]? = some as[k] := List.getElem?_eq_getElem hk
          by_cases hc : q.pwrite + k < q.size
          · have hwk : wrap q.size q.pwrite k = q.pwrite + k := by unfold wrap; rw [if_pos hc]
            rw [hwk, if_pos (by omega),
              show as.length - 1 - (last + 1) - (q.size - 1 - (q.pwrite + k)) = k by omega, hk']
            simp
          · have hwk : wrap q.size q.pwrite k = q.pwrite + k - q.size := by
              unfold wrap; rw [if_neg hc]
            rw [hwk, if_neg (by omega), if_pos (by omega),
              show as.length - 1 - (last - (q.pwrite + k - q.size)) = k by omega, hk']
            simp
        · intro k hk1 hk2
          rw [g4']
          simp only
          rw [g4]
          have hwk : wrap q.size q.pwrite k = q.pwrite + k - q.size := by
            unfold wrap; rw [if_neg (by omega)]
          rw [hwk, if_neg (by omega), if_neg (by omega)]
      · rw [if_neg hw]
        have hlv : last = q.pwrite + (as.length - 1) := by
          rw [← hL] at hw ⊢
          unfold wrap at hw ⊢
          split at hw <;> split <;> omega
        obtain ⟨ws, b, g1, g2, g3, g4⟩ := downLoop_wrs q (as.map some) (q.pwrite + (as.length - 1))
          (as.length - 1) (by simp; omega) (by rw [h.blen]; omega)
          (as.length - 1 + 1) (by omega) (by omega)
        refine ⟨b, ?_, g3, ?_, ?_⟩
        · simp only [g1, g2, Option.bind_eq_bind, Option.bind_some]
        · intro k hk
          have hwk : wrap q.size q.pwrite k = q.pwrite + k := by
            unfold wrap; rw [if_pos (by omega)]
          have hk' : as[k]? = some as[k] := List.getElem?_eq_getElem hk
          rw [g4, hwk, if_pos (by omega)]
          simp only [List.getElem?_map]
          rw [show as.length - 1 - (q.pwrite + (as.length - 1) - (q.pwrite + k)) = k by omega, hk']
          simp
        · intro k hk1 hk2
          rw [g4, if_neg]
          unfold wrap; split <;> omega
    obtain ⟨b, hb1, hb2, hb3, hb4⟩ := key
    simp only [Option.bind_eq_bind, Option.bind_some, Option.isNone_none, if_true, hb1]
    refine ⟨{ q with
        buf := b
        mbuf := []
        pwrite := q.pwrite + if q.size ≤ last + 1 then 0 else last + 1 },
      by simp [hroom], fun hc => by omega, fun _ => ?_⟩
    refine ⟨?_, ?_, rfl, rfl, rfl⟩
    · constructor <;> simp
      · exact h.pos
      · rw [hb2, h.blen]
      · exact hpr
      · exact hroom
      · intro i hi
        by_cases hi1 : i < xs.length
        · -- an old element
          obtain ⟨k, hk1, hk2⟩ := wrap_surj hpw (wrap_lt hpr (Nat.le_of_lt hi))
          have hk3 : as.length ≤ k := by
            apply Classical.byContradiction
            intro hcon
            rw [h.pw] at hk2
            unfold wrap at hk2
            repeat' split at hk2
            all_goals omega
          rw [← hk2, hb4 k hk3 hk1, hk2, h.slot i hi, List.getElem?_append_left hi1]
        · by_cases hi2 : i < xs.length + as.length
          · have : wrap q.size q.pread i = wrap q.size q.pwrite (i - xs.length) := by
              rw [h.pw]; unfold wrap; repeat' split
              all_goals omega
            rw [this, hb3 _ (by omega), List.getElem?_append_right (by omega)]
          · have : wrap q.size q.pread i = wrap q.size q.pwrite (i - xs.length) := by
              rw [h.pw]; unfold wrap; repeat' split
              all_goals omega
            rw [this, hb4 _ (by omega) (by omega), ← this, h.slot i hi,
              List.getElem?_eq_none (by omega), List.getElem?_eq_none (by simp; omega)]
    · simp only
      unfold next
      congr 1
      split <;> omega
  · -- no room: the last slot is occupied
    have hrd : ∃ v, q.rd last = some (some v) := by
      have hi : xs.length + as.length - 1 - q.size < xs.length := by omega
      have hpos : last = wrap q.size q.pread (xs.length + as.length - 1 - q.size) := by
        rw [← hL, h.pw]; unfold wrap; repeat' split
        all_goals omega
      refine ⟨xs[xs.length + as.length - 1 - q.size], ?_⟩
      rw [hpos]
      have := h.slot (xs.length + as.length - 1 - q.size) (by omega)
      rw [List.getElem?_eq_getElem hi] at this
      exact this
    obtain ⟨v, hv⟩ := hrd
    rw [hv]
    exact ⟨q, by simp [hroom], fun _ => rfl, fun hc => absurd hc hroom⟩

/-- `multipush` is right when the write index is 0. -/
theorem Rep.multipush_zero {q : Q α} {xs : List α} (h : Rep q xs) (h0 : q.pwrite = 0) (as : List α)
    (ha : as ≠ []) :
    ∃ q', q.multipush (as.map some) =
        some (q', decide (as.length < q.size ∧ xs.length + as.length ≤ q.size)) ∧
      Rep q' (if as.length < q.size ∧ xs.length + as.length ≤ q.size then xs ++ as else xs) ∧
      q'.size = q.size ∧
      q'.pwrite = (if as.length < q.size ∧ xs.length + as.length ≤ q.size then as.length else 0) ∧
      (as.length < q.size ∧ xs.length + as.length ≤ q.size → q'.mbuf = []) := by
  by_cases hs : as.length < q.size
  · obtain ⟨q', h1, h2, h3⟩ := h.multipush_gen as ha hs
    by_cases hr : xs.length + as.length ≤ q.size
    · obtain ⟨g1, g2, g3, g4, g5⟩ := h3 hr
      have hal : 0 < as.length := List.length_pos_iff.mpr ha
      have hpw : q'.pwrite = as.length := by
        rw [g2, h0, wrap, next]
        repeat' split
        all_goals omega
      have : q'.pwrite = wrap q.size q.pread (xs.length + as.length) := by
        rw [hpw]
        have := h.pw
        rw [h0] at this
        have hpr := h.pr
        have := h.len
        unfold wrap at *
        repeat' split at *
        all_goals omega
      rw [← this] at g1
      refine ⟨q', by simp [h1, hs], ?_, g5, by simp [hs, hr, hpw], fun _ => g3⟩
      simpa [hs, hr] using g1
    · have := h2 (by omega)
      subst this
      exact ⟨q', by simp [h1, hr], by simpa [hr] using h, rfl, by simp [hr, h0],
        fun hc => absurd hc.2 hr⟩
  · refine ⟨q, ?_, by simpa [hs] using h, rfl, by simp [hs, h0], fun hc => absurd hc.1 hs⟩
    unfold Q.multipush
    rw [if_pos (by simp; omega)]
    simp [hs]

theorem step_pwrite {q q' : Q α} {xs : List α} {o : Out α} (h : Rep q xs) (op : Op α) (cnt : Nat)
    (hc : q.pwrite = cnt % q.size) (hs : q.step op = some (q', o)) :
    q'.pwrite = Spec.accepted q.size xs cnt (.op op) % q.size := by
  cases op with
  | push a =>
    obtain ⟨q1, h1, h2, h3, -, h5⟩ := h.push a
    simp only [Q.step, h1, Option.map_some, Option.some.injEq, Prod.mk.injEq] at hs
    obtain ⟨rfl, -⟩ := hs
    simp only [Spec.accepted]
    have := h2.pw
    by_cases hl : xs.length < q.size
    · simp only [hl, if_true] at this ⊢
      rw [h3, h5, List.length_append, List.length_singleton, ← next_wrap h.pr hl, ← h.pw, hc] at this
      rw [this]
      have := Nat.mod_lt cnt h.pos
      unfold next
      rw [Nat.add_mod]
      by_cases h1 : q.size = 1
      · simp [h1, Nat.mod_one]
      · rw [Nat.mod_eq_of_lt (show 1 < q.size by have := h.pos; omega)]
        split
        · have : cnt % q.size + 1 = q.size := by omega
          rw [this]; simp
        · rw [Nat.mod_eq_of_lt (show cnt % q.size + 1 < q.size by omega)]
    · simp only [hl, if_false] at this ⊢
      rw [h3, h5, ← h.pw, hc] at this
      exact this
  | pop =>
    simp only [Q.step, Option.map_eq_some_iff] at hs
    obtain ⟨⟨q1, r⟩, h1, h2⟩ := hs
    simp only [Prod.mk.injEq] at h2
    obtain ⟨rfl, -⟩ := h2
    simp only [Spec.accepted]
    rw [← hc]
    unfold Q.pop at h1
    rw [h.empty_eq] at h1
    cases xs with
    | nil => simp at h1; rw [h1.1]
    | cons x xs =>
      simp [Q.inc, Q.wr, h.blen, h.pr, h.rd_pread] at h1
      rw [← h1.1]
  | empty => simp [Q.step, h.empty_eq] at hs; simp [Spec.accepted, ← hs.1, hc]
  | available => simp [Q.step, h.available_eq] at hs; simp [Spec.accepted, ← hs.1, hc]
  | top => simp [Q.step, Q.top, h.rd_pread] at hs; simp [Spec.accepted, ← hs.1, hc]
  | length => simp [Q.step, h.length_eq] at hs; simp [Spec.accepted, ← hs.1, hc]
  | buffersize => simp [Q.step] at hs; simp [Spec.accepted, ← hs.1, hc]
  | reset =>
    simp [Q.step, Q.reset, h.blen] at hs
    simp [Spec.accepted, ← hs.1]

theorem Rep.mrun {q : Q α} {xs : List α} (h : Rep q xs) (cnt : Nat) (hc : q.pwrite = cnt % q.size)
    (ops : List (MOp α)) (ha : Spec.aligned q.size xs cnt ops) :
    q.mrun ops = some (Spec.mrun q.size xs ops) := by
  induction ops generalizing q xs cnt with
  | nil => rfl
  | cons op ops ih =>
    obtain ⟨ha1, ha2⟩ := ha
    cases op with
    | op o =>
      obtain ⟨q', h1, h2, h3⟩ := h.step o
      have h4 := step_pwrite h o cnt hc h1
      have := ih h2 _ (by rw [h3]; exact h4) (by rw [h3]; exact ha2)
      rw [h3] at this
      simp [Q.mrun, Q.mstep, h1, this, Spec.mrun, Spec.mstep]
    | multi as =>
      obtain ⟨hne, hmod⟩ := ha1 as rfl
      obtain ⟨q', h1, h2, h3, h4, -⟩ := h.multipush_zero (by rw [hc, hmod]) as hne
      have h5 : q'.pwrite = Spec.accepted q.size xs cnt (.multi as) % q'.size := by
        rw [h4, h3]
        simp only [Spec.accepted]
        by_cases hcond : as.length < q.size ∧ xs.length + as.length ≤ q.size
        · rw [if_pos hcond, if_pos hcond, Nat.add_mod, hmod, Nat.zero_add, Nat.mod_mod,
            Nat.mod_eq_of_lt hcond.1]
        · rw [if_neg hcond, if_neg hcond, hmod]
      have h2' : Rep q' (Spec.mstep q.size xs (.multi as)).1 := by
        simp only [Spec.mstep]
        split <;> simp_all
      have := ih h2' _ h5 (by rw [h3]; exact ha2)
      rw [h3] at this
      simp only [Q.mrun, Q.mstep, h1, Spec.mrun]
      simp only [Option.map_some, Option.bind_eq_bind, Option.bind_some, this]
      congr 2
      simp only [Spec.mstep]
      split <;> simp_all

theorem Rep.congr_mbuf {q : Q α} {xs : List α} (h : Rep q xs) (m : List (Option α)) :
    Rep { q with mbuf := m } xs := ⟨h.pos, h.blen, h.pr, h.len, h.pw, h.slot⟩

theorem mpushAll_lt {q : Q α} (as : List α) (hm : q.mbuf.length + as.length < 16) :
    q.mpushAll as = some ({ q with mbuf := q.mbuf ++ as.map some }, as.map fun _ => true) := by
  induction as generalizing q with
  | nil => simp [Q.mpushAll]
  | cons a as ih =>
    simp at hm
    have h1 : q.mpush (some a) = some ({ q with mbuf := q.mbuf ++ [some a] }, true) := by
      unfold Q.mpush
      simp [multipushBufferSize]
      rw [if_neg (by omega), if_neg (by omega)]
    have := ih (q := { q with mbuf := q.mbuf ++ [some a] }) (by simp; omega)
    simp [Q.mpushAll, h1, this]

theorem mpushAll_snoc {q : Q α} (as : List α) (a : α) :
    q.mpushAll (as ++ [a]) = (q.mpushAll as).bind fun (q1, bs) =>
      (q1.mpush (some a)).map fun (q2, b) => (q2, bs ++ [b]) := by
  induction as generalizing q with
  | nil => simp [Q.mpushAll]; cases q.mpush (some a) <;> simp
  | cons x as ih =>
    simp only [List.cons_append, Q.mpushAll]
    cases h : q.mpush (some x) with
    | none => simp
    | some r =>
      obtain ⟨q1, b⟩ := r
      simp [ih]
      cases h2 : q1.mpushAll as with
      | none => simp
      | some r2 =>
        obtain ⟨q2, bs⟩ := r2
        simp
        cases q2.mpush (some a) <;> simp

theorem mpush_flush_fresh {q : Q α} (h : Rep q ([] : List α)) (h0 : q.pwrite = 0)
    (hm : q.mbuf = []) (as : List α)
    (h16 : as.length ≤ 16) (hn : as.length < q.size) :
    ∃ q1 q2, q.mpushAll as = some (q1, as.map fun _ => true) ∧ q1.flush = some (q2, true) ∧
      Rep q2 as ∧ q2.size = q.size := by
  rcases Nat.lt_or_ge as.length 16 with hlt | hge
  · have h1 := mpushAll_lt (q := q) as (by simp [hm]; omega)
    cases as with
    | nil =>
      exact ⟨q, q, by simp [Q.mpushAll], by simp [Q.flush, hm], h, rfl⟩
    | cons a as =>
      obtain ⟨q', g1, g2, g3, -, g5⟩ :=
        (h.congr_mbuf (q.mbuf ++ (a :: as).map some)).multipush_zero h0 (a :: as) (by simp)
      refine ⟨_, q', h1, ?_, ?_, g3⟩
      · unfold Q.flush
        simp only [hm, List.nil_append] at g1 ⊢
        simp at g1 hn
        simp [g1]
        omega
      · simp at g2 hn
        rw [if_pos (by omega)] at g2
        exact g2
  · have hne : as ≠ [] := by rintro rfl; exact absurd hge (by simp)
    obtain ⟨bs, b, rfl⟩ : ∃ bs b, as = bs ++ [b] :=
      ⟨as.dropLast, as.getLast hne, (List.dropLast_concat_getLast hne).symm⟩
    simp at h16 hge hn
    have h1 := mpushAll_lt (q := q) bs (by simp [hm]; omega)
    obtain ⟨q', g1, g2, g3, -, g5⟩ :=
        (h.congr_mbuf ((bs ++ [b]).map some)).multipush_zero h0 (bs ++ [b]) (by simp)
    have hp : ({ q with mbuf := q.mbuf ++ bs.map some } : Q α).mpush (some b) =
        some (q', true) := by
      unfold Q.mpush
      simp only [hm, multipushBufferSize, List.nil_append]
      simp
      rw [if_neg (by omega), if_pos (by omega)]
      simp at g1
      rw [g1]
      simp
      omega
    refine ⟨q', q', ?_, ?_, ?_, g3⟩
    · rw [mpushAll_snoc, h1]
      simp [hp]
    · unfold Q.flush
      rw [g5 (by simp; omega)]
      simp
    · simp at g2
      rw [if_pos (by omega)] at g2
      exact g2

end FF.Swsr
