import Verif.Parfor.For
/-!
# Which worker executes which index with the default static scheduling (C30)

`init_data_static` (ff/parallel_for_internals.hpp 514-534) gives the `N` indices to the `nw` workers in
blocks of `N / nw`, the first `N % nw` workers get one more.  The block of a worker does not depend on the
schedule or on earlier loops on the same object.
-/
namespace FF.Parfor
open FF.Node (upd)

theorem indices_length {first last st : Int} (hs : 1 ≤ st) (hr : first < last) :
    (indices first last st).length = (ceilDiv (last - first) st).toNat := by
  simp [indices, ceilDiv]

/-- the entry of the table for worker `w` -/
theorem static_entry {old : Nat → Range} {first last st : Int} {nw N : Nat} {L : Loop} {w : Nat}
    (hs : 1 ≤ st) (hn : 1 ≤ nw) (hr : first < last) (hb : last - first < 2 ^ 63) (hw : w < nw)
    (hN : N = (indices first last st).length)
    (h : setloopStatic old first last st nw = some L) :
    L.d w = ⟨1, first + (upto (N / nw) (N % nw) w : Int) * st,
      first + ((upto (N / nw) (N % nw) (w + 1) : Int) - 1) * st + 1⟩ := by
  rw [indices_length hs hr] at hN
  have hN0 : 1 ≤ ceilDiv (last - first) st := ceilDiv_pos (by omega) hs
  have hN2 : (ceilDiv (last - first) st - 1) * st < last - first := ceilDiv_lt hs
  unfold setloopStatic initStatic finish at h
  simp only at h
  have hNc : ceilDiv (last - first) st = N := by omega
  rw [hNc] at h hN2 hN0
  have hbig : (N : Int) % 2 ^ 64 = N := by
    apply Int.emod_eq_of_lt (by omega)
    have : ((N : Int) - 1) * 1 ≤ ((N : Int) - 1) * st := mul_le_mul_of_nonneg_left hs (by omega)
    have h1 : (2 : Int) ^ 63 = 9223372036854775808 := by norm_num
    have h2 : (2 : Int) ^ 64 = 18446744073709551616 := by norm_num
    omega
  rw [hbig] at h
  have hdm := Nat.div_add_mod N nw
  have hml := Nat.mod_lt N (by omega : nw > 0)
  rw [show (N : Int) % (nw : Int) = ((N % nw : Nat) : Int) by push_cast; rfl,
    show (N : Int).tdiv (nw : Int) = ((N / nw : Nat) : Int) by
      rw [Int.tdiv_eq_ediv_of_nonneg (by omega)]; push_cast; rfl] at h
  obtain ⟨_, h2, _⟩ := fillS_spec (old := old) (first := first) (last := last) (q := N / nw) hs (by omega) hdm.symm hml nw (Nat.le_refl _)
  rw [if_neg (by omega)] at h
  simp only [Option.some.injEq] at h; subst h
  exact h2 w hw

theorem indices_slice {first st : Int} {a b N : Nat} {last : Int} (hs : 1 ≤ st) (hab : a ≤ b) (hbN : b ≤ N)
    (hN : N = (indices first last st).length) :
    indices (first + (a : Int) * st) (first + ((b : Int) - 1) * st + 1) st =
      ((indices first last st).drop a).take (b - a) := by
  by_cases hz : a = b
  · subst hz
    rw [indices_nil hs (by have : ((a : Int) - 1) * st = a * st - st := by ring
                           omega)]
    simp
  · have e := ceilDiv_eq (a := first + ((b : Int) - 1) * st + 1 - (first + (a : Int) * st)) (b := st) (n := (b - a : Nat)) hs
      (by have h1 : ((b - a : Nat) : Int) = (b : Int) - a := by omega
          rw [h1]
          have : ((b : Int) - a) * st = b * st - a * st := by ring
          have : ((b : Int) - 1) * st = b * st - st := by ring
          omega)
      (by have h1 : ((b - a : Nat) : Int) = (b : Int) - a := by omega
          rw [h1]
          have : ((b : Int) - a - 1) * st = b * st - a * st - st := by ring
          have : ((b : Int) - 1) * st = b * st - st := by ring
          omega)
    unfold ceilDiv at e
    apply List.ext_getElem
    · simp only [indices, List.length_map, List.length_range, List.length_take, List.length_drop] at hN ⊢
      rw [e]
      omega
    · intro i h1 h2
      simp only [indices, List.getElem_map, List.getElem_range, List.getElem_take, List.getElem_drop]
      push_cast
      ring

theorem upto_succ (q r w : Nat) : upto q r (w + 1) = upto q r w + (q + if w < r then 1 else 0) := by
  unfold upto
  have : (w + 1) * q = w * q + q := by ring
  split <;> omega

theorem upto_top {q r w nw N : Nat} (hw : w < nw) (h : nw * q + r = N) : upto q r (w + 1) ≤ N := by
  unfold upto
  have h1 : (w + 1) * q ≤ nw * q := Nat.mul_le_mul_right _ (by omega)
  omega

/-- **C30.** The default static scheduling, in full: of the `N` indices of the loop, worker `w` executes
the `N / nw` (one more if `w < N % nw`) that follow those of the workers before it, in increasing order.
The block of a worker depends on nothing but `N`, `nw` and `w`. -/
theorem C30_owner {old d : Nat → Range} {first last st : Int} {nw : Nat} {L : Loop} {log : List (Nat × Int)}
    (hT : Table old) (hs : 1 ≤ st) (hn : 1 ≤ nw) (hb : last - first < 2 ^ 63)
    (hL : setloopStatic old first last st nw = some L) (hrun : RunFor first last st nw L log d)
    {w N : Nat} (hw : w < nw) (hN : N = (indices first last st).length) :
    (log.filter fun e => e.1 = w).map Prod.snd =
      ((indices first last st).drop (w * (N / nw) + min w (N % nw))).take (N / nw + if w < N % nw then 1 else 0) := by
  by_cases hr : first < last
  · obtain ⟨hg, hst, hnw, hone, hfl⟩ := setloopStatic_good hs hn hr hb (table_clean hT) hL
    have hsucc := upto_succ (N / nw) (N % nw) w
    have htop : upto (N / nw) (N % nw) (w + 1) ≤ N := upto_top hw (Nat.div_add_mod N nw)
    cases hrun with
    | seq h1 =>
      rw [hnw] at h1
      subst h1
      obtain rfl : w = 0 := by omega
      rw [seqLoop_eq hs, List.filter_eq_self.2 (by simp), List.map_map]
      simp only [Nat.mod_one, Nat.div_one, Nat.lt_irrefl, if_false, Nat.zero_mul, Nat.add_zero, Nat.min_self,
        List.drop_zero, hN, List.take_length]
      exact List.map_id _
    | sched k s _ h3 => rw [hst] at h3; simp at h3
    | noSched spin s h3 hreach hov =>
      have hi : SInv (fun w => indices (L.d w).start (L.d w).stop st) (L.par st nw) s :=
        hreach.inv (SInv.start hs hg.chunk (by rw [hnw]; exact hone) spin) fun _ _ _ hi hst' => hi.step hst hs hg.chunk hst'
      have hI : Inv first last (L.par st nw) s :=
        hreach.inv (Inv.start hs hg spin) fun _ _ _ hi hst' => hi.step hs hg.chunk hst'
      have hw' : w < L.nw := by rw [hnw]; exact hw
      have hl := hi.list w hw'
      rw [hov w hw'] at hl
      have he := hI.left w hw' (by rw [hov w hw']; trivial)
      rw [indices_nil (step := (L.par st nw).step) hs he] at hl
      simp only [pendL, List.append_nil] at hl
      have hl2 : (s.log.filter fun e => e.1 = w).map Prod.snd = indices (L.d w).start (L.d w).stop st := hl
      rw [hl2, static_entry hs hn hr hb hw hN hL]
      simp only
      rw [indices_slice hs (by rw [hsucc]; exact Nat.le_add_right _ _) htop hN, hsucc, Nat.add_sub_cancel_left]
      rfl
  · obtain ⟨hst, hnw, h1, h2⟩ := static_empty hs hn (by omega) (table_clean hT) hL
    obtain ⟨rfl, h3⟩ := run_empty hs hn (by omega) hst hnw h1 h2 hrun
    rw [indices_nil hs (by omega)]
    simp

/-- Non-vacuity: five indices, two workers: three and two. -/
example : (demoS.log.filter fun e => e.1 = 1).map Prod.snd = [6, 8] ∧
    ((indices 0 9 2).drop (1 * (5 / 2) + min 1 (5 % 2))).take (5 / 2 + if 1 < 5 % 2 then 1 else 0) = [6, 8] :=
  ⟨by decide +kernel, by decide⟩

end FF.Parfor
