/-
The steps of `uMPMC_Ptr_Queue` keep the invariant (C61).
-/
import Verif.Pool.UmpmcInv

namespace FF.Umpmc

variable {T A : Type} [DecidableEq T]

/-- A position is drawn for a push. -/
theorem casP_inv {n : Nat} {s : St T A} {w r : Nat → Nat} (hI : Inv n s w r) {t : T} {a : A} {pw : Nat}
    (ht : s.pc t = .pCas a pw) (he : s.preadP = pw) :
    Inv n { s with preadP := pw + 1, tickets := s.tickets ++ [a], pc := upd s.pc t (.pIn a pw) } w r := by
  have hn := hI.n0
  have hlt : pw % n < n := Nat.mod_lt _ hn
  have h1 : pw ≤ s.seqP (pw % n) := by have := hI.pc t; rwa [ht] at this
  have h2 : s.seqP (pw % n) = pw := by
    rcases Nat.lt_or_ge pw (s.seqP (pw % n)) with h | h
    · have := apart (n := n) (by rw [hI.mP _ hlt]) h
      have := (hI.bP _ hlt).1
      omega
    · omega
  have h3 : w (pw % n) = pw := by
    rcases hI.hw _ hlt with h | h
    · omega
    · omega
  have hlen := hI.len
  have tick : ∀ (p : Nat) a', s.tickets[p]? = some a' → (s.tickets ++ [a])[p]? = some a' := by
    intro p a' h
    rw [List.getElem?_append_left (by
      rcases Nat.lt_or_ge p s.tickets.length with h' | h'
      · exact h'
      · rw [List.getElem?_eq_none h'] at h; cases h)]
    exact h
  have tick' : ∀ (p : Nat), p < s.preadP → (s.tickets ++ [a])[p]? = s.tickets[p]? := by
    intro p h
    rw [List.getElem?_append_left (by omega)]
  have small : ∀ p, p < s.seqP (p % n) → p < s.preadP := by
    intro p h
    have hp : p % n < n := Nat.mod_lt _ hn
    have := apart (n := n) (by rw [hI.mP _ hp]) h
    have := (hI.bP _ hp).1
    omega
  refine { hI with
    len := by simp; omega, bP := ?_, hw := ?_, el := ?_, pc := ?_, uP := ?_, uC := ?_, eP := ?_, eC := ?_
    evP := ?_, evC := ?_ }
  · intro i hi
    have h := hI.bP i hi
    refine ⟨by simp only; omega, ?_⟩
    rcases Nat.lt_or_ge pw (s.seqP i + n) with h' | h'
    · simp only; omega
    · have e : pw = s.seqP i + n := by omega
      have : pw % n = i := by rw [e, Nat.add_mod_right]; exact hI.mP i hi
      rw [this] at h2
      omega
  · intro i hi
    rcases hI.hw i hi with h | h
    · exact Or.inl h
    · exact Or.inr ⟨h.1, by simp only; omega⟩
  · intro i hi j hj
    rw [hI.el i hi j hj]
    refine (tick' _ ?_).symm
    have hl := hI.ln i hi
    have : r i + j * n < w i := by
      rw [← hl]
      have : j * n < (s.sub i).length * n := Nat.mul_lt_mul_of_pos_right hj hn
      omega
    have hb := (hI.bP i hi).1
    have hm : (r i + j * n) % n = i := by
      rw [Nat.add_mul_mod_self_right]
      rcases hI.hr i hi with h | h
      · rw [h]; exact hI.mC i hi
      · rw [h.1, Nat.add_mod_right]; exact hI.mC i hi
    have hmw : w i % n = i := by
      rcases hI.hw i hi with h | h
      · rw [h]; exact hI.mP i hi
      · rw [h.1, Nat.add_mod_right]; exact hI.mP i hi
    have := apart (n := n) (by rw [hm, hmw]) this
    rcases hI.hw i hi with h | h <;> omega
  · intro u
    by_cases hu : u = t
    · subst hu
      show PcOk n _ w r (upd s.pc u _ u)
      rw [upd_same]
      refine ⟨by simp only; omega, h2, h3, ?_⟩
      simp only
      rw [List.getElem?_append_right (by omega)]
      simp [hlen, he]
    · show PcOk n _ w r (upd s.pc t _ u)
      rw [upd_ne _ _ hu]
      have := hI.pc u
      revert this
      cases s.pc u with
      | pIn b q => rintro ⟨g1, g2, g3, g4⟩; exact ⟨by simp only; omega, g2, g3, tick _ _ g4⟩
      | pSt b q => rintro ⟨g1, g2, g3, g4⟩; exact ⟨by simp only; omega, g2, g3, tick _ _ g4⟩
      | cSt q x =>
        rintro ⟨g1, g2, g3, g4, g5⟩
        exact ⟨g1, g2, g3, g4, by rw [g5]; exact (tick' _ (small _ g4)).symm⟩
      | _ => exact id
  · intro u u' p h h'
    have old : ∀ v, v ≠ t → (upd s.pc t (.pIn a pw) v).posP = some p → p < pw := by
      intro v hv h
      rw [upd_ne _ _ hv] at h
      have := hI.pc v
      revert this h
      cases s.pc v with
      | pIn b q => rintro h ⟨g1, _⟩; cases h; omega
      | pSt b q => rintro h ⟨g1, _⟩; cases h; omega
      | _ => intro h; cases h
    by_cases hu : u = t
    · by_cases hu' : u' = t
      · rw [hu, hu']
      · have := old u' hu' h'
        subst hu
        simp only [upd_same, Pc.posP, Option.some.injEq] at h
        omega
    · by_cases hu' : u' = t
      · have := old u hu h
        subst hu'
        simp only [upd_same, Pc.posP, Option.some.injEq] at h'
        omega
      · simp only [upd_ne _ _ hu] at h
        simp only [upd_ne _ _ hu'] at h'
        exact hI.uP u u' p h h'
  · intro u u' p h h'
    have old : ∀ v, (upd s.pc t (.pIn a pw) v).posC = some p → (s.pc v).posC = some p := by
      intro v h
      by_cases hv : v = t
      · subst hv; rw [upd_same] at h; cases h
      · rwa [upd_ne _ _ hv] at h
    exact hI.uC u u' p (old u h) (old u' h')
  · intro i hi h
    simp only at h
    by_cases hlt' : s.seqP i < s.preadP
    · obtain ⟨u, hu⟩ := hI.eP i hi hlt'
      have hut : u ≠ t := by rintro rfl; rw [ht] at hu; cases hu
      exact ⟨u, by simp only [upd_ne _ _ hut]; exact hu⟩
    · refine ⟨t, ?_⟩
      simp only [upd_same, Pc.posP, Option.some.injEq]
      omega
  · intro i hi h
    obtain ⟨u, hu⟩ := hI.eC i hi h
    have hut : u ≠ t := by rintro rfl; rw [ht] at hu; cases hu
    exact ⟨u, by simp only [upd_ne _ _ hut]; exact hu⟩
  · intro u p a' h
    obtain ⟨g1, g2⟩ := hI.evP u p a' h
    exact ⟨tick _ _ g1, g2⟩
  · intro u p x h
    obtain ⟨g1, g2, g3⟩ := hI.evC u p x h
    exact ⟨by rw [g1]; exact (tick' _ (small _ g3)).symm, g2, g3⟩

/-- The value is stored in the inner queue. -/
theorem put_inv {n : Nat} {s : St T A} {w r : Nat → Nat} (hI : Inv n s w r) {t : T} {a : A} {pw : Nat}
    (ht : s.pc t = .pIn a pw) :
    Inv n { s with sub := upd s.sub (pw % n) (s.sub (pw % n) ++ [a]), pc := upd s.pc t (.pSt a pw) }
      (upd w (pw % n) (pw + n)) r := by
  have hn := hI.n0
  have hlt : pw % n < n := Nat.mod_lt _ hn
  obtain ⟨k1, k2, k3, k4⟩ : pw < s.preadP ∧ s.seqP (pw % n) = pw ∧ w (pw % n) = pw ∧
      s.tickets[pw]? = some a := by have := hI.pc t; rwa [ht] at this
  have hw1 : ∀ i, i ≠ pw % n → upd w (pw % n) (pw + n) i = w i := fun i h => upd_ne _ _ h
  refine { hI with hw := ?_, ln := ?_, el := ?_, pc := ?_, uP := ?_, uC := ?_, eP := ?_, eC := ?_ }
  · intro i hi
    by_cases h : i = pw % n
    · subst h; exact Or.inr ⟨by rw [upd_same, k2], by simp only; omega⟩
    · rw [hw1 i h]; exact hI.hw i hi
  · intro i hi
    by_cases h : i = pw % n
    · subst h
      simp only [upd_same, List.length_append, List.length_singleton, Nat.add_mul]
      have := hI.ln _ hlt
      omega
    · simp only [hw1 i h, upd_ne _ _ h]; exact hI.ln i hi
  · intro i hi j hj
    by_cases h : i = pw % n
    · subst h
      simp only [upd_same, List.length_append, List.length_singleton] at hj ⊢
      by_cases hj' : j < (s.sub (pw % n)).length
      · rw [List.getElem?_append_left hj']; exact hI.el _ hlt j hj'
      · have e : j = (s.sub (pw % n)).length := by omega
        subst e
        rw [List.getElem?_append_right (by omega), hI.ln _ hlt, k3, k4]
        simp
    · simp only [upd_ne _ _ h] at hj ⊢; exact hI.el i hi j hj
  · intro u
    by_cases hu : u = t
    · subst hu
      show PcOk n _ _ r (upd s.pc u _ u)
      rw [upd_same]
      exact ⟨k1, k2, upd_same _ _ _, k4⟩
    · show PcOk n _ _ r (upd s.pc t _ u)
      rw [upd_ne _ _ hu]
      have other : ∀ q, (s.pc u).posP = some q → s.seqP (q % n) = q → q % n ≠ pw % n := by
        intro q h1 h2 h3
        rw [h3, k2] at h2
        exact hu (hI.uP u t q h1 (by rw [ht, ← h2]; rfl))
      have := hI.pc u
      revert this other
      cases s.pc u with
      | pIn b q =>
        rintro other ⟨g1, g2, g3, g4⟩; exact ⟨g1, g2, by rw [hw1 _ (other q rfl g2)]; exact g3, g4⟩
      | pSt b q =>
        rintro other ⟨g1, g2, g3, g4⟩; exact ⟨g1, g2, by rw [hw1 _ (other q rfl g2)]; exact g3, g4⟩
      | _ => exact fun _ => id
  · intro u u' p h h'
    have old : ∀ v, (upd s.pc t (.pSt a pw) v).posP = some p → (s.pc v).posP = some p := by
      intro v h
      by_cases hv : v = t
      · subst hv; rw [upd_same] at h; rw [ht]; exact h
      · rwa [upd_ne _ _ hv] at h
    exact hI.uP u u' p (old u h) (old u' h')
  · intro u u' p h h'
    have old : ∀ v, (upd s.pc t (.pSt a pw) v).posC = some p → (s.pc v).posC = some p := by
      intro v h
      by_cases hv : v = t
      · subst hv; rw [upd_same] at h; cases h
      · rwa [upd_ne _ _ hv] at h
    exact hI.uC u u' p (old u h) (old u' h')
  · intro i hi h
    obtain ⟨u, hu⟩ := hI.eP i hi h
    by_cases hut : u = t
    · subst hut
      refine ⟨u, ?_⟩
      simp only [upd_same]
      rw [ht] at hu; exact hu
    · exact ⟨u, by simp only [upd_ne _ _ hut]; exact hu⟩
  · intro i hi h
    obtain ⟨u, hu⟩ := hI.eC i hi h
    have hut : u ≠ t := by rintro rfl; rw [ht] at hu; cases hu
    exact ⟨u, by simp only [upd_ne _ _ hut]; exact hu⟩

/-- The inner queue is given to the next push. -/
theorem storeP_inv {n : Nat} {s : St T A} {w r : Nat → Nat} (hI : Inv n s w r) {t : T} {a : A} {pw : Nat}
    (ht : s.pc t = .pSt a pw) :
    Inv n { s with seqP := upd s.seqP (pw % n) (pw + n), pc := upd s.pc t .idle,
                   log := .pushed t pw a :: s.log } w r := by
  have hn := hI.n0
  have hlt : pw % n < n := Nat.mod_lt _ hn
  obtain ⟨k1, k2, k3, k4⟩ : pw < s.preadP ∧ s.seqP (pw % n) = pw ∧ w (pw % n) = pw + n ∧
      s.tickets[pw]? = some a := by have := hI.pc t; rwa [ht] at this
  have hs1 : ∀ i, i ≠ pw % n → upd s.seqP (pw % n) (pw + n) i = s.seqP i := fun i h => upd_ne _ _ h
  have up : ∀ i, s.seqP i ≤ upd s.seqP (pw % n) (pw + n) i := by
    intro i
    by_cases h : i = pw % n
    · subst h; rw [upd_same, k2]; omega
    · rw [hs1 i h]; exact Nat.le_refl _
  refine { hI with mP := ?_, bP := ?_, hw := ?_, pc := ?_, uP := ?_, uC := ?_, eP := ?_, eC := ?_
                   evP := ?_, evC := ?_, ndP := ?_, ndC := ?_, cvP := ?_, cvC := ?_ }
  · intro i hi
    by_cases h : i = pw % n
    · subst h; simp only [upd_same, Nat.add_mod_right]
    · simp only [hs1 i h]; exact hI.mP i hi
  · intro i hi
    by_cases h : i = pw % n
    · subst h; simp only [upd_same]; have := hI.bP _ hlt; omega
    · simp only [hs1 i h]; exact hI.bP i hi
  · intro i hi
    by_cases h : i = pw % n
    · subst h; simp only [upd_same]; exact Or.inl k3
    · simp only [hs1 i h]; exact hI.hw i hi
  · intro u
    by_cases hu : u = t
    · subst hu
      show PcOk n _ _ r (upd s.pc u _ u)
      rw [upd_same]
      trivial
    · show PcOk n _ _ r (upd s.pc t _ u)
      rw [upd_ne _ _ hu]
      have other : ∀ q, (s.pc u).posP = some q → s.seqP (q % n) = q → q % n ≠ pw % n := by
        intro q h1 h2 h3
        rw [h3, k2] at h2
        exact hu (hI.uP u t q h1 (by rw [ht, ← h2]; rfl))
      have := hI.pc u
      revert this other
      cases s.pc u with
      | pCas b q => rintro - g; exact Nat.le_trans g (up _)
      | pIn b q =>
        rintro other ⟨g1, g2, g3, g4⟩; exact ⟨g1, by simp only [hs1 _ (other q rfl g2)]; exact g2, g3, g4⟩
      | pSt b q =>
        rintro other ⟨g1, g2, g3, g4⟩; exact ⟨g1, by simp only [hs1 _ (other q rfl g2)]; exact g2, g3, g4⟩
      | cCas q => rintro - ⟨g1, g2⟩; exact ⟨g1, Nat.lt_of_lt_of_le g2 (up _)⟩
      | cIn q => rintro - ⟨g1, g2, g3, g4⟩; exact ⟨g1, g2, g3, Nat.lt_of_lt_of_le g4 (up _)⟩
      | cSt q x => rintro - ⟨g1, g2, g3, g4, g5⟩; exact ⟨g1, g2, g3, Nat.lt_of_lt_of_le g4 (up _), g5⟩
      | _ => exact fun _ => id
  · intro u u' p h h'
    have old : ∀ v, (upd s.pc t .idle v).posP = some p → (s.pc v).posP = some p := by
      intro v h
      by_cases hv : v = t
      · subst hv; rw [upd_same] at h; cases h
      · rwa [upd_ne _ _ hv] at h
    exact hI.uP u u' p (old u h) (old u' h')
  · intro u u' p h h'
    have old : ∀ v, (upd s.pc t .idle v).posC = some p → (s.pc v).posC = some p := by
      intro v h
      by_cases hv : v = t
      · subst hv; rw [upd_same] at h; cases h
      · rwa [upd_ne _ _ hv] at h
    exact hI.uC u u' p (old u h) (old u' h')
  · intro i hi h
    by_cases hiw : i = pw % n
    · subst hiw
      simp only [upd_same] at h
      have := (hI.bP _ hlt).2
      omega
    · simp only [hs1 i hiw] at h ⊢
      obtain ⟨u, hu⟩ := hI.eP i hi h
      have hut : u ≠ t := by
        rintro rfl
        rw [ht] at hu
        simp only [Pc.posP, Option.some.injEq] at hu
        exact hiw (by rw [hu]; exact (hI.mP i hi).symm)
      exact ⟨u, by simp only [upd_ne _ _ hut]; exact hu⟩
  · intro i hi h
    obtain ⟨u, hu⟩ := hI.eC i hi h
    have hut : u ≠ t := by rintro rfl; rw [ht] at hu; cases hu
    exact ⟨u, by simp only [upd_ne _ _ hut]; exact hu⟩
  · intro u p b h
    simp only [List.mem_cons, Ev.pushed.injEq] at h
    rcases h with ⟨rfl, rfl, rfl⟩ | h
    · exact ⟨k4, by simp only [upd_same]; omega⟩
    · obtain ⟨g1, g2⟩ := hI.evP u p b h
      exact ⟨g1, Nat.lt_of_lt_of_le g2 (up _)⟩
  · intro u p x h
    simp only [List.mem_cons, reduceCtorEq, false_or] at h
    obtain ⟨g1, g2, g3⟩ := hI.evC u p x h
    exact ⟨g1, g2, Nat.lt_of_lt_of_le g3 (up _)⟩
  · simp only [accepted, List.map_cons, List.nodup_cons]
    refine ⟨?_, hI.ndP⟩
    intro h
    obtain ⟨⟨p, b⟩, hm, rfl⟩ := List.mem_map.1 h
    obtain ⟨u, hu⟩ := mem_accepted.1 hm
    have := (hI.evP u _ _ hu).2
    simp only at k2
    omega
  · simpa only [popped] using hI.ndC
  · intro p h
    simp only at h
    by_cases hp : p % n = pw % n
    · rw [hp, upd_same] at h
      by_cases hpp : p = pw
      · subst hpp; exact ⟨a, by simp [accepted]⟩
      · have : p < s.seqP (p % n) := by
          rw [hp, k2]
          rcases Nat.lt_or_ge p pw with h' | h'
          · exact h'
          · have := apart (n := n) hp.symm (by omega)
            omega
        obtain ⟨b, hb⟩ := hI.cvP p this
        exact ⟨b, by simp [accepted, hb]⟩
    · rw [hs1 _ hp] at h
      obtain ⟨b, hb⟩ := hI.cvP p h
      exact ⟨b, by simp [accepted, hb]⟩
  · intro p h
    obtain ⟨x, hx⟩ := hI.cvC p h
    exact ⟨x, by simpa [popped] using hx⟩

/-- A position is drawn for a pop. -/
theorem casC_inv {n : Nat} {s : St T A} {w r : Nat → Nat} (hI : Inv n s w r) {t : T} {pr : Nat}
    (ht : s.pc t = .cCas pr) (he : s.preadC = pr) :
    Inv n { s with preadC := pr + 1, pc := upd s.pc t (.cIn pr) } w r := by
  have hn := hI.n0
  have hlt : pr % n < n := Nat.mod_lt _ hn
  obtain ⟨h1, h0⟩ : pr ≤ s.seqC (pr % n) ∧ pr < s.seqP (pr % n) := by
    have := hI.pc t; rwa [ht] at this
  have h2 : s.seqC (pr % n) = pr := by
    rcases Nat.lt_or_ge pr (s.seqC (pr % n)) with h | h
    · have := apart (n := n) (by rw [hI.mC _ hlt]) h
      have := (hI.bC _ hlt).1
      omega
    · omega
  have h3 : r (pr % n) = pr := by
    rcases hI.hr _ hlt with h | h
    · omega
    · omega
  refine { hI with bC := ?_, hr := ?_, pc := ?_, uP := ?_, uC := ?_, eP := ?_, eC := ?_ }
  · intro i hi
    have h := hI.bC i hi
    refine ⟨by simp only; omega, ?_⟩
    rcases Nat.lt_or_ge pr (s.seqC i + n) with h' | h'
    · simp only; omega
    · have e : pr = s.seqC i + n := by omega
      have : pr % n = i := by rw [e, Nat.add_mod_right]; exact hI.mC i hi
      rw [this] at h2
      omega
  · intro i hi
    rcases hI.hr i hi with h | h
    · exact Or.inl h
    · exact Or.inr ⟨h.1, by simp only; omega⟩
  · intro u
    by_cases hu : u = t
    · subst hu
      show PcOk n _ w r (upd s.pc u _ u)
      rw [upd_same]
      exact ⟨by simp only; omega, h2, h3, h0⟩
    · show PcOk n _ w r (upd s.pc t _ u)
      rw [upd_ne _ _ hu]
      have := hI.pc u
      revert this
      cases s.pc u with
      | cIn q => rintro ⟨g1, g⟩; exact ⟨by simp only; omega, g⟩
      | cSt q x => rintro ⟨g1, g⟩; exact ⟨by simp only; omega, g⟩
      | _ => exact id
  · intro u u' p h h'
    have old : ∀ v, (upd s.pc t (.cIn pr) v).posP = some p → (s.pc v).posP = some p := by
      intro v h
      by_cases hv : v = t
      · subst hv; rw [upd_same] at h; cases h
      · rwa [upd_ne _ _ hv] at h
    exact hI.uP u u' p (old u h) (old u' h')
  · intro u u' p h h'
    have old : ∀ v, v ≠ t → (upd s.pc t (.cIn pr) v).posC = some p → p < pr := by
      intro v hv h
      rw [upd_ne _ _ hv] at h
      have := hI.pc v
      revert this h
      cases s.pc v with
      | cIn q => rintro h ⟨g1, _⟩; cases h; omega
      | cSt q x => rintro h ⟨g1, _⟩; cases h; omega
      | _ => intro h; cases h
    by_cases hu : u = t
    · by_cases hu' : u' = t
      · rw [hu, hu']
      · have := old u' hu' h'
        subst hu
        simp only [upd_same, Pc.posC, Option.some.injEq] at h
        omega
    · by_cases hu' : u' = t
      · have := old u hu h
        subst hu'
        simp only [upd_same, Pc.posC, Option.some.injEq] at h'
        omega
      · simp only [upd_ne _ _ hu] at h
        simp only [upd_ne _ _ hu'] at h'
        exact hI.uC u u' p h h'
  · intro i hi h
    obtain ⟨u, hu⟩ := hI.eP i hi h
    have hut : u ≠ t := by rintro rfl; rw [ht] at hu; cases hu
    exact ⟨u, by simp only [upd_ne _ _ hut]; exact hu⟩
  · intro i hi h
    simp only at h
    by_cases hlt' : s.seqC i < s.preadC
    · obtain ⟨u, hu⟩ := hI.eC i hi hlt'
      have hut : u ≠ t := by rintro rfl; rw [ht] at hu; cases hu
      exact ⟨u, by simp only [upd_ne _ _ hut]; exact hu⟩
    · refine ⟨t, ?_⟩
      simp only [upd_same, Pc.posC, Option.some.injEq]
      omega

omit [DecidableEq T] in
/-- The inner queue holds the value of the position. -/
theorem take_head {n : Nat} {s : St T A} {w r : Nat → Nat} (hI : Inv n s w r) {t : T} {pr : Nat}
    (ht : s.pc t = .cIn pr) :
    ∃ a l, s.sub (pr % n) = a :: l ∧ s.tickets[pr]? = some a := by
  have hn := hI.n0
  have hlt : pr % n < n := Nat.mod_lt _ hn
  obtain ⟨k1, k2, k3, k4⟩ : pr < s.preadC ∧ s.seqC (pr % n) = pr ∧ r (pr % n) = pr ∧
      pr < s.seqP (pr % n) := by have := hI.pc t; rwa [ht] at this
  have hl := hI.ln _ hlt
  have hw : pr < w (pr % n) := by
    rcases hI.hw _ hlt with h | h <;> omega
  have hb := (hI.bP _ hlt).1
  have := apart (n := n) (by rw [hI.mP _ hlt]) k4
  cases hs : s.sub (pr % n) with
  | nil => rw [hs, k3] at hl; simp at hl; omega
  | cons a l =>
    refine ⟨a, l, rfl, ?_⟩
    have := hI.el _ hlt 0 (by rw [hs]; simp)
    rw [hs, k3] at this
    simp at this
    exact this.symm

/-- The value is taken from the inner queue. -/
theorem take_inv {n : Nat} {s : St T A} {w r : Nat → Nat} (hI : Inv n s w r) {t : T} {pr : Nat} {a : A}
    {l : List A} (ht : s.pc t = .cIn pr) (hs : s.sub (pr % n) = a :: l) :
    Inv n { s with sub := upd s.sub (pr % n) l, pc := upd s.pc t (.cSt pr (some a)) } w
      (upd r (pr % n) (pr + n)) := by
  have hn := hI.n0
  have hlt : pr % n < n := Nat.mod_lt _ hn
  obtain ⟨a', l', g1, g2⟩ := take_head hI ht
  rw [hs] at g1
  cases g1
  obtain ⟨k1, k2, k3, k4⟩ : pr < s.preadC ∧ s.seqC (pr % n) = pr ∧ r (pr % n) = pr ∧
      pr < s.seqP (pr % n) := by have := hI.pc t; rwa [ht] at this
  have hr1 : ∀ i, i ≠ pr % n → upd r (pr % n) (pr + n) i = r i := fun i h => upd_ne _ _ h
  refine { hI with hr := ?_, ln := ?_, el := ?_, pc := ?_, uP := ?_, uC := ?_, eP := ?_, eC := ?_ }
  · intro i hi
    by_cases h : i = pr % n
    · subst h; exact Or.inr ⟨by rw [upd_same, k2], by simp only; omega⟩
    · rw [hr1 i h]; exact hI.hr i hi
  · intro i hi
    by_cases h : i = pr % n
    · subst h
      have := hI.ln _ hlt
      rw [hs, k3, List.length_cons, Nat.add_mul] at this
      simp only [upd_same]
      omega
    · simp only [hr1 i h, upd_ne _ _ h]; exact hI.ln i hi
  · intro i hi j hj
    by_cases h : i = pr % n
    · subst h
      simp only [upd_same] at hj ⊢
      have := hI.el _ hlt (j + 1) (by rw [hs]; simpa using hj)
      rw [hs, k3, List.getElem?_cons_succ] at this
      rw [this, Nat.add_mul]
      congr 1
      omega
    · simp only [hr1 i h, upd_ne _ _ h] at hj ⊢; exact hI.el i hi j hj
  · intro u
    by_cases hu : u = t
    · subst hu
      show PcOk n _ _ _ (upd s.pc u _ u)
      rw [upd_same]
      exact ⟨k1, k2, upd_same _ _ _, k4, g2.symm⟩
    · show PcOk n _ _ _ (upd s.pc t _ u)
      rw [upd_ne _ _ hu]
      have other : ∀ q, (s.pc u).posC = some q → s.seqC (q % n) = q → q % n ≠ pr % n := by
        intro q h1 h2 h3
        rw [h3, k2] at h2
        exact hu (hI.uC u t q h1 (by rw [ht, ← h2]; rfl))
      have := hI.pc u
      revert this other
      cases s.pc u with
      | cIn q =>
        rintro other ⟨g1, g2, g3, g4⟩; exact ⟨g1, g2, by rw [hr1 _ (other q rfl g2)]; exact g3, g4⟩
      | cSt q x =>
        rintro other ⟨g1, g2, g3, g4⟩; exact ⟨g1, g2, by rw [hr1 _ (other q rfl g2)]; exact g3, g4⟩
      | _ => exact fun _ => id
  · intro u u' p h h'
    have old : ∀ v, (upd s.pc t (.cSt pr (some a)) v).posP = some p → (s.pc v).posP = some p := by
      intro v h
      by_cases hv : v = t
      · subst hv; rw [upd_same] at h; cases h
      · rwa [upd_ne _ _ hv] at h
    exact hI.uP u u' p (old u h) (old u' h')
  · intro u u' p h h'
    have old : ∀ v, (upd s.pc t (.cSt pr (some a)) v).posC = some p → (s.pc v).posC = some p := by
      intro v h
      by_cases hv : v = t
      · subst hv; rw [upd_same] at h; rw [ht]; exact h
      · rwa [upd_ne _ _ hv] at h
    exact hI.uC u u' p (old u h) (old u' h')
  · intro i hi h
    obtain ⟨u, hu⟩ := hI.eP i hi h
    have hut : u ≠ t := by rintro rfl; rw [ht] at hu; cases hu
    exact ⟨u, by simp only [upd_ne _ _ hut]; exact hu⟩
  · intro i hi h
    obtain ⟨u, hu⟩ := hI.eC i hi h
    by_cases hut : u = t
    · subst hut
      refine ⟨u, ?_⟩
      simp only [upd_same]
      rw [ht] at hu; exact hu
    · exact ⟨u, by simp only [upd_ne _ _ hut]; exact hu⟩

/-- The inner queue is given to the next pop. -/
theorem storeC_inv {n : Nat} {s : St T A} {w r : Nat → Nat} (hI : Inv n s w r) {t : T} {pr : Nat}
    {x : Option A} (ht : s.pc t = .cSt pr x) :
    Inv n { s with seqC := upd s.seqC (pr % n) (pr + n), pc := upd s.pc t .idle,
                   log := .popped t pr x :: s.log } w r := by
  have hn := hI.n0
  have hlt : pr % n < n := Nat.mod_lt _ hn
  obtain ⟨k1, k2, k3, k4, k5⟩ : pr < s.preadC ∧ s.seqC (pr % n) = pr ∧ r (pr % n) = pr + n ∧
      pr < s.seqP (pr % n) ∧ x = s.tickets[pr]? := by have := hI.pc t; rwa [ht] at this
  have hs1 : ∀ i, i ≠ pr % n → upd s.seqC (pr % n) (pr + n) i = s.seqC i := fun i h => upd_ne _ _ h
  have up : ∀ i, s.seqC i ≤ upd s.seqC (pr % n) (pr + n) i := by
    intro i
    by_cases h : i = pr % n
    · subst h; rw [upd_same, k2]; omega
    · rw [hs1 i h]; exact Nat.le_refl _
  refine { hI with mC := ?_, bC := ?_, hr := ?_, pc := ?_, uP := ?_, uC := ?_, eP := ?_, eC := ?_
                   evP := ?_, evC := ?_, ndP := ?_, ndC := ?_, cvP := ?_, cvC := ?_ }
  · intro i hi
    by_cases h : i = pr % n
    · subst h; simp only [upd_same, Nat.add_mod_right]
    · simp only [hs1 i h]; exact hI.mC i hi
  · intro i hi
    by_cases h : i = pr % n
    · subst h; simp only [upd_same]; have := hI.bC _ hlt; omega
    · simp only [hs1 i h]; exact hI.bC i hi
  · intro i hi
    by_cases h : i = pr % n
    · subst h; simp only [upd_same]; exact Or.inl k3
    · simp only [hs1 i h]; exact hI.hr i hi
  · intro u
    by_cases hu : u = t
    · subst hu
      show PcOk n _ _ r (upd s.pc u _ u)
      rw [upd_same]
      trivial
    · show PcOk n _ _ r (upd s.pc t _ u)
      rw [upd_ne _ _ hu]
      have other : ∀ q, (s.pc u).posC = some q → s.seqC (q % n) = q → q % n ≠ pr % n := by
        intro q h1 h2 h3
        rw [h3, k2] at h2
        exact hu (hI.uC u t q h1 (by rw [ht, ← h2]; rfl))
      have := hI.pc u
      revert this other
      cases s.pc u with
      | cTest q => rintro - g; exact Nat.le_trans g (up _)
      | cCas q => rintro - ⟨g1, g2⟩; exact ⟨Nat.le_trans g1 (up _), g2⟩
      | cIn q =>
        rintro other ⟨g1, g2, g⟩; exact ⟨g1, by simp only [hs1 _ (other q rfl g2)]; exact g2, g⟩
      | cSt q x =>
        rintro other ⟨g1, g2, g⟩; exact ⟨g1, by simp only [hs1 _ (other q rfl g2)]; exact g2, g⟩
      | _ => exact fun _ => id
  · intro u u' p h h'
    have old : ∀ v, (upd s.pc t .idle v).posP = some p → (s.pc v).posP = some p := by
      intro v h
      by_cases hv : v = t
      · subst hv; rw [upd_same] at h; cases h
      · rwa [upd_ne _ _ hv] at h
    exact hI.uP u u' p (old u h) (old u' h')
  · intro u u' p h h'
    have old : ∀ v, (upd s.pc t .idle v).posC = some p → (s.pc v).posC = some p := by
      intro v h
      by_cases hv : v = t
      · subst hv; rw [upd_same] at h; cases h
      · rwa [upd_ne _ _ hv] at h
    exact hI.uC u u' p (old u h) (old u' h')
  · intro i hi h
    obtain ⟨u, hu⟩ := hI.eP i hi h
    have hut : u ≠ t := by rintro rfl; rw [ht] at hu; cases hu
    exact ⟨u, by simp only [upd_ne _ _ hut]; exact hu⟩
  · intro i hi h
    by_cases hiw : i = pr % n
    · subst hiw
      simp only [upd_same] at h
      have := (hI.bC _ hlt).2
      omega
    · simp only [hs1 i hiw] at h ⊢
      obtain ⟨u, hu⟩ := hI.eC i hi h
      have hut : u ≠ t := by
        rintro rfl
        rw [ht] at hu
        simp only [Pc.posC, Option.some.injEq] at hu
        exact hiw (by rw [hu]; exact (hI.mC i hi).symm)
      exact ⟨u, by simp only [upd_ne _ _ hut]; exact hu⟩
  · intro u p b h
    simp only [List.mem_cons, reduceCtorEq, false_or] at h
    exact hI.evP u p b h
  · intro u p y h
    simp only [List.mem_cons, Ev.popped.injEq] at h
    rcases h with ⟨rfl, rfl, rfl⟩ | h
    · exact ⟨k5, by simp only [upd_same]; omega, k4⟩
    · obtain ⟨g1, g2, g3⟩ := hI.evC u p y h
      exact ⟨g1, Nat.lt_of_lt_of_le g2 (up _), g3⟩
  · simpa only [accepted] using hI.ndP
  · simp only [popped, List.map_cons, List.nodup_cons]
    refine ⟨?_, hI.ndC⟩
    intro h
    obtain ⟨⟨p, b⟩, hm, rfl⟩ := List.mem_map.1 h
    obtain ⟨u, hu⟩ := mem_popped.1 hm
    have := (hI.evC u _ _ hu).2.1
    simp only at k2
    omega
  · intro p h
    obtain ⟨b, hb⟩ := hI.cvP p h
    exact ⟨b, by simpa [accepted] using hb⟩
  · intro p h
    simp only at h
    by_cases hp : p % n = pr % n
    · rw [hp, upd_same] at h
      by_cases hpp : p = pr
      · subst hpp; exact ⟨x, by simp [popped]⟩
      · have : p < s.seqC (p % n) := by
          rw [hp, k2]
          rcases Nat.lt_or_ge p pr with h' | h'
          · exact h'
          · have := apart (n := n) hp.symm (by omega)
            omega
        obtain ⟨b, hb⟩ := hI.cvC p this
        exact ⟨b, by simp [popped, hb]⟩
    · rw [hs1 _ hp] at h
      obtain ⟨b, hb⟩ := hI.cvC p h
      exact ⟨b, by simp [popped, hb]⟩

theorem step_inv {n : Nat} {s s' : St T A} {act : Act T A} (hI : ∃ w r, Inv n s w r)
    (h : step n s act = some s') : ∃ w r, Inv n s' w r := by
  obtain ⟨w, r, hI⟩ := hI
  cases act with
  | push t a =>
    simp only [step] at h
    split at h
    · rename_i ht
      cases h
      exact ⟨w, r, hI.move t _ (by rw [ht]; rfl) (by rw [ht]; rfl) rfl rfl trivial⟩
    · cases h
  | pop t =>
    simp only [step] at h
    split at h
    · rename_i ht
      cases h
      exact ⟨w, r, hI.move t _ (by rw [ht]; rfl) (by rw [ht]; rfl) rfl rfl trivial⟩
    · cases h
  | go t =>
    simp only [step, go] at h
    cases ht : s.pc t with
    | idle => rw [ht] at h; cases h
    | pTop a =>
      rw [ht] at h; cases h
      exact ⟨w, r, hI.move t _ (by rw [ht]; rfl) (by rw [ht]; rfl) rfl rfl trivial⟩
    | pSeq a pw =>
      rw [ht] at h; cases h
      refine ⟨w, r, hI.move t _ (by rw [ht]; rfl) (by rw [ht]; rfl) ?_ ?_ ?_⟩
      · split <;> rfl
      · split <;> rfl
      · split
        · rename_i e; show pw ≤ s.seqP (pw % n); omega
        · trivial
    | pCas a pw =>
      rw [ht] at h
      simp only at h
      split at h
      · rename_i e; cases h; exact ⟨w, r, casP_inv hI ht e⟩
      · cases h
        exact ⟨w, r, hI.move t _ (by rw [ht]; rfl) (by rw [ht]; rfl) rfl rfl trivial⟩
    | pIn a pw => rw [ht] at h; cases h; exact ⟨_, _, put_inv hI ht⟩
    | pSt a pw => rw [ht] at h; cases h; exact ⟨_, _, storeP_inv hI ht⟩
    | cTop =>
      rw [ht] at h; cases h
      exact ⟨w, r, hI.move t _ (by rw [ht]; rfl) (by rw [ht]; rfl) rfl rfl trivial⟩
    | cSeq pr =>
      rw [ht] at h; cases h
      refine ⟨w, r, hI.move t _ (by rw [ht]; rfl) (by rw [ht]; rfl) ?_ ?_ ?_⟩
      · split <;> rfl
      · split <;> rfl
      · split
        · rename_i e; show pr ≤ s.seqC (pr % n); omega
        · trivial
    | cTest pr =>
      rw [ht] at h
      simp only at h
      have hk : pr ≤ s.seqC (pr % n) := by have := hI.pc t; rwa [ht] at this
      split at h
      · cases h
        exact ⟨w, r, (hI.move t .idle (by rw [ht]; rfl) (by rw [ht]; rfl) rfl rfl trivial).empty t⟩
      · rename_i hgt
        cases h
        exact ⟨w, r, hI.move t _ (by rw [ht]; rfl) (by rw [ht]; rfl) rfl rfl ⟨hk, by omega⟩⟩
    | cCas pr =>
      rw [ht] at h
      simp only at h
      split at h
      · rename_i e; cases h; exact ⟨w, r, casC_inv hI ht e⟩
      · cases h
        exact ⟨w, r, hI.move t _ (by rw [ht]; rfl) (by rw [ht]; rfl) rfl rfl trivial⟩
    | cIn pr =>
      rw [ht] at h
      obtain ⟨a, l, h1, h2⟩ := take_head hI ht
      simp only [h1] at h
      cases h
      exact ⟨_, _, take_inv hI ht h1⟩
    | cSt pr x => rw [ht] at h; cases h; exact ⟨_, _, storeC_inv hI ht⟩

theorem reach_inv {n : Nat} (hn : 0 < n) {s : St T A} (h : Reach (step n) (init T A) s) :
    ∃ w r, Inv n s w r :=
  h.inv ⟨_, _, init_inv hn⟩ fun _ _ _ hI hs => step_inv hI hs

end FF.Umpmc
