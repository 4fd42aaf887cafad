import Verif.Alloc.SlabStep3
/-!
# Every step of the slab allocator keeps the invariant (4): segments
-/
namespace FF.Alloc.Slab
open FF.Mem FF.Node

variable {G : Cfg} {s : S}

/-- The allocations stay as they are when their blocks and the memory of their blocks stay. -/
theorem Inv.liv' (I : Inv G s) {s' : S}
    (hk : ∀ r c k b, IsBlk G s.regs r c k b → s.pl b = .live →
      IsBlk G s'.regs r c k b ∧ ∀ x, b ≤ x → x ≤ b + bsz c → ld s'.mem x = ld s.mem x)
    (hb : ∀ e ∈ s.live, e.cls = none →
      ⟨e.blk, e.n + 8, none⟩ ∈ s'.regs ∧ ld s'.mem e.blk = ld s.mem e.blk) :
    ∀ e ∈ s.live, e.Ok G s' := by
  intro e he
  unfold Ent.Ok
  cases hcl : e.cls with
  | none =>
    have B := I.big he hcl
    have := hb e he hcl
    exact { B with reg := this.1, hdr := by rw [this.2]; exact B.hdr }
  | some c =>
    obtain ⟨r, k, E⟩ := I.ent he hcl
    have h := hk r c k e.blk E.blk (I.liveAt he hcl)
    have := E.lo
    have := E.pos
    have := E.hi
    refine ⟨r, k, { E with blk := h.1, fill := fun x h1 h2 h3 => ?_ }⟩
    rw [h.2 x h1 (by omega)]
    exact E.fill x h1 h2 h3

/-- The same for the threads in `free`. -/
theorem Inv.frk' (I : Inv G s) {s' : S} (hcl : s.closed = true → s'.closed = true)
    (t : Nat) (hk : ∀ r c k b, IsBlk G s.regs r c k b → s.pl b = .fr t →
      IsBlk G s'.regs r c k b ∧ ∀ x, b ≤ x → x ≤ b + bsz c → ld s'.mem x = ld s.mem x) :
    (s.fr t).Ok G s' := by
  have h := I.frk t
  have hat : ∀ b, b ∈ (s.fr t).blk → s.pl b = .fr t := fun b hb => I.frAt hb
  cases hf : s.fr t with
  | idle => trivial
  | walk e b =>
    rw [hf] at h hat
    obtain ⟨r, c, k, h1, h2, h3, h4, h5, h6⟩ := h
    have g := hk r c k e.blk h2 (hat _ (by simp [FPc.blk]))
    refine ⟨r, c, k, h1, g.1, h3, h4, h5, fun x x1 x2 x3 => ?_⟩
    have := bsz_mod c
    rw [g.2 x x1 (by omega)]
    exact h6 x x1 x2 x3
  | put e b =>
    rw [hf] at h hat
    obtain ⟨rfl, r, c, k, h1, h2⟩ := h
    exact ⟨rfl, r, c, k, h1, (hk r c k e.blk h2 (hat _ (by simp [FPc.blk]))).1⟩
  | push e c b =>
    rw [hf] at h hat
    obtain ⟨rfl, h1, r, k, h2⟩ := h
    exact ⟨rfl, h1, r, k, (hk r c k e.blk h2 (hat _ (by simp [FPc.blk]))).1⟩
  | recl e c b =>
    rw [hf] at h hat
    obtain ⟨rfl, h1, h0, r, k, h2⟩ := h
    exact ⟨rfl, h1, hcl h0, r, k, (hk r c k e.blk h2 (hat _ (by simp [FPc.blk]))).1⟩

theorem Inv.bigApart (I : Inv G s) {e : Ent} (he : e ∈ s.live) (hc : e.cls = none) {r : Reg}
    {c : Nat} (hr : r ∈ s.regs) (hrc : r.cls = some c) :
    r.a + r.len ≤ e.blk ∨ e.blk + e.n + 8 ≤ r.a := by
  rcases I.regs.apart hr (I.big he hc).reg with ea | ea | ea
  · rw [ea] at hrc; cases hrc
  · exact .inl ea
  · dsimp only at ea; exact .inr (by omega)

theorem pl_eq_of {pl : Nat → Pl} {b x : Nat} {Y : Pl} (h : x ≠ b) : upd pl b Y x = pl x := by
  simp [upd, h]

theorem Inv.carve (I : Inv G s) {s' : S} (hs : step G s .carve = some s') : Inv G s' := by
  simp only [step] at hs
  split at hs
  · rename_i r c ho
    have hk := I.ownk
    unfold OPc.Ok at hk
    rw [ho] at hk
    obtain ⟨q, hcl, hav⟩ := hk
    obtain ⟨g, g1, g2, g3, g4, g5, g6⟩ := I.cur1 hcl c hav
    rw [g5] at hs
    simp only [Option.some.injEq] at hs
    generalize hb0 : s.bufp c = b at *
    generalize hk0 : G.nsl c - s.avail c = k at *
    have hB : IsBlk G s.regs g c k b := ⟨g1, g2, by omega, g4⟩
    have hpb : s.pl b = .fresh := (g6 g k b hB).2 ⟨rfl, Nat.le_refl _⟩
    have hin := hB.in_reg I.regs
    have hgp := I.regs.pos g g1
    have hgw : g.a + g.len < 18446744073709551616 := hgp.2.2.2
    have hsw := I.segw g c g1 g2
    have hbm := bsz_mod c
    have hbg := bsz_ge c
    have hcnt := I.count g c g1 g2
    have hcd := cnt_down (pl := s.pl) (Y := .own) (nodup_blocks G c g.a)
      (mem_blocks.2 ⟨k, hB.2.2.1, hB.2.2.2⟩) (.inl hpb) (by simp)
    have hcl' := cnt_le s.pl (G.blocks c g.a)
    rw [blocks_length] at hcl'
    -- the next block
    have hnb : s.avail c - 1 ≠ 0 → IsBlk G s.regs g c (k + 1) (b + 8 + bsz c) := fun h =>
      ⟨g1, g2, by omega, by rw [g4]; unfold hb; rw [Nat.add_mul, Nat.one_mul]; omega⟩
    have hnf : s.avail c - 1 ≠ 0 → s.pl (b + 8 + bsz c) = .fresh := fun h =>
      (g6 g (k + 1) _ (hnb h)).2 ⟨rfl, by omega⟩
    -- the memory
    obtain ⟨m', hm'⟩ : ∃ m', m' = (if s.avail c - 1 ≠ 0 then
      st (st s.mem (g.a + 16) (ld s.mem (g.a + 16) - 1)) (b + 8 + bsz c) g.a
      else st s.mem (g.a + 16) (ld s.mem (g.a + 16) - 1)) := ⟨_, rfl⟩
    rw [← hm'] at hs
    have out : ∀ x, (x + 8 ≤ g.a + 16 ∨ g.a + 24 ≤ x) →
        (s.avail c - 1 ≠ 0 → x + 8 ≤ b + 8 + bsz c ∨ b + 8 + bsz c + 8 ≤ x) →
        ld m' x = ld s.mem x := by
      intro x h1 h2
      rw [hm']
      split
      · rename_i h
        rw [ld_st_disj (by have := h2 h; omega), ld_st_disj (by omega)]
      · rw [ld_st_disj (by omega)]
    have h16 : ld m' (g.a + 16) = ld s.mem (g.a + 16) - 1 := by
      rw [hm']
      split
      · rw [ld_st_disj (by omega)]; exact ld_st_same (by omega)
      · exact ld_st_same (by omega)
    have hnm : s.avail c - 1 ≠ 0 → ld m' (b + 8 + bsz c) = g.a := by
      intro h
      rw [hm', if_pos h]; exact ld_st_same (by omega)
    have blko : ∀ r' c' k' b', IsBlk G s.regs r' c' k' b' → s.pl b' ≠ .fresh →
        ∀ x, b' ≤ x → x ≤ b' + bsz c' → ld m' x = ld s.mem x := by
      intro r' c' k' b' h hf x x1 x2
      have i1 := h.in_reg I.regs
      have i2 := I.regs.rec_in g1 g2
      refine out x ?_ ?_
      · rcases I.regs.apart g1 h.1 with ea | ea | ea
        · subst ea; omega
        · omega
        · omega
      · intro hne
        rcases (hnb hne).cases I.regs h with ea | ea | ea
        · rw [← ea.2.2.2] at hf; exact absurd (hnf hne) hf
        · omega
        · omega
    have cln : ∀ r' c' k' b', IsBlk G s.regs r' c' k' b' →
        ld m' (b' + bsz c') = ld s.mem (b' + bsz c') := by
      intro r' c' k' b' h
      have i1 := h.in_reg I.regs
      have i2 := I.regs.rec_in g1 g2
      refine out _ ?_ ?_
      · rcases I.regs.apart g1 h.1 with ea | ea | ea
        · subst ea; omega
        · omega
        · omega
      · intro hne
        rcases (hnb hne).cases I.regs h with ea | ea | ea
        · obtain ⟨_, rfl, _, rfl⟩ := ea; omega
        · omega
        · omega
    have rec' : ∀ r' c', r' ∈ s.regs → r'.cls = some c' → r' ≠ g →
        ld m' r'.a = ld s.mem r'.a ∧ ld m' (r'.a + 16) = ld s.mem (r'.a + 16) := by
      intro r' c' hr' hc' hne
      have i1 := I.regs.rec_in hr' hc'
      have i2 := I.regs.rec_in g1 g2
      have i3 : s.avail c - 1 ≠ 0 → b + 8 + bsz c + 8 ≤ g.a + g.len := fun h => by
        have := (hnb h).in_reg I.regs
        omega
      rcases I.regs.apart g1 hr' with ea | ea | ea
      · exact absurd ea.symm hne
      · exact ⟨out _ (by omega) (by omega), out _ (by omega) (by omega)⟩
      · exact ⟨out _ (by omega) (by omega), out _ (by omega) (by omega)⟩
    have hga : ld m' g.a = ld s.mem g.a := out _ (by omega) (by omega)
    have fr' : ∀ x, upd s.pl b .own x = .fresh ↔ s.pl x = .fresh ∧ x ≠ b := by
      intro x
      by_cases e : x = b
      · subst e; simp [upd]
      · simp [upd, e]
    have hat : AtPl s' := by
      rw [← hs]
      refine I.atp.move (b := b) (X := .fresh) (Y := .own) hpb (by simp) rfl (fun h => h.elim) ?_ ?_
      · intro _; simp [S.nums, ho, OPc.blk]
      · intro l _ h1 h2
        cases l <;> first | rfl | exact absurd rfl h1 | exact absurd rfl h2
    subst hs
    exact {
      regs := I.regs
      isb := fun x hx => by
        by_cases e : x = b
        · subst e; exact ⟨g, c, k, hB⟩
        · exact I.isb x (by simpa [upd, e] using hx)
      pln := fun r' c' k' x hx => by
        dsimp only
        by_cases e : x = b
        · subst e; simp [upd]
        · rw [pl_eq_of e]; exact I.pln r' c' k' x hx
      atp := hat
      clq := I.clq
      fbq := I.fbq
      ownk := ⟨q, hcl, g, k, hB⟩
      frk := fun t => I.frk' (by exact fun h => h) t fun r' c' k' b' h hp =>
        ⟨h, blko r' c' k' b' h (by rw [hp]; simp)⟩
      drk := I.drk
      cl := I.cl
      liv := I.liv' (fun r' c' k' b' h hp => ⟨h, blko r' c' k' b' h (by rw [hp]; simp)⟩)
        (fun e he hc => by
          have := I.bigApart he hc g1 g2
          have i2 := I.regs.rec_in g1 g2
          have i3 : s.avail c - 1 ≠ 0 → b + 8 + bsz c + 8 ≤ g.a + g.len := fun h => by
            have := (hnb h).in_reg I.regs
            omega
          exact ⟨(I.big he hc).reg, out _ (by omega) (by omega)⟩)
      lnd := I.lnd
      cur0 := fun _ c' ha r' k' x hx hf => by
        replace hf := (fr' x).1 hf
        dsimp only [upd] at ha
        by_cases ec : c' = c
        · subst ec
          simp only [if_true] at ha
          have := (g6 r' k' x hx).1 hf.1
          obtain rfl : k' = k := by have := hx.2.2.1; omega
          obtain ⟨rfl, _⟩ := this
          exact hf.2 (by rw [hx.2.2.2, g4])
        · simp only [if_neg ec] at ha
          exact I.cur0 hcl c' ha r' k' x hx hf.1
      cur1 := fun _ c' ha => by
        dsimp only [upd] at ha ⊢
        by_cases ec : c' = c
        · subst ec
          simp only [if_true] at ha ⊢
          rw [if_pos ha]
          refine ⟨g, g1, g2, by omega, ?_, hnm ha, fun r' k' x hx => ?_⟩
          · rw [(hnb ha).2.2.2]
            congr 1
            omega
          · rw [show (if x = b then Pl.own else s.pl x) = upd s.pl b .own x from rfl, fr' x,
              g6 r' k' x hx]
            constructor
            · rintro ⟨⟨rfl, h1⟩, h2⟩
              refine ⟨rfl, ?_⟩
              have : k' ≠ k := fun e => h2 (by rw [hx.2.2.2, g4, e])
              omega
            · rintro ⟨rfl, h1⟩
              refine ⟨⟨rfl, by omega⟩, ?_⟩
              rintro rfl
              have := hx.inj I.regs hB
              omega
        · simp only [if_neg ec] at ha ⊢
          obtain ⟨r', h1, h2, h3, h4, h5, h6⟩ := I.cur1 hcl c' ha
          refine ⟨r', h1, h2, h3, h4, ?_, fun r'' k' x hx => ?_⟩
          · have hx : IsBlk G s.regs r' c' (G.nsl c' - s.avail c') (s.bufp c') := ⟨h1, h2, by omega, h4⟩
            have i1 := hx.in_reg I.regs
            have hne : r' ≠ g := by
              rintro rfl
              rw [g2] at h2
              exact ec (Option.some.inj h2).symm
            have i3 : s.avail c - 1 ≠ 0 → b + 8 + bsz c + 8 ≤ g.a + g.len := fun h => by
              have := (hnb h).in_reg I.regs
              omega
            have i2 := I.regs.rec_in g1 g2
            rw [out _ _ _]
            · exact h5
            · rcases I.regs.apart g1 h1 with ea | ea | ea
              · exact absurd ea.symm hne
              · omega
              · omega
            · rcases I.regs.apart g1 h1 with ea | ea | ea
              · exact absurd ea.symm hne
              · omega
              · omega
          · rw [show (if x = b then Pl.own else s.pl x) = upd s.pl b .own x from rfl, fr' x,
              h6 r'' k' x hx]
            constructor
            · exact fun h => h.1
            · refine fun h => ⟨h, ?_⟩
              rintro rfl
              exact ec (hx.inj I.regs hB).2.1
      segw := fun r' c' h1 h2 => by
        by_cases e : r' = g
        · subst e; dsimp only; rw [hga]; exact I.segw _ c' h1 h2
        · dsimp only; rw [(rec' r' c' h1 h2 e).1]; exact I.segw _ c' h1 h2
      hdr := fun r' c' k' x hx hf => by
        dsimp only at hf ⊢
        by_cases e : x = b
        · subst e
          obtain ⟨rfl, _⟩ := hx.inj I.regs hB
          rw [out _ (by omega) (by omega)]
          exact g5
        · rw [pl_eq_of e] at hf
          rw [blko r' c' k' x hx hf x (Nat.le_refl _) (by omega)]
          exact I.hdr r' c' k' x hx hf
      clean := fun r' c' k' x hx => by dsimp only; rw [cln r' c' k' x hx]; exact I.clean r' c' k' x hx
      count := fun r' c' h1 h2 => by
        dsimp only
        by_cases e : r' = g
        · subst e
          rw [g2] at h2
          obtain rfl := Option.some.inj h2
          rw [h16]
          omega
        · rw [(rec' r' c' h1 h2 e).2, I.count r' c' h1 h2]
          refine cnt_congr fun x hx => ?_
          obtain ⟨k', hk', rfl⟩ := mem_blocks.1 hx
          have : hb c' r'.a k' ≠ b := by
            intro eq
            exact e (IsBlk.inj I.regs ⟨h1, h2, hk', rfl⟩ (eq ▸ hB)).1
          rw [pl_eq_of this]
      good := I.good }
  · cases hs

end FF.Alloc.Slab
