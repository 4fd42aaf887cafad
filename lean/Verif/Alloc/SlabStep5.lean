import Verif.Alloc.SlabStep4
/-!
# Every step of the slab allocator keeps the invariant (5): reclaiming, new memory
-/
namespace FF.Alloc.Slab
open FF.Mem FF.Node

variable {G : Cfg} {s : S}

theorem Inv.idle (I : Inv G s) (h : s.closed = true) : s.own = .idle := by
  have := I.ownk
  unfold OPc.Ok at this
  split at this
  · assumption
  · rw [this.2.2] at h; cases h
  · rw [this.2.1] at h; cases h
  · rw [this.2.1] at h; cases h
  · rw [this.2.1] at h; cases h
  · rw [this.2.1] at h; cases h

/-- A buffer is counted as available again. -/
theorem Inv.count1 (I : Inv G s) (hcl : s.closed = true) {g : Reg} {c k b : Nat}
    (hB : IsBlk G s.regs g c k b) {X : Pl} (hX : s.pl b = X) (HX : Held X)
    {fr' : Nat → FPc} {dr' : Option (Nat × Nat)}
    (hdr' : ∀ c b, dr' = some (c, b) → s.dr = some (c, b))
    (hfr' : ∀ t, fr' t = s.fr t ∨ fr' t = .idle) {s' : S}
    (hs' : s' = { s with mem := st s.mem (g.a + 16) (ld s.mem (g.a + 16) + 1), pl := upd s.pl b .gone, fr := fr', dr := dr' })
    (h1 : (s.nums X).Perm (b :: s'.nums X))
    (h3 : ∀ l, Held l → l ≠ X → s'.nums l = s.nums l) :
    Inv G s' ∧ ld s'.mem (g.a + 16) = ld s.mem (g.a + 16) + 1 := by
  have nX : X ≠ .none ∧ X ≠ .fresh ∧ X ≠ .gone := by cases X <;> simp_all [Held]
  have hgp := I.regs.pos g hB.1
  have hgw : g.a + g.len < 18446744073709551616 := hgp.2.2.2
  have hsw := I.segw g c hB.1 hB.2.1
  have hcnt := I.count g c hB.1 hB.2.1
  have hcu := cnt_up (pl := s.pl) (Y := .gone) (nodup_blocks G c g.a)
    (mem_blocks.2 ⟨k, hB.2.2.1, hB.2.2.2⟩) (by rw [hX]; tauto) (.inr rfl)
  have hle := cnt_le s.pl (G.blocks c g.a)
  rw [blocks_length] at hle
  have hat : AtPl s' := I.atp.move hX nX.2.2 (by rw [hs']) (fun _ => h1) (fun h => h.elim)
    (fun l hl h _ => h3 l hl h)
  obtain ⟨m', hm'⟩ : ∃ m', m' = st s.mem (g.a + 16) (ld s.mem (g.a + 16) + 1) := ⟨_, rfl⟩
  rw [← hm'] at hs'
  have h16 : ld m' (g.a + 16) = ld s.mem (g.a + 16) + 1 := by
    rw [hm']; exact ld_st_same (by omega)
  have out : ∀ x, (x + 8 ≤ g.a + 16 ∨ g.a + 24 ≤ x) → ld m' x = ld s.mem x := by
    intro x h; rw [hm']; exact ld_st_disj (by omega)
  have i2 := I.regs.rec_in hB.1 hB.2.1
  have blko : ∀ r' c' k' b', IsBlk G s.regs r' c' k' b' →
      ∀ x, b' ≤ x → x ≤ b' + bsz c' → ld m' x = ld s.mem x := by
    intro r' c' k' b' h x x1 x2
    have i1 := h.in_reg I.regs
    refine out x ?_
    rcases I.regs.apart hB.1 h.1 with ea | ea | ea
    · subst ea; omega
    · omega
    · omega
  have pf : ∀ x, (upd s.pl b .gone x = .fresh ↔ s.pl x = .fresh) := by
    intro x; unfold upd
    by_cases e : x = b
    · subst e; simp [hX, nX]
    · simp [e]
  have pn : ∀ x, (upd s.pl b .gone x = .none ↔ s.pl x = .none) := by
    intro x; unfold upd
    by_cases e : x = b
    · subst e; simp [hX, nX]
    · simp [e]
  have hidle := I.idle hcl
  have rec' : ∀ r' c', r' ∈ s.regs → r'.cls = some c' → r' ≠ g →
      ld m' r'.a = ld s.mem r'.a ∧ ld m' (r'.a + 16) = ld s.mem (r'.a + 16) := by
    intro r' c' hr' hc' hne
    have i1 := I.regs.rec_in hr' hc'
    rcases I.regs.apart hB.1 hr' with ea | ea | ea
    · exact absurd ea.symm hne
    · exact ⟨out _ (by omega), out _ (by omega)⟩
    · exact ⟨out _ (by omega), out _ (by omega)⟩
  subst hs'
  refine ⟨?_, h16⟩
  exact {
    regs := I.regs
    isb := fun x hx => I.isb x (fun h => hx ((pn x).2 h))
    pln := fun r c k x hx h => I.pln r c k x hx ((pn x).1 h)
    atp := hat
    clq := I.clq
    fbq := I.fbq
    ownk := by unfold OPc.Ok; dsimp only; rw [hidle]; trivial
    frk := fun t => by
      dsimp only
      rcases hfr' t with e | e
      · rw [e]
        exact I.frk' (by exact fun h => h) t fun r' c' k' b' h _ => ⟨h, blko r' c' k' b' h⟩
      · rw [e]; trivial
    drk := fun c b h => I.drk c b (hdr' c b h)
    cl := I.cl
    liv := I.liv' (fun r' c' k' b' h _ => ⟨h, blko r' c' k' b' h⟩) (fun e he hc => by
      have := I.bigApart he hc hB.1 hB.2.1
      exact ⟨(I.big he hc).reg, out _ (by omega)⟩)
    lnd := I.lnd
    cur0 := fun h => by rw [hcl] at h; cases h
    cur1 := fun h => by rw [hcl] at h; cases h
    segw := fun r' c' h1 h2 => by
      dsimp only
      by_cases e : r' = g
      · subst e; rw [out _ (by omega)]; exact I.segw _ c' h1 h2
      · rw [(rec' r' c' h1 h2 e).1]; exact I.segw _ c' h1 h2
    hdr := fun r' c' k' x hx hf => by
      dsimp only
      rw [blko r' c' k' x hx x (Nat.le_refl _) (by omega)]
      exact I.hdr r' c' k' x hx (fun h => hf ((pf x).2 h))
    clean := fun r' c' k' x hx => by
      dsimp only
      rw [blko r' c' k' x hx _ (by omega) (Nat.le_refl _)]
      exact I.clean r' c' k' x hx
    count := fun r' c' h1 h2 => by
      dsimp only
      by_cases e : r' = g
      · subst e
        rw [hB.2.1] at h2
        obtain rfl := Option.some.inj h2
        rw [h16]
        omega
      · rw [(rec' r' c' h1 h2 e).2, I.count r' c' h1 h2]
        refine cnt_congr fun x hx => ?_
        obtain ⟨k', hk', rfl⟩ := mem_blocks.1 hx
        have : hb c' r'.a k' ≠ b := by
          intro eq
          exact e (IsBlk.inj I.regs ⟨h1, h2, hk', rfl⟩ (eq ▸ hB)).1
        rw [pl_eq_of this]
    good := I.good }

/-- A segment all buffers of which are available goes back to the system. -/
theorem Inv.drop (I : Inv G s) (hcl : s.closed = true) {g : Reg} {c : Nat} (hg : g ∈ s.regs)
    (hgc : g.cls = some c) (hall : ld s.mem (g.a + 16) = G.nsl c) :
    Inv G { s with
      regs := s.regs.erase g
      pl := fun x => if x ∈ G.blocks c g.a then Pl.none else s.pl x } := by
  have hfg : ∀ x ∈ G.blocks c g.a, s.pl x = .fresh ∨ s.pl x = .gone := by
    refine cnt_all ?_
    rw [← I.count g c hg hgc, blocks_length]; exact hall
  have hidle := I.idle hcl
  -- blocks of other segments
  have kp : ∀ {r c' k b}, IsBlk G s.regs r c' k b → Held (s.pl b) →
      IsBlk G (s.regs.erase g) r c' k b := by
    intro r c' k b h hh
    refine h.keep ?_
    rintro rfl
    have : c' = c := by
      have := h.2.1
      rw [hgc] at this; exact (Option.some.inj this).symm
    subst this
    rcases hfg b (mem_blocks.2 ⟨k, h.2.2.1, h.2.2.2⟩) with e | e <;> rw [e] at hh <;> exact hh
  have nin : ∀ {r c' k b}, IsBlk G (s.regs.erase g) r c' k b → b ∉ G.blocks c g.a := by
    intro r c' k b h hb
    obtain ⟨k', hk', e⟩ := mem_blocks.1 hb
    have := (h.erase.inj I.regs ⟨hg, hgc, hk', e⟩).1
    subst this
    exact (I.regs.nodup.mem_erase_iff.1 h.1).1 rfl
  have hat : AtPl { s with
      regs := s.regs.erase g
      pl := fun x => if x ∈ G.blocks c g.a then Pl.none else s.pl x } := by
    intro l hl
    refine ⟨(I.atp l hl).1, fun b => ?_⟩
    rw [show S.nums _ l = s.nums l from by cases l <;> rfl, (I.atp l hl).2 b]
    dsimp only
    split
    · rename_i hb
      have := hfg b hb
      constructor
      · intro e; rw [e] at this; cases l <;> simp_all [Held]
      · intro e; rw [← e] at hl; exact hl.elim
    · rfl
  exact {
    regs := I.regs.erase g
    isb := fun x hx => by
      dsimp only at hx
      split at hx
      · exact absurd rfl hx
      · rename_i hn
        obtain ⟨r, c', k, h⟩ := I.isb x hx
        refine ⟨r, c', k, h.keep ?_⟩
        rintro rfl
        have : c' = c := by
          have := h.2.1
          rw [hgc] at this; exact (Option.some.inj this).symm
        subst this
        exact hn (mem_blocks.2 ⟨k, h.2.2.1, h.2.2.2⟩)
    pln := fun r c' k x hx => by
      dsimp only
      rw [if_neg (nin hx)]
      exact I.pln r c' k x hx.erase
    atp := hat
    clq := fun c' t b hb => by
      obtain ⟨r, k, h⟩ := I.clq c' t b hb
      exact ⟨r, k, kp h (by rw [I.qAt hb]; trivial)⟩
    fbq := I.fbq
    ownk := by unfold OPc.Ok; dsimp only; rw [hidle]; trivial
    frk := fun t => I.frk' (by exact fun h => h) t fun r c' k b h hp =>
      ⟨kp h (by rw [hp]; trivial), fun _ _ _ => rfl⟩
    drk := fun c' b h => by
      obtain ⟨h1, r, k, h2⟩ := I.drk c' b h
      exact ⟨h1, r, k, kp h2 (by rw [I.handAt h]; trivial)⟩
    cl := I.cl
    liv := I.liv' (fun r c' k b h hp => ⟨kp h (by rw [hp]; trivial), fun _ _ _ => rfl⟩)
      (fun e he hc => by
        refine ⟨(List.mem_erase_of_ne ?_).2 (I.big he hc).reg, rfl⟩
        rintro rfl
        cases hgc)
    lnd := I.lnd
    cur0 := fun h => by rw [hcl] at h; cases h
    cur1 := fun h => by rw [hcl] at h; cases h
    segw := fun r c' h => I.segw r c' (List.mem_of_mem_erase h)
    hdr := fun r c' k x hx hf => by
      dsimp only at hf
      rw [if_neg (nin hx)] at hf
      exact I.hdr r c' k x hx.erase hf
    clean := fun r c' k x hx => I.clean r c' k x hx.erase
    count := fun r c' h1 h2 => by
      dsimp only
      rw [I.count r c' (List.mem_of_mem_erase h1) h2]
      refine cnt_congr fun x hx => ?_
      obtain ⟨k, hk, rfl⟩ := mem_blocks.1 hx
      rw [if_neg (nin ⟨h1, h2, hk, rfl⟩)]
    good := I.good }

theorem Inv.reclaim (I : Inv G s) (hcl : s.closed = true) {g : Reg} {c k b : Nat}
    (hB : IsBlk G s.regs g c k b) {X : Pl} (hX : s.pl b = X) (HX : Held X)
    {fr' : Nat → FPc} {dr' : Option (Nat × Nat)}
    (hdr' : ∀ c b, dr' = some (c, b) → s.dr = some (c, b))
    (hfr' : ∀ t, fr' t = s.fr t ∨ fr' t = .idle)
    (h1 : ∀ m pl, (s.nums X).Perm (b :: ({ s with mem := m, pl := pl, fr := fr', dr := dr' }).nums X))
    (h3 : ∀ m pl l, Held l → l ≠ X → ({ s with mem := m, pl := pl, fr := fr', dr := dr' }).nums l = s.nums l) :
    Inv G { s.reclaim G c (ld s.mem b) b with fr := fr', dr := dr' } := by
  have nX : X ≠ .fresh := by rintro rfl; exact HX
  have hh : ld s.mem b = g.a := I.hdr g c k b hB (by rw [hX]; exact nX)
  rw [hh]
  obtain ⟨J, h16⟩ := I.count1 hcl hB hX HX hdr' hfr' rfl (h1 _ _) (h3 _ _)
  unfold S.reclaim
  dsimp only at h16 ⊢
  split
  · rename_i hv
    rw [hv] at h16
    have hsf := sysFree_eq (s := { s with mem := st s.mem (g.a + 16) (ld s.mem (g.a + 16) + 1), pl := upd s.pl b .gone })
      (G := G) I.regs hB.1
    rw [hsf]
    rw [hv] at J
    rw [hv]
    exact J.drop hcl hB.1 hB.2.1 h16
  · exact J

theorem Inv.recl (I : Inv G s) {t : Nat} {s' : S} (hs : step G s (.recl t) = some s') :
    Inv G s' := by
  simp only [step] at hs
  split at hs
  · rename_i e c b hf
    have F := I.frk t
    rw [hf] at F
    obtain ⟨rfl, f1, f3, r, k, f2⟩ := F
    have hp := I.frAt (t := t) (b := e.blk) (by rw [hf]; simp [FPc.blk])
    simp only [Option.some.injEq] at hs
    have hdr : ∀ c' sg x, (s.reclaim G c' sg x).dr = s.dr := by
      intro c' sg x
      unfold S.reclaim S.sysFree
      dsimp only
      split
      · split <;> rfl
      · rfl
    have := I.reclaim f3 f2 hp trivial (fr' := upd s.fr t .idle) (dr' := s.dr) (fun _ _ h => h)
      (fun t' => by
        by_cases et : t' = t
        · subst et; exact .inr (by simp [upd])
        · exact .inl (by simp [upd, et]))
      (fun m pl => by simp [S.nums, upd, hf, FPc.blk])
      (fun m pl l _ h1 => by
        cases l with
        | fr t' =>
          have : t' ≠ t := fun e => h1 (by rw [e])
          simp [S.nums, upd, this]
        | _ => rfl)
    rw [← hs]
    rw [← hdr c (ld s.mem e.blk) e.blk] at this
    exact this
  · cases hs

theorem Inv.drecl (I : Inv G s) {s' : S} (hs : step G s .drecl = some s') :
    Inv G s' := by
  simp only [step] at hs
  split at hs
  · rename_i c b hd
    obtain ⟨f3, r, k, f2⟩ := I.drk c b hd
    have hp := I.handAt hd
    simp only [Option.some.injEq] at hs
    have hfr : ∀ c' sg x, (s.reclaim G c' sg x).fr = s.fr := by
      intro c' sg x
      unfold S.reclaim S.sysFree
      dsimp only
      split
      · split <;> rfl
      · rfl
    have := I.reclaim f3 f2 hp trivial (fr' := s.fr) (dr' := none) (fun _ _ h => by cases h)
      (fun t' => .inl rfl)
      (fun m pl => by simp [S.nums, hd])
      (fun m pl l _ h1 => by
        cases l with
        | hand => exact absurd rfl h1
        | _ => rfl)
    rw [← hs]
    rw [← hfr c (ld s.mem b) b] at this
    exact this
  · cases hs

/-! ## New memory -/

theorem Regs.add {rs : List Reg} (R : Regs G rs) {r : Reg} {a len : Nat} {cls : Option Nat}
    (hr : r = ⟨a, len, cls⟩) (hn : S.newRegion { s with regs := rs } a len = true) (h8 : 8 ≤ len)
    (hc : ∀ c, cls = some c → c < 9 ∧ 0 < G.nsl c ∧ len = G.slen c) : Regs G (r :: rs) := by
  simp only [S.newRegion, Bool.and_eq_true, decide_eq_true_eq, List.all_eq_true] at hn
  subst hr
  refine ⟨?_, ?_, ?_⟩
  · rw [List.pairwise_cons]
    exact ⟨fun x hx => (hn.2 x hx).symm, R.disj⟩
  · intro x hx
    rcases List.mem_cons.1 hx with rfl | hx
    · exact ⟨hn.1.1, h8, hn.1.2.1, hn.1.2.2⟩
    · exact R.pos x hx
  · intro x hx
    rcases List.mem_cons.1 hx with rfl | hx
    · exact hc
    · exact R.seg x hx

theorem newRegion_apart {a len : Nat} (hn : s.newRegion a len = true) {r : Reg} (hr : r ∈ s.regs) :
    r.a + r.len ≤ a ∨ a + len ≤ r.a := by
  simp only [S.newRegion, Bool.and_eq_true, decide_eq_true_eq, List.all_eq_true] at hn
  exact hn.2 r hr

theorem IsBlk.cons {rs : List Reg} {r g : Reg} {c k b : Nat} (h : IsBlk G rs r c k b) :
    IsBlk G (g :: rs) r c k b := ⟨List.mem_cons_of_mem _ h.1, h.2⟩

theorem IsBlk.old {rs : List Reg} {r g : Reg} {c k b : Nat} (h : IsBlk G (g :: rs) r c k b)
    (hne : r ≠ g) : IsBlk G rs r c k b :=
  ⟨(List.mem_cons.1 h.1).resolve_left hne, h.2⟩

theorem Inv.sysm (I : Inv G s) {a : Nat} {s' : S} (hs : step G s (.sysm a) = some s') :
    Inv G s' := by
  simp only [step] at hs
  split at hs
  · rename_i r ho
    have hk := I.ownk
    unfold OPc.Ok at hk
    rw [ho] at hk
    obtain ⟨⟨q1, q2, q3, q4⟩, hal, hcl⟩ := hk
    split at hs
    · rename_i hn
      simp only [Option.some.injEq] at hs
      have hreal : r.real = r.n := by unfold Req.real; omega
      rw [hreal] at hs hn
      generalize hg : (⟨a, r.n + 8, none⟩ : Reg) = g at *
      have R := I.regs.add (s := s) hg.symm hn (by omega) (by intro c h; cases h)
      have hgc : g.cls = none := by rw [← hg]
      have hga : g.a = a := by rw [← hg]
      obtain ⟨m', hm'⟩ : ∃ m', m' = st s.mem a 0 := ⟨_, rfl⟩
      rw [← hm'] at hs
      have h00 : ld m' a = 0 := by rw [hm']; exact ld_st_same (by omega)
      have out : ∀ x, x + 8 ≤ a ∨ a + 8 ≤ x → ld m' x = ld s.mem x :=
        fun x h => by rw [hm']; exact ld_st_disj (by omega)
      have old : ∀ {r' c' k b}, IsBlk G (g :: s.regs) r' c' k b → IsBlk G s.regs r' c' k b :=
        fun h => h.old (fun e => by
          have := h.2.1
          rw [e, hgc] at this; cases this)
      have blko : ∀ r' c' k' b', IsBlk G s.regs r' c' k' b' →
          ∀ x, b' ≤ x → x ≤ b' + bsz c' → ld m' x = ld s.mem x := by
        intro r' c' k' b' h x x1 x2
        have i1 := h.in_reg I.regs
        have := newRegion_apart hn h.1
        exact out x (by omega)
      have rec' : ∀ r' c', r' ∈ s.regs → r'.cls = some c' →
          ld m' r'.a = ld s.mem r'.a ∧
          ld m' (r'.a + 16) = ld s.mem (r'.a + 16) := by
        intro r' c' hr' hc'
        have i1 := I.regs.rec_in hr' hc'
        have := newRegion_apart hn hr'
        exact ⟨out _ (by omega), out _ (by omega)⟩
      have mold : ∀ r' c', r' ∈ g :: s.regs → r'.cls = some c' → r' ∈ s.regs := by
        intro r' c' h hc
        rcases List.mem_cons.1 h with rfl | h
        · rw [hgc] at hc; cases hc
        · exact h
      have hliv : ∀ e ∈ s.live, e.Ok G s' := by
        refine I.liv' ?_ ?_
        · intro r' c' k' b' h _
          rw [← hs]
          exact ⟨h.cons, blko r' c' k' b' h⟩
        · intro e he hc
          have B := I.big he hc
          have := newRegion_apart hn B.reg
          dsimp only at this
          have := B.pos
          rw [← hs]
          exact ⟨List.mem_cons_of_mem _ B.reg, out _ (by omega)⟩
      subst hs
      exact {
        regs := R
        isb := fun x hx => by
          obtain ⟨r', c, k, h⟩ := I.isb x hx
          exact ⟨r', c, k, h.cons⟩
        pln := fun r' c k x hx => I.pln r' c k x (old hx)
        atp := I.atp.same rfl fun l _ => by
          cases l <;> simp [S.nums, ho, OPc.blk]
        clq := fun c t b hb => by
          obtain ⟨r', k, h⟩ := I.clq c t b hb
          exact ⟨r', k, h.cons⟩
        fbq := I.fbq
        ownk := trivial
        frk := fun t => I.frk' (by exact fun h => h) t fun r c' k b h hp =>
          ⟨h.cons, blko r c' k b h⟩
        drk := fun c' b h => by
          obtain ⟨h1, r, k, h2⟩ := I.drk c' b h
          exact ⟨h1, r, k, h2.cons⟩
        cl := I.cl
        liv := fun e he => by
          rcases List.mem_append.1 he with he | he
          · exact hliv e he
          · rw [List.mem_singleton] at he
            subst he
            exact {
              reg := by
                show (⟨a, r.n + 8, none⟩ : Reg) ∈ _
                rw [hg]
                exact List.mem_cons_self
              ptr := rfl
              al := rfl
              pos := q1
              hdr := h00 }
        lnd := by
          rw [List.map_append, List.nodup_append]
          refine ⟨I.lnd, by simp, ?_⟩
          intro x hx y hy
          simp only [List.map_cons, List.map_nil, List.mem_singleton] at hy
          subst hy
          rintro rfl
          obtain ⟨e, he, heb⟩ := List.mem_map.1 hx
          cases hcl : e.cls with
          | none =>
            have B := I.big he hcl
            have := newRegion_apart hn B.reg
            dsimp only at this
            omega
          | some c =>
            obtain ⟨r', k, E⟩ := I.ent he hcl
            have i1 := E.blk.in_reg I.regs
            have := newRegion_apart hn E.blk.1
            omega
        cur0 := fun h c ha r' k b hb => I.cur0 h c ha r' k b (old hb)
        cur1 := fun h c ha => by
          obtain ⟨r', h1, h2, h3, h4, h5, h6⟩ := I.cur1 h c ha
          refine ⟨r', List.mem_cons_of_mem _ h1, h2, h3, h4, ?_, fun r' k b hb => h6 r' k b (old hb)⟩
          dsimp only
          dsimp only at ha
          rw [blko r' c _ _ ⟨h1, h2, by omega, h4⟩ _ (Nat.le_refl _) (by omega)]
          exact h5
        segw := fun r' c' h1 h2 => by
          dsimp only
          rw [(rec' r' c' (mold r' c' h1 h2) h2).1]
          exact I.segw r' c' (mold r' c' h1 h2) h2
        hdr := fun r' c' k x hx hf => by
          dsimp only
          rw [blko r' c' k x (old hx) x (Nat.le_refl _) (by omega)]
          exact I.hdr r' c' k x (old hx) hf
        clean := fun r' c' k x hx => by
          dsimp only
          rw [blko r' c' k x (old hx) _ (by omega) (Nat.le_refl _)]
          exact I.clean r' c' k x (old hx)
        count := fun r' c' h1 h2 => by
          dsimp only
          rw [(rec' r' c' (mold r' c' h1 h2) h2).2]
          exact I.count r' c' (mold r' c' h1 h2) h2
        good := I.good }
    · cases hs
  · cases hs

theorem Inv.newslab (I : Inv G s) (hcl : s.closed = false) {c a : Nat} (hc : c < 9)
    (hn0 : 0 < G.nsl c) (hav : s.avail c = 0) (hn : s.newRegion a (G.slen c) = true)
    (hna : G.nsl c < a) (hlast : ∀ k, k < G.nsl c → ld s.mem (hb c a k + bsz c) ≠ a) {own' : OPc}
    (hob : s.own.blk = []) (hob' : own'.blk = [])
    (hown : ∀ s' : S, s'.own = own' → s'.closed = false → (∀ c', c' ≠ c → s'.avail c' = s.avail c') →
      s'.avail c = G.nsl c → OPc.Ok G s') :
    Inv G { s.newslab G c a with own := own' } := by
  have hslen : 24 + 8 + bsz c ≤ G.slen c := by
    have := hb_in (a := a) hn0
    omega
  have hbg := bsz_ge c
  obtain ⟨g, hg⟩ : ∃ g : Reg, g = ⟨a, G.slen c, some c⟩ := ⟨_, rfl⟩
  have R := I.regs.add (s := s) hg hn (by omega) (by
    intro c' h
    obtain rfl := Option.some.inj h
    exact ⟨hc, hn0, rfl⟩)
  have hgc : g.cls = some c := by rw [hg]
  have hga : g.a = a := by rw [hg]
  have hgw : a + G.slen c < 18446744073709551616 := by
    simp only [S.newRegion, Bool.and_eq_true, decide_eq_true_eq] at hn
    exact hn.1.2.2
  have hg0 : g ∉ s.regs := by
    intro h
    have := newRegion_apart hn h
    have : g.len = G.slen c := by rw [hg]
    omega
  obtain ⟨m', hm'⟩ : ∃ m', m' =
    st (st (st (st s.mem a c) (a + 8) 1) (a + 16) (G.nsl c)) (a + 24) a := ⟨_, rfl⟩
  have out : ∀ x, x + 8 ≤ a ∨ a + 32 ≤ x → ld m' x = ld s.mem x := by
    intro x h
    rw [hm', ld_st_disj (by omega), ld_st_disj (by omega), ld_st_disj (by omega),
      ld_st_disj (by omega)]
  have m0 : ld m' a = c := by
    rw [hm', ld_st_disj (by omega), ld_st_disj (by omega), ld_st_disj (by omega)]
    exact ld_st_same (by omega)
  have m16 : ld m' (a + 16) = G.nsl c := by
    rw [hm', ld_st_disj (by omega)]; exact ld_st_same (by omega)
  have m24 : ld m' (a + 24) = a := by rw [hm']; exact ld_st_same (by omega)
  have blko : ∀ r' c' k' b', IsBlk G s.regs r' c' k' b' →
      ∀ x, b' ≤ x → x ≤ b' + bsz c' → ld m' x = ld s.mem x := by
    intro r' c' k' b' h x x1 x2
    have i1 := h.in_reg I.regs
    have := newRegion_apart hn h.1
    exact out x (by omega)
  have rec' : ∀ r' c', r' ∈ s.regs → r'.cls = some c' →
      ld m' r'.a = ld s.mem r'.a ∧ ld m' (r'.a + 16) = ld s.mem (r'.a + 16) := by
    intro r' c' hr' hc'
    have i1 := I.regs.rec_in hr' hc'
    have := newRegion_apart hn hr'
    exact ⟨out _ (by omega), out _ (by omega)⟩
  -- the blocks of the new segment
  have nin : ∀ {r' c' k b}, IsBlk G s.regs r' c' k b → b ∉ G.blocks c a := by
    intro r' c' k b h hb
    obtain ⟨k', hk', e⟩ := mem_blocks.1 hb
    have i1 := h.in_reg I.regs
    have i2 := hb_in (a := a) hk'
    have := newRegion_apart hn h.1
    omega
  have split' : ∀ {r' c' k b}, IsBlk G (g :: s.regs) r' c' k b →
      (r' = g ∧ c' = c ∧ b ∈ G.blocks c a) ∨ IsBlk G s.regs r' c' k b := by
    intro r' c' k b h
    by_cases e : r' = g
    · subst e
      have := h.2.1
      rw [hgc] at this
      obtain rfl := Option.some.inj this
      exact .inl ⟨rfl, rfl, mem_blocks.2 ⟨k, h.2.2.1, by rw [← hga]; exact h.2.2.2⟩⟩
    · exact .inr (h.old e)
  have nl : ∀ b, b ∈ G.blocks c a → s.pl b = .none := by
    intro b hb
    by_contra h
    obtain ⟨r', c', k, h⟩ := I.isb b h
    exact nin h hb
  unfold S.newslab
  rw [← hg, ← hm']
  have hat : AtPl { s with
      regs := g :: s.regs
      mem := m'
      bufp := upd s.bufp c (a + 24)
      avail := upd s.avail c (s.avail c + G.nsl c)
      pl := fun x => if x ∈ G.blocks c a then .fresh else s.pl x
      own := own' } := by
    intro l hl
    rw [show S.nums _ l = s.nums l from by cases l <;> simp [S.nums, hob, hob']]
    refine ⟨(I.atp l hl).1, fun b => ?_⟩
    rw [(I.atp l hl).2 b]
    dsimp only
    split
    · rename_i hb
      rw [nl b hb]
      constructor
      · intro e; rw [← e] at hl; exact hl.elim
      · intro e; rw [← e] at hl; exact hl.elim
    · rfl
  exact {
    regs := R
    isb := fun x hx => by
      dsimp only at hx ⊢
      split at hx
      · rename_i hb
        obtain ⟨k, hk, e⟩ := mem_blocks.1 hb
        exact ⟨g, c, k, by simp, hgc, hk, by rw [hga]; exact e⟩
      · obtain ⟨r', c', k, h⟩ := I.isb x hx
        exact ⟨r', c', k, h.cons⟩
    pln := fun r' c' k x hx => by
      dsimp only
      rcases split' hx with h | h
      · rw [if_pos h.2.2]; simp
      · rw [if_neg (nin h)]; exact I.pln r' c' k x h
    atp := hat
    clq := fun c t b hb => by
      obtain ⟨r', k, h⟩ := I.clq c t b hb
      exact ⟨r', k, h.cons⟩
    fbq := I.fbq
    ownk := hown _ rfl hcl (fun c' h => by simp [upd, h]) (by simp [upd, hav])
    frk := fun t => I.frk' (by exact fun h => h) t fun r c' k b h hp =>
      ⟨h.cons, blko r c' k b h⟩
    drk := fun c' b h => by
      obtain ⟨h1, r, k, h2⟩ := I.drk c' b h
      exact ⟨h1, r, k, h2.cons⟩
    cl := I.cl
    liv := I.liv' (fun r' c' k' b' h _ => ⟨h.cons, blko r' c' k' b' h⟩) (by
      intro e he hc
      have B := I.big he hc
      have := newRegion_apart hn B.reg
      dsimp only at this
      have := B.pos
      exact ⟨List.mem_cons_of_mem _ B.reg, out _ (by omega)⟩)
    lnd := I.lnd
    cur0 := fun _ c' ha r' k x hx => by
      dsimp only [upd] at ha ⊢
      by_cases ec : c' = c
      · subst ec; simp only [if_true] at ha; omega
      · simp only [if_neg ec] at ha
        rcases split' hx with h | h
        · exact absurd h.2.1 ec
        · rw [if_neg (nin h)]; exact I.cur0 hcl c' ha r' k x h
    cur1 := fun _ c' ha => by
      dsimp only [upd] at ha ⊢
      by_cases ec : c' = c
      · subst ec
        simp only [if_true, hav, Nat.zero_add, Nat.sub_self] at ha ⊢
        refine ⟨g, by simp, hgc, Nat.le_refl _, by simp [hga, hb], by rw [m24, hga], ?_⟩
        intro r' k x hx
        rcases split' hx with h | h
        · simp [h.2.2, h.1]
        · rw [if_neg (nin h)]
          constructor
          · intro hf; exact absurd hf (I.cur0 hcl _ hav r' k x h)
          · rintro ⟨rfl, _⟩; exact absurd h.1 hg0
      · simp only [if_neg ec] at ha ⊢
        obtain ⟨r', h1, h2, h3, h4, h5, h6⟩ := I.cur1 hcl c' ha
        refine ⟨r', List.mem_cons_of_mem _ h1, h2, h3, h4, ?_, fun r'' k x hx => ?_⟩
        · rw [blko r' c' _ _ ⟨h1, h2, by omega, h4⟩ _ (Nat.le_refl _) (by omega)]
          exact h5
        · rcases split' hx with h | h
          · exact absurd h.2.1 ec
          · rw [if_neg (nin h)]; exact h6 r'' k x h
    segw := fun r' c' h1 h2 => by
      dsimp only
      rcases List.mem_cons.1 h1 with rfl | h
      · rw [hgc] at h2
        obtain rfl := Option.some.inj h2
        rw [hga]; exact ⟨m0, hna⟩
      · rw [(rec' r' c' h h2).1]; exact I.segw r' c' h h2
    hdr := fun r' c' k x hx hf => by
      dsimp only at hf ⊢
      rcases split' hx with h | h
      · rw [if_pos h.2.2] at hf; exact absurd rfl hf
      · rw [if_neg (nin h)] at hf
        rw [blko r' c' k x h x (Nat.le_refl _) (by omega)]
        exact I.hdr r' c' k x h hf
    clean := fun r' c' k x hx => by
      dsimp only
      rcases split' hx with h | h
      · obtain ⟨rfl, rfl, hm⟩ := h
        obtain ⟨k', hk', rfl⟩ := mem_blocks.1 hm
        have i2 := hb_in (a := a) hk'
        rw [hga, out _ (by omega)]
        exact hlast k' hk'
      · rw [blko r' c' k x h _ (by omega) (Nat.le_refl _)]
        exact I.clean r' c' k x h
    count := fun r' c' h1 h2 => by
      dsimp only
      rcases List.mem_cons.1 h1 with rfl | h
      · rw [hgc] at h2
        obtain rfl := Option.some.inj h2
        rw [hga, m16]
        unfold cnt
        symm
        rw [← blocks_length G c a, List.countP_eq_length]
        intro x hx
        simp [hx]
      · rw [(rec' r' c' h h2).2, I.count r' c' h h2]
        refine cnt_congr fun x hx => ?_
        obtain ⟨k, hk, rfl⟩ := mem_blocks.1 hx
        rw [if_neg (nin ⟨h, h2, hk, rfl⟩)]
    good := I.good }

theorem Inv.slab (I : Inv G s) {a : Nat} {s' : S} (hok : ok G s (.slab a) = true)
    (hs : step G s (.slab a) = some s') : Inv G s' := by
  simp only [step] at hs
  split at hs
  · rename_i r c ho
    have hk := I.ownk
    unfold OPc.Ok at hk
    rw [ho] at hk
    obtain ⟨q, hcl, hav⟩ := hk
    have hps := path_slab q.2.1
    simp only [ok, ho, Bool.and_eq_true, decide_eq_true_eq, List.all_eq_true, List.mem_range] at hok
    split at hs
    · rename_i hn
      simp only [Option.some.injEq] at hs
      subst hs
      refine I.newslab hcl hps.1 (by omega) hav hn hok.1 hok.2 (by rw [ho]; rfl) rfl ?_
      intro s' h1 h2 h3 h4
      unfold OPc.Ok
      rw [h1]
      exact ⟨q, h2, by omega⟩
    · cases hs
  · cases hs

theorem Inv.prealloc (I : Inv G s) {c a : Nat} {s' : S} (hok : ok G s (.prealloc c a) = true)
    (hs : step G s (.prealloc c a) = some s') : Inv G s' := by
  simp only [step] at hs
  split at hs
  · rename_i hg
    obtain ⟨g1, g2, g3, g4, g5, g6⟩ := hg
    simp only [ok, Bool.and_eq_true, decide_eq_true_eq, List.all_eq_true, List.mem_range] at hok
    simp only [Option.some.injEq] at hs
    subst hs
    have := I.newslab (own' := .idle) g2 g3 g4 g5 g6 hok.1 hok.2 (by rw [g1]; rfl) rfl (by
      intro s' h1 h2 h3 h4
      unfold OPc.Ok
      rw [h1]
      trivial)
    have e : (s.newslab G c a).own = .idle := g1
    rw [← e] at this
    exact this
  · cases hs

/-- Every step that meets the conditions keeps the invariant. -/
theorem Inv.step {act : Act} {s' : S} (I : Inv G s) (hs : gstep G s act = some s') : Inv G s' := by
  unfold gstep at hs
  split at hs
  · rename_i hok
    cases act with
    | start r => exact I.startStep hok hs
    | sysm a => exact I.sysm hs
    | popk => exact I.popk hs
    | slab a => exact I.slab hok hs
    | prealloc c a => exact I.prealloc hok hs
    | carve => exact I.carve hs
    | fin => exact I.fin hs
    | write e off v =>
      simp only [Slab.step] at hs
      split at hs
      · rename_i h
        simp only [Option.some.injEq] at hs
        subst hs
        refine I.write h.1 h.2 ?_
        intro c hc
        simpa [ok, hc] using hok
      · cases hs
    | free t e => exact I.free hs
    | walk t => exact I.walk hs
    | put t => exact I.put hs
    | push t => exact I.push hs
    | recl t => exact I.recl hs
    | dereg c => exact I.dereg hs
    | drain c t => exact I.drain hs
    | drecl => exact I.drecl hs
  · cases hs

theorem Inv.reach {m : Mem} {s : S} (h : Reach (gstep G) (S.start m) s) : Inv G s :=
  h.inv (Inv.start G m) fun _ _ _ I hs => I.step hs

end FF.Alloc.Slab
