import Verif.Alloc.SlabInv
/-!
# Every step of the slab allocator keeps the invariant
-/
namespace FF.Alloc.Slab
open FF.Mem FF.Node

variable {G : Cfg} {s : S}

theorem AtPl.same {s s' : S} (H : AtPl s) (hpl : s'.pl = s.pl)
    (h : ∀ l, Held l → s'.nums l = s.nums l) : AtPl s' := by
  intro l hl
  rw [h l hl, hpl]
  exact H l hl

theorem Inv.liveAt (I : Inv G s) {e : Ent} {c : Nat} (he : e ∈ s.live) (hc : e.cls = some c) :
    s.pl e.blk = .live := by
  refine ((I.atp .live trivial).2 _).1 ?_
  simp only [S.nums, List.mem_map, List.mem_filter]
  exact ⟨e, ⟨he, by simp [hc]⟩, rfl⟩

theorem Inv.frAt (I : Inv G s) {t b : Nat} (h : b ∈ (s.fr t).blk) : s.pl b = .fr t :=
  ((I.atp (.fr t) trivial).2 b).1 h

theorem Inv.qAt (I : Inv G s) {c t b : Nat} (h : b ∈ s.q c t) : s.pl b = .q c t :=
  ((I.atp (.q c t) trivial).2 b).1 h

theorem Inv.ownAt (I : Inv G s) {r : Req} {c b : Nat} (h : s.own = .got r c b) : s.pl b = .own :=
  ((I.atp .own trivial).2 b).1 (by simp [S.nums, h, OPc.blk])

theorem Inv.handAt (I : Inv G s) {c b : Nat} (h : s.dr = some (c, b)) : s.pl b = .hand :=
  ((I.atp .hand trivial).2 b).1 (by simp [S.nums, h])

theorem Inv.ent (I : Inv G s) {e : Ent} {c : Nat} (he : e ∈ s.live) (hc : e.cls = some c) :
    ∃ r k, EntOk G s.regs s.mem e r c k := by
  have := I.liv e he
  unfold Ent.Ok at this
  rw [hc] at this
  exact this

theorem Inv.big (I : Inv G s) {e : Ent} (he : e ∈ s.live) (hc : e.cls = none) :
    BigOk s.regs s.mem e := by
  have := I.liv e he
  unfold Ent.Ok at this
  rw [hc] at this
  exact this

theorem blk_inj {l : List Ent} (h : (l.map Ent.blk).Nodup) {e e' : Ent} (he : e ∈ l) (he' : e' ∈ l)
    (hb : e.blk = e'.blk) : e = e' := List.inj_on_of_nodup_map h he he' hb

/-- A change of memory outside the words that the allocator needs. -/
theorem Inv.frame (I : Inv G s) {m : Mem}
    (hm : ∀ r c, r ∈ s.regs → r.cls = some c →
      ld m r.a = ld s.mem r.a ∧ ld m (r.a + 16) = ld s.mem (r.a + 16))
    (hh : ∀ r c k b, IsBlk G s.regs r c k b → ld m b = ld s.mem b)
    (hc : ∀ r c k b, IsBlk G s.regs r c k b → ld m (b + bsz c) ≠ r.a)
    (hl : ∀ e ∈ s.live, ∀ r c k, e.cls = some c → EntOk G s.regs s.mem e r c k →
      ∀ x, e.blk ≤ x → x ≤ e.p - 8 → ld m x = ld s.mem x)
    (hb : ∀ e ∈ s.live, e.cls = none → ld m e.blk = ld s.mem e.blk)
    (hw : ∀ t e b, s.fr t = .walk e b → ∀ x, e.blk ≤ x → x ≤ b → ld m x = ld s.mem x) :
    Inv G { s with mem := m } where
  regs := I.regs
  isb := I.isb
  pln := I.pln
  atp := I.atp.same rfl fun l _ => by cases l <;> rfl
  clq := I.clq
  fbq := I.fbq
  ownk := I.ownk
  frk t := by
    have := I.frk t
    cases hf : s.fr t with
    | walk e b =>
      rw [hf] at this
      obtain ⟨r, c, k, h1, h2, h3, h4, h5, h6⟩ := this
      exact ⟨r, c, k, h1, h2, h3, h4, h5, fun x g1 g2 g3 => by
        rw [hw t e b hf x g1 g2]; exact h6 x g1 g2 g3⟩
    | idle => trivial
    | put e b => rw [hf] at this; exact this
    | push e c b => rw [hf] at this; exact this
    | recl e c b => rw [hf] at this; exact this
  drk := I.drk
  cl := I.cl
  liv e he := by
    cases hcl : e.cls with
    | none =>
      have := I.big he hcl
      unfold Ent.Ok
      rw [hcl]
      exact { this with hdr := by rw [hb e he hcl]; exact this.hdr }
    | some c =>
      obtain ⟨r, k, h⟩ := I.ent he hcl
      unfold Ent.Ok
      rw [hcl]
      refine ⟨r, k, { h with fill := fun x g1 g2 g3 => ?_ }⟩
      dsimp only
      rw [hl e he r c k hcl h x g1 g2]; exact h.fill x g1 g2 g3
  lnd := I.lnd
  cur0 := I.cur0
  cur1 h c ha := by
    obtain ⟨r, h1, h2, h3, h4, h5, h6⟩ := I.cur1 h c ha
    refine ⟨r, h1, h2, h3, h4, ?_, h6⟩
    dsimp only at ha ⊢
    rw [hh r c (G.nsl c - s.avail c) (s.bufp c) ⟨h1, h2, by omega, h4⟩]
    exact h5
  segw r c h1 h2 := by dsimp only; rw [(hm r c h1 h2).1]; exact I.segw r c h1 h2
  hdr r c k b h hp := by dsimp only; rw [hh r c k b h]; exact I.hdr r c k b h hp
  clean := hc
  count r c h1 h2 := by dsimp only; rw [(hm r c h1 h2).2]; exact I.count r c h1 h2
  good := I.good

/-- A segment's record lies in the segment. -/
theorem Regs.rec_in {rs : List Reg} (R : Regs G rs) {r : Reg} {c : Nat} (h : r ∈ rs)
    (hc : r.cls = some c) : r.a + 24 + 40 ≤ r.a + r.len := by
  have h1 := R.seg r h c hc
  have h2 := hb_in (a := r.a) h1.2.1
  have h3 := bsz_ge c
  rw [h1.2.2]
  omega

/-- The user's bytes lie in the block. -/
theorem Inv.write (I : Inv G s) {e : Ent} (he : e ∈ s.live) {off v : Nat} (ho : off < e.n)
    (hok : ∀ c, e.cls = some c →
      ld (stb s.mem (e.p + off) v) (e.blk + bsz c) ≠ ld s.mem e.blk) :
    Inv G { s with mem := stb s.mem (e.p + off) v } := by
  cases hcl : e.cls with
  | some c =>
    obtain ⟨r, k, E⟩ := I.ent he hcl
    have hin := E.blk.in_reg I.regs
    have h1 := E.lo
    have h2 := E.hi
    have hr := E.blk.1
    refine I.frame ?_ ?_ ?_ ?_ ?_ ?_
    · intro r' c' hr' hc'
      have := I.regs.rec_in hr' hc'
      rcases I.regs.apart hr hr' with ea | ea | ea
      · subst ea
        exact ⟨ld_stb_disj (by omega), ld_stb_disj (by omega)⟩
      · exact ⟨ld_stb_disj (by omega), ld_stb_disj (by omega)⟩
      · exact ⟨ld_stb_disj (by omega), ld_stb_disj (by omega)⟩
    · intro r' c' k' b' hb'
      rcases E.blk.cases I.regs hb' with ea | ea | ea
      · exact ld_stb_disj (by omega)
      · exact ld_stb_disj (by omega)
      · exact ld_stb_disj (by omega)
    · intro r' c' k' b' hb'
      rcases E.blk.cases I.regs hb' with ea | ea | ea
      · obtain ⟨rfl, rfl, rfl, rfl⟩ := ea
        have := hok c hcl
        rwa [E.fill e.blk (Nat.le_refl _) (by omega) (by omega)] at this
      · rw [ld_stb_disj (by omega)]; exact I.clean r' c' k' b' hb'
      · rw [ld_stb_disj (by omega)]; exact I.clean r' c' k' b' hb'
    · intro e' he' r' c' k' hc' E' x hx1 hx2
      have g1 := E'.lo
      have g2 := E'.hi
      have g3 := E'.pos
      rcases E.blk.cases I.regs E'.blk with ea | ea | ea
      · obtain rfl := blk_inj I.lnd he he' ea.2.2.2
        exact ld_stb_disj (by omega)
      · exact ld_stb_disj (by omega)
      · exact ld_stb_disj (by omega)
    · intro e' he' hc'
      have B := I.big he' hc'
      rcases I.regs.apart hr B.reg with ea | ea | ea
      · subst ea
        have := E.blk.2.1
        cases this
      · dsimp only at ea; exact ld_stb_disj (by omega)
      · dsimp only at ea; exact ld_stb_disj (by omega)
    · intro t e' b' hf x hx1 hx2
      have F := I.frk t
      rw [hf] at F
      obtain ⟨r', c', k', f1, f2, f3, f4, f5, f6⟩ := F
      have p1 := I.frAt (t := t) (b := e'.blk) (by rw [hf]; simp [FPc.blk])
      have p2 := I.liveAt he hcl
      have f7 := f2.2.2.2
      have h8 : b' + 8 ≤ e'.blk + 8 + bsz c' := by
        have := bsz_mod c'
        omega
      rcases E.blk.cases I.regs f2 with ea | ea | ea
      · rw [← ea.2.2.2, p2] at p1; cases p1
      · exact ld_stb_disj (by omega)
      · exact ld_stb_disj (by omega)
  | none =>
    have B := I.big he hcl
    have h1 := B.ptr
    have hr := B.reg
    have ap : ∀ r' c', r' ∈ s.regs → r'.cls = some c' →
        e.blk + (e.n + 8) ≤ r'.a ∨ r'.a + r'.len ≤ e.blk := by
      intro r' c' hr' hc'
      rcases I.regs.apart hr hr' with ea | ea | ea
      · subst ea; cases hc'
      · exact .inl ea
      · exact .inr ea
    refine I.frame ?_ ?_ ?_ ?_ ?_ ?_
    · intro r' c' hr' hc'
      have := I.regs.rec_in hr' hc'
      have := ap r' c' hr' hc'
      exact ⟨ld_stb_disj (by omega), ld_stb_disj (by omega)⟩
    · intro r' c' k' b' hb'
      have := hb'.in_reg I.regs
      have := ap r' c' hb'.1 hb'.2.1
      exact ld_stb_disj (by omega)
    · intro r' c' k' b' hb'
      have := hb'.in_reg I.regs
      have := ap r' c' hb'.1 hb'.2.1
      rw [ld_stb_disj (by omega)]; exact I.clean r' c' k' b' hb'
    · intro e' he' r' c' k' hc' E' x hx1 hx2
      have g1 := E'.lo
      have g2 := E'.hi
      have g3 := E'.pos
      have := E'.blk.in_reg I.regs
      have := ap r' c' E'.blk.1 E'.blk.2.1
      exact ld_stb_disj (by omega)
    · intro e' he' hc'
      have B' := I.big he' hc'
      have := B'.pos
      by_cases eq : e' = e
      · subst eq; exact ld_stb_disj (by omega)
      · rcases I.regs.apart hr B'.reg with ea | ea | ea
        · have : e.blk = e'.blk := congrArg Reg.a ea
          exact absurd (blk_inj I.lnd he' he this.symm) eq
        · dsimp only at ea; exact ld_stb_disj (by omega)
        · dsimp only at ea; exact ld_stb_disj (by omega)
    · intro t e' b' hf x hx1 hx2
      have F := I.frk t
      rw [hf] at F
      obtain ⟨r', c', k', f1, f2, f3, f4, f5, f6⟩ := F
      have := f2.in_reg I.regs
      have := ap r' c' f2.1 f2.2.1
      have := bsz_mod c'
      exact ld_stb_disj (by omega)

/-! ## Moves of one block between places that hold it -/

theorem Inv.relocate (I : Inv G s) {b : Nat} {X Y : Pl} (hX : s.pl b = X) (hne : X ≠ Y)
    (HX : Held X) (HY : Held Y)
    {own' : OPc} {fr' : Nat → FPc} {q' : Nat → Nat → List Nat} {fb' : Nat → List Nat}
    {lastq' : Nat → Nat} {dr' : Option (Nat × Nat)} {live' : List Ent} {s' : S}
    (hs' : s' = { s with own := own', fr := fr', q := q', fb := fb', lastq := lastq', dr := dr', live := live', pl := upd s.pl b Y })
    (h1 : (s.nums X).Perm (b :: s'.nums X))
    (h2 : (s'.nums Y).Perm (b :: s.nums Y))
    (h3 : ∀ l, Held l → l ≠ X → l ≠ Y → s'.nums l = s.nums l)
    (hclq : ∀ c t b, b ∈ q' c t → ∃ r k, IsBlk G s.regs r c k b)
    (hfbq : ∀ c t, q' c t ≠ [] → t ∈ fb' c)
    (hown : OPc.Ok G s')
    (hfr : ∀ t, (fr' t).Ok G s)
    (hdr : ∀ c b, dr' = some (c, b) → s.closed = true ∧ ∃ r k, IsBlk G s.regs r c k b)
    (hliv : ∀ e ∈ live', e.Ok G s)
    (hlnd : (live'.map Ent.blk).Nodup) : Inv G s' := by
  have nX : X ≠ .none ∧ X ≠ .fresh ∧ X ≠ .gone := by cases X <;> simp_all [Held]
  have nY : Y ≠ .none ∧ Y ≠ .fresh ∧ Y ≠ .gone := by cases Y <;> simp_all [Held]
  have pf : ∀ x, (upd s.pl b Y x = .fresh ↔ s.pl x = .fresh) := by
    intro x; unfold upd
    by_cases e : x = b
    · subst e; simp [hX, nX, nY]
    · simp [e]
  have pg : ∀ x, (upd s.pl b Y x = .gone ↔ s.pl x = .gone) := by
    intro x; unfold upd
    by_cases e : x = b
    · subst e; simp [hX, nX, nY]
    · simp [e]
  have pn : ∀ x, (upd s.pl b Y x = .none ↔ s.pl x = .none) := by
    intro x; unfold upd
    by_cases e : x = b
    · subst e; simp [hX, nX, nY]
    · simp [e]
  have hat : AtPl s' := I.atp.move hX hne (by rw [hs']) (fun _ => h1) (fun _ => h2) h3
  subst hs'
  exact {
    regs := I.regs
    isb := fun x hx => I.isb x (fun h => hx ((pn x).2 h))
    pln := fun r c k x hx h => I.pln r c k x hx ((pn x).1 h)
    atp := hat
    clq := hclq
    fbq := hfbq
    ownk := hown
    frk := hfr
    drk := hdr
    cl := I.cl
    liv := hliv
    lnd := hlnd
    cur0 := fun h c ha r k x hx hf => I.cur0 h c ha r k x hx ((pf x).1 hf)
    cur1 := fun h c ha => by
      obtain ⟨r, h1, h2, h3, h4, h5, h6⟩ := I.cur1 h c ha
      exact ⟨r, h1, h2, h3, h4, h5, fun r' k x hx => (pf x).trans (h6 r' k x hx)⟩
    segw := I.segw
    hdr := fun r c k x hx hf => I.hdr r c k x hx (fun h => hf ((pf x).2 h))
    clean := I.clean
    count := fun r c h1 h2 => by
      dsimp only
      rw [I.count r c h1 h2]
      exact cnt_congr fun x _ => by rw [pf, pg]
    good := I.good }

end FF.Alloc.Slab
