import Verif.Alloc.SlabStep2
/-!
# Every step of the slab allocator keeps the invariant (3): `free`
-/
namespace FF.Alloc.Slab
open FF.Mem FF.Node

variable {G : Cfg} {s : S}

/-- A thread moves on in `free` and keeps its block. -/
theorem Inv.frstep (I : Inv G s) {t : Nat} {f : FPc} (h : f.blk = (s.fr t).blk) (hk : f.Ok G s) :
    Inv G { s with fr := upd s.fr t f } :=
  { I with
    atp := I.atp.same rfl fun l _ => by
      cases l with
      | fr t' =>
        simp only [S.nums, upd]
        by_cases e : t' = t
        · subst e; simp [h]
        · simp [e]
      | _ => rfl
    frk := fun t' => by
      simp only [upd]
      by_cases e : t' = t
      · subst e; simp only [if_true]; exact hk
      · simp only [if_neg e]; exact I.frk t'
    ownk := I.ownk
    liv := I.liv }

theorem filter_map_erase {l : List Ent} {e : Ent} (he : e ∈ l) (hc : e.cls.isSome = true) :
    ((l.filter fun e => e.cls.isSome).map Ent.blk).Perm
      (e.blk :: ((l.erase e).filter fun e => e.cls.isSome).map Ent.blk) := by
  have h := (List.perm_cons_erase he).filter fun e : Ent => e.cls.isSome
  rw [List.filter_cons, if_pos hc] at h
  have := h.map Ent.blk
  rwa [List.map_cons] at this

theorem filter_map_erase_none {l : List Ent} {e : Ent} (hc : e.cls = none) :
    ((l.erase e).filter fun e => e.cls.isSome) = l.filter fun e => e.cls.isSome := by
  induction l with
  | nil => rfl
  | cons a l ih =>
    rw [List.erase_cons]
    by_cases h : a = e
    · subst h; simp [hc]
    · simp only [beq_iff_eq, h, if_false, List.filter_cons, ih]

theorem lnd_erase {l : List Ent} (h : (l.map Ent.blk).Nodup) (e : Ent) :
    ((l.erase e).map Ent.blk).Nodup := h.sublist (List.erase_sublist.map _)

/-- Two regions at the same address are the same. -/
theorem Regs.find {rs : List Reg} (R : Regs G rs) {r : Reg} (h : r ∈ rs) :
    rs.find? (fun x => decide (x.a = r.a)) = some r := by
  cases hf : rs.find? (fun x => decide (x.a = r.a)) with
  | none =>
    rw [List.find?_eq_none] at hf
    exact absurd (by simp) (hf r h)
  | some x =>
    have h1 := List.mem_of_find?_eq_some hf
    have h2 := List.find?_some hf
    have h2 : x.a = r.a := by simpa using h2
    have p1 := R.pos x h1
    have p2 := R.pos r h
    rcases R.apart h1 h with e | e | e
    · rw [e]
    · omega
    · omega

theorem Regs.nodup {rs : List Reg} (R : Regs G rs) : rs.Nodup := by
  refine R.disj.imp_of_mem fun {a b} ha _ h e => ?_
  have := R.pos a ha
  subst e
  omega

theorem Regs.erase {rs : List Reg} (R : Regs G rs) (r : Reg) : Regs G (rs.erase r) where
  disj := R.disj.sublist List.erase_sublist
  pos x hx := R.pos x (List.mem_of_mem_erase hx)
  seg x hx := R.seg x (List.mem_of_mem_erase hx)

theorem sysFree_eq (R : Regs G s.regs) {r : Reg} (h : r ∈ s.regs) :
    s.sysFree r.a = { s with regs := s.regs.erase r } := by
  unfold S.sysFree
  rw [R.find h]

theorem IsBlk.erase {rs : List Reg} {g r : Reg} {c k b : Nat} (h : IsBlk G (rs.erase g) r c k b) :
    IsBlk G rs r c k b := ⟨List.mem_of_mem_erase h.1, h.2⟩

theorem IsBlk.keep {rs : List Reg} {g r : Reg} {c k b : Nat} (h : IsBlk G rs r c k b)
    (hne : r ≠ g) : IsBlk G (rs.erase g) r c k b := ⟨(List.mem_erase_of_ne hne).2 h.1, h.2⟩

theorem Inv.freeBig (I : Inv G s) {e : Ent} (he : e ∈ s.live) (hc : e.cls = none) :
    Inv G { s.sysFree (e.p - 8) with live := s.live.erase e } := by
  have B := I.big he hc
  have hp : e.p - 8 = e.blk := by have := B.ptr; omega
  have hsf := sysFree_eq (s := s) I.regs B.reg
  dsimp only at hsf
  rw [hp, hsf]
  generalize hg : (⟨e.blk, e.n + 8, none⟩ : Reg) = g at *
  have hgc : g.cls = none := by rw [← hg]
  have hga : g.a = e.blk := by rw [← hg]
  have kp : ∀ {r c k b}, IsBlk G s.regs r c k b → IsBlk G (s.regs.erase g) r c k b :=
    fun h => h.keep (fun e => by
      have := h.2.1
      rw [e, hgc] at this; cases this)
  exact {
    regs := I.regs.erase g
    isb := fun b hb => by obtain ⟨r, c, k, h⟩ := I.isb b hb; exact ⟨r, c, k, kp h⟩
    pln := fun r c k b h => I.pln r c k b h.erase
    atp := I.atp.same rfl fun l _ => by
      cases l <;> simp only [S.nums]
      rw [filter_map_erase_none hc]
    clq := fun c t b hb => by obtain ⟨r, k, h⟩ := I.clq c t b hb; exact ⟨r, k, kp h⟩
    fbq := I.fbq
    ownk := by
      have := I.ownk
      unfold OPc.Ok at this ⊢
      dsimp only
      split at this
      · trivial
      · exact this
      · exact this
      · exact this
      · exact this
      · obtain ⟨h1, h2, r, k, h3⟩ := this
        exact ⟨h1, h2, r, k, kp h3⟩
    frk := fun t => by
      have := I.frk t
      unfold FPc.Ok at this ⊢
      dsimp only
      split at this
      · trivial
      · obtain ⟨r, c, k, h1, h2, h3⟩ := this
        exact ⟨r, c, k, h1, kp h2, h3⟩
      · obtain ⟨h1, r, c, k, h2, h3⟩ := this
        exact ⟨h1, r, c, k, h2, kp h3⟩
      · obtain ⟨h1, h2, r, k, h3⟩ := this
        exact ⟨h1, h2, r, k, kp h3⟩
      · obtain ⟨h1, h2, h4, r, k, h3⟩ := this
        exact ⟨h1, h2, h4, r, k, kp h3⟩
    drk := fun c b h => by
      obtain ⟨h1, r, k, h2⟩ := I.drk c b h
      exact ⟨h1, r, k, kp h2⟩
    cl := I.cl
    liv := fun e' he' => by
      have hm : e' ∈ s.live := List.mem_of_mem_erase he'
      have hnd : s.live.Nodup := List.Nodup.of_map _ I.lnd
      have hne : e' ≠ e := (hnd.mem_erase_iff.1 he').1
      cases hcl : e'.cls with
      | none =>
        have B' := I.big hm hcl
        unfold Ent.Ok
        rw [hcl]
        refine { B' with reg := (List.mem_erase_of_ne ?_).2 B'.reg }
        intro eq
        rw [← eq] at hga
        exact hne (blk_inj I.lnd hm he hga)
      | some c =>
        obtain ⟨r, k, E⟩ := I.ent hm hcl
        unfold Ent.Ok
        rw [hcl]
        exact ⟨r, k, { E with blk := kp E.blk }⟩
    lnd := lnd_erase I.lnd e
    cur0 := fun h c ha r k b hb => I.cur0 h c ha r k b hb.erase
    cur1 := fun h c ha => by
      obtain ⟨r, h1, h2, h3, h4, h5, h6⟩ := I.cur1 h c ha
      refine ⟨r, (List.mem_erase_of_ne ?_).2 h1, h2, h3, h4, h5, fun r' k b hb => h6 r' k b hb.erase⟩
      rintro rfl
      rw [hgc] at h2; cases h2
    segw := fun r c h => I.segw r c (List.mem_of_mem_erase h)
    hdr := fun r c k b h => I.hdr r c k b h.erase
    clean := fun r c k b h => I.clean r c k b h.erase
    count := fun r c h => I.count r c (List.mem_of_mem_erase h)
    good := I.good }

theorem Inv.free (I : Inv G s) {t : Nat} {e : Ent} {s' : S} (hs : step G s (.free t e) = some s') :
    Inv G s' := by
  simp only [step] at hs
  split at hs
  · rename_i hg
    obtain ⟨he, ht⟩ := hg
    cases hc : e.cls with
    | none =>
      have B := I.big he hc
      have hp : e.p - 8 = e.blk := by have := B.ptr; omega
      rw [if_pos (by rw [hp]; exact B.hdr)] at hs
      simp only [Option.some.injEq] at hs
      subst hs
      exact I.freeBig he hc
    | some c =>
      obtain ⟨r, k, E⟩ := I.ent he hc
      have hlo := E.lo
      have hmod := E.mod
      have hpos := E.pos
      have hhi := E.hi
      have hw : ld s.mem (e.p - 8) = r.a := E.fill _ (by omega) (by omega) (by omega)
      have := I.regs.pos r E.blk.1
      rw [if_neg (by omega)] at hs
      simp only [Option.some.injEq] at hs
      refine I.relocate (b := e.blk) (X := .live) (Y := .fr t) (I.liveAt he hc) (by simp) trivial
        trivial (own' := s.own) (fr' := upd s.fr t (.walk e (e.p - 8))) (q' := s.q) (fb' := s.fb)
        (lastq' := s.lastq) (dr' := s.dr) (live' := s.live.erase e) hs.symm ?_ ?_ ?_ I.clq I.fbq ?_
        ?_ I.drk ?_ (lnd_erase I.lnd e)
      · rw [← hs]
        exact filter_map_erase he (by simp [hc])
      · rw [← hs]
        simp [S.nums, upd, ht, FPc.blk]
      · intro l _ h1 h2
        rw [← hs]
        cases l with
        | live => exact absurd rfl h1
        | fr t' =>
          have : t' ≠ t := fun e => h2 (by rw [e])
          simp [S.nums, upd, this]
        | _ => rfl
      · rw [← hs]; exact I.ownk
      · intro t'
        simp only [upd]
        by_cases et : t' = t
        · subst et
          simp only [if_true]
          exact ⟨r, c, k, hc, E.blk, by omega, by omega, by omega, E.fill⟩
        · simp only [if_neg et]; exact I.frk t'
      · intro e' he'; exact I.liv e' (List.mem_of_mem_erase he')
  · cases hs

/-- The word in front of the header of a block does not contain the address of the segment. -/
theorem Inv.front (I : Inv G s) {r : Reg} {c k b : Nat} (h : IsBlk G s.regs r c k b) :
    ld s.mem (b - 8) ≠ r.a := by
  obtain ⟨h1, h2, h3, h4⟩ := h
  cases k with
  | zero =>
    have : b - 8 = r.a + 16 := by rw [h4]; unfold hb; omega
    rw [this, I.count r c h1 h2]
    have := cnt_le s.pl (G.blocks c r.a)
    rw [blocks_length] at this
    have := (I.segw r c h1 h2).2
    omega
  | succ k =>
    have h5 := I.clean r c k (hb c r.a k) ⟨h1, h2, by omega, rfl⟩
    have : b - 8 = hb c r.a k + bsz c := by
      rw [h4]; unfold hb; rw [Nat.add_mul, Nat.one_mul]; omega
    rw [this]; exact h5

theorem Inv.walk (I : Inv G s) {t : Nat} {s' : S} (hs : step G s (.walk t) = some s') :
    Inv G s' := by
  simp only [step] at hs
  split at hs
  · rename_i e b hf
    have F := I.frk t
    rw [hf] at F
    obtain ⟨r, c, k, f1, f2, f3, f4, f5, f6⟩ := F
    have hlast : ld s.mem b = r.a := f6 b f3 (Nat.le_refl _) f4
    by_cases hb : b = e.blk
    · subst hb
      rw [if_neg (by rw [hlast]; exact (I.front f2).symm)] at hs
      simp only [Option.some.injEq] at hs
      subst hs
      exact I.frstep (by rw [hf]; rfl) ⟨rfl, r, c, k, f1, f2⟩
    · have hin := f2.in_reg I.regs
      rw [if_pos (by rw [hlast, f6 (b - 8) (by omega) (by omega) (by omega)])] at hs
      simp only [Option.some.injEq] at hs
      subst hs
      exact I.frstep (by rw [hf]; rfl) ⟨r, c, k, f1, f2, by omega, by omega, by omega,
        fun x g1 g2 g3 => f6 x g1 (by omega) g3⟩
  · cases hs

theorem Inv.put (I : Inv G s) {t : Nat} {s' : S} (hs : step G s (.put t) = some s') :
    Inv G s' := by
  simp only [step] at hs
  split at hs
  · rename_i e b hf
    have F := I.frk t
    rw [hf] at F
    obtain ⟨rfl, r, c, k, f1, f2⟩ := F
    have hp := I.frAt (t := t) (b := e.blk) (by rw [hf]; simp [FPc.blk])
    have hw : ld s.mem (ld s.mem e.blk) = c := by
      rw [I.hdr r c k e.blk f2 (by rw [hp]; simp)]
      exact (I.segw r c f2.1 f2.2.1).1
    rw [hw] at hs
    split at hs
    · rename_i hn
      simp only [Option.some.injEq] at hs
      subst hs
      exact I.frstep (by rw [hf]; rfl) ⟨rfl, f1, I.cl c hn, r, k, f2⟩
    · simp only [Option.some.injEq] at hs
      subst hs
      exact I.frstep (by rw [hf]; rfl) ⟨rfl, f1, r, k, f2⟩
  · cases hs

theorem Inv.push (I : Inv G s) {t : Nat} {s' : S} (hs : step G s (.push t) = some s') :
    Inv G s' := by
  simp only [step] at hs
  split at hs
  · rename_i e c b hf
    have F := I.frk t
    rw [hf] at F
    obtain ⟨rfl, f1, r, k, f2⟩ := F
    have hp := I.frAt (t := t) (b := e.blk) (by rw [hf]; simp [FPc.blk])
    simp only [Option.some.injEq] at hs
    refine I.relocate (b := e.blk) (X := .fr t) (Y := .q c t) hp (by simp) trivial
      trivial (own' := s.own) (fr' := upd s.fr t .idle)
      (q' := upd s.q c (upd (s.q c) t (s.q c t ++ [e.blk])))
      (fb' := if t ∈ s.fb c then s.fb else upd s.fb c (s.fb c ++ [t]))
      (lastq' := s.lastq) (dr' := s.dr) (live' := s.live) hs.symm ?_ ?_ ?_ ?_ ?_ ?_ ?_ I.drk I.liv I.lnd
    · rw [← hs]; simp [S.nums, upd, hf, FPc.blk]
    · rw [← hs]; simp only [S.nums, upd, if_true]
      exact List.perm_append_singleton _ _
    · intro l _ h1 h2
      rw [← hs]
      cases l with
      | fr t' =>
        have : t' ≠ t := fun e => h1 (by rw [e])
        simp [S.nums, upd, this]
      | q c' t' =>
        simp only [S.nums, upd]
        by_cases e : c' = c
        · subst e
          have : t' ≠ t := fun e => h2 (by rw [e])
          simp [upd, this]
        · simp [e]
      | _ => rfl
    · intro c' t' b' hb'
      simp only [upd] at hb'
      by_cases e : c' = c
      · subst e
        by_cases e' : t' = t
        · subst e'
          simp only [if_true, upd, List.mem_append, List.mem_singleton] at hb'
          rcases hb' with hb' | rfl
          · exact I.clq _ _ _ hb'
          · exact ⟨r, k, f2⟩
        · exact I.clq _ _ _ (by simpa [upd, e'] using hb')
      · exact I.clq _ _ _ (by simpa [e] using hb')
    · intro c' t' hne
      by_cases hm : t ∈ s.fb c
      · rw [if_pos hm]
        by_cases e : c' = c ∧ t' = t
        · rw [e.1, e.2]; exact hm
        · refine I.fbq c' t' ?_
          by_cases ec : c' = c
          · subst ec
            have : t' ≠ t := fun x => e ⟨rfl, x⟩
            simpa [upd, this] using hne
          · simpa [upd, ec] using hne
      · rw [if_neg hm]
        simp only [upd]
        by_cases ec : c' = c
        · subst ec
          simp only [if_true, List.mem_append, List.mem_singleton]
          by_cases et : t' = t
          · exact .inr et
          · exact .inl (I.fbq _ _ (by simpa [upd, et] using hne))
        · simp only [if_neg ec]
          exact I.fbq _ _ (by simpa [upd, ec] using hne)
    · rw [← hs]; exact I.ownk
    · intro t'
      simp only [upd]
      by_cases et : t' = t
      · subst et; simp only [if_true]; trivial
      · simp only [if_neg et]; exact I.frk t'
  · cases hs

theorem Inv.drain (I : Inv G s) {c t : Nat} {s' : S} (hs : step G s (.drain c t) = some s') :
    Inv G s' := by
  simp only [step] at hs
  split at hs
  · rename_i hg
    obtain ⟨g1, g2⟩ := hg
    split at hs
    · rename_i b rest hq
      simp only [Option.some.injEq] at hs
      have hbq : b ∈ s.q c t := by rw [hq]; simp
      refine I.relocate (b := b) (X := .q c t) (Y := .hand) (I.qAt hbq) (by simp) trivial trivial
        (own' := s.own) (fr' := s.fr) (q' := upd s.q c (upd (s.q c) t rest)) (fb' := s.fb)
        (lastq' := s.lastq) (dr' := some (c, b))
        (live' := s.live) hs.symm ?_ ?_ ?_ ?_ ?_ ?_ I.frk ?_ I.liv I.lnd
      · rw [← hs]; simp [S.nums, upd, hq]
      · rw [← hs]; simp [S.nums, g2]
      · intro l _ h1 h2
        rw [← hs]
        cases l with
        | hand => exact absurd rfl h2
        | q c' t' =>
          simp only [S.nums, upd]
          by_cases e : c' = c
          · subst e
            by_cases e' : t' = t
            · subst e'; exact absurd rfl h1
            · simp [upd, e']
          · simp [e]
        | _ => rfl
      · intro c' t' b' hb'
        refine I.clq c' t' b' ?_
        simp only [upd] at hb'
        by_cases e : c' = c
        · subst e
          by_cases e' : t' = t
          · subst e'
            simp only [if_true, upd] at hb'
            rw [hq]; exact List.mem_cons_of_mem _ hb'
          · simpa [upd, e'] using hb'
        · simpa [e] using hb'
      · intro c' t' hne
        refine I.fbq c' t' ?_
        simp only [upd] at hne
        by_cases e : c' = c
        · subst e
          by_cases e' : t' = t
          · subst e'; rw [hq]; simp
          · simpa [upd, e'] using hne
        · simpa [e] using hne
      · rw [← hs]; exact I.ownk
      · intro c' b' h
        simp only [Option.some.injEq, Prod.mk.injEq] at h
        obtain ⟨rfl, rfl⟩ := h
        exact ⟨I.cl _ g1, I.clq _ _ _ hbq⟩
    · cases hs
  · cases hs

theorem Inv.dereg (I : Inv G s) {c : Nat} {s' : S} (hs : step G s (.dereg c) = some s') :
    Inv G s' := by
  simp only [step] at hs
  split at hs
  · rename_i hg
    simp only [Option.some.injEq] at hs
    subst hs
    exact { I with
      atp := I.atp.same rfl fun l _ => by cases l <;> rfl
      ownk := by unfold OPc.Ok; dsimp only; rw [hg]; trivial
      frk := fun t => by
        have := I.frk t
        unfold FPc.Ok at this ⊢
        dsimp only
        split at this
        · trivial
        · exact this
        · exact this
        · exact this
        · obtain ⟨h1, h2, _, h3⟩ := this
          exact ⟨h1, h2, rfl, h3⟩
      drk := fun c b h => ⟨rfl, (I.drk c b h).2⟩
      cl := fun _ _ => rfl
      liv := I.liv
      cur0 := fun h => by cases h
      cur1 := fun h => by cases h }
  · cases hs

end FF.Alloc.Slab
