import Verif.Alloc.SlabStep
/-!
# Every step of the slab allocator keeps the invariant (2)
-/
namespace FF.Alloc.Slab
open FF.Mem FF.Node

variable {G : Cfg} {s : S}

/-- The owner moves on without taking a block. -/
theorem Inv.ownstep (I : Inv G s) {own' : OPc} (h : s.own.blk = []) (h' : own'.blk = [])
    (hk : OPc.Ok G { s with own := own' }) : Inv G { s with own := own' } :=
  { I with
    atp := I.atp.same rfl fun l _ => by cases l <;> simp [S.nums, h, h']
    ownk := hk
    frk := I.frk
    liv := I.liv }

theorem Inv.startStep (I : Inv G s) {r : Req} {s' : S} (hok : ok G s (.start r) = true)
    (hs : step G s (.start r) = some s') : Inv G s' := by
  simp only [step] at hs
  simp only [ok, Bool.and_eq_true, Bool.or_eq_true, decide_eq_true_eq] at hok
  split at hs
  · rename_i hg
    obtain ⟨g1, g2, g3, g4⟩ := hg
    have hb : s.own.blk = [] := by rw [g1]; rfl
    split at hs
    · rename_i hp
      simp only [Option.some.injEq] at hs
      subst hs
      exact I.ownstep hb rfl
        ⟨⟨hok.1, hp, g4, g3⟩, hok.2.resolve_right (fun h => h hp), g2⟩
    · rename_i c hp
      split at hs
      · rename_i ha
        simp only [Option.some.injEq] at hs
        subst hs
        exact I.ownstep hb rfl ⟨⟨hok.1, hp, g4, g3⟩, g2, ha⟩
      · rename_i ha
        simp only [Option.some.injEq] at hs
        subst hs
        exact I.ownstep hb rfl ⟨⟨hok.1, hp, g4, g3⟩, g2, by simpa using ha⟩
    · cases hs
  · cases hs

theorem Inv.popk (I : Inv G s) {s' : S} (hs : step G s .popk = some s') : Inv G s' := by
  simp only [step] at hs
  have hk := I.ownk
  split at hs
  · rename_i r c i ho
    unfold OPc.Ok at hk
    rw [ho] at hk
    obtain ⟨k1, k2, k3⟩ := hk
    have hb0 : s.own.blk = [] := by rw [ho]; rfl
    split at hs
    · split at hs
      · rename_i b rest hq
        simp only [Option.some.injEq] at hs
        generalize ht : (s.fb c).getD ((s.lastq c + i) % (s.fb c).length) 0 = t at *
        have hbq : b ∈ s.q c t := by rw [hq]; simp
        obtain ⟨g, k, hg⟩ := I.clq c t b hbq
        refine I.relocate (b := b) (X := .q c t) (Y := .own) (I.qAt hbq) (by simp) trivial trivial
          (own' := .got r c b) (fr' := s.fr) (q' := upd s.q c (upd (s.q c) t rest)) (fb' := s.fb)
          (lastq' := upd s.lastq c ((s.lastq c + i) % (s.fb c).length)) (dr' := s.dr)
          (live' := s.live) hs.symm ?_ ?_ ?_ ?_ ?_ ?_ I.frk I.drk I.liv I.lnd
        · rw [← hs]; simp [S.nums, upd, hq]
        · rw [← hs]; simp [S.nums, ho, OPc.blk]
        · intro l _ h1 h2
          rw [← hs]
          cases l with
          | own => exact absurd rfl h2
          | q c' t' =>
            simp only [S.nums, upd]
            by_cases e : c' = c
            · subst e
              by_cases e' : t' = t
              · subst e'; exact absurd rfl h1
              · simp [upd, e']
            · simp [e]
          | _ => rfl
        · intro c' t' b' hb'
          refine I.clq c' t' b' ?_
          simp only [upd] at hb'
          by_cases e : c' = c
          · subst e
            by_cases e' : t' = t
            · subst e'
              simp only [if_true, upd] at hb'
              rw [hq]; exact List.mem_cons_of_mem _ hb'
            · simpa [upd, e'] using hb'
          · simpa [e] using hb'
        · intro c' t' hne
          refine I.fbq c' t' ?_
          simp only [upd] at hne
          by_cases e : c' = c
          · subst e
            by_cases e' : t' = t
            · subst e'; rw [hq]; simp
            · simpa [upd, e'] using hne
          · simpa [e] using hne
        · rw [← hs]; exact ⟨k1, k2, g, k, hg⟩
      · simp only [Option.some.injEq] at hs
        subst hs
        exact I.ownstep hb0 rfl ⟨k1, k2, k3⟩
    · simp only [Option.some.injEq] at hs
      subst hs
      exact I.ownstep hb0 rfl ⟨k1, k2, k3⟩
  · cases hs

/-! ## Returning a block to the user -/

theorem fill_out {m : Mem} {a v : Nat} : ∀ {k x : Nat}, x + 8 ≤ a ∨ a + 8 * k ≤ x →
    ld (fill m a v k) x = ld m x
  | 0, _, _ => rfl
  | k + 1, x, h => by
    rw [fill, ld_st_disj (by omega), fill_out (by omega)]

theorem fill_in {m : Mem} {a v : Nat} (hv : v < W) : ∀ {k j : Nat}, j < k →
    ld (fill m a v k) (a + 8 * j) = v
  | 0, _, h => absurd h (by omega)
  | k + 1, j, h => by
    rw [fill]
    by_cases e : j = k
    · subst e; exact ld_st_same hv
    · rw [ld_st_disj (by omega), fill_in hv (by omega)]

/-- The block of the owner is the block of no allocation. -/
theorem Inv.own_ne (I : Inv G s) {g : Reg} {c k b : Nat} (hg : IsBlk G s.regs g c k b)
    (hp : s.pl b ≠ .live) : b ∉ s.live.map Ent.blk := by
  intro h
  obtain ⟨e, he, rfl⟩ := List.mem_map.1 h
  cases hcl : e.cls with
  | some c' => exact hp (I.liveAt he hcl)
  | none =>
    have B := I.big he hcl
    have := hg.in_reg I.regs
    rcases I.regs.apart hg.1 B.reg with ea | ea | ea
    · rw [ea] at hg; cases hg.2.1
    · dsimp only at ea; omega
    · dsimp only at ea; omega

theorem Inv.give (I : Inv G s) {r : Req} {c b : Nat} (ho : s.own = .got r c b) {e : Ent}
    (heb : e.blk = b) (hec : e.cls = some c) (hok : e.Ok G s) :
    Inv G { s with own := .idle, live := s.live ++ [e], pl := upd s.pl b .live } := by
  have hk := I.ownk
  unfold OPc.Ok at hk
  rw [ho] at hk
  obtain ⟨_, _, g, k, hg⟩ := hk
  have hp := I.ownAt ho
  refine I.relocate (b := b) (X := .own) (Y := .live) hp (by simp) trivial trivial
    (own' := .idle) (fr' := s.fr) (q' := s.q) (fb' := s.fb) (lastq' := s.lastq) (dr' := s.dr)
    (live' := s.live ++ [e]) rfl ?_ ?_ ?_ I.clq I.fbq trivial I.frk I.drk ?_ ?_
  · simp [S.nums, ho, OPc.blk]
  · simp only [S.nums, List.filter_append, List.map_append, List.filter_cons, hec]
    simp only [Option.isSome_some, if_true, List.filter_nil, List.map_cons, List.map_nil, heb]
    exact List.perm_append_singleton _ _
  · intro l _ h1 h2
    cases l <;> first | rfl | exact absurd rfl h1 | exact absurd rfl h2
  · intro e' he'
    rw [List.mem_append, List.mem_singleton] at he'
    rcases he' with he' | rfl
    · exact I.liv e' he'
    · exact hok
  · rw [List.map_append, List.nodup_append]
    refine ⟨I.lnd, by simp, ?_⟩
    intro x hx y hy
    simp only [List.map_cons, List.map_nil, List.mem_singleton] at hy
    subst hy
    rintro rfl
    rw [heb] at hx
    exact I.own_ne hg (by rw [hp]; simp) hx

theorem Inv.fin (I : Inv G s) {s' : S} (hs : step G s .fin = some s') : Inv G s' := by
  simp only [step] at hs
  have hk := I.ownk
  split at hs
  · rename_i r c b ho
    unfold OPc.Ok at hk
    rw [ho] at hk
    obtain ⟨⟨q1, q2, q3, q4⟩, k2, g, k, hg⟩ := hk
    have hp := I.ownAt ho
    have hps := path_slab q2
    have hin := hg.in_reg I.regs
    have hgp := I.regs.pos g hg.1
    have hhd : ld s.mem b = g.a := I.hdr g c k b hg (by rw [hp]; simp)
    have hmod : b % 8 = 0 := by rw [hg.2.2.2]; exact hb_mod hgp.2.2.1
    have hreal : r.real = r.n + r.al := rfl
    split at hs
    · rename_i hal
      simp only [Option.some.injEq] at hs
      subst hs
      refine I.give ho rfl rfl ⟨g, k, hg, ?_, ?_, q1, ?_, ?_, ?_⟩
      · exact Nat.le_refl _
      · dsimp only; omega
      · dsimp only; omega
      · intro h; exact absurd rfl h
      · intro x h1 h2 h3
        dsimp only at h1 h2
        obtain rfl : x = b := by omega
        exact hhd
    · rename_i hal
      simp only [Option.some.injEq] at hs
      have hal4 := q4 hal
      obtain ⟨a1, a2, a3, a4, a5⟩ := alignUp_spec (x := b + 8) hal4 q3
        (show b + 8 + r.al < W by omega)
      generalize hpp : alignUp (b + 8) r.al = p at *
      have hp8 : p % 8 = 0 := by
        obtain ⟨u, hu⟩ := Nat.dvd_of_mod_eq_zero a1
        obtain ⟨w, hw⟩ := Nat.dvd_of_mod_eq_zero a4
        rw [hw, Nat.mul_assoc] at hu
        omega
      have hbm := bsz_mod c
      have hpb : p ≤ b + bsz c := by omega
      -- the memory after the loop
      have I1 : Inv G { s with mem := fill s.mem (b + 8) (ld s.mem b) ((p - (b + 8)) / 8) } := by
        have hkk : b + 8 + 8 * ((p - (b + 8)) / 8) = p := by omega
        refine I.frame ?_ ?_ ?_ ?_ ?_ ?_
        · intro r' c' hr' hc'
          have := I.regs.rec_in hr' hc'
          rcases I.regs.apart hg.1 hr' with ea | ea | ea
          · subst ea; exact ⟨fill_out (by omega), fill_out (by omega)⟩
          · exact ⟨fill_out (by omega), fill_out (by omega)⟩
          · exact ⟨fill_out (by omega), fill_out (by omega)⟩
        · intro r' c' k' b' hb'
          rcases hg.cases I.regs hb' with ea | ea | ea
          · exact fill_out (by omega)
          · exact fill_out (by omega)
          · exact fill_out (by omega)
        · intro r' c' k' b' hb'
          rcases hg.cases I.regs hb' with ea | ea | ea
          · obtain ⟨rfl, rfl, rfl, rfl⟩ := ea
            rw [fill_out (by omega)]; exact I.clean _ _ _ _ hb'
          · rw [fill_out (by omega)]; exact I.clean _ _ _ _ hb'
          · rw [fill_out (by omega)]; exact I.clean _ _ _ _ hb'
        · intro e' he' r' c' k' hc' E' x hx1 hx2
          have g1 := E'.lo
          have g2 := E'.hi
          have g3 := E'.pos
          rcases hg.cases I.regs E'.blk with ea | ea | ea
          · have := I.liveAt he' hc'
            rw [← ea.2.2.2, hp] at this; cases this
          · exact fill_out (by omega)
          · exact fill_out (by omega)
        · intro e' he' hc'
          have B := I.big he' hc'
          rcases I.regs.apart hg.1 B.reg with ea | ea | ea
          · have := hg.2.1
            rw [ea] at this; cases this
          · dsimp only at ea; exact fill_out (by omega)
          · dsimp only at ea; exact fill_out (by omega)
        · intro t e' b' hf x hx1 hx2
          have F := I.frk t
          rw [hf] at F
          obtain ⟨r', c', k', f1, f2, f3, f4, f5, f6⟩ := F
          have p1 := I.frAt (t := t) (b := e'.blk) (by rw [hf]; simp [FPc.blk])
          have h8 := bsz_mod c'
          rcases hg.cases I.regs f2 with ea | ea | ea
          · rw [← ea.2.2.2, hp] at p1; cases p1
          · exact fill_out (by omega)
          · exact fill_out (by omega)
      subst hs
      refine I1.give (e := ⟨p, r.n, r.al, b, some c⟩) ho rfl rfl ⟨g, k, hg, ?_, ?_, q1, ?_, fun _ => a1, ?_⟩
      · dsimp only; omega
      · dsimp only; omega
      · dsimp only; omega
      · intro x h1 h2 h3
        dsimp only at h1 h2 h3 ⊢
        by_cases e : x = b
        · subst e; rw [fill_out (by omega)]; exact hhd
        · have hx : x = b + 8 + 8 * ((x - (b + 8)) / 8) := by omega
          rw [hx, fill_in (by rw [hhd]; omega) (by omega)]
          exact hhd
  · cases hs

end FF.Alloc.Slab
