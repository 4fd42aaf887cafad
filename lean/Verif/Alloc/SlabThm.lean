import Verif.Alloc.SlabStep5
/-!
# C38, C39: theorems about the slab allocator

`Reach (gstep G) (S.start m) s`: `s` is reached by some interleaving of the owner and the threads that
free, from any content `m` of memory, where the user meets the conditions of `ok`.
-/
namespace FF.Alloc.Slab
open FF.Mem FF.Node

variable {G : Cfg} {s : S} {m : Mem}

/-! ## Where the bytes of an allocation are -/

theorem Inv.where_ (I : Inv G s) {e : Ent} (he : e ∈ s.live) :
    (∃ r c k, e.cls = some c ∧ IsBlk G s.regs r c k e.blk ∧ e.blk + 8 ≤ e.p ∧
      e.p + e.n ≤ e.blk + 8 + bsz c) ∨
    (e.cls = none ∧ (⟨e.blk, e.n + 8, none⟩ : Reg) ∈ s.regs ∧ e.p = e.blk + 8) := by
  cases hc : e.cls with
  | some c =>
    obtain ⟨r, k, E⟩ := I.ent he hc
    exact .inl ⟨r, c, k, rfl, E.blk, E.lo, E.hi⟩
  | none =>
    have B := I.big he hc
    exact .inr ⟨rfl, B.reg, B.ptr⟩

/-- **C39**: allocations that the user holds do not overlap. -/
theorem C39_disjoint_partial (hr : Reach (gstep G) (S.start m) s) {e e' : Ent} (he : e ∈ s.live)
    (he' : e' ∈ s.live) (hne : e ≠ e') : e.p + e.n ≤ e'.p ∨ e'.p + e'.n ≤ e.p := by
  have I := Inv.reach hr
  have hbk : e.blk ≠ e'.blk := fun h => hne (blk_inj I.lnd he he' h)
  rcases I.where_ he with ⟨r, c, k, h1, h2, h3, h4⟩ | ⟨h1, h2, h3⟩ <;>
  rcases I.where_ he' with ⟨r', c', k', g1, g2, g3, g4⟩ | ⟨g1, g2, g3⟩
  · rcases h2.cases I.regs g2 with ea | ea | ea
    · exact absurd ea.2.2.2 hbk
    · omega
    · omega
  · have := h2.in_reg I.regs
    have := I.bigApart he' g1 h2.1 h2.2.1
    omega
  · have := g2.in_reg I.regs
    have := I.bigApart he h1 g2.1 g2.2.1
    omega
  · rcases I.regs.apart h2 g2 with ea | ea | ea
    · exact absurd (congrArg Reg.a ea) hbk
    · dsimp only at ea; omega
    · dsimp only at ea; omega

/-- **C39**: the bytes of an allocation lie in memory that the allocator holds from the system: a
segment is never returned while one of its buffers is in use. -/
theorem C39_held_partial (hr : Reach (gstep G) (S.start m) s) {e : Ent} (he : e ∈ s.live) :
    ∃ r ∈ s.regs, r.a ≤ e.p ∧ e.p + e.n ≤ r.a + r.len := by
  have I := Inv.reach hr
  rcases I.where_ he with ⟨r, c, k, h1, h2, h3, h4⟩ | ⟨h1, h2, h3⟩
  · have := h2.in_reg I.regs
    exact ⟨r, h2.1, by omega, by omega⟩
  · exact ⟨_, h2, by dsimp only; omega, by dsimp only; omega⟩

/-- **C39**: a block waits for reuse in at most one place of one queue, and not while the user holds
it. -/
theorem C39_once_partial (hr : Reach (gstep G) (S.start m) s) :
    (∀ c t, (s.q c t).Nodup) ∧
    (∀ c t c' t' b, b ∈ s.q c t → b ∈ s.q c' t' → c = c' ∧ t = t') ∧
    (∀ c t e, e ∈ s.live → e.blk ∉ s.q c t) := by
  have I := Inv.reach hr
  refine ⟨fun c t => (I.atp (.q c t) trivial).1, ?_, ?_⟩
  · intro c t c' t' b h h'
    have h1 := I.qAt h
    rw [I.qAt h'] at h1
    simp only [Pl.q.injEq] at h1
    exact ⟨h1.1.symm, h1.2.symm⟩
  · intro c t e he h
    have hp := I.qAt h
    obtain ⟨r, k, hB⟩ := I.clq c t _ h
    exact I.own_ne hB (by rw [hp]; simp) (List.mem_map_of_mem he)

/-- **C39**: the block that `malloc` is about to return is not one that the user holds, nor one that
waits in a queue. -/
theorem C39_new_partial (hr : Reach (gstep G) (S.start m) s) {r : Req} {c b : Nat}
    (ho : s.own = .got r c b) : (∀ e ∈ s.live, e.blk ≠ b) ∧ (∀ c t, b ∉ s.q c t) := by
  have I := Inv.reach hr
  have hp := I.ownAt ho
  have hk := I.ownk
  unfold OPc.Ok at hk
  rw [ho] at hk
  obtain ⟨_, _, g, k, hB⟩ := hk
  refine ⟨fun e he h => I.own_ne hB (by rw [hp]; simp) (h ▸ List.mem_map_of_mem he), ?_⟩
  intro c t h
  rw [I.qAt h] at hp
  cases hp

/-! ## Content -/

theorem fill_byte {m : Mem} {a v : Nat} : ∀ {k x : Nat}, x < a ∨ a + 8 * k ≤ x →
    fill m a v k x = m x
  | 0, _, _ => rfl
  | k + 1, x, h => by
    rw [fill, st_out (by omega), fill_byte (by omega)]

theorem reclaim_mem (G : Cfg) (s : S) (c sg b : Nat) :
    (s.reclaim G c sg b).mem = st s.mem (sg + 16) (ld s.mem (sg + 16) + 1) := by
  unfold S.reclaim S.sysFree
  dsimp only
  split
  · split <;> rfl
  · rfl

theorem reclaim_live (G : Cfg) (s : S) (c sg b : Nat) : (s.reclaim G c sg b).live = s.live := by
  unfold S.reclaim S.sysFree
  dsimp only
  split
  · split <;> rfl
  · rfl

/-- The user writes into this allocation. -/
def Act.writes (a : Act) (e : Ent) : Prop :=
  match a with
  | .write e' _ _ => e' = e
  | _ => False

/-- The user frees this allocation. -/
def Act.frees (a : Act) (e : Ent) : Prop :=
  match a with
  | .free _ e' => e' = e
  | _ => False

/-- Bytes of the user that are not the word a step of the allocator writes. -/
theorem Inv.keepRec (I : Inv G s) {e : Ent} (he : e ∈ s.live) {off : Nat} (ho : off < e.n) {g : Reg}
    {c v : Nat} (hg : g ∈ s.regs) (hgc : g.cls = some c) :
    st s.mem (g.a + 16) v (e.p + off) = s.mem (e.p + off) := by
  have i2 := I.regs.rec_in hg hgc
  rcases I.where_ he with ⟨r, c', k, h1, h2, h3, h4⟩ | ⟨h1, h2, h3⟩
  · have := h2.in_reg I.regs
    refine st_out ?_
    rcases I.regs.apart hg h2.1 with ea | ea | ea
    · subst ea; omega
    · omega
    · omega
  · have := I.bigApart he h1 hg hgc
    exact st_out (by omega)

/-- A region that contains the bytes of the user. -/
theorem Inv.inReg (I : Inv G s) {e : Ent} (he : e ∈ s.live) :
    ∃ r ∈ s.regs, r.a ≤ e.p ∧ e.p + e.n ≤ r.a + r.len := by
  rcases I.where_ he with ⟨r, c, k, h1, h2, h3, h4⟩ | ⟨h1, h2, h3⟩
  · have := h2.in_reg I.regs
    exact ⟨r, h2.1, by omega, by omega⟩
  · exact ⟨_, h2, by dsimp only; omega, by dsimp only; omega⟩

/-- Bytes outside a block, when the allocation is another one. -/
theorem Inv.notIn (I : Inv G s) {e : Ent} (he : e ∈ s.live) {g : Reg} {c k b : Nat}
    (hB : IsBlk G s.regs g c k b) (hp : s.pl b ≠ .live) :
    e.p + e.n ≤ b ∨ b + 8 + bsz c ≤ e.p := by
  have i0 := hB.in_reg I.regs
  rcases I.where_ he with ⟨r, c', k', h1, h2, h3, h4⟩ | ⟨h1, h2, h3⟩
  · rcases hB.cases I.regs h2 with ea | ea | ea
    · have := I.liveAt he h1
      rw [← ea.2.2.2] at this
      exact absurd this hp
    · omega
    · omega
  · have := I.bigApart he h1 hB.1 hB.2.1
    omega

theorem C39_step (hr : Reach (gstep G) (S.start m) s) {e : Ent} (he : e ∈ s.live) {act : Act}
    {s' : S} (hs : gstep G s act = some s') (hw : ¬ act.writes e) :
    ∀ off, off < e.n → s'.mem (e.p + off) = s.mem (e.p + off) := by
  have I := Inv.reach hr
  intro off ho
  unfold gstep at hs
  split at hs
  · rename_i hok
    have hnew : ∀ {a len : Nat}, s.newRegion a len = true → e.p + off < a ∨ a + len ≤ e.p + off := by
      intro a len hn
      obtain ⟨g, hg, g1, g2⟩ := I.inReg he
      have := newRegion_apart hn hg
      omega
    have hns : ∀ {c a : Nat}, 0 < G.nsl c → s.newRegion a (G.slen c) = true →
        (s.newslab G c a).mem (e.p + off) = s.mem (e.p + off) := by
      intro c a h0 hn
      have := hnew hn
      have h2 := hb_in (a := a) h0
      have h3 := bsz_ge c
      unfold S.newslab
      dsimp only
      rw [st_out (by omega), st_out (by omega), st_out (by omega), st_out (by omega)]
    cases act with
    | start r =>
      simp only [Slab.step] at hs
      split at hs
      · split at hs
        · simp only [Option.some.injEq] at hs; subst hs; rfl
        · split at hs
          · simp only [Option.some.injEq] at hs; subst hs; rfl
          · simp only [Option.some.injEq] at hs; subst hs; rfl
        · cases hs
      · cases hs
    | sysm a =>
      simp only [Slab.step] at hs
      split at hs
      · rename_i r hown
        have hk := I.ownk
        unfold OPc.Ok at hk
        rw [hown] at hk
        split at hs
        · rename_i hn
          have := hnew hn
          rw [if_pos hk.2.1] at hs
          simp only [Option.some.injEq] at hs
          subst hs
          exact st_out (by omega)
        · cases hs
      · cases hs
    | popk =>
      simp only [Slab.step] at hs
      split at hs
      · split at hs
        · split at hs
          · simp only [Option.some.injEq] at hs; subst hs; rfl
          · simp only [Option.some.injEq] at hs; subst hs; rfl
        · simp only [Option.some.injEq] at hs; subst hs; rfl
      · cases hs
    | slab a =>
      simp only [Slab.step] at hs
      split at hs
      · rename_i r c hown
        have hk := I.ownk
        unfold OPc.Ok at hk
        rw [hown] at hk
        have hps := path_slab hk.1.2.1
        split at hs
        · rename_i hn
          simp only [Option.some.injEq] at hs
          subst hs
          exact hns (by omega) hn
        · cases hs
      · cases hs
    | prealloc c a =>
      simp only [Slab.step] at hs
      split at hs
      · rename_i hg
        simp only [Option.some.injEq] at hs
        subst hs
        exact hns hg.2.2.2.1 hg.2.2.2.2.2
      · cases hs
    | carve =>
      simp only [Slab.step] at hs
      split at hs
      · rename_i r c hown
        have hk := I.ownk
        unfold OPc.Ok at hk
        rw [hown] at hk
        obtain ⟨q, hcl, hav⟩ := hk
        obtain ⟨g, g1, g2, g3, g4, g5, g6⟩ := I.cur1 hcl c hav
        rw [g5] at hs
        simp only [Option.some.injEq] at hs
        subst hs
        dsimp only
        split
        · rename_i hne
          have hnb : IsBlk G s.regs g c (G.nsl c - s.avail c + 1) (s.bufp c + 8 + bsz c) :=
            ⟨g1, g2, by omega, by rw [g4]; unfold hb; rw [Nat.add_mul _ 1, Nat.one_mul]; omega⟩
          have hf := (g6 _ _ _ hnb).2 ⟨rfl, by omega⟩
          have := I.notIn he hnb (by rw [hf]; simp)
          rw [st_out (by omega)]
          exact I.keepRec he ho g1 g2
        · exact I.keepRec he ho g1 g2
      · cases hs
    | fin =>
      simp only [Slab.step] at hs
      split at hs
      · rename_i r c b hown
        have hk := I.ownk
        unfold OPc.Ok at hk
        rw [hown] at hk
        obtain ⟨⟨q1, q2, q3, q4⟩, k2, g, k, hg⟩ := hk
        have hp := I.ownAt hown
        split at hs
        · simp only [Option.some.injEq] at hs; subst hs; rfl
        · rename_i hal
          simp only [Option.some.injEq] at hs
          subst hs
          dsimp only
          have hin := hg.in_reg I.regs
          have hgp := I.regs.pos g hg.1
          obtain ⟨a1, a2, a3, a4, a5⟩ := alignUp_spec (x := b + 8) (q4 hal) q3
            (show b + 8 + r.al < W by
              have := path_slab q2
              have : r.real = r.n + r.al := rfl
              omega)
          have hps := path_slab q2
          have hreal : r.real = r.n + r.al := rfl
          have := I.notIn he hg (by rw [hp]; simp)
          exact fill_byte (by omega)
      · cases hs
    | write e' off' v =>
      simp only [Slab.step] at hs
      split at hs
      · rename_i h
        simp only [Option.some.injEq] at hs
        subst hs
        have hne : e ≠ e' := fun x => hw x.symm
        have := C39_disjoint_partial hr he h.1 hne
        dsimp only [stb]
        rw [if_neg (by omega)]
      · cases hs
    | free t e' =>
      simp only [Slab.step] at hs
      split at hs
      · split at hs
        · simp only [Option.some.injEq] at hs
          subst hs
          unfold S.sysFree
          dsimp only
          split <;> rfl
        · simp only [Option.some.injEq] at hs; subst hs; rfl
      · cases hs
    | walk t =>
      simp only [Slab.step] at hs
      split at hs
      · split at hs
        · simp only [Option.some.injEq] at hs; subst hs; rfl
        · simp only [Option.some.injEq] at hs; subst hs; rfl
      · cases hs
    | put t =>
      simp only [Slab.step] at hs
      split at hs
      · split at hs
        · simp only [Option.some.injEq] at hs; subst hs; rfl
        · simp only [Option.some.injEq] at hs; subst hs; rfl
      · cases hs
    | push t =>
      simp only [Slab.step] at hs
      split at hs
      · simp only [Option.some.injEq] at hs; subst hs; rfl
      · cases hs
    | recl t =>
      simp only [Slab.step] at hs
      split at hs
      · rename_i e1 c b hf
        have F := I.frk t
        rw [hf] at F
        obtain ⟨rfl, f1, f3, r, k, f2⟩ := F
        have hp := I.frAt (t := t) (b := e1.blk) (by rw [hf]; simp [FPc.blk])
        simp only [Option.some.injEq] at hs
        subst hs
        dsimp only
        rw [reclaim_mem, I.hdr r c k _ f2 (by rw [hp]; simp)]
        exact I.keepRec he ho f2.1 f2.2.1
      · cases hs
    | dereg c =>
      simp only [Slab.step] at hs
      split at hs
      · simp only [Option.some.injEq] at hs; subst hs; rfl
      · cases hs
    | drain c t =>
      simp only [Slab.step] at hs
      split at hs
      · split at hs
        · simp only [Option.some.injEq] at hs; subst hs; rfl
        · cases hs
      · cases hs
    | drecl =>
      simp only [Slab.step] at hs
      split at hs
      · rename_i c b hd
        obtain ⟨f3, r, k, f2⟩ := I.drk c b hd
        have hp := I.handAt hd
        simp only [Option.some.injEq] at hs
        subst hs
        dsimp only
        rw [reclaim_mem, I.hdr r c k _ f2 (by rw [hp]; simp)]
        exact I.keepRec he ho f2.1 f2.2.1
      · cases hs
  · cases hs

/-- Only `free` takes an allocation away from the user. -/
theorem live_step {e : Ent} (he : e ∈ s.live) {act : Act} {s' : S} (hs : step G s act = some s')
    (hf : ¬ act.frees e) : e ∈ s'.live := by
  cases act with
  | start r =>
    simp only [step] at hs
    split at hs
    · split at hs
      · simp only [Option.some.injEq] at hs; subst hs; exact he
      · split at hs
        · simp only [Option.some.injEq] at hs; subst hs; exact he
        · simp only [Option.some.injEq] at hs; subst hs; exact he
      · cases hs
    · cases hs
  | sysm a =>
    simp only [step] at hs
    split at hs
    · split at hs
      · split at hs
        · simp only [Option.some.injEq] at hs; subst hs; exact List.mem_append_left _ he
        · simp only [Option.some.injEq] at hs; subst hs; exact List.mem_append_left _ he
      · cases hs
    · cases hs
  | popk =>
    simp only [step] at hs
    split at hs
    · split at hs
      · split at hs
        · simp only [Option.some.injEq] at hs; subst hs; exact he
        · simp only [Option.some.injEq] at hs; subst hs; exact he
      · simp only [Option.some.injEq] at hs; subst hs; exact he
    · cases hs
  | slab a =>
    simp only [step] at hs
    split at hs
    · split at hs
      · simp only [Option.some.injEq] at hs; subst hs; exact he
      · cases hs
    · cases hs
  | prealloc c a =>
    simp only [step] at hs
    split at hs
    · simp only [Option.some.injEq] at hs; subst hs; exact he
    · cases hs
  | carve =>
    simp only [step] at hs
    split at hs
    · simp only [Option.some.injEq] at hs; subst hs; exact he
    · cases hs
  | fin =>
    simp only [step] at hs
    split at hs
    · split at hs
      · simp only [Option.some.injEq] at hs; subst hs; exact List.mem_append_left _ he
      · simp only [Option.some.injEq] at hs; subst hs; exact List.mem_append_left _ he
    · cases hs
  | write e' off' v =>
    simp only [step] at hs
    split at hs
    · simp only [Option.some.injEq] at hs; subst hs; exact he
    · cases hs
  | free t e' =>
    have hne : e ≠ e' := fun x => hf x.symm
    simp only [step] at hs
    split at hs
    · split at hs
      · simp only [Option.some.injEq] at hs; subst hs; exact (List.mem_erase_of_ne hne).2 he
      · simp only [Option.some.injEq] at hs; subst hs; exact (List.mem_erase_of_ne hne).2 he
    · cases hs
  | walk t =>
    simp only [step] at hs
    split at hs
    · split at hs
      · simp only [Option.some.injEq] at hs; subst hs; exact he
      · simp only [Option.some.injEq] at hs; subst hs; exact he
    · cases hs
  | put t =>
    simp only [step] at hs
    split at hs
    · split at hs
      · simp only [Option.some.injEq] at hs; subst hs; exact he
      · simp only [Option.some.injEq] at hs; subst hs; exact he
    · cases hs
  | push t =>
    simp only [step] at hs
    split at hs
    · simp only [Option.some.injEq] at hs; subst hs; exact he
    · cases hs
  | recl t =>
    simp only [step] at hs
    split at hs
    · simp only [Option.some.injEq] at hs; subst hs; dsimp only; rw [reclaim_live]; exact he
    · cases hs
  | dereg c =>
    simp only [step] at hs
    split at hs
    · simp only [Option.some.injEq] at hs; subst hs; exact he
    · cases hs
  | drain c t =>
    simp only [step] at hs
    split at hs
    · split at hs
      · simp only [Option.some.injEq] at hs; subst hs; exact he
      · cases hs
    · cases hs
  | drecl =>
    simp only [step] at hs
    split at hs
    · simp only [Option.some.injEq] at hs; subst hs; dsimp only; rw [reclaim_live]; exact he
    · cases hs

theorem gstep_step {act : Act} {s' : S} (h : gstep G s act = some s') : step G s act = some s' := by
  unfold gstep at h
  split at h
  · exact h
  · cases h

/-- **C39**: as long as the user neither frees an allocation nor writes into it, its bytes stay as
they are, whatever the other threads and the allocator do. -/
theorem C39_content_partial (hr : Reach (gstep G) (S.start m) s) {e : Ent} (he : e ∈ s.live)
    (acts : List Act) {s' : S} (hs : exec (gstep G) s acts = some s')
    (hf : ∀ a ∈ acts, ¬ a.frees e ∧ ¬ a.writes e) :
    e ∈ s'.live ∧ ∀ off, off < e.n → s'.mem (e.p + off) = s.mem (e.p + off) := by
  induction acts generalizing s with
  | nil =>
    simp only [exec, Option.some.injEq] at hs
    subst hs
    exact ⟨he, fun _ _ => rfl⟩
  | cons a acts ih =>
    simp only [exec] at hs
    cases h1 : gstep G s a with
    | none => rw [h1] at hs; cases hs
    | some s1 =>
      rw [h1] at hs
      have hfa := hf a (by simp)
      have ih' := ih (hr.tail h1) (live_step he (gstep_step h1) hfa.1) hs
        (fun b hb => hf b (by simp [hb]))
      refine ⟨ih'.1, fun off ho => ?_⟩
      rw [ih'.2 off ho, C39_step hr he h1 hfa.2 off ho]

/-! ## `free` -/

/-- **C38**: whatever the alignment and the address, `free` of a pointer releases exactly the block
that was obtained for it, into the cache it came from; the system's `free` is only called with an
address that the system gave. -/
theorem C38_free_exact_partial (hr : Reach (gstep G) (S.start m) s) :
    s.bad = false ∧
    (∀ t e b, s.fr t = .put e b → b = e.blk) ∧
    (∀ t e c b, s.fr t = .push e c b → b = e.blk ∧ e.cls = some c) ∧
    (∀ t e c b, s.fr t = .recl e c b → b = e.blk ∧ e.cls = some c) := by
  have I := Inv.reach hr
  refine ⟨I.good, ?_, ?_, ?_⟩
  · intro t e b h
    have F := I.frk t
    rw [h] at F
    exact F.1
  · intro t e c b h
    have F := I.frk t
    rw [h] at F
    exact ⟨F.1, F.2.1⟩
  · intro t e c b h
    have F := I.frk t
    rw [h] at F
    exact ⟨F.1, F.2.1⟩

/-- The loop of `free`. -/
theorem walk_run {t : Nat} {e : Ent} : ∀ (n : Nat) {s : S}, Inv G s → s.fr t = .walk e (e.blk + 8 * n) →
    ∃ s', exec (gstep G) s (List.replicate (n + 1) (.walk t)) = some s' ∧ s'.fr t = .put e e.blk ∧
      s'.nomore = s.nomore ∧ s'.q = s.q
  | 0, s, I, hf => by
    have F := I.frk t
    rw [hf] at F
    obtain ⟨r, c, k, f1, f2, f3, f4, f5, f6⟩ := F
    have hne : ld s.mem (e.blk + 8 * 0) ≠ ld s.mem (e.blk + 8 * 0 - 8) := by
      rw [f6 _ (by omega) (Nat.le_refl _) (by omega)]
      exact (I.front f2).symm
    have h1 : exec (gstep G) s (List.replicate (0 + 1) (.walk t)) =
        some { s with fr := upd s.fr t (.put e (e.blk + 8 * 0)) } := by
      simp only [List.replicate, exec, gstep, ok, if_true, step, hf, if_neg hne]
    exact ⟨_, h1, by simp [upd], rfl, rfl⟩
  | n + 1, s, I, hf => by
    have F := I.frk t
    rw [hf] at F
    obtain ⟨r, c, k, f1, f2, f3, f4, f5, f6⟩ := F
    have heq : ld s.mem (e.blk + 8 * (n + 1)) = ld s.mem (e.blk + 8 * (n + 1) - 8) := by
      rw [f6 _ (by omega) (Nat.le_refl _) (by omega), f6 _ (by omega) (by omega) (by omega)]
    have h1 : gstep G s (.walk t) =
        some { s with fr := upd s.fr t (.walk e (e.blk + 8 * (n + 1) - 8)) } := by
      simp only [gstep, ok, if_true, step, hf, if_pos heq]
    obtain ⟨s', g1, g2, g3, g4⟩ := walk_run (t := t) (e := e) n (I.step h1)
      (by simp only [upd, if_true]; congr 1)
    refine ⟨s', ?_, g2, g3, g4⟩
    rw [List.replicate_succ, exec, h1]
    exact g1

/-- **C39**: `free` of an allocation from a slab, run by any thread, ends; unless the allocator is
being taken down, the block is then in the queue of that thread, where the owner looks for it. -/
theorem C39_free_returns_partial (hr : Reach (gstep G) (S.start m) s) {e : Ent} (he : e ∈ s.live)
    {c : Nat} (hc : e.cls = some c) {t : Nat} (ht : s.fr t = .idle) (hn : s.nomore c = false) :
    ∃ n s', exec (gstep G) s (.free t e :: List.replicate n (.walk t) ++ [.put t, .push t]) = some s' ∧
      s'.fr t = .idle ∧ s'.q c t = s.q c t ++ [e.blk] ∧ t ∈ s'.fb c := by
  have I := Inv.reach hr
  obtain ⟨r, k, E⟩ := I.ent he hc
  have hlo := E.lo
  have hmod := E.mod
  have hw : ld s.mem (e.p - 8) = r.a := E.fill _ (by omega) (by omega) (by omega)
  have hrp := I.regs.pos r E.blk.1
  have h1 : gstep G s (.free t e) = some { s with
      live := s.live.erase e
      fr := upd s.fr t (.walk e (e.p - 8))
      pl := upd s.pl e.blk (.fr t) } := by
    simp only [gstep, ok, if_true, step]
    rw [if_pos ⟨he, ht⟩, if_neg (by omega)]
  have I1 := I.step h1
  obtain ⟨s2, g1, g2, g3, g4⟩ := walk_run ((e.p - 8 - e.blk) / 8) I1 (t := t) (e := e) (by
    simp only [upd, if_true]
    congr 1
    omega)
  have I2 : Inv G s2 := exec_inv I1 (fun _ _ _ I h => Inv.step I h) g1
  have F := I2.frk t
  rw [g2] at F
  obtain ⟨_, r', c', k', f1, f2⟩ := F
  rw [hc] at f1
  obtain rfl := Option.some.inj f1
  have hp := I2.frAt (t := t) (b := e.blk) (by rw [g2]; simp [FPc.blk])
  have hw2 : ld s2.mem (ld s2.mem e.blk) = c := by
    rw [I2.hdr r' c k' e.blk f2 (by rw [hp]; simp)]
    exact (I2.segw r' c f2.1 f2.2.1).1
  have hn2 : s2.nomore c = false := by rw [g3]; exact hn
  have h3 : gstep G s2 (.put t) = some { s2 with fr := upd s2.fr t (.push e c e.blk) } := by
    simp only [gstep, ok, if_true, step, g2, hw2]
    rw [if_neg (by simp [hn2])]
  have h4 : gstep G { s2 with fr := upd s2.fr t (.push e c e.blk) } (.push t) = some { s2 with
      fr := upd (upd s2.fr t (.push e c e.blk)) t .idle
      fb := if t ∈ s2.fb c then s2.fb else upd s2.fb c (s2.fb c ++ [t])
      q := upd s2.q c (upd (s2.q c) t (s2.q c t ++ [e.blk]))
      pl := upd s2.pl e.blk (.q c t) } := by
    simp only [gstep, ok, if_true, step, upd]
  have h5 : exec (gstep G) s (.free t e :: List.replicate ((e.p - 8 - e.blk) / 8 + 1) (.walk t) ++
      [.put t, .push t]) = gstep G { s2 with fr := upd s2.fr t (.push e c e.blk) } (.push t) := by
    rw [List.cons_append, exec, h1]
    dsimp only
    rw [exec_append, g1]
    simp only [Option.bind_some, exec, h3, h4]
  refine ⟨_, _, h5.trans h4, by simp [upd], by simp only [upd, if_true, g4], ?_⟩
  · dsimp only
    split
    · assumption
    · simp [upd]

/-- `free` of an allocation served by the system ends at once. -/
theorem C39_free_big (hr : Reach (gstep G) (S.start m) s) {e : Ent} (he : e ∈ s.live)
    (hc : e.cls = none) {t : Nat} (ht : s.fr t = .idle) :
    ∃ s', gstep G s (.free t e) = some s' ∧ s'.live = s.live.erase e ∧
      s'.regs = s.regs.erase ⟨e.blk, e.n + 8, none⟩ ∧ s'.fr t = .idle := by
  have I := Inv.reach hr
  have B := I.big he hc
  have hp : e.p - 8 = e.blk := by have := B.ptr; omega
  have hsf := sysFree_eq (s := s) I.regs B.reg
  dsimp only at hsf
  have h1 : gstep G s (.free t e) = some { s with
      regs := s.regs.erase ⟨e.blk, e.n + 8, none⟩
      live := s.live.erase e } := by
    simp only [gstep, ok, if_true, step]
    rw [if_pos ⟨he, ht⟩, if_pos (by rw [hp]; exact B.hdr), hp, hsf]
  exact ⟨_, h1, rfl, rfl, ht⟩

/-! ## `malloc` -/

/-- The loop of `getfrom_fb` reaches a queue that is not empty. -/
theorem pop_run {r : Req} {c : Nat} : ∀ (d : Nat) {s : S} {i j : Nat}, Inv G s → s.own = .pop r c i →
    j < (s.fb c).length → j = i + d →
    s.q c ((s.fb c).getD ((s.lastq c + j) % (s.fb c).length) 0) ≠ [] →
    ∃ n s' b t, exec (gstep G) s (List.replicate n .popk) = some s' ∧ s'.own = .got r c b ∧
      b ∈ s.q c t ∧ s'.regs = s.regs ∧ s'.live = s.live
  | 0, s, i, j, I, ho, hj, hd, hq => by
    obtain rfl : j = i := by omega
    generalize ht : (s.fb c).getD ((s.lastq c + j) % (s.fb c).length) 0 = t at hq
    cases hqq : s.q c t with
    | nil => exact absurd hqq hq
    | cons b rest =>
      have h1 : exec (gstep G) s (List.replicate 1 .popk) = some { s with
          own := .got r c b
          lastq := upd s.lastq c ((s.lastq c + j) % (s.fb c).length)
          q := upd s.q c (upd (s.q c) t rest)
          pl := upd s.pl b .own } := by
        simp only [List.replicate, exec, gstep, ok, if_true, step, ho, if_pos hj, ht, hqq]
      exact ⟨1, _, b, t, h1, rfl, by rw [hqq]; simp, rfl, rfl⟩
  | d + 1, s, i, j, I, ho, hj, hd, hq => by
    generalize ht : (s.fb c).getD ((s.lastq c + i) % (s.fb c).length) 0 = t
    cases hqq : s.q c t with
    | cons b rest =>
      have h1 : exec (gstep G) s (List.replicate 1 .popk) = some { s with
          own := .got r c b
          lastq := upd s.lastq c ((s.lastq c + i) % (s.fb c).length)
          q := upd s.q c (upd (s.q c) t rest)
          pl := upd s.pl b .own } := by
        have hi : i < (s.fb c).length := by omega
        simp only [List.replicate, exec, gstep, ok, if_true, step, ho, if_pos hi, ht, hqq]
      exact ⟨1, _, b, t, h1, rfl, by rw [hqq]; simp, rfl, rfl⟩
    | nil =>
      have h1 : gstep G s .popk = some { s with own := .pop r c (i + 1) } := by
        have hi : i < (s.fb c).length := by omega
        simp only [gstep, ok, if_true, step, ho, if_pos hi, ht, hqq]
      obtain ⟨n, s', b, t', g1, g2, g3, g4, g5⟩ := pop_run d (I.step h1) (i := i + 1) (j := j) rfl hj
        (by omega) hq
      refine ⟨n + 1, s', b, t', ?_, g2, g3, g4, g5⟩
      rw [List.replicate_succ, exec, h1]
      exact g1

theorem fin_run {r : Req} {c b : Nat} (ho : s.own = .got r c b) :
    ∃ s' e, gstep G s .fin = some s' ∧ s'.live = s.live ++ [e] ∧ e.n = r.n ∧ e.al = r.al ∧
      e.blk = b ∧ s'.regs = s.regs ∧ s'.own = .idle := by
  by_cases hal : r.al = 0
  · have h1 : gstep G s .fin = some { s with
        own := .idle
        live := s.live ++ [⟨b + 8, r.n, 0, b, some c⟩]
        pl := upd s.pl b .live } := by
      simp only [gstep, ok, if_true, step, ho, if_pos hal]
    exact ⟨_, _, h1, rfl, rfl, hal.symm, rfl, rfl, rfl⟩
  · have h1 : gstep G s .fin = some { s with
        own := .idle
        mem := fill s.mem (b + 8) (ld s.mem b) ((alignUp (b + 8) r.al - (b + 8)) / 8)
        live := s.live ++ [⟨alignUp (b + 8) r.al, r.n, r.al, b, some c⟩]
        pl := upd s.pl b .live } := by
      simp only [gstep, ok, if_true, step, ho, if_neg hal]
    exact ⟨_, _, h1, rfl, rfl, rfl, rfl, rfl, rfl⟩

/-- **C39**: a freed block is available again to the owner: when the segment is used up and some
queue of the class is not empty, a request is served with a block from a queue, without memory from
the system. -/
theorem C39_reuse_partial (hr : Reach (gstep G) (S.start m) s) (ho : s.own = .idle)
    (hcl : s.closed = false) {r : Req} {c : Nat} (hn : 0 < r.n) (hp : path G.nsl r.real = .slab c)
    (hal : r.al < W ∧ (r.al ≠ 0 → isPowerOfTwoMultiple r.al 8 = true)) (hav : s.avail c = 0)
    {t : Nat} (hq : s.q c t ≠ []) :
    ∃ n s' e, exec (gstep G) s (.start r :: List.replicate n .popk ++ [.fin]) = some s' ∧
      s'.live = s.live ++ [e] ∧ e.n = r.n ∧ e.al = r.al ∧ (∃ t, e.blk ∈ s.q c t) ∧
      s'.regs = s.regs := by
  have I := Inv.reach hr
  have h1 : gstep G s (.start r) = some { s with own := .pop r c 0 } := by
    have : ok G s (.start r) = true := by simp [ok, hn, hp]
    rw [gstep, if_pos this, step, if_pos ⟨ho, hcl, hal.2, hal.1⟩, hp]
    dsimp only
    rw [if_neg (by simp [hav])]
  have htm := I.fbq c t hq
  obtain ⟨j, hj, hjt⟩ := List.getElem_of_mem htm
  obtain ⟨L, hL⟩ : ∃ L, (s.fb c).length = L := ⟨_, rfl⟩
  have hjL : j < L := hL ▸ hj
  have hlen : (j + (L - s.lastq c % L)) % L < L := Nat.mod_lt _ (by omega)
  have hidx : (s.lastq c + (j + (L - s.lastq c % L)) % L) % L = j := by
    have h1 := Nat.mod_lt (s.lastq c) (show 0 < L by omega)
    have h2 := Nat.div_add_mod (s.lastq c) L
    have h3 : s.lastq c + (j + (L - s.lastq c % L)) = j + L * (s.lastq c / L + 1) := by
      rw [Nat.mul_add, Nat.mul_one]; omega
    rw [Nat.add_mod_mod, h3, Nat.add_mul_mod_self_left, Nat.mod_eq_of_lt hjL]
  obtain ⟨n, s2, b, t', g1, g2, g3, g4, g5⟩ := pop_run ((j + (L - s.lastq c % L)) % L) (I.step h1)
    (i := 0) (j := (j + (L - s.lastq c % L)) % L) rfl (by dsimp only; rw [hL]; exact hlen) (by omega) (by
      dsimp only
      rw [hL, hidx, List.getD_eq_getElem _ _ (by omega), hjt]
      exact hq)
  obtain ⟨s3, e, k1, k2, k3, k4, k5, k6, _⟩ := fin_run (G := G) g2
  refine ⟨n, s3, e, ?_, ?_, k3, k4, ⟨t', by rw [k5]; exact g3⟩, ?_⟩
  · rw [List.cons_append, exec, h1]
    dsimp only
    rw [exec_append, g1]
    simp only [Option.bind_some, exec, k1]
  · rw [k2, g5]
  · rw [k6, g4]

/-- **C39**: as long as the segment has fresh buffers, a request is served in three steps of the
owner. -/
theorem C39_fresh_partial (ho : s.own = .idle)
    (hcl : s.closed = false) {r : Req} {c : Nat} (hn : 0 < r.n) (hp : path G.nsl r.real = .slab c)
    (hal : r.al < W ∧ (r.al ≠ 0 → isPowerOfTwoMultiple r.al 8 = true)) (hav : s.avail c ≠ 0) :
    ∃ s' e, exec (gstep G) s [.start r, .carve, .fin] = some s' ∧ s'.live = s.live ++ [e] ∧
      e.n = r.n ∧ e.al = r.al ∧ s'.regs = s.regs ∧ s'.avail c + 1 = s.avail c := by
  have h1 : gstep G s (.start r) = some { s with own := .carve r c } := by
    have : ok G s (.start r) = true := by simp [ok, hn, hp]
    rw [gstep, if_pos this, step, if_pos ⟨ho, hcl, hal.2, hal.1⟩, hp]
    dsimp only
    rw [if_pos hav]
  have h2 : ∃ s2, gstep G { s with own := .carve r c } .carve = some s2 ∧
      s2.own = .got r c (s.bufp c) ∧ s2.live = s.live ∧ s2.regs = s.regs ∧
      s2.avail c = s.avail c - 1 := by
    have h : gstep G { s with own := .carve r c } .carve = some { s with
        own := .got r c (s.bufp c)
        avail := upd s.avail c (s.avail c - 1)
        bufp := upd s.bufp c (if s.avail c - 1 ≠ 0 then s.bufp c + 8 + bsz c else 0)
        mem := if s.avail c - 1 ≠ 0 then
            st (st s.mem (ld s.mem (s.bufp c) + 16) (ld s.mem (ld s.mem (s.bufp c) + 16) - 1))
              (s.bufp c + 8 + bsz c) (ld s.mem (s.bufp c))
          else st s.mem (ld s.mem (s.bufp c) + 16) (ld s.mem (ld s.mem (s.bufp c) + 16) - 1)
        pl := upd s.pl (s.bufp c) .own } := by
      simp only [gstep, ok, if_true, step]
    exact ⟨_, h, rfl, rfl, rfl, by simp [upd]⟩
  obtain ⟨s2, h2, h3, h4, h5, h6⟩ := h2
  obtain ⟨s3, e, k1, k2, k3, k4, k5, k6, _⟩ := fin_run (G := G) h3
  have k7 : s3.avail = s2.avail := by
    have := gstep_step k1
    simp only [step, h3] at this
    split at this
    · simp only [Option.some.injEq] at this; rw [← this]
    · simp only [Option.some.injEq] at this; rw [← this]
  refine ⟨s3, e, ?_, by rw [k2, h4], k3, k4, by rw [k6, h5], ?_⟩
  · simp only [exec, h1, h2, k1]
  · rw [k7, h6]; omega

/-- **C38**: the address is a multiple of the alignment, and the requested bytes lie inside the block
obtained, after its header. -/
theorem C38_aligned_partial (hr : Reach (gstep G) (S.start m) s) {e : Ent} (he : e ∈ s.live)
    {c : Nat} (hc : e.cls = some c) :
    (e.al ≠ 0 → e.p % e.al = 0) ∧ e.blk + 8 ≤ e.p ∧ e.p + e.n ≤ e.blk + 8 + bsz c ∧
    ∃ r ∈ s.regs, r.a + 24 ≤ e.blk ∧ e.blk + 8 + bsz c ≤ r.a + r.len := by
  have I := Inv.reach hr
  obtain ⟨r, k, E⟩ := I.ent he hc
  have := E.blk.in_reg I.regs
  exact ⟨E.al, E.lo, E.hi, r, E.blk.1, this.1, this.2⟩

/-- Also for a request that goes to the system the address is a multiple of the alignment and the
bytes lie in the memory obtained. -/
theorem C38_system_aligned {r : Req} {a : Nat} {s' : S} (ho : s.own = .sys r) (hal : r.al ≠ 0)
    (hr : isPowerOfTwoMultiple r.al 8 = true) (hw : r.al < W) (hs : step G s (.sysm a) = some s') :
    ∃ e, s'.live = s.live ++ [e] ∧ e.n = r.n ∧ e.p % r.al = 0 ∧ a + 8 ≤ e.p ∧
      e.p + e.n ≤ a + (r.real + 8) ∧ ⟨a, r.real + 8, none⟩ ∈ s'.regs := by
  simp only [step, ho] at hs
  split at hs
  · rename_i hn
    simp only [Option.some.injEq] at hs
    subst hs
    have hreal : r.real = r.n + r.al := rfl
    simp only [S.newRegion, Bool.and_eq_true, decide_eq_true_eq] at hn
    obtain ⟨a1, a2, a3, a4, a5⟩ := alignUp_spec (x := a + 8) hr hw (show a + 8 + r.al < W by omega)
    exact ⟨_, rfl, rfl, a1, by dsimp only; omega, by dsimp only; omega, by simp⟩
  · cases hs

theorem system_free (R : Regs G s.regs) {r : Req} {a t : Nat} {s1 s2 : S}
    (ho : s.own = .sys r) (hal : r.al ≠ 0) (hr : isPowerOfTwoMultiple r.al 8 = true)
    (hw : r.al < W) (hs : step G s (.sysm a) = some s1) {e : Ent} (he : s1.live = s.live ++ [e])
    (h2 : step G s1 (.free t e) = some s2) : s2.bad = true := by
  simp only [step, ho] at hs
  split at hs
  · rename_i hn
    simp only [Option.some.injEq] at hs
    have hreal : r.real = r.n + r.al := rfl
    have hn' := hn
    simp only [S.newRegion, Bool.and_eq_true, decide_eq_true_eq] at hn'
    obtain ⟨a1, a2, a3, a4, a5⟩ := alignUp_spec (x := a + 8) hr hw (show a + 8 + r.al < W by omega)
    have hep : e.p = alignUp (a + 8) r.al := by
      rw [← hs] at he
      simp only [List.append_cancel_left_eq, List.cons.injEq, and_true] at he
      rw [← he]
    have hm : s1.mem = st (st s.mem a 0) (alignUp (a + 8) r.al - 8) 0 := by rw [← hs]
    have hrg : s1.regs = ⟨a, r.real + 8, none⟩ :: s.regs := by rw [← hs]
    generalize alignUp (a + 8) r.al = p at *
    simp only [step] at h2
    split at h2
    · have h0 : ld s1.mem (e.p - 8) = 0 := by
        rw [hm, hep]
        exact ld_st_same (by omega)
      rw [if_pos h0] at h2
      simp only [Option.some.injEq] at h2
      subst h2
      have hf : (s1.regs.find? fun r => decide (r.a = e.p - 8)) = none := by
        rw [List.find?_eq_none, hrg]
        intro x hx
        rcases List.mem_cons.1 hx with rfl | hx
        · simp; omega
        · have := newRegion_apart hn hx
          have := R.pos x hx
          simp; omega
      unfold S.sysFree
      rw [hf]
    · cases h2
  · cases hs

/-- **C38 is false on the system path**: in every reachable state, a pointer obtained from
`posix_memalign` for a request that goes to the system cannot be freed: `free` hands to the system an
address that the system did not give. -/
theorem C38_system_counterexample (hr : Reach (gstep G) (S.start m) s) {r : Req} {a t : Nat} {e : Ent}
    {s' : S} (hal : r.al ≠ 0) (hp : path G.nsl r.real = .system) (he : e ∉ s.live)
    (hs : exec (step G) s [.start r, .sysm a, .free t e] = some s') : s'.bad = true := by
  have I := Inv.reach hr
  simp only [exec] at hs
  cases h1 : step G s (.start r) with
  | none => rw [h1] at hs; cases hs
  | some s1 =>
    rw [h1] at hs
    dsimp only at hs
    have h1' := h1
    simp only [step] at h1'
    split at h1'
    · rename_i hg
      rw [hp] at h1'
      simp only [Option.some.injEq] at h1'
      cases h2 : step G s1 (.sysm a) with
      | none => rw [h2] at hs; cases hs
      | some s2 =>
        rw [h2] at hs
        dsimp only at hs
        cases h3 : step G s2 (.free t e) with
        | none => rw [h3] at hs; cases hs
        | some s3 =>
          rw [h3] at hs
          simp only [Option.some.injEq] at hs
          subst hs
          have ho : s1.own = .sys r := by rw [← h1']
          have hrg : s1.regs = s.regs := by rw [← h1']
          have hlv : s1.live = s.live := by rw [← h1']
          obtain ⟨e0, k1, _⟩ := C38_system_aligned ho hal (hg.2.2.1 hal) hg.2.2.2 h2
          have hmem : e ∈ s2.live := by
            simp only [step] at h3
            split at h3
            · rename_i h; exact h.1
            · cases h3
          rw [k1, hlv, List.mem_append, List.mem_singleton] at hmem
          obtain rfl := hmem.resolve_left he
          exact system_free (hrg ▸ I.regs) ho hal (hg.2.2.1 hal) hg.2.2.2 h2 k1 h3
    · cases h1'

/-! ## Concrete runs -/

/-- Two buffers of each class in a segment. -/
def G2 : Cfg := ⟨fun _ => 2⟩

/-- Memory full of zeros. -/
def m0 : Mem := fun _ => 0

/-- Thread 7 frees an aligned allocation while the owner allocates again. -/
def demo : List Act :=
  [.start ⟨0, 40⟩, .popk, .slab 4064, .carve, .fin, .start ⟨16, 20⟩, .carve, .fin,
   .write ⟨4104 - 8, 40, 0, 4088, some 1⟩ 3 77,
   .free 7 ⟨4176, 20, 16, 4160, some 1⟩, .start ⟨0, 100000⟩, .walk 7, .sysm 99992, .walk 7, .put 7, .push 7,
   .start ⟨8, 30⟩, .popk]

/-- The conditions of the theorems are met by a run with three allocations, one of them freed and its
block taken again. -/
example : (exec (gstep G2) (S.start m0) demo).map (fun s => (s.live, s.own, s.q 1 7, s.regs.length)) =
    some ([⟨4096, 40, 0, 4088, some 1⟩, ⟨100000, 100000, 0, 99992, none⟩], .got ⟨8, 30⟩ 1 4160, [], 2) := by
  decide +kernel

/-- The same before the block is taken: it waits in the queue of thread 7, so the conditions of
`C39_reuse_partial` hold. -/
example : (exec (gstep G2) (S.start m0) (demo.take 16)).map
    (fun s => (s.own, s.closed, s.avail 1, s.q 1 7, s.fb 1)) =
    some (.idle, false, 0, [4160], [7]) := by
  decide +kernel

/-- Taking the allocator down: the blocks are freed and the segment goes back to the system. -/
example : (exec (gstep G2) (S.start m0)
    (demo.take 9 ++ [.free 3 ⟨4096, 40, 0, 4088, some 1⟩, .walk 3, .put 3, .push 3, .dereg 1, .drain 1 3, .drecl,
     .free 7 ⟨4176, 20, 16, 4160, some 1⟩, .walk 7, .walk 7, .put 7, .recl 7])).map
    (fun s => (s.live, s.regs.length, s.bad)) = some ([], 0, false) := by
  decide +kernel

/-- **Counterexample**: `posix_memalign` for 0 bytes.  The loop fills the whole block up to the header
of the next one; `free` of the next block then goes back too far and releases the first block, which
is in use.  In the end two allocations of 64 bytes have the same address. -/
theorem C38_zero_counterexample :
    (exec (step G2) (S.start m0)
      ([.start ⟨64, 0⟩, .popk, .slab 4064, .carve, .fin, .start ⟨0, 64⟩, .carve, .fin,
        .free 7 ⟨4168, 64, 0, 4160, some 1⟩] ++ List.replicate 10 (.walk 7) ++ [.put 7, .push 7,
        .start ⟨0, 64⟩, .popk, .fin,
        .free 7 ⟨4160, 0, 64, 4088, some 1⟩] ++ List.replicate 9 (.walk 7) ++ [.put 7, .push 7,
        .start ⟨0, 64⟩, .popk, .fin])).map (fun s => s.live) =
    some [⟨4096, 64, 0, 4088, some 1⟩, ⟨4096, 64, 0, 4088, some 1⟩] := by
  decide +kernel

/-- **Counterexample**: the user stores, in the last word of a block of 32 bytes, a number that is the
address of the segment (here 256).  `free` of the next block goes back into the user's bytes and
releases an address that is not a block: 312 instead of 320. -/
theorem C39_userdata_counterexample :
    (exec (step G2) (S.start m0)
      [.start ⟨0, 32⟩, .popk, .slab 256, .carve, .fin, .start ⟨0, 32⟩, .carve, .fin,
       .write ⟨288, 32, 0, 280, some 0⟩ 25 1, .free 7 ⟨328, 32, 0, 320, some 0⟩,
       .walk 7, .walk 7, .put 7, .push 7]).map (fun s => (s.q 0 7, s.live)) =
    some ([312], [⟨288, 32, 0, 280, some 0⟩]) := by
  decide +kernel

/-- A request of `posix_memalign` that goes to the system, then `free`: the hypotheses of
`C38_system_counterexample` are met. -/
example : (exec (step G2) (S.start m0)
    [.start ⟨64, 9000⟩, .sysm 4096, .free 7 ⟨4160, 9000, 64, 4096, none⟩]).map (fun s => s.bad) =
    some true := by
  decide +kernel

end FF.Alloc.Slab
