import Verif.Alloc.Slab
import Mathlib.Data.List.Nodup
import Mathlib.Data.List.Pairwise
import Mathlib.Data.List.Perm.Basic
import Mathlib.Tactic.Tauto
/-!
# Invariant of the slab allocator
-/
namespace FF.Alloc.Slab
open FF.Mem FF.Node

/-! ## What is asked of the user and of the memory

`free` finds the start of a block by comparing words: it goes back as long as the word in front is
equal.  So the theorems need that the last word of a buffer never equals the address of the segment
it lies in.  This is asked of the user (`write`) and of the content of new memory (`slab`).
`posix_memalign` must not be called for 0 bytes, nor for a size that goes to the system: both break
`free` (see the counterexamples). -/

def ok (G : Cfg) (s : S) : Act → Bool
  | .start r => decide (0 < r.n) && (decide (r.al = 0) || decide (path G.nsl r.real ≠ .system))
  | .write e off v =>
    match e.cls with
    | some c => decide (ld (stb s.mem (e.p + off) v) (e.blk + bsz c) ≠ ld s.mem e.blk)
    | Option.none => true
  | .slab a =>
    match s.own with
    | .slab _ c => decide (G.nsl c < a) &&
        (List.range (G.nsl c)).all fun k => decide (ld s.mem (hb c a k + bsz c) ≠ a)
    | _ => true
  | .prealloc c a => decide (G.nsl c < a) &&
        (List.range (G.nsl c)).all fun k => decide (ld s.mem (hb c a k + bsz c) ≠ a)
  | _ => true

/-- A step that meets the conditions. -/
def gstep (G : Cfg) (s : S) (a : Act) : Option S := if ok G s a then step G s a else none

/-! ## Geometry -/

/-- `b` is the header of buffer `k` of the segment `r` of class `c`. -/
def IsBlk (G : Cfg) (rs : List Reg) (r : Reg) (c k b : Nat) : Prop :=
  r ∈ rs ∧ r.cls = some c ∧ k < G.nsl c ∧ b = hb c r.a k

structure Regs (G : Cfg) (rs : List Reg) : Prop where
  disj : rs.Pairwise fun r r' => r.a + r.len ≤ r'.a ∨ r'.a + r'.len ≤ r.a
  pos : ∀ r ∈ rs, 0 < r.a ∧ 8 ≤ r.len ∧ r.a % 8 = 0 ∧ r.a + r.len < W
  seg : ∀ r ∈ rs, ∀ c, r.cls = some c → c < 9 ∧ 0 < G.nsl c ∧ r.len = G.slen c

theorem Regs.apart {G : Cfg} {rs : List Reg} (R : Regs G rs) {r r' : Reg} (h : r ∈ rs)
    (h' : r' ∈ rs) : r = r' ∨ r.a + r.len ≤ r'.a ∨ r'.a + r'.len ≤ r.a := by
  by_cases e : r = r'
  · exact .inl e
  · haveI : Std.Symm fun r r' : Reg => r.a + r.len ≤ r'.a ∨ r'.a + r'.len ≤ r.a :=
      ⟨fun _ _ h => h.symm⟩
    exact .inr (R.disj.forall h h' e)

theorem hb_far {c a i j : Nat} (h : i < j) : hb c a i + 8 + bsz c ≤ hb c a j := by
  unfold hb
  have : (i + 1) * (bsz c + 8) ≤ j * (bsz c + 8) := Nat.mul_le_mul_right _ h
  rw [Nat.add_mul, Nat.one_mul] at this
  omega

theorem hb_in {G : Cfg} {c a k : Nat} (h : k < G.nsl c) :
    a + 24 ≤ hb c a k ∧ hb c a k + 8 + bsz c ≤ a + G.slen c := by
  unfold hb Cfg.slen
  have : (k + 1) * (bsz c + 8) ≤ G.nsl c * (bsz c + 8) := Nat.mul_le_mul_right _ h
  rw [Nat.add_mul, Nat.one_mul, Nat.mul_add (G.nsl c), Nat.mul_comm (G.nsl c) (bsz c)] at this
  omega

theorem hb_inj {c a i j : Nat} (h : hb c a i = hb c a j) : i = j := by
  rcases Nat.lt_trichotomy i j with h' | h' | h'
  · have := @hb_far c a i j h'; omega
  · exact h'
  · have := @hb_far c a j i h'; omega

theorem hb_mod {c a k : Nat} (h : a % 8 = 0) : hb c a k % 8 = 0 := by
  unfold hb
  have h1 := bsz_mod c
  obtain ⟨m, hm⟩ : ∃ m, bsz c + 8 = 8 * m := ⟨(bsz c + 8) / 8, by omega⟩
  rw [hm, Nat.mul_left_comm]
  omega

/-- A buffer lies in its segment, after the record of the segment. -/
theorem IsBlk.in_reg {G : Cfg} {rs : List Reg} (R : Regs G rs) {r : Reg} {c k b : Nat}
    (h : IsBlk G rs r c k b) : r.a + 24 ≤ b ∧ b + 8 + bsz c ≤ r.a + r.len := by
  obtain ⟨h1, h2, h3, rfl⟩ := h
  have := hb_in (a := r.a) h3
  rw [(R.seg r h1 c h2).2.2]
  exact this

/-- Two buffers are the same or do not overlap. -/
theorem IsBlk.cases {G : Cfg} {rs : List Reg} (R : Regs G rs) {r r' : Reg} {c c' k k' b b' : Nat}
    (h : IsBlk G rs r c k b) (h' : IsBlk G rs r' c' k' b') :
    (r = r' ∧ c = c' ∧ k = k' ∧ b = b') ∨ b + 8 + bsz c ≤ b' ∨ b' + 8 + bsz c' ≤ b := by
  have i1 := h.in_reg R
  have i2 := h'.in_reg R
  obtain ⟨h1, h2, h3, rfl⟩ := h
  obtain ⟨g1, g2, g3, rfl⟩ := h'
  rcases R.apart h1 g1 with e | e | e
  · subst e
    rw [h2] at g2
    obtain rfl : c = c' := Option.some.inj g2
    rcases Nat.lt_trichotomy k k' with e | e | e
    · exact .inr (.inl (hb_far e))
    · subst e; exact .inl ⟨rfl, rfl, rfl, rfl⟩
    · exact .inr (.inr (hb_far e))
  · omega
  · omega

theorem IsBlk.inj {G : Cfg} {rs : List Reg} (R : Regs G rs) {r r' : Reg} {c c' k k' b : Nat}
    (h : IsBlk G rs r c k b) (h' : IsBlk G rs r' c' k' b) : r = r' ∧ c = c' ∧ k = k' := by
  rcases h.cases R h' with e | e | e
  · exact ⟨e.1, e.2.1, e.2.2.1⟩
  · omega
  · omega

theorem mem_blocks {G : Cfg} {c a b : Nat} : b ∈ G.blocks c a ↔ ∃ k, k < G.nsl c ∧ b = hb c a k := by
  simp only [Cfg.blocks, List.mem_map, List.mem_range]
  constructor
  · rintro ⟨k, h, rfl⟩; exact ⟨k, h, rfl⟩
  · rintro ⟨k, h, rfl⟩; exact ⟨k, h, rfl⟩

theorem nodup_blocks (G : Cfg) (c a : Nat) : (G.blocks c a).Nodup :=
  List.Nodup.map (fun _ _ h => hb_inj h) List.nodup_range

/-! ## Places -/

/-- Places where some thread, queue or user holds a block. -/
def Held : Pl → Prop
  | .none | .fresh | .gone => False
  | _ => True

def FPc.blk : FPc → List Nat
  | .idle => []
  | .walk e _ | .put e _ | .push e _ _ | .recl e _ _ => [e.blk]

def OPc.blk : OPc → List Nat
  | .got _ _ b => [b]
  | _ => []

/-- The blocks that are at a place. -/
def S.nums (s : S) : Pl → List Nat
  | .own => s.own.blk
  | .live => (s.live.filter fun e => e.cls.isSome).map Ent.blk
  | .fr t => (s.fr t).blk
  | .q c t => s.q c t
  | .hand => (s.dr.map Prod.snd).toList
  | _ => []

def AtPl (s : S) : Prop := ∀ l, Held l → (s.nums l).Nodup ∧ ∀ b, b ∈ s.nums l ↔ s.pl b = l

/-- One block moves. -/
theorem AtPl.move {s s' : S} (H : AtPl s) {b : Nat} {X Y : Pl} (hX : s.pl b = X) (hne : X ≠ Y)
    (hpl : s'.pl = upd s.pl b Y)
    (h1 : Held X → (s.nums X).Perm (b :: s'.nums X))
    (h2 : Held Y → (s'.nums Y).Perm (b :: s.nums Y))
    (h3 : ∀ l, Held l → l ≠ X → l ≠ Y → s'.nums l = s.nums l) : AtPl s' := by
  intro l hl
  by_cases eX : l = X
  · subst eX
    have hp := h1 hl
    have hn := hp.nodup_iff.1 (H l hl).1
    rw [List.nodup_cons] at hn
    refine ⟨hn.2, fun y => ?_⟩
    have hy := (H l hl).2 y
    rw [hp.mem_iff, List.mem_cons] at hy
    rw [hpl]
    by_cases e : y = b
    · subst e
      simp only [upd, if_true]
      exact ⟨fun h => absurd h hn.1, fun h => absurd h.symm hne⟩
    · simp only [upd, if_neg e]
      rw [← hy]
      tauto
  · by_cases eY : l = Y
    · subst eY
      have hp := h2 hl
      have hb : b ∉ s.nums l := fun h => hne (hX ▸ ((H l hl).2 b).1 h)
      refine ⟨hp.nodup_iff.2 (List.nodup_cons.2 ⟨hb, (H l hl).1⟩), fun y => ?_⟩
      rw [hp.mem_iff, List.mem_cons, hpl]
      by_cases e : y = b
      · subst e; simp [upd]
      · simp only [upd, if_neg e]
        rw [(H l hl).2 y]
        tauto
    · rw [h3 l hl eX eY]
      refine ⟨(H l hl).1, fun y => ?_⟩
      rw [(H l hl).2 y, hpl]
      by_cases e : y = b
      · subst e
        simp only [upd, if_true, hX]
        exact ⟨fun h => absurd h.symm eX, fun h => absurd h.symm eY⟩
      · simp only [upd, if_neg e]

/-- Number of buffers of a segment that are fresh or reclaimed. -/
def cnt (pl : Nat → Pl) (l : List Nat) : Nat :=
  l.countP fun b => decide (pl b = .fresh ∨ pl b = .gone)

theorem cnt_congr {pl pl' : Nat → Pl} {l : List Nat}
    (h : ∀ b ∈ l, (pl b = .fresh ∨ pl b = .gone) ↔ (pl' b = .fresh ∨ pl' b = .gone)) :
    cnt pl l = cnt pl' l := by
  unfold cnt
  exact List.countP_congr fun b hb => by simpa using h b hb

theorem cnt_up {pl : Nat → Pl} {l : List Nat} {b : Nat} {Y : Pl} (hn : l.Nodup) (hb : b ∈ l)
    (h0 : ¬ (pl b = .fresh ∨ pl b = .gone)) (h1 : Y = .fresh ∨ Y = .gone) :
    cnt (upd pl b Y) l = cnt pl l + 1 := by
  induction l with
  | nil => simp at hb
  | cons x l ih =>
    rw [List.nodup_cons] at hn
    unfold cnt at ih ⊢
    rw [List.countP_cons, List.countP_cons]
    by_cases e : b = x
    · subst e
      have : cnt (upd pl b Y) l = cnt pl l := cnt_congr fun y hy => by
        have : y ≠ b := fun e => hn.1 (e ▸ hy)
        simp [upd, this]
      unfold cnt at this
      rw [this]
      simp [upd, h0, h1]
    · rw [ih hn.2 (by simpa [e] using hb)]
      simp only [upd, if_neg (Ne.symm e)]
      omega

theorem cnt_down {pl : Nat → Pl} {l : List Nat} {b : Nat} {Y : Pl} (hn : l.Nodup) (hb : b ∈ l)
    (h0 : pl b = .fresh ∨ pl b = .gone) (h1 : ¬ (Y = .fresh ∨ Y = .gone)) :
    cnt pl l = cnt (upd pl b Y) l + 1 := by
  have h := cnt_up (pl := upd pl b Y) (Y := pl b) hn hb (by simpa [upd] using h1) h0
  have e : upd (upd pl b Y) b (pl b) = pl := by
    funext y
    unfold upd
    by_cases e : y = b
    · subst e; simp
    · simp [e]
  rw [e] at h
  exact h

theorem cnt_le (pl : Nat → Pl) (l : List Nat) : cnt pl l ≤ l.length := List.countP_le_length

theorem cnt_all {pl : Nat → Pl} {l : List Nat} (h : cnt pl l = l.length) :
    ∀ b ∈ l, pl b = .fresh ∨ pl b = .gone := by
  unfold cnt at h
  rw [List.countP_eq_length] at h
  intro b hb
  simpa using h b hb

theorem blocks_length (G : Cfg) (c a : Nat) : (G.blocks c a).length = G.nsl c := by
  simp [Cfg.blocks]

/-! ## The invariant -/

/-- All words from `a` to `b` contain `v`. -/
def Filled (m : Mem) (a b v : Nat) : Prop := ∀ x, a ≤ x → x ≤ b → (x - a) % 8 = 0 → ld m x = v

/-- An allocation from a slab: the pointer lies in the block, is aligned as asked, the bytes of the
user end inside the block, and the words in front of it contain the address of the segment. -/
structure EntOk (G : Cfg) (rs : List Reg) (m : Mem) (e : Ent) (r : Reg) (c k : Nat) : Prop where
  blk : IsBlk G rs r c k e.blk
  lo : e.blk + 8 ≤ e.p
  mod : (e.p - e.blk) % 8 = 0
  pos : 0 < e.n
  hi : e.p + e.n ≤ e.blk + 8 + bsz c
  al : e.al ≠ 0 → e.p % e.al = 0
  fill : Filled m e.blk (e.p - 8) r.a

/-- An allocation that the system served. -/
structure BigOk (rs : List Reg) (m : Mem) (e : Ent) : Prop where
  reg : ⟨e.blk, e.n + 8, none⟩ ∈ rs
  ptr : e.p = e.blk + 8
  al : e.al = 0
  pos : 0 < e.n
  hdr : ld m e.blk = 0

def Ent.Ok (G : Cfg) (s : S) (e : Ent) : Prop :=
  match e.cls with
  | some c => ∃ r k, EntOk G s.regs s.mem e r c k
  | none => BigOk s.regs s.mem e

/-- A request that is being served. -/
def reqOk (G : Cfg) (r : Req) (p : Path) : Prop :=
  0 < r.n ∧ path G.nsl r.real = p ∧ r.al < W ∧ (r.al ≠ 0 → isPowerOfTwoMultiple r.al 8 = true)

def OPc.Ok (G : Cfg) (s : S) : Prop :=
  match s.own with
  | .idle => True
  | .sys r => reqOk G r .system ∧ r.al = 0 ∧ s.closed = false
  | .pop r c _ => reqOk G r (.slab c) ∧ s.closed = false ∧ s.avail c = 0
  | .slab r c => reqOk G r (.slab c) ∧ s.closed = false ∧ s.avail c = 0
  | .carve r c => reqOk G r (.slab c) ∧ s.closed = false ∧ s.avail c ≠ 0
  | .got r c b => reqOk G r (.slab c) ∧ s.closed = false ∧ ∃ g k, IsBlk G s.regs g c k b

def FPc.Ok (G : Cfg) (s : S) (f : FPc) : Prop :=
  match f with
  | .idle => True
  | .walk e b => ∃ r c k, e.cls = some c ∧ IsBlk G s.regs r c k e.blk ∧ e.blk ≤ b ∧
      (b - e.blk) % 8 = 0 ∧ b < e.blk + 8 + bsz c ∧ Filled s.mem e.blk b r.a
  | .put e b => b = e.blk ∧ ∃ r c k, e.cls = some c ∧ IsBlk G s.regs r c k b
  | .push e c b => b = e.blk ∧ e.cls = some c ∧ ∃ r k, IsBlk G s.regs r c k b
  | .recl e c b => b = e.blk ∧ e.cls = some c ∧ s.closed = true ∧ ∃ r k, IsBlk G s.regs r c k b

structure Inv (G : Cfg) (s : S) : Prop where
  regs : Regs G s.regs
  isb : ∀ b, s.pl b ≠ .none → ∃ r c k, IsBlk G s.regs r c k b
  pln : ∀ r c k b, IsBlk G s.regs r c k b → s.pl b ≠ .none
  atp : AtPl s
  clq : ∀ c t b, b ∈ s.q c t → ∃ r k, IsBlk G s.regs r c k b
  fbq : ∀ c t, s.q c t ≠ [] → t ∈ s.fb c
  ownk : OPc.Ok G s
  frk : ∀ t, (s.fr t).Ok G s
  drk : ∀ c b, s.dr = some (c, b) → s.closed = true ∧ ∃ r k, IsBlk G s.regs r c k b
  cl : ∀ c, s.nomore c = true → s.closed = true
  liv : ∀ e ∈ s.live, e.Ok G s
  lnd : (s.live.map Ent.blk).Nodup
  cur0 : s.closed = false → ∀ c, s.avail c = 0 → ∀ r k b, IsBlk G s.regs r c k b → s.pl b ≠ .fresh
  cur1 : s.closed = false → ∀ c, s.avail c ≠ 0 → ∃ r, r ∈ s.regs ∧ r.cls = some c ∧
    s.avail c ≤ G.nsl c ∧ s.bufp c = hb c r.a (G.nsl c - s.avail c) ∧ ld s.mem (s.bufp c) = r.a ∧
    ∀ r' k b, IsBlk G s.regs r' c k b → (s.pl b = .fresh ↔ r' = r ∧ G.nsl c - s.avail c ≤ k)
  segw : ∀ r c, r ∈ s.regs → r.cls = some c → ld s.mem r.a = c ∧ G.nsl c < r.a
  hdr : ∀ r c k b, IsBlk G s.regs r c k b → s.pl b ≠ .fresh → ld s.mem b = r.a
  clean : ∀ r c k b, IsBlk G s.regs r c k b → ld s.mem (b + bsz c) ≠ r.a
  count : ∀ r c, r ∈ s.regs → r.cls = some c → ld s.mem (r.a + 16) = cnt s.pl (G.blocks c r.a)
  good : s.bad = false

theorem Inv.start (G : Cfg) (m : Mem) : Inv G (S.start m) where
  regs := ⟨by simp [S.start], by simp [S.start], by simp [S.start]⟩
  isb := by simp [S.start]
  pln := by intro r c k b h; simp [IsBlk, S.start] at h
  atp := by
    intro l hl
    cases l <;> simp [S.nums, S.start, FPc.blk, OPc.blk, Held] at *
  clq := by simp [S.start]
  fbq := by simp [S.start]
  ownk := by simp [S.start, OPc.Ok]
  frk := by simp [S.start, FPc.Ok]
  drk := by simp [S.start]
  cl := by simp [S.start]
  liv := by simp [S.start]
  lnd := by simp [S.start]
  cur0 := by intro _ _ _ r k b h; simp [IsBlk, S.start] at h
  cur1 := by simp [S.start]
  segw := by simp [S.start]
  hdr := by intro r c k b h; simp [IsBlk, S.start] at h
  clean := by intro r c k b h; simp [IsBlk, S.start] at h
  count := by simp [S.start]
  good := rfl

end FF.Alloc.Slab
