import Verif.Common.Trans
import Verif.Common.Mem
import Verif.Node.Model
import Mathlib.Data.List.Nodup
import Mathlib.Data.List.Perm.Subperm
import Mathlib.Tactic.Tauto
import Mathlib.Tactic.ByContra
/-!
# `StaticAllocator` (`ff/staticallocator.hpp`)

One arena of slots, divided into `nchannels` parts.  One thread allocates from each channel; any
thread deallocates.  The memory is modelled byte by byte, so that the marks the allocator keeps in
front of every slot and the bytes the user writes share one address space.
-/
namespace FF.Alloc.Static
open FF.Mem

/-- Tag of a free slot (`FF_GO_ON`, ff/node.hpp:76). -/
def goOn : Nat := 18446744073709551612
/-- Tag of an occupied slot (`FF_EOS`, ff/node.hpp:73). -/
def eos : Nat := 18446744073709551615

/-- Arguments of the constructor (ff/staticallocator.hpp:49), and the address of the arena that
`mmap` returned (ff/staticallocator.hpp:68). -/
structure Cfg where
  seg : Nat
  slots : Nat
  size : Nat
  nch : Nat

/-- Size of a slot with its mark (ff/staticallocator.hpp:54). -/
def Cfg.ssize (G : Cfg) : Nat := G.size + 8
/-- Number of slots, rounded up to a multiple of the number of channels
(ff/staticallocator.hpp:57). -/
def Cfg.nslot (G : Cfg) : Nat := (G.slots + G.nch - 1) / G.nch * G.nch
/-- Slots of each channel (ff/staticallocator.hpp:58). -/
def Cfg.per (G : Cfg) : Nat := G.nslot / G.nch

/-- Address of the mark of slot `i` (ff/staticallocator.hpp:73-77 and 87). -/
def Cfg.hdr (G : Cfg) (i : Nat) : Nat := G.seg + i * G.ssize

structure S where
  mem : Mem
  /-- `cnts`, ff/staticallocator.hpp:116 -/
  cnts : Nat → Nat
  /-- the allocating thread of the channel has seen this slot free and has not marked it yet -/
  pc : Nat → Option Nat
  /-- ghost: pointers returned by `alloc` and not yet given to `dealloc`, with their channel -/
  live : List (Nat × Nat)
  /-- ghost: pointers given to `dealloc`, the mark not yet reset (the destructor is running) -/
  dying : List (Nat × Nat)

inductive Act where
  | look (c : Nat)
  | take (c : Nat)
  | write (p : Nat × Nat) (off v : Nat)
  | dealloc (p : Nat × Nat)
  | release (p : Nat × Nat)

/-- One step of a thread.

`look`: one round of the loop of `alloc` up to the test (ff/staticallocator.hpp:85-89).
`take`: the slot is marked and the object built (ff/staticallocator.hpp:90-92).
`write`: the user of a live block stores a byte in it.
`dealloc`: call of `dealloc` (ff/staticallocator.hpp:98-99), the destructor may still store into
the block (`write` on a dying block).  `release`: the mark is reset (lines 100-101).

`cnts` is a `size_t`, hence modulo 2^64.  `realloc` (104-109) changes the type of the object in
place and is not a step of its own.  The assertions on `channel` (line 84) are the guard of `look`. -/
def step (G : Cfg) (s : S) : Act → Option S
  | .look c =>
    if c < G.nch ∧ s.pc c = none then
      let mp := G.hdr (c * G.per + s.cnts c % G.per)
      let s1 := { s with cnts := FF.Node.upd s.cnts c ((s.cnts c + 1) % 18446744073709551616) }
      if ld s.mem mp = goOn then some { s1 with pc := FF.Node.upd s.pc c (some mp) } else some s1
    else none
  | .take c =>
    match s.pc c with
    | none => none
    | some mp => some { s with
        mem := st s.mem mp eos, pc := FF.Node.upd s.pc c none, live := s.live ++ [(mp + 8, c)] }
  | .write p off v =>
    if (p ∈ s.live ∨ p ∈ s.dying) ∧ off < G.size then some { s with mem := stb s.mem (p.1 + off) v }
    else none
  | .dealloc p =>
    if p ∈ s.live then some { s with live := s.live.erase p, dying := s.dying ++ [p] } else none
  | .release p =>
    if p ∈ s.dying then some { s with mem := st s.mem (p.1 - 8) goOn, dying := s.dying.erase p }
    else none

/-- `init`: marks all slots as free (ff/staticallocator.hpp:72-78). -/
def marks (G : Cfg) (m : Mem) : Nat → Mem
  | 0 => m
  | n + 1 => st (marks G m n) (G.hdr n) goOn

/-- State after the constructor and `init`; `m` is what the memory contained before. -/
def S.start (G : Cfg) (m : Mem) : S := ⟨marks G m G.nslot, fun _ => 0, fun _ => none, [], []⟩

/-- The constructor's assertions (ff/staticallocator.hpp:52-53) and at least one slot (otherwise
line 86 divides by 0). -/
structure Cfg.Ok (G : Cfg) : Prop where
  ch : 0 < G.nch
  sz : 0 < G.size
  sl : 0 < G.slots

theorem nslot_eq {G : Cfg} (ok : G.Ok) : G.nslot = G.nch * G.per := by
  unfold Cfg.per Cfg.nslot
  rw [Nat.mul_div_cancel _ ok.ch, Nat.mul_comm]

theorem nslot_ge {G : Cfg} (ok : G.Ok) : G.slots ≤ G.nslot := by
  have := ok.ch
  have h := Nat.div_add_mod (G.slots + G.nch - 1) G.nch
  have h2 := Nat.mod_lt (G.slots + G.nch - 1) ok.ch
  unfold Cfg.nslot
  rw [Nat.mul_comm]
  omega

theorem per_pos {G : Cfg} (ok : G.Ok) : 0 < G.per := by
  have h1 := nslot_eq ok
  have h2 := nslot_ge ok
  have h3 := ok.sl
  rcases Nat.eq_zero_or_pos G.per with h | h
  · rw [h] at h1; omega
  · exact h

theorem idx_lt {G : Cfg} (ok : G.Ok) {c m : Nat} (hc : c < G.nch) (hm : m < G.per) :
    c * G.per + m < G.nslot := by
  rw [nslot_eq ok]
  calc c * G.per + m < c * G.per + G.per := by omega
    _ = (c + 1) * G.per := by rw [Nat.add_mul, Nat.one_mul]
    _ ≤ G.nch * G.per := Nat.mul_le_mul_right _ hc

theorem idx_inj {G : Cfg} {c d m n : Nat} (hm : m < G.per) (hn : n < G.per)
    (h : c * G.per + m = d * G.per + n) : c = d ∧ m = n := by
  have hp : 0 < G.per := by omega
  have h1 : (c * G.per + m) / G.per = (d * G.per + n) / G.per := by rw [h]
  rw [Nat.mul_comm, Nat.mul_add_div hp, Nat.div_eq_of_lt hm, Nat.mul_comm, Nat.mul_add_div hp,
    Nat.div_eq_of_lt hn] at h1
  have h2 : c = d := by omega
  subst h2
  exact ⟨rfl, by omega⟩

/-- Slots of different numbers do not overlap. -/
theorem hdr_far (G : Cfg) {i j : Nat} (h : i < j) : G.hdr i + G.size + 8 ≤ G.hdr j := by
  unfold Cfg.hdr
  have : (i + 1) * G.ssize ≤ j * G.ssize := Nat.mul_le_mul_right _ h
  rw [Nat.add_mul, Nat.one_mul] at this
  unfold Cfg.ssize at *
  omega

theorem hdr_cases (G : Cfg) (i j : Nat) :
    i = j ∨ G.hdr i + G.size + 8 ≤ G.hdr j ∨ G.hdr j + G.size + 8 ≤ G.hdr i := by
  rcases Nat.lt_trichotomy i j with h | h | h
  · exact .inr (.inl (hdr_far G h))
  · exact .inl h
  · exact .inr (.inr (hdr_far G h))

/-- What holds between the marks and the blocks in use. -/
structure Inv (G : Cfg) (s : S) : Prop where
  nd : (s.live ++ s.dying).Nodup
  one : ∀ x ∈ s.live ++ s.dying, ∀ y ∈ s.live ++ s.dying, x.1 = y.1 → x = y
  own : ∀ x ∈ s.live ++ s.dying, x.2 < G.nch ∧
    ∃ m, m < G.per ∧ x.1 = G.hdr (x.2 * G.per + m) + 8 ∧ ld s.mem (G.hdr (x.2 * G.per + m)) = eos
  free : ∀ c m, c < G.nch → m < G.per → ld s.mem (G.hdr (c * G.per + m)) = goOn ∨
    (G.hdr (c * G.per + m) + 8, c) ∈ s.live ++ s.dying
  pc : ∀ c mp, s.pc c = some mp → c < G.nch ∧
    ∃ m, m < G.per ∧ mp = G.hdr (c * G.per + m) ∧ ld s.mem mp = goOn
  out : ∀ c, G.nch ≤ c → s.pc c = none

theorem marks_ld (G : Cfg) (m : Mem) : ∀ n i, i < n → ld (marks G m n) (G.hdr i) = goOn
  | 0, _, h => absurd h (by omega)
  | n + 1, i, h => by
    simp only [marks]
    by_cases e : i = n
    · subst e; exact ld_st_same (by decide)
    · rw [ld_st_disj]
      · exact marks_ld G m n i (by omega)
      · rcases hdr_cases G i n with h1 | h1 | h1 <;> omega

theorem Inv.start {G : Cfg} (ok : G.Ok) (m : Mem) : Inv G (S.start G m) where
  nd := by simp [S.start]
  one := by simp [S.start]
  own := by simp [S.start]
  free c k hc hk := .inl (marks_ld G m _ _ (idx_lt ok hc hk))
  pc := by simp [S.start]
  out := by simp [S.start]

/-- A change of memory that leaves the marks alone keeps the invariant. -/
theorem Inv.frame {G : Cfg} (ok : G.Ok) {s : S} (I : Inv G s) {mem : Mem}
    (h : ∀ i, i < G.nslot → ld mem (G.hdr i) = ld s.mem (G.hdr i)) : Inv G { s with mem := mem } where
  nd := I.nd
  one := I.one
  own x hx := by
    obtain ⟨h1, k, h2, h3, h4⟩ := I.own x hx
    exact ⟨h1, k, h2, h3, by dsimp only; rw [h _ (idx_lt ok h1 h2)]; exact h4⟩
  free c k hc hk := by dsimp only; rw [h _ (idx_lt ok hc hk)]; exact I.free c k hc hk
  pc c mp hp := by
    obtain ⟨h1, k, h2, h3, h4⟩ := I.pc c mp hp
    exact ⟨h1, k, h2, h3, by subst h3; dsimp only; rw [h _ (idx_lt ok h1 h2)]; exact h4⟩
  out := I.out

theorem Inv.step {G : Cfg} (ok : G.Ok) {s s' : S} {a : Act} (I : Inv G s)
    (hs : step G s a = some s') : Inv G s' := by
  cases a with
  | look c =>
    simp only [Static.step] at hs
    split at hs
    · rename_i hg
      split at hs
      · rename_i hf
        simp only [Option.some.injEq] at hs
        subst hs
        refine ⟨I.nd, I.one, I.own, I.free, fun d mp hp => ?_, fun d hd => ?_⟩
        · by_cases e : d = c
          · subst e
            simp only [FF.Node.upd, if_true, Option.some.injEq] at hp
            subst hp
            exact ⟨hg.1, _, Nat.mod_lt _ (per_pos ok), rfl, hf⟩
          · simp only [FF.Node.upd, if_neg e] at hp
            exact I.pc d mp hp
        · have e : d ≠ c := by omega
          simp only [FF.Node.upd, if_neg e]
          exact I.out d hd
      · simp only [Option.some.injEq] at hs
        subst hs
        exact ⟨I.nd, I.one, I.own, I.free, I.pc, I.out⟩
    · cases hs
  | take c =>
    simp only [Static.step] at hs
    split at hs
    · cases hs
    · rename_i mp hp
      simp only [Option.some.injEq] at hs
      subst hs
      obtain ⟨hc, k, hk, rfl, hf⟩ := I.pc c mp hp
      have hnew : ∀ x ∈ s.live ++ s.dying, x.1 ≠ G.hdr (c * G.per + k) + 8 := by
        intro x hx e
        obtain ⟨_, j, _, h3, h4⟩ := I.own x hx
        have : G.hdr (x.2 * G.per + j) = G.hdr (c * G.per + k) := by omega
        rw [this, hf] at h4
        exact absurd h4 (by decide)
      have hmem : ∀ x, x ∈ (s.live ++ [(G.hdr (c * G.per + k) + 8, c)]) ++ s.dying ↔
          x ∈ s.live ++ s.dying ∨ x = (G.hdr (c * G.per + k) + 8, c) := by
        intro x; simp only [List.mem_append, List.mem_singleton]; tauto
      refine ⟨?_, ?_, ?_, ?_, ?_, ?_⟩
      · dsimp only
        have hn : (G.hdr (c * G.per + k) + 8, c) ∉ s.live ++ s.dying := fun h => hnew _ h rfl
        have := I.nd
        simp only [List.nodup_append, List.mem_append, List.mem_singleton, List.nodup_singleton,
          not_or] at this hn ⊢
        refine ⟨⟨this.1, trivial, fun a ha b hb => ?_⟩, this.2.1, fun a ha b hb => ?_⟩
        · subst hb; exact fun e => hn.1 (e ▸ ha)
        · rcases ha with ha | rfl
          · exact this.2.2 a ha b hb
          · exact fun e => hn.2 (e ▸ hb)
      · intro x hx y hy e
        rw [hmem] at hx hy
        rcases hx with hx | rfl <;> rcases hy with hy | rfl
        · exact I.one x hx y hy e
        · exact absurd e (hnew x hx)
        · exact absurd e.symm (hnew y hy)
        · rfl
      · intro x hx
        rw [hmem] at hx
        rcases hx with hx | rfl
        · obtain ⟨h1, j, h2, h3, h4⟩ := I.own x hx
          refine ⟨h1, j, h2, h3, ?_⟩
          dsimp only
          rcases hdr_cases G (x.2 * G.per + j) (c * G.per + k) with e | e | e
          · rw [e]; exact ld_st_same (by decide)
          · rw [ld_st_disj (by omega)]; exact h4
          · rw [ld_st_disj (by omega)]; exact h4
        · exact ⟨hc, k, hk, rfl, ld_st_same (by decide)⟩
      · intro d j hd hj
        dsimp only
        by_cases e : d * G.per + j = c * G.per + k
        · obtain ⟨rfl, rfl⟩ := idx_inj hj hk e
          exact .inr ((hmem _).2 (.inr rfl))
        · rcases hdr_cases G (d * G.per + j) (c * G.per + k) with h | h | h
          · exact absurd h e
          all_goals
            rw [ld_st_disj (by omega)]
            rcases I.free d j hd hj with h' | h'
            · exact .inl h'
            · exact .inr ((hmem _).2 (.inl h'))
      · intro d mp hp'
        by_cases e : d = c
        · subst e; simp [FF.Node.upd] at hp'
        · simp only [FF.Node.upd, if_neg e] at hp'
          obtain ⟨h1, j, h2, h3, h4⟩ := I.pc d mp hp'
          refine ⟨h1, j, h2, h3, ?_⟩
          dsimp only
          subst h3
          rcases hdr_cases G (d * G.per + j) (c * G.per + k) with h | h | h
          · exact absurd (idx_inj h2 hk h).1 e
          all_goals rw [ld_st_disj (by omega)]; exact h4
      · intro d hd
        have e : d ≠ c := by omega
        simp only [FF.Node.upd, if_neg e]
        exact I.out d hd
  | write p off v =>
    simp only [Static.step] at hs
    split at hs
    · rename_i hg
      simp only [Option.some.injEq] at hs
      subst hs
      refine I.frame ok fun i hi => ?_
      obtain ⟨_, k, _, h3, _⟩ := I.own p (by simpa using hg.1)
      rw [ld_stb_disj]
      rw [h3]
      rcases hdr_cases G i (p.2 * G.per + k) with e | e | e
      · rw [e]; omega
      · omega
      · omega
    · cases hs
  | dealloc p =>
    simp only [Static.step] at hs
    split at hs
    · rename_i hg
      simp only [Option.some.injEq] at hs
      subst hs
      have hp : (s.live.erase p ++ (s.dying ++ [p])).Perm (s.live ++ s.dying) := by
        rw [← List.append_assoc]
        refine List.perm_append_comm.trans ?_
        rw [← List.append_assoc]
        exact List.Perm.append_right _ (List.perm_cons_erase hg).symm
      have hm : ∀ x, x ∈ s.live.erase p ++ (s.dying ++ [p]) ↔ x ∈ s.live ++ s.dying :=
        fun x => hp.mem_iff
      exact ⟨hp.nodup_iff.2 I.nd, fun x hx y hy => I.one x ((hm x).1 hx) y ((hm y).1 hy),
        fun x hx => I.own x ((hm x).1 hx),
        fun c k hc hk => (I.free c k hc hk).imp id (fun h => (hm _).2 h), I.pc, I.out⟩
    · cases hs
  | release p =>
    simp only [Static.step] at hs
    split at hs
    · rename_i hg
      simp only [Option.some.injEq] at hs
      subst hs
      obtain ⟨h1, k, h2, h3, h4⟩ := I.own p (by simp [hg])
      have ha : p.1 - 8 = G.hdr (p.2 * G.per + k) := by omega
      have hnd := I.nd
      simp only [List.nodup_append] at hnd
      have hm : ∀ x, x ∈ s.live ++ s.dying.erase p ↔ x ∈ s.live ++ s.dying ∧ x ≠ p := by
        intro x
        simp only [List.mem_append, hnd.2.1.mem_erase_iff]
        constructor
        · rintro (h | h)
          · exact ⟨.inl h, hnd.2.2 x h p hg⟩
          · exact ⟨.inr h.2, h.1⟩
        · rintro ⟨h | h, e⟩
          · exact .inl h
          · exact .inr ⟨e, h⟩
      refine ⟨?_, ?_, ?_, ?_, ?_, I.out⟩
      · dsimp only
        rw [List.nodup_append]
        exact ⟨hnd.1, hnd.2.1.erase p, fun a ha b hb => hnd.2.2 a ha b (List.mem_of_mem_erase hb)⟩
      · intro x hx y hy
        exact I.one x ((hm x).1 hx).1 y ((hm y).1 hy).1
      · intro x hx
        obtain ⟨hx, hne⟩ := (hm x).1 hx
        obtain ⟨g1, j, g2, g3, g4⟩ := I.own x hx
        refine ⟨g1, j, g2, g3, ?_⟩
        dsimp only
        rw [ha]
        rcases hdr_cases G (x.2 * G.per + j) (p.2 * G.per + k) with e | e | e
        · exact absurd (I.one x hx p (by simp [hg]) (by rw [g3, h3, e])) hne
        all_goals rw [ld_st_disj (by omega)]; exact g4
      · intro d j hd hj
        dsimp only
        rw [ha]
        rcases hdr_cases G (d * G.per + j) (p.2 * G.per + k) with e | e | e
        · rw [e]; exact .inl (ld_st_same (by decide))
        all_goals
          rw [ld_st_disj (by omega)]
          refine (I.free d j hd hj).imp id fun h => (hm _).2 ⟨h, fun e' => ?_⟩
          have := congrArg Prod.fst e'
          dsimp only at this
          omega
      · intro d mp hp
        obtain ⟨g1, j, g2, g3, g4⟩ := I.pc d mp hp
        refine ⟨g1, j, g2, g3, ?_⟩
        dsimp only
        subst g3
        rw [ha]
        rcases hdr_cases G (d * G.per + j) (p.2 * G.per + k) with e | e | e
        · rw [e]; exact ld_st_same (by decide)
        all_goals rw [ld_st_disj (by omega)]; exact g4
    · cases hs

theorem inv_reach {G : Cfg} (ok : G.Ok) {m : Mem} {s : S}
    (hr : Reach (step G) (S.start G m) s) : Inv G s :=
  hr.inv (Inv.start ok m) fun _ _ _ I hs => I.step ok hs

/-! ## The specification -/

/-- Two intervals of `n` bytes have no byte in common. -/
def Apart (n p q : Nat) : Prop := ∀ x, ¬ ((p ≤ x ∧ x < p + n) ∧ (q ≤ x ∧ x < q + n))

/-- **C36**: two live allocations never overlap. -/
theorem C36_no_overlap {G : Cfg} (ok : G.Ok) {m : Mem} {s : S}
    (hr : Reach (step G) (S.start G m) s) :
    s.live.Pairwise fun x y => Apart G.size x.1 y.1 := by
  have I := inv_reach ok hr
  have hnd : s.live.Nodup := (List.nodup_append.1 I.nd).1
  refine hnd.imp_of_mem fun {x y} hx hy hne => ?_
  obtain ⟨_, j, _, h1, _⟩ := I.own x (by simp [hx])
  obtain ⟨_, k, _, h2, _⟩ := I.own y (by simp [hy])
  intro z hz
  rcases hdr_cases G (x.2 * G.per + j) (y.2 * G.per + k) with e | e | e
  · exact hne (I.one x (by simp [hx]) y (by simp [hy]) (by rw [h1, h2, e]))
  · omega
  · omega

/-- **C36**: every block lies in the arena, in the part of its channel; the parts of different
channels are disjoint, and the arena has at least the requested number of slots. -/
theorem C36_inside {G : Cfg} (ok : G.Ok) {m : Mem} {s : S}
    (hr : Reach (step G) (S.start G m) s) {p c : Nat} (hp : (p, c) ∈ s.live) :
    c < G.nch ∧ G.seg ≤ p ∧ p + G.size ≤ G.seg + G.nslot * G.ssize ∧
      G.seg + c * (G.per * G.ssize) ≤ p ∧ p + G.size ≤ G.seg + (c + 1) * (G.per * G.ssize) ∧
      G.slots ≤ G.nslot := by
  have I := inv_reach ok hr
  obtain ⟨hc, k, hk, h1, _⟩ := I.own (p, c) (by simp [hp])
  dsimp only at hc h1 hk
  have e1 : G.hdr (c * G.per + k) = G.seg + c * (G.per * G.ssize) + k * G.ssize := by
    unfold Cfg.hdr; rw [Nat.add_mul, Nat.mul_assoc]; omega
  have e2 : (k + 1) * G.ssize ≤ G.per * G.ssize := Nat.mul_le_mul_right _ hk
  have e3 : (c + 1) * (G.per * G.ssize) ≤ G.nch * (G.per * G.ssize) := Nat.mul_le_mul_right _ hc
  rw [← Nat.mul_assoc G.nch, ← nslot_eq ok] at e3
  rw [Nat.add_mul] at e2
  have e4 : (c + 1) * (G.per * G.ssize) = c * (G.per * G.ssize) + G.per * G.ssize := by
    rw [Nat.add_mul, Nat.one_mul]
  have e5 : G.ssize = G.size + 8 := rfl
  refine ⟨hc, ?_, ?_, ?_, ?_, nslot_ge ok⟩ <;> omega

/-- **C36**: what the user stored in a live block stays there: no step of the allocator and no
step of the user of another block changes it. -/
theorem C36_content {G : Cfg} (ok : G.Ok) {m : Mem} {s s' : S} {a : Act}
    (hr : Reach (step G) (S.start G m) s) (hs : step G s a = some s') {p : Nat × Nat}
    (hp : p ∈ s.live) (ha : ∀ off v, a ≠ .write p off v) {k : Nat} (hk : k < G.size) :
    s'.mem (p.1 + k) = s.mem (p.1 + k) := by
  have I := inv_reach ok hr
  obtain ⟨_, j, _, h1, _⟩ := I.own p (by simp [hp])
  have out : ∀ i v, st s.mem (G.hdr i) v (p.1 + k) = s.mem (p.1 + k) := by
    intro i v
    refine st_out ?_
    rw [h1]
    rcases hdr_cases G i (p.2 * G.per + j) with e | e | e
    · rw [e]; omega
    · omega
    · omega
  cases a with
  | look c =>
    simp only [step] at hs
    split at hs
    · split at hs <;> (simp only [Option.some.injEq] at hs; subst hs; rfl)
    · cases hs
  | take c =>
    simp only [step] at hs
    split at hs
    · cases hs
    · rename_i mp hmp
      simp only [Option.some.injEq] at hs
      subst hs
      obtain ⟨_, i, _, rfl, _⟩ := I.pc c mp hmp
      exact out _ _
  | write q off v =>
    simp only [step] at hs
    split at hs
    · rename_i hg
      simp only [Option.some.injEq] at hs
      subst hs
      have hne : q ≠ p := by rintro rfl; exact ha off v rfl
      have hq : q ∈ s.live ++ s.dying := by simpa using hg.1
      obtain ⟨_, i, _, h2, _⟩ := I.own q hq
      dsimp only
      unfold stb
      rw [if_neg]
      rcases hdr_cases G (p.2 * G.per + j) (q.2 * G.per + i) with e | e | e
      · exact absurd (I.one q hq p (by simp [hp]) (by rw [h1, h2, e])) hne
      · omega
      · omega
    · cases hs
  | dealloc q =>
    simp only [step] at hs
    split at hs
    · simp only [Option.some.injEq] at hs; subst hs; rfl
    · cases hs
  | release q =>
    simp only [step] at hs
    split at hs
    · rename_i hg
      simp only [Option.some.injEq] at hs
      subst hs
      obtain ⟨_, i, _, h2, _⟩ := I.own q (by simp [hg])
      have : q.1 - 8 = G.hdr (q.2 * G.per + i) := by omega
      dsimp only
      rw [this]
      exact out _ _
    · cases hs

/-! ## `alloc` finds a free slot -/

/-- Slots of channel `c` that are in use (live or being deallocated). -/
def S.used (s : S) (c : Nat) : List (Nat × Nat) := (s.live ++ s.dying).filter fun x => x.2 = c

theorem exists_free {G : Cfg} {s : S} (I : Inv G s) {c : Nat}
    (hc : c < G.nch) (h : (s.used c).length < G.per) :
    ∃ m, m < G.per ∧ ld s.mem (G.hdr (c * G.per + m)) = goOn := by
  by_contra hno
  have hall : ∀ m, m < G.per → (G.hdr (c * G.per + m) + 8, c) ∈ s.used c := by
    intro m hm
    rcases I.free c m hc hm with h' | h'
    · exact absurd ⟨m, hm, h'⟩ hno
    · exact List.mem_filter.2 ⟨h', by simp⟩
  have hsub : ((List.range G.per).map fun m => (G.hdr (c * G.per + m) + 8, c)) ⊆ s.used c := by
    intro x hx
    obtain ⟨m, hm, rfl⟩ := List.mem_map.1 hx
    exact hall m (List.mem_range.1 hm)
  have hnd : ((List.range G.per).map fun m => (G.hdr (c * G.per + m) + 8, c)).Nodup := by
    refine List.Nodup.map_on ?_ List.nodup_range
    intro x hx y hy e
    have e := congrArg Prod.fst e
    dsimp only at e
    rcases hdr_cases G (c * G.per + x) (c * G.per + y) with h' | h' | h' <;> omega
  have := (List.subperm_of_subset hnd hsub).length_le
  rw [List.length_map, List.length_range] at this
  omega

/-- The loop of `alloc` from counter value `t`: as long as it does not find a free slot it
advances. -/
theorem scan {G : Cfg} {c : Nat} (hc : c < G.nch) (k : Nat) :
    ∀ s : S, s.pc c = none → s.cnts c + k < 18446744073709551616 →
      ld s.mem (G.hdr (c * G.per + (s.cnts c + k) % G.per)) = goOn →
      ∃ j, j ≤ k ∧ ∃ s', exec (step G) s (List.replicate (j + 1) (.look c)) = some s' ∧
        s'.live = s.live ∧ ∃ mp, s'.pc c = some mp := by
  induction k with
  | zero =>
    intro s hp hlt hf
    refine ⟨0, Nat.le_refl 0, ?_⟩
    simp only [Nat.add_zero] at hf
    simp only [List.replicate, exec, step]
    rw [if_pos ⟨hc, hp⟩, if_pos hf]
    exact ⟨_, rfl, rfl, _, by simp [FF.Node.upd]; rfl⟩
  | succ k ih =>
    intro s hp hlt hf
    by_cases h : ld s.mem (G.hdr (c * G.per + s.cnts c % G.per)) = goOn
    · refine ⟨0, Nat.zero_le _, ?_⟩
      simp only [List.replicate, exec, step]
      rw [if_pos ⟨hc, hp⟩, if_pos h]
      exact ⟨_, rfl, rfl, _, by simp [FF.Node.upd]; rfl⟩
    · have h1 : step G s (.look c) = some { s with
          cnts := FF.Node.upd s.cnts c ((s.cnts c + 1) % 18446744073709551616) } := by
        simp only [step]
        rw [if_pos ⟨hc, hp⟩, if_neg h]
      have hc1 : (s.cnts c + 1) % 18446744073709551616 = s.cnts c + 1 :=
        Nat.mod_eq_of_lt (by omega)
      obtain ⟨j, hj, s', e1, e2, e3⟩ := ih { s with
          cnts := FF.Node.upd s.cnts c ((s.cnts c + 1) % 18446744073709551616) } hp
        (by simp only [FF.Node.upd, if_true]; omega)
        (by
          simp only [FF.Node.upd, if_true, hc1]
          rw [show s.cnts c + 1 + k = s.cnts c + (k + 1) by omega]; exact hf)
      refine ⟨j + 1, by omega, s', ?_, e2, e3⟩
      rw [List.replicate_succ]
      simp only [exec, h1]
      exact e1

/-- **C36**: if fewer blocks of the channel are in use than it has slots, `alloc` returns after
at most as many rounds as the channel has slots (when no other thread takes a step and the
counter does not wrap meanwhile). -/
theorem C36_alloc_returns {G : Cfg} (ok : G.Ok) {m : Mem} {s : S}
    (hr : Reach (step G) (S.start G m) s) {c : Nat} (hc : c < G.nch) (hp : s.pc c = none)
    (hw : s.cnts c + G.per ≤ 18446744073709551616) (h : (s.used c).length < G.per) :
    ∃ k, k ≤ G.per ∧ ∃ s' p,
      exec (step G) s (List.replicate k (.look c) ++ [.take c]) = some s' ∧
        s'.live = s.live ++ [(p, c)] := by
  have I := inv_reach ok hr
  obtain ⟨i, hi, hf⟩ := exists_free I hc h
  -- the distance from the counter to slot `i`
  have hpp := per_pos ok
  have hd : ∃ d, d < G.per ∧ (s.cnts c + d) % G.per = i := by
    have hr := Nat.mod_lt (s.cnts c) hpp
    have hm := Nat.div_add_mod (s.cnts c) G.per
    by_cases hle : s.cnts c % G.per ≤ i
    · refine ⟨i - s.cnts c % G.per, by omega, ?_⟩
      have : s.cnts c + (i - s.cnts c % G.per) = G.per * (s.cnts c / G.per) + i := by omega
      rw [this, Nat.mul_add_mod, Nat.mod_eq_of_lt hi]
    · refine ⟨i + G.per - s.cnts c % G.per, by omega, ?_⟩
      have : s.cnts c + (i + G.per - s.cnts c % G.per) = G.per * (s.cnts c / G.per + 1) + i := by
        rw [Nat.mul_add]; omega
      rw [this, Nat.mul_add_mod, Nat.mod_eq_of_lt hi]
  obtain ⟨d, hd1, hd2⟩ := hd
  obtain ⟨j, hj, s1, e1, e2, mp, e3⟩ := scan hc d s hp (by omega) (by rw [hd2]; exact hf)
  refine ⟨j + 1, by omega, { s1 with
    mem := st s1.mem mp eos, pc := FF.Node.upd s1.pc c none,
    live := s1.live ++ [(mp + 8, c)] }, mp + 8, ?_, by dsimp only; rw [e2]⟩
  rw [exec_append, e1]
  simp [exec, step, e3]

/-! ## Concrete executions -/

/-- 5 slots of 16 bytes requested for 2 channels: 6 slots, 3 for each channel. -/
def demoG : Cfg := ⟨4096, 5, 16, 2⟩

def demoActs : List Act :=
  [.look 0, .look 1, .take 1, .take 0, .write (4104, 0) 15 7, .look 0, .take 0, .look 0, .take 0,
   .look 0, .look 0, .dealloc (4128, 0), .release (4128, 0), .look 0, .look 0, .look 0, .take 0]

/-- Channel 0 fills its three slots, looks at its first slots in vain, and gets the second slot
again once it has been released. -/
example : ((exec (step demoG) (S.start demoG fun _ => 0) demoActs).map fun s =>
    (s.live, s.cnts 0, s.mem 4119)) =
    some ([(4176, 1), (4104, 0), (4152, 0), (4128, 0)], 8, 7) := by
  decide +kernel

example : demoG.Ok := ⟨by decide, by decide, by decide⟩

/-- A state that meets the hypotheses of `C36_alloc_returns`. -/
example : let s := S.start demoG fun _ => 0
    s.pc 0 = none ∧ s.cnts 0 + demoG.per ≤ 18446744073709551616 ∧ (s.used 0).length < demoG.per := by
  decide +kernel

end FF.Alloc.Static
