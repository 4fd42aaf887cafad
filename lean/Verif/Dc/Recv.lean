import Verif.Dc.Rep
/-! # Divide and conquer: the scheduler receives a message -/
namespace FF.Dc
open FF.Mdf (Core Rec Cfg St decRow)
open FF.Node (upd)

variable {Op R : Type}

theorem new_cons (k : Kind R) (a : Nat) (l : List (Tok R)) :
    (Tok.new k a :: l).filterMap Tok.tgt = a :: l.filterMap Tok.tgt := List.filterMap_cons_some rfl

theorem fin_cons (t : Nat) (l : List (Tok R)) :
    (Tok.done t :: l).filterMap Tok.fin = t :: l.filterMap Tok.fin := List.filterMap_cons_some rfl

theorem decRow_ubl (l : List Nat) (k : Nat) (r : Rec) : (decRow l k r).ubl = r.ubl := by
  unfold decRow; split <;> rfl

theorem lk_look {c : Core} (h : Tb c) (a : Nat) : lk c a ↔ (c.look a).isSome = true := by
  unfold lk Core.look
  constructor
  · rintro ⟨r, hr⟩
    have := (h.idt _ r hr).1
    rw [if_neg (by omega), hr]; rfl
  · intro hs
    split at hs
    · cases hs
    · exact Option.isSome_iff_exists.1 hs

/-- the recorded writer of an address whose completion is the next message has written it -/
theorem L.written {x : S Op R} (h : L x) {w t a : Nat} {B : List (Tok R)} (hs : x.stream w = .done t :: B)
    (hl : lk x.s.c a) (ha : x.s.c.ad a = t) : x.duty a = none := by
  have hm : Tok.done t ∈ x.stream w := by rw [hs]; simp
  rcases h.l1 a hl with ⟨q1, q2⟩ | ⟨v, q1, q2⟩
  · cases hd : x.duty a with
    | none => rfl
    | some k =>
      rw [ha] at q2
      exact absurd hm ((h.own t a k hd q2).2.2 w)
  · rw [ha] at q1
    have := h.one v w t q1 hm
    subst this
    rcases q2 with q | ⟨l1, u, l2, b1, b2, b3, _⟩
    · exact q
    · rw [ha] at b3
      rw [hs] at b1
      cases l1 with
      | nil =>
        simp only [List.nil_append, List.cons.injEq] at b1
        rw [← b1.1] at b2; cases b2
      | cons z l1 =>
        simp only [List.cons_append, List.cons.injEq] at b1
        have hf := h.fin v
        rw [hs, fin_cons, List.nodup_cons] at hf
        exact (hf.1 (List.mem_filterMap.2 ⟨.done t, by rw [b1.2]; simp [b3], rfl⟩)).elim

theorem L.recvDone {x y : S Op R} (h : L x) (hT : Tb x.s.c) {w t : Nat} {B : List (Tok R)} {rt : Rec}
    (hs : x.stream w = .done t :: B) (ht : x.s.c.tk t = some rt)
    (e1 : ∀ k, y.s.c.tk k = if k = t then none else (x.s.c.tk k).map (decRow rt.ubl k)) (e1' : y.s.c.ad = x.s.c.ad)
    (e2 : y.task = x.task) (e3 : ∀ v, v ≠ w → y.stream v = x.stream v) (e4 : y.stream w = B)
    (e5 : y.duty = x.duty) (e6 : y.place = x.place) (e7 : ∀ c, y.live c = x.live c) (e8 : y.heap = x.heap) : L y := by
  have hm : Tok.done t ∈ x.stream w := by rw [hs]; simp
  have hf : ∀ v, Tok.done t ∉ y.stream v := by
    intro v hv
    by_cases e : v = w
    · subst e
      have hf := h.fin v
      rw [hs, fin_cons, List.nodup_cons] at hf
      rw [e4] at hv
      exact hf.1 (List.mem_filterMap.2 ⟨_, hv, rfl⟩)
    · rw [e3 v e] at hv
      exact e (h.one v w t hv hm)
  have mem : ∀ v u, u ∈ y.stream v ↔ u ∈ x.stream v ∧ u ≠ .done t := by
    intro v u
    constructor
    · intro hu
      refine ⟨?_, by rintro rfl; exact hf v hu⟩
      by_cases e : v = w
      · subst e; rw [e4] at hu; rw [hs]; simp [hu]
      · rw [← e3 v e]; exact hu
    · rintro ⟨hu, hne⟩
      by_cases e : v = w
      · subst e; rw [hs] at hu; rw [e4]
        simpa [hne] using hu
      · rw [e3 v e]; exact hu
  have tk1 : ∀ i r', y.s.c.tk i = some r' → i ≠ t ∧ ∃ r, x.s.c.tk i = some r ∧ r' = decRow rt.ubl i r := by
    intro i r' hi
    rw [e1] at hi
    split at hi
    · cases hi
    · rename_i hne
      rw [Option.map_eq_some_iff] at hi
      obtain ⟨r, g1, g2⟩ := hi
      exact ⟨hne, r, g1, g2.symm⟩
  have tk2 : ∀ i r, i ≠ t → x.s.c.tk i = some r → y.s.c.tk i = some (decRow rt.ubl i r) := by
    intro i r hne hi; rw [e1, if_neg hne, hi]; rfl
  have lk1 : ∀ a, lk y.s.c a → lk x.s.c a ∧ x.s.c.ad a ≠ t := by
    rintro a ⟨r, hr⟩
    rw [e1'] at hr
    obtain ⟨g1, r', g2, _⟩ := tk1 _ r hr
    exact ⟨⟨r', g2⟩, g1⟩
  have lk2 : ∀ a, lk x.s.c a → lk y.s.c a ∨ x.duty a = none := by
    rintro a ⟨r, hr⟩
    by_cases e : x.s.c.ad a = t
    · exact Or.inr (h.written hs ⟨r, hr⟩ e)
    · exact Or.inl ⟨_, by rw [e1']; exact tk2 _ r e hr⟩
  have nt : ∀ u : Tok R, ∀ k a, u.job = some (k, a) → u ≠ .done t := by rintro u k a hj rfl; cases hj
  have sub : ∀ v, (y.stream v).Sublist (x.stream v) := by
    intro v
    by_cases e : v = w
    · subst e; rw [e4, hs]; exact List.sublist_cons_self _ _
    · rw [e3 v e]
  constructor
  · intro v u k a hu hj
    rw [e5, e6]; exact h.tok v u k a ((mem v u).1 hu).1 hj
  · intro v a k
    rw [e5, e6]
    intro g1 g2
    obtain ⟨u, q1, q2⟩ := h.str v a k g1 g2
    exact ⟨u, (mem v u).2 ⟨q1, nt u k a q2⟩, q2⟩
  · intro v; exact (h.nod v).sublist ((sub v).filterMap _)
  · intro v; exact (h.fin v).sublist ((sub v).filterMap _)
  · intro v v' t2 g1 g2; exact h.one v v' t2 ((mem v _).1 g1).1 ((mem v' _).1 g2).1
  · intro v t2 g
    obtain ⟨g1, g2⟩ := (mem v _).1 g
    obtain ⟨r, q1, q2⟩ := h.run v t2 g1
    refine ⟨_, tk2 t2 r (by rintro rfl; exact g2 rfl) q1, ?_⟩
    have : t2 ∉ rt.ubl := by
      intro hu
      obtain ⟨r', z1, z2⟩ := hT.edg t rt t2 ht hu
      rw [q1] at z1; cases z1; rw [q2] at z2; cases z2
    unfold decRow; rw [if_neg this]; exact q2
  · intro v k a g; exact h.new v k a ((mem v _).1 g).1
  · intro t2 r g
    obtain ⟨_, r', g2, _⟩ := tk1 t2 r g
    rw [e2]; exact h.tsk t2 r' g2
  · intro t2 r k a g1 g2 g3
    obtain ⟨hne, r', z, _⟩ := tk1 t2 r g1
    rw [e2] at g2
    rw [e5, e6]
    exact h.idl t2 r' k a z g2 (fun v hv => g3 v ((mem v _).2 ⟨hv, by intro e; cases e; exact hne rfl⟩))
  · intro t2 a k
    rw [e5, e6, e2]
    intro g1 g2
    obtain ⟨⟨r, q1⟩, q2, q3⟩ := h.own t2 a k g1 g2
    have hne : t2 ≠ t := by rintro rfl; exact q3 w hm
    exact ⟨⟨_, tk2 t2 r hne q1⟩, q2, fun v hv => q3 v ((mem v _).1 hv).1⟩
  · intro a g
    rw [e1', e2, e7]
    exact h.l0 a (lk1 a g).1
  · intro a g
    obtain ⟨g1, g2⟩ := lk1 a g
    rw [e1', e5, e6]
    rcases h.l1 a g1 with q | ⟨v, q1, q2⟩
    · exact Or.inl q
    · refine Or.inr ⟨v, (mem v _).2 ⟨q1, by intro e; cases e; exact g2 rfl⟩, ?_⟩
      rcases q2 with q | ⟨l1, u, l2, b1, b2, b3, b4, b5⟩
      · exact Or.inl q
      · right
        have b4' : ∀ k, u = .new k a → dacTask y (y.s.c.ad a) ∧ isComb k := by unfold dacTask at *; rw [e1', e2]; exact b4
        have b5' : ∀ b i, u = .act (.dac b i) a → dacTask y (y.s.c.ad a) := by unfold dacTask at *; rw [e1', e2]; exact b5
        by_cases e : v = w
        · subst e
          rw [hs] at b1
          cases l1 with
          | nil =>
            simp only [List.nil_append, List.cons.injEq] at b1
            rw [← b1.1] at b2; cases b2
          | cons z l1 =>
            simp only [List.cons_append, List.cons.injEq] at b1
            exact ⟨l1, u, l2, by rw [e4, b1.2], b2, by rw [e1']; exact b3, b4', b5'⟩
        · exact ⟨l1, u, l2, by rw [e3 v e, b1], b2, by rw [e1']; exact b3, b4', b5'⟩
  · intro i r p g1 g2
    obtain ⟨_, r', z, rfl⟩ := tk1 i r g1
    rw [decRow_ubl] at g2
    rw [e2, e1']
    exact h.l2 i r' p z g2
  · intro p r b cs a g1 g2 g3 c hc
    obtain ⟨hne, r', z, _⟩ := tk1 p r g1
    rw [e2] at g2
    rw [e5, e1']
    rcases h.c1 p r' b cs a z g2 (fun v hv => g3 v ((mem v _).2 ⟨hv, by intro e; cases e; exact hne rfl⟩)) c hc with ⟨q1, q2⟩ | ⟨r2, q1, q2⟩
    · exact Or.inl ⟨q1, fun hl => q2 (lk1 c hl).1⟩
    · by_cases e : x.s.c.ad c = t
      · exact Or.inl ⟨h.written hs ⟨r2, q1⟩ e, fun hl => (lk1 c hl).2 e⟩
      · exact Or.inr ⟨_, tk2 _ r2 e q1, by rw [decRow_ubl]; exact q2⟩
  · intro v b cs a g c hc
    rw [e5]
    obtain ⟨q1, q2⟩ := h.c2 v b cs a ((mem v _).1 g).1 c hc
    exact ⟨q1, fun hl => q2 (lk1 c hl).1⟩
  · intro v b v2 a blk g
    rw [e8]
    intro hb c hc hl
    exact h.c2' v b v2 a blk ((mem v _).1 g).1 hb c hc (lk1 c hl).1
  · intro v l1 b cs a l2 g c hc
    rw [e5]
    have fix : x.duty c = none ∨ lk x.s.c c ∨ c ∈ l1.filterMap Tok.tgt →
        x.duty c = none ∨ lk y.s.c c ∨ c ∈ l1.filterMap Tok.tgt := by
      rintro (q | q | q)
      · exact Or.inl q
      · rcases lk2 c q with q | q
        · exact Or.inr (Or.inl q)
        · exact Or.inl q
      · exact Or.inr (Or.inr q)
    apply fix
    by_cases e : v = w
    · subst e
      rw [e4] at g
      have := h.c3 v (.done t :: l1) b cs a l2 (by rw [hs, g]; rfl) c hc
      rwa [List.filterMap_cons_none rfl] at this
    · rw [e3 v e] at g
      exact h.c3 v l1 b cs a l2 g c hc
  · intro v b i a g hl
    exact h.n1 v b i a ((mem v _).1 g).1 (lk1 a hl).1

/-! ## A new task -/

/-- what holds when the message `new k a` is at the head of a stream -/
structure Hd (x : S Op R) (k : Kind R) (a : Nat) (w : Nat) : Prop where
  a0 : a ≠ 0
  nodup : (links x.s.c (ins k)).Nodup
  empty : ∀ i ∈ links x.s.c (ins k), ∀ r, x.s.c.tk i = some r → r.ubl = []
  out : x.s.c.look a = none ∨ x.s.c.ad a ∉ links x.s.c (ins k)
  notin : a ∉ ins k
  /-- the current writer of `a` -/
  wr : ∀ r, lk x.s.c a → x.s.c.tk (x.s.c.ad a) = some r → isComb k ∧ r.st = .ready ∧
    (∃ b i, x.task (x.s.c.ad a) = some (.dac b i, a)) ∧
    ∀ y ∈ r.ubl, ∃ b cs ay, x.task y = some (.comb b cs, ay) ∧ a ∈ cs

theorem L.head {P : Prob Op R} {D : Op → Prop} {sol : Op → R} {x : S Op R} (h : L x) (hT : Tb x.s.c) (hM : M P D sol x)
    {w a : Nat} {k : Kind R} {B : List (Tok R)} (hs : x.stream w = .new k a :: B) : Hd x k a w := by
  have hm : Tok.new k a ∈ x.stream w := by rw [hs]; simp
  obtain ⟨hd, hp⟩ := h.tok w _ k a hm rfl
  have hlive := hM.liv a k hd
  have a0 : a ≠ 0 := by
    rcases (hM.live a).1 hlive with e | ⟨b, blk, g1, g2⟩
    · rw [e]; exact hM.root0
    · exact ((hM.cel b blk g1).2 a g2).1
  have inj : ∀ d d', lk x.s.c d → lk x.s.c d' → x.s.c.ad d = x.s.c.ad d' → d = d' := by
    intro d d' h1 h2 e
    obtain ⟨k1, g1⟩ := (h.l0 d h1).1
    obtain ⟨k2, g2⟩ := (h.l0 d' h2).1
    rw [e, g2] at g1
    cases g1; rfl
  have hfirst : ∀ l1 u l2, x.stream w = l1 ++ u :: l2 → u.tgt = some a → u = .new k a ∧ l1 = [] := by
    intro l1 u l2 g1 g2
    have hn := h.nod w
    rw [hs] at g1
    rw [hs, new_cons, List.nodup_cons] at hn
    cases l1 with
    | nil => simp only [List.nil_append, List.cons.injEq] at g1; exact ⟨g1.1.symm, rfl⟩
    | cons z l1 =>
      simp only [List.cons_append, List.cons.injEq] at g1
      exact absurd (List.mem_filterMap.2 ⟨u, by rw [g1.2]; simp, g2⟩) hn.1
  have wr0 : lk x.s.c a → isComb k ∧ dacTask x (x.s.c.ad a) ∧ ∃ r, x.s.c.tk (x.s.c.ad a) = some r ∧ r.st = .ready := by
    intro hl
    rcases h.l1 a hl with q | ⟨v, q1, q2⟩
    · have := q.2; rw [hp] at this; cases this
    · rcases q2 with q | ⟨l1, u, l2, b1, b2, b3, b4, b5⟩
      · rw [hd] at q; cases q
      · obtain ⟨k2, hk2⟩ := job_tgt b2
        have hv := (h.tok v u k2 a (by rw [b1]; simp) hk2).2
        rw [hp] at hv; cases hv
        obtain ⟨rfl, rfl⟩ := hfirst l1 u l2 b1 b2
        obtain ⟨z1, z2⟩ := b4 k rfl
        exact ⟨z2, z1, h.run w _ q1⟩
  have wr : ∀ r, lk x.s.c a → x.s.c.tk (x.s.c.ad a) = some r → isComb k ∧ r.st = .ready ∧
      (∃ b i, x.task (x.s.c.ad a) = some (.dac b i, a)) ∧
      ∀ y ∈ r.ubl, ∃ b cs ay, x.task y = some (.comb b cs, ay) ∧ a ∈ cs := by
    intro r hl hr
    obtain ⟨z1, ⟨b, i, a', z2⟩, r', z3, z4⟩ := wr0 hl
    rw [hr] at z3; cases z3
    obtain ⟨k', g⟩ := (h.l0 a hl).1
    rw [z2] at g; cases g
    refine ⟨z1, z4, ⟨b, i, z2⟩, fun p hp' => ?_⟩
    obtain ⟨b', cs', ay, kx, ax, g1, g2, g3⟩ := h.l2 _ r p hr hp'
    rw [z2] at g2; cases g2
    rcases g3 with ⟨g3, _⟩ | ⟨_, g3, _⟩
    · exact ⟨b', cs', ay, g1, g3⟩
    · rw [g3] at z2; rw [z2] at g1; cases g1
  rcases h.new w k a hm with ⟨b, i, rfl⟩ | ⟨b, cs, rfl⟩
  · refine ⟨a0, List.nodup_nil, fun i hi => ?_, Or.inr ?_, fun hi => ?_, wr⟩
    · cases hi
    · intro hi; cases hi
    · cases hi
  · obtain ⟨u1, u2, blk, u3, u4⟩ := hM.comb a b cs hd
    have hnd : cs.Nodup := by rw [← u4]; exact (hM.cel b blk u3).1
    have hna : a ∉ cs := by
      intro hmm
      have := hM.tre b b blk blk u3 u3 (by rw [u1, u4]; exact hmm)
      omega
    have lkL : ∀ i, i ∈ links x.s.c cs → ∃ d ∈ cs, x.s.c.ad d = i ∧ lk x.s.c d := by
      intro i hi
      obtain ⟨d, g1, g2, g3⟩ := mem_links.1 hi
      exact ⟨d, g1, g2, (lk_look hT d).2 g3⟩
    refine ⟨a0, ?_, ?_, ?_, hna, wr⟩
    · show (links x.s.c cs).Nodup
      unfold links
      apply List.Nodup.filterMap _ hnd
      intro d d' z h1 h2
      have aux : ∀ d z, z ∈ (if (x.s.c.look d).isSome then some (x.s.c.ad d) else none) → lk x.s.c d ∧ z = x.s.c.ad d := by
        intro d z hz
        split at hz
        · rename_i hh; cases hz; exact ⟨(lk_look hT d).2 hh, rfl⟩
        · cases hz
      obtain ⟨g1, g2⟩ := aux d z h1
      obtain ⟨g3, g4⟩ := aux d' z h2
      exact inj d d' g1 g3 (g2.symm.trans g4)
    · intro i hi r hr
      obtain ⟨d, g1, rfl, g3⟩ := lkL i hi
      by_contra hne
      obtain ⟨p, hpm⟩ := List.exists_mem_of_ne_nil _ hne
      obtain ⟨rp, e1, e2⟩ := hT.edg _ r p hr hpm
      obtain ⟨b', cs', ay, kx, ax, z1, z2, z3⟩ := h.l2 _ r p hr hpm
      obtain ⟨k', z4⟩ := (h.l0 d g3).1
      rw [z2] at z4; cases z4
      have hidle : ∀ v, Tok.done p ∉ x.stream v := by
        intro v hv
        obtain ⟨r', q1, q2⟩ := h.run v p hv
        rw [e1] at q1; cases q1; rw [e2] at q2; cases q2
      rcases z3 with ⟨z3, _⟩ | ⟨_, z3, b2, i2, rfl⟩
      · obtain ⟨q1, q2⟩ := h.idl p rp _ ay e1 z1 hidle
        obtain ⟨v1, _, blk', v3, v4⟩ := hM.comb ay b' cs' q1
        have := hM.dis b b' blk blk' d u3 v3 (by rw [u4]; exact g1) (by rw [v4]; exact z3)
        subst this
        rw [u1] at v1; subst v1
        rw [hp] at q2; cases q2
      · rw [z3] at z2; rw [z2] at z1; cases z1
    · by_cases hl : lk x.s.c a
      · right
        intro hi
        obtain ⟨d, g1, g2, g3⟩ := lkL _ hi
        have := inj d a g3 hl g2
        subst this
        exact hna g1
      · left
        cases hx : x.s.c.look a with
        | none => rfl
        | some r => exact absurd ((lk_look hT a).2 (by rw [hx]; rfl)) hl

theorem L.recvNew {P : Prob Op R} {D : Op → Prop} {sol : Op → R} {x y : S Op R} (h : L x) (hT : Tb x.s.c) (hM : M P D sol x)
    {w a : Nat} {k : Kind R} {B : List (Tok R)}
    (hs : x.stream w = .new k a :: B) (hI : Ins x.s.c y.s.c (links x.s.c (ins k)) a)
    (e2 : y.task = upd x.task x.s.c.next (some (k, a))) (e3 : ∀ v, v ≠ w → y.stream v = x.stream v) (e4 : y.stream w = B)
    (e5 : y.duty = x.duty) (e6 : y.place = upd x.place a (.tk x.s.c.next)) (e7 : ∀ c, y.live c = x.live c)
    (e8 : y.heap = x.heap) : L y := by
  have hm : Tok.new k a ∈ x.stream w := by rw [hs]; simp
  obtain ⟨hd, hp⟩ := h.tok w _ k a hm rfl
  have H := h.head hT hM hs
  have hlive := hM.liv a k hd
  have hkk := h.new w k a hm
  have hnone := hT.nextNone
  have nn : ∀ i r, x.s.c.tk i = some r → i ≠ x.s.c.next := by
    rintro i r hi rfl; rw [hnone] at hi; cases hi
  have adn : ∀ d, x.s.c.ad d ≠ x.s.c.next := fun d => by have := hT.ads d; omega
  have sub : ∀ v, (y.stream v).Sublist (x.stream v) := by
    intro v
    by_cases e : v = w
    · subst e; rw [e4, hs]; exact List.sublist_cons_self _ _
    · rw [e3 v e]
  have noa : ∀ v u, u ∈ y.stream v → u.tgt ≠ some a := by
    intro v u hu ht
    obtain ⟨k2, hk2⟩ := job_tgt ht
    have hv := (h.tok v u k2 a ((sub v).subset hu) hk2).2
    rw [hp] at hv; cases hv
    rw [e4] at hu
    have hn := h.nod w
    rw [hs, new_cons, List.nodup_cons] at hn
    exact hn.1 (List.mem_filterMap.2 ⟨u, hu, ht⟩)
  have keep : ∀ v u, u ∈ x.stream v → u ≠ .new k a → u ∈ y.stream v := by
    intro v u hu hne
    by_cases e : v = w
    · subst e; rw [hs] at hu; rw [e4]; simpa [hne] using hu
    · rw [e3 v e]; exact hu
  have dn : ∀ v t, Tok.done t ∈ y.stream v ↔ Tok.done t ∈ x.stream v :=
    fun v t => ⟨fun hu => (sub v).subset hu, fun hu => keep v _ hu (by intro e; cases e)⟩
  have tk1 : ∀ i r', y.s.c.tk i = some r' → (i = x.s.c.next ∧ r' = newRow x.s.c (links x.s.c (ins k)) a) ∨
      (i ≠ x.s.c.next ∧ ∃ r, x.s.c.tk i = some r ∧ r' = rowUpd x.s.c (links x.s.c (ins k)) a i r) := by
    intro i r' hi
    by_cases e : i = x.s.c.next
    · subst e; rw [hI.new] at hi; cases hi; exact Or.inl ⟨rfl, rfl⟩
    · rw [hI.old i e, Option.map_eq_some_iff] at hi
      obtain ⟨r, g1, g2⟩ := hi
      exact Or.inr ⟨e, r, g1, g2.symm⟩
  have tk2 : ∀ i r, x.s.c.tk i = some r → y.s.c.tk i = some (rowUpd x.s.c (links x.s.c (ins k)) a i r) := by
    intro i r hi; rw [hI.old i (nn i r hi), hi]; rfl
  have lka : lk y.s.c a := ⟨_, by rw [hI.ad, if_pos rfl]; exact hI.new⟩
  have lkd : ∀ d, d ≠ a → (lk y.s.c d ↔ lk x.s.c d) := by
    intro d hne
    unfold lk
    rw [hI.ad, if_neg hne]
    constructor
    · rintro ⟨r, hr⟩
      rcases tk1 _ r hr with ⟨g, _⟩ | ⟨_, r', g, _⟩
      · exact absurd g (adn d)
      · exact ⟨r', g⟩
    · rintro ⟨r, hr⟩; exact ⟨_, tk2 _ r hr⟩
  have tsk : ∀ t, t ≠ x.s.c.next → y.task t = x.task t := fun t hne => by rw [e2, upd_ne _ hne]
  have tskn : y.task x.s.c.next = some (k, a) := by rw [e2, upd_self]
  have pa : y.place a = .tk x.s.c.next := by rw [e6, upd_self]
  have pd : ∀ d, d ≠ a → y.place d = x.place d := fun d hne => by rw [e6, upd_ne _ hne]
  have hadn : y.s.c.ad a = x.s.c.next := by rw [hI.ad, if_pos rfl]
  have had : ∀ d, d ≠ a → y.s.c.ad d = x.s.c.ad d := fun d hne => by rw [hI.ad, if_neg hne]
  have ndone : ∀ v, Tok.done x.s.c.next ∉ x.stream v := by
    intro v hv; obtain ⟨r, g, _⟩ := h.run v _ hv; rw [hnone] at g; cases g
  constructor
  · intro v u k2 d hu hj
    have hne : d ≠ a := by rintro rfl; exact noa v u hu (tgt_job hj)
    rw [e5, pd d hne]
    exact h.tok v u k2 d ((sub v).subset hu) hj
  · intro v d k2 g1 g2
    have hne : d ≠ a := by rintro rfl; rw [pa] at g2; cases g2
    rw [e5] at g1; rw [pd d hne] at g2
    obtain ⟨u, q1, q2⟩ := h.str v d k2 g1 g2
    refine ⟨u, keep v u q1 ?_, q2⟩
    rintro rfl; cases q2; exact hne rfl
  · intro v; exact (h.nod v).sublist ((sub v).filterMap _)
  · intro v; exact (h.fin v).sublist ((sub v).filterMap _)
  · intro v v' t2; rw [dn, dn]; exact h.one v v' t2
  · intro v t2; rw [dn]
    intro g
    obtain ⟨r, q1, q2⟩ := h.run v t2 g
    exact ⟨_, tk2 t2 r q1, q2⟩
  · intro v k2 d g; exact h.new v k2 d ((sub v).subset g)
  · intro t2 r g
    rcases tk1 t2 r g with ⟨rfl, _⟩ | ⟨hne, r', g', _⟩
    · exact ⟨k, a, tskn, hkk⟩
    · rw [tsk t2 hne]; exact h.tsk t2 r' g'
  · intro t2 r k2 d g1 g2 g3
    rw [e5]
    rcases tk1 t2 r g1 with ⟨rfl, _⟩ | ⟨hne, r', g', _⟩
    · rw [tskn] at g2; cases g2; exact ⟨hd, pa⟩
    · rw [tsk t2 hne] at g2
      obtain ⟨q1, q2⟩ := h.idl t2 r' k2 d g' g2 (fun v hv => g3 v ((dn v t2).2 hv))
      have hda : d ≠ a := by rintro rfl; rw [hp] at q2; cases q2
      rw [pd d hda]; exact ⟨q1, q2⟩
  · intro t2 d k2 g1 g2
    rw [e5] at g1
    by_cases e : d = a
    · subst e
      rw [pa] at g2; cases g2
      rw [hd] at g1; cases g1
      exact ⟨⟨_, hI.new⟩, tskn, fun v hv => ndone v ((dn v _).1 hv)⟩
    · rw [pd d e] at g2
      obtain ⟨⟨r, q1⟩, q2, q3⟩ := h.own t2 d k2 g1 g2
      exact ⟨⟨_, tk2 t2 r q1⟩, by rw [tsk t2 (nn t2 r q1)]; exact q2, fun v hv => q3 v ((dn v _).1 hv)⟩
  · intro d g
    rw [e7]
    by_cases e : d = a
    · subst e; rw [hadn]; exact ⟨⟨k, tskn⟩, hlive⟩
    · rw [had d e, tsk _ (adn d)]
      exact h.l0 d ((lkd d e).1 g)
  · intro d g
    rw [e5]
    by_cases e : d = a
    · subst e
      left
      rw [hadn, pa]
      exact ⟨by rw [hd]; simp, rfl⟩
    · rw [had d e, pd d e]
      rcases h.l1 d ((lkd d e).1 g) with q | ⟨v, q1, q2⟩
      · exact Or.inl q
      · refine Or.inr ⟨v, (dn v _).2 q1, ?_⟩
        rcases q2 with q | ⟨l1, u, l2, b1, b2, b3, b4, b5⟩
        · exact Or.inl q
        · right
          have dk : dacTask x (x.s.c.ad d) → dacTask y (y.s.c.ad d) := by
            unfold dacTask; rw [had d e, tsk _ (adn d)]; exact id
          have b4' : ∀ k, u = .new k d → dacTask y (y.s.c.ad d) ∧ isComb k := fun k hk => ⟨dk (b4 k hk).1, (b4 k hk).2⟩
          have b5' : ∀ b i, u = .act (.dac b i) d → dacTask y (y.s.c.ad d) := fun b i hk => dk (b5 b i hk)
          by_cases ev : v = w
          · subst ev
            rw [hs] at b1
            cases l1 with
            | nil =>
              simp only [List.nil_append, List.cons.injEq] at b1
              rw [← b1.1] at b2; cases b2; exact absurd rfl e
            | cons z l1 =>
              simp only [List.cons_append, List.cons.injEq] at b1
              exact ⟨l1, u, l2, by rw [e4, b1.2], b2, by rw [had d e]; exact b3, b4', b5'⟩
          · exact ⟨l1, u, l2, by rw [e3 v ev, b1], b2, by rw [had d e]; exact b3, b4', b5'⟩
  · intro i r p g1 g2
    rcases tk1 i r g1 with ⟨rfl, rfl⟩ | ⟨hne, r', g', rfl⟩
    · have g2' : p ∈ wl x.s.c a := g2
      unfold wl at g2'
      cases hlo : x.s.c.look a with
      | none => rw [hlo] at g2'; cases g2'
      | some r0 =>
        rw [hlo] at g2'
        obtain ⟨_, z⟩ := look_some' hlo
        obtain ⟨_, _, _, q⟩ := H.wr r0 ⟨r0, z⟩ z
        obtain ⟨b, cs, ay, q1, q2⟩ := q p g2'
        obtain ⟨rp, q3, _⟩ := hT.edg _ r0 p z g2'
        exact ⟨b, cs, ay, k, a, by rw [tsk p (nn p rp q3)]; exact q1, tskn, Or.inl ⟨q2, hadn⟩⟩
    · unfold rowUpd at g2
      dsimp only at g2
      split at g2
      · rename_i hiL
        rw [List.mem_singleton] at g2; subst g2
        obtain ⟨d, z1, z2, z3⟩ := mem_links.1 hiL
        have hda : d ≠ a := by rintro rfl; exact H.notin z1
        obtain ⟨k', z4⟩ := (h.l0 d ((lk_look hT d).2 z3)).1
        rcases hkk with ⟨b, j, rfl⟩ | ⟨b, cs, rfl⟩
        · cases z1
        · exact ⟨b, cs, a, k', d, tskn, by rw [tsk i hne, ← z2]; exact z4, Or.inl ⟨z1, by rw [had d hda]; exact z2⟩⟩
      · split at g2
        · rename_i hlo
          obtain ⟨hlo, hia⟩ := hlo
          split at g2
          · rename_i hemp
            rw [List.mem_singleton] at g2; subst g2
            subst hia
            obtain ⟨z1, _, ⟨b, j, z2⟩, _⟩ := H.wr r' ((lk_look hT a).2 hlo) g'
            obtain ⟨b', cs, rfl⟩ := z1
            exact ⟨b', cs, a, .dac b j, a, tskn, by rw [tsk _ hne]; exact z2, Or.inr ⟨rfl, hadn, b, j, rfl⟩⟩
          · cases g2
        · rename_i hlo
          obtain ⟨rp, q3, q4⟩ := hT.edg i r' p g' g2
          obtain ⟨b, cs, ay, kx, ax, q5, q6, q7⟩ := h.l2 i r' p g' g2
          refine ⟨b, cs, ay, kx, ax, by rw [tsk p (nn p rp q3)]; exact q5, by rw [tsk i hne]; exact q6, ?_⟩
          rcases q7 with ⟨q7, q8⟩ | ⟨q7, q8, q9⟩
          · have hax : ax ≠ a := by
              rintro rfl
              exact hlo ⟨(lk_look hT ax).1 ⟨r', by rw [q8]; exact g'⟩, q8.symm⟩
            exact Or.inl ⟨q7, by rw [had ax hax]; exact q8⟩
          · have hax : ax ≠ a := by
              rintro rfl
              have := (H.wr rp ⟨rp, by rw [q8]; exact q3⟩ (by rw [q8]; exact q3)).2.1
              rw [q4] at this; cases this
            exact Or.inr ⟨q7, by rw [had ax hax]; exact q8, q9⟩
  · intro p r b cs d g1 g2 g3 c hc
    rw [e5]
    rcases tk1 p r g1 with ⟨rfl, rfl⟩ | ⟨hne, r', g', rfl⟩
    · rw [tskn] at g2; cases g2
      have hca : c ≠ a := by rintro rfl; exact H.notin hc
      by_cases hl : lk x.s.c c
      · right
        obtain ⟨rc, hrc⟩ := hl
        refine ⟨_, by rw [had c hca]; exact tk2 _ rc hrc, ?_⟩
        have : x.s.c.ad c ∈ links x.s.c (ins (.comb b cs : Kind R)) :=
          mem_links.2 ⟨c, hc, rfl, (lk_look hT c).1 ⟨rc, hrc⟩⟩
        unfold rowUpd
        dsimp only
        rw [if_pos this]
        simp
      · left
        refine ⟨?_, fun hl' => hl ((lkd c hca).1 hl')⟩
        rcases h.c3 w [] b cs a B hs c hc with q | q | q
        · exact q
        · exact absurd q hl
        · cases q
    · rw [tsk p hne] at g2
      rcases h.c1 p r' b cs d g' g2 (fun v hv => g3 v ((dn v _).2 hv)) c hc with ⟨q1, q2⟩ | ⟨rc, q1, q2⟩
      · have hca : c ≠ a := by rintro rfl; rw [hd] at q1; cases q1
        exact Or.inl ⟨q1, fun hl' => q2 ((lkd c hca).1 hl')⟩
      · right
        by_cases e : c = a
        · subst e
          rw [hadn]
          refine ⟨_, hI.new, ?_⟩
          show p ∈ wl x.s.c c
          unfold wl
          have hlo := (lk_look hT c).1 ⟨rc, q1⟩
          obtain ⟨r0, hr0⟩ := Option.isSome_iff_exists.1 hlo
          rw [hr0]
          have := (look_some' hr0).2
          rw [q1] at this; cases this
          exact q2
        · refine ⟨_, by rw [had c e]; exact tk2 _ rc q1, ?_⟩
          unfold rowUpd
          dsimp only
          have n1 : x.s.c.ad c ∉ links x.s.c (ins k) := by
            intro hi
            have := H.empty _ hi rc q1
            rw [this] at q2; cases q2
          have n2 : ¬ ((x.s.c.look a).isSome = true ∧ x.s.c.ad c = x.s.c.ad a) := by
            rintro ⟨z1, z2⟩
            obtain ⟨k1, y1⟩ := (h.l0 c ⟨rc, q1⟩).1
            obtain ⟨k2, y2⟩ := (h.l0 a ((lk_look hT a).2 z1)).1
            rw [z2, y2] at y1; cases y1; exact e rfl
          rw [if_neg n1, if_neg n2]
          exact q2
  · intro v b cs d g c hc
    rw [e5]
    obtain ⟨q1, q2⟩ := h.c2 v b cs d ((sub v).subset g) c hc
    have hca : c ≠ a := by rintro rfl; rw [hd] at q1; cases q1
    exact ⟨q1, fun hl' => q2 ((lkd c hca).1 hl')⟩
  · intro v b v2 d blk g
    rw [e8]
    intro hb c hc hl'
    have hg := (sub v).subset g
    obtain ⟨_, q⟩ := hM.put d _ v2 (h.tok v _ _ d hg rfl).1
    obtain ⟨_, blk', q1, q2⟩ := q b rfl
    rw [hb] at q1; cases q1
    have hca : c ≠ a := by rintro rfl; rw [q2 c hc] at hd; cases hd
    exact h.c2' v b v2 d blk hg hb c hc ((lkd c hca).1 hl')
  · intro v l1 b cs d l2 g c hc
    rw [e5]
    by_cases e : c = a
    · subst e; exact Or.inr (Or.inl lka)
    · rw [lkd c e]
      by_cases ev : v = w
      · subst ev
        rw [e4] at g
        have := h.c3 v (.new k a :: l1) b cs d l2 (by rw [hs, g]; rfl) c hc
        rw [new_cons, List.mem_cons] at this
        rcases this with q | q | q | q
        · exact Or.inl q
        · exact Or.inr (Or.inl q)
        · exact absurd q e
        · exact Or.inr (Or.inr q)
      · rw [e3 v ev] at g
        exact h.c3 v l1 b cs d l2 g c hc
  · intro v b i d g hl'
    have hda : d ≠ a := by rintro rfl; exact noa v _ g rfl
    exact h.n1 v b i d ((sub v).subset g) ((lkd d hda).1 hl')

end FF.Dc
