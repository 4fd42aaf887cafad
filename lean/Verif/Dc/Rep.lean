import Verif.Dc.Links
/-! # Divide and conquer: a worker replaces the head of its program -/
namespace FF.Dc
open FF.Mdf (Core Rec Cfg St)
open FF.Node (upd)

variable {Op R : Type}

theorem tgt_cons (k : Kind R) (a : Nat) (l : List (Tok R)) :
    (Tok.act k a :: l).filterMap Tok.tgt = a :: l.filterMap Tok.tgt := List.filterMap_cons_some rfl

/-- Worker `w` replaces `act k a` in its stream by the list `N`. -/
theorem L.rep {x y : S Op R} (h : L x) {w a : Nat} {k : Kind R} {A B N : List (Tok R)}
    (lv : ∀ c k', x.duty c = some k' → x.live c = true)
    (lc : ∀ c b cs, x.duty c = some (.comb b cs) → ∀ d ∈ cs, x.live d = true)
    (hs : x.stream w = A ++ .act k a :: B)
    (e1 : y.s.c = x.s.c) (e2 : y.task = x.task) (e3 : ∀ v, v ≠ w → y.stream v = x.stream v)
    (e4 : y.stream w = A ++ (N ++ B))
    (nf : ∀ t, Tok.done t ∉ N) (nn : (N.filterMap Tok.tgt).Nodup)
    (nt : ∀ u k' c, u ∈ N → u.job = some (k', c) → y.duty c = some k' ∧ y.place c = .st w ∧ (c = a ∨ x.live c = false))
    (dt : ∀ c, c ≠ a → x.live c = true → y.duty c = x.duty c ∧ y.place c = x.place c)
    (du : ∀ c k', y.duty c = some k' → (c = a ∨ x.live c = false) → ∃ u ∈ N, u.job = some (k', c))
    (yl : ∀ c, lk x.s.c c → y.live c = true)
    (nw : ∀ k' c, Tok.new k' c ∈ N → isDac k' ∨ isComb k')
    (na : ∀ u ∈ N, u.tgt = some a → (∀ k', u = .new k' a → isDac k ∧ isComb k') ∧ ∀ b i, u = .act (.dac b i) a → isDac k)
    (nc : ∀ b cs c, Tok.act (.comb b cs) c ∉ N)
    (np : ∀ b v c blk, Tok.act (.put (some b) v) c ∈ N → y.heap b = some blk → ∀ d ∈ blk.cells, ¬ lk x.s.c d)
    (hh : ∀ b blk, y.heap b = some blk → x.heap b = some blk ∨ ∀ c ∈ blk.cells, x.live c = false)
    (n3 : ∀ N1 b cs c N2, N = N1 ++ .new (.comb b cs) c :: N2 → ∀ d ∈ cs, y.duty d = none ∨ d ∈ N1.filterMap Tok.tgt)
    (nd : ∀ b i c, Tok.new (.dac b i) c ∈ N → x.live c = false) : L y := by
  have hu : Tok.act k a ∈ x.stream w := by rw [hs]; simp
  obtain ⟨hd, hp⟩ := h.tok w _ k a hu rfl
  have hla := lv a k hd
  obtain ⟨uA, uB⟩ := nodup_mid (f := Tok.tgt) (v := a) rfl (by have := h.nod w; rw [hs] at this; exact this)
  have old : ∀ v u, u ∈ y.stream v → u ∈ x.stream v ∨ (v = w ∧ u ∈ N) := by
    intro v u hm
    by_cases e : v = w
    · subst e
      rw [e4] at hm
      rw [hs]
      simp only [List.mem_append, List.mem_cons] at hm ⊢
      rcases hm with q | q | q
      · exact Or.inl (Or.inl q)
      · exact Or.inr ⟨trivial, q⟩
      · exact Or.inl (Or.inr (Or.inr q))
    · rw [e3 v e] at hm; exact Or.inl hm
  have keep : ∀ v u, u ∈ x.stream v → u ≠ .act k a → u ∈ y.stream v := by
    intro v u hm hne
    by_cases e : v = w
    · subst e
      rw [hs] at hm
      rw [e4]
      simp only [List.mem_append, List.mem_cons] at hm ⊢
      rcases hm with q | q | q
      · exact Or.inl q
      · exact absurd q hne
      · exact Or.inr (Or.inr q)
    · rw [e3 v e]; exact hm
  have put : ∀ u, u ∈ N → u ∈ y.stream w := by intro u hm; rw [e4]; simp [hm]
  have dn : ∀ v t, Tok.done t ∈ y.stream v ↔ Tok.done t ∈ x.stream v := by
    intro v t
    constructor
    · intro hm
      rcases old v _ hm with q | ⟨_, q⟩
      · exact q
      · exact absurd q (nf t)
    · intro hm; exact keep v _ hm (by intro e; cases e)
  have oldTgt : ∀ v u c, u ∈ x.stream v → u.tgt = some c → u ≠ .act k a → c ≠ a := by
    rintro v u c hm ht hne rfl
    obtain ⟨k2, hk2⟩ := job_tgt ht
    have := (h.tok v u k2 c hm hk2).2
    rw [hp] at this; cases this
    rw [hs] at hm
    simp only [List.mem_append, List.mem_cons] at hm
    rcases hm with q | q | q
    · exact uA u q ht
    · exact hne q
    · exact uB u q ht
  have oldLive : ∀ v u c, u ∈ x.stream v → u.tgt = some c → x.live c = true := by
    intro v u c hm ht
    obtain ⟨k2, hk2⟩ := job_tgt ht
    exact lv c k2 (h.tok v u k2 c hm hk2).1
  have mid : ∀ u ∈ A, u ∈ y.stream w ∧ u ∈ x.stream w ∧ u ≠ .act k a := by
    intro u hm
    refine ⟨by rw [e4]; simp [hm], by rw [hs]; simp [hm], ?_⟩
    rintro rfl; exact uA _ hm rfl
  have mid' : ∀ u ∈ B, u ∈ y.stream w ∧ u ∈ x.stream w ∧ u ≠ .act k a := by
    intro u hm
    refine ⟨by rw [e4]; simp [hm], by rw [hs]; simp [hm], ?_⟩
    rintro rfl; exact uB _ hm rfl
  have mN : ∀ c, c ∈ N.filterMap Tok.tgt → c = a ∨ x.live c = false := by
    intro c hc
    rw [List.mem_filterMap] at hc
    obtain ⟨u, g1, g2⟩ := hc
    obtain ⟨k2, hk2⟩ := job_tgt g2
    exact (nt u k2 c g1 hk2).2.2
  have mAB : ∀ c, (c ∈ A.filterMap Tok.tgt ∨ c ∈ B.filterMap Tok.tgt) → c ≠ a ∧ x.live c = true := by
    intro c hc
    rw [List.mem_filterMap, List.mem_filterMap] at hc
    rcases hc with ⟨u, g1, g2⟩ | ⟨u, g1, g2⟩
    · exact ⟨oldTgt w u c (mid u g1).2.1 g2 (mid u g1).2.2, oldLive w u c (mid u g1).2.1 g2⟩
    · exact ⟨oldTgt w u c (mid' u g1).2.1 g2 (mid' u g1).2.2, oldLive w u c (mid' u g1).2.1 g2⟩
  constructor
  · intro v u k2 c hm hj
    rcases old v u hm with q | ⟨rfl, q⟩
    · by_cases e : u = .act k a
      · subst e
        cases hj
        by_cases ev : v = w
        · subst ev
          rw [e4] at hm
          simp only [List.mem_append] at hm
          rcases hm with g | g | g
          · exact absurd rfl (mid _ g).2.2
          · obtain ⟨g1, g2, _⟩ := nt _ _ _ g rfl; exact ⟨g1, g2⟩
          · exact absurd rfl (mid' _ g).2.2
        · have := (h.tok v _ k a q rfl).2
          rw [hp] at this; cases this; exact absurd rfl ev
      · obtain ⟨g1, g2⟩ := h.tok v u k2 c q hj
        obtain ⟨d1, d2⟩ := dt c (oldTgt v u c q (tgt_job hj) e) (lv c k2 g1)
        rw [d1, d2]; exact ⟨g1, g2⟩
    · obtain ⟨g1, g2, _⟩ := nt u k2 c q hj; exact ⟨g1, g2⟩
  · intro v c k2 g1 g2
    by_cases e : c = a ∨ x.live c = false
    · obtain ⟨u, q1, q2⟩ := du c k2 g1 e
      have := (nt u k2 c q1 q2).2.1
      rw [g2] at this; cases this
      exact ⟨u, put u q1, q2⟩
    · simp only [not_or, Bool.not_eq_false] at e
      obtain ⟨d1, d2⟩ := dt c e.1 e.2
      rw [d1] at g1; rw [d2] at g2
      obtain ⟨u, q1, q2⟩ := h.str v c k2 g1 g2
      refine ⟨u, keep v u q1 ?_, q2⟩
      rintro rfl
      cases q2; exact e.1 rfl
  · intro v
    by_cases ev : v = w
    · subst ev
      have hn := h.nod v
      rw [hs, List.filterMap_append, tgt_cons, List.nodup_append, List.nodup_cons] at hn
      obtain ⟨n1, ⟨_, n3'⟩, n4⟩ := hn
      rw [e4, List.filterMap_append, List.filterMap_append, List.nodup_append, List.nodup_append]
      refine ⟨n1, ⟨nn, n3', ?_⟩, ?_⟩
      · rintro p hp' q hq rfl
        obtain ⟨m1, m2⟩ := mAB p (Or.inr hq)
        rcases mN p hp' with m | m
        · exact m1 m
        · rw [m2] at m; cases m
      · rintro p hp' q hq rfl
        rw [List.mem_append] at hq
        rcases hq with hq | hq
        · obtain ⟨m1, m2⟩ := mAB p (Or.inl hp')
          rcases mN p hq with m | m
          · exact m1 m
          · rw [m2] at m; cases m
        · exact n4 p hp' p (List.mem_cons_of_mem _ hq) rfl
    · rw [e3 v ev]; exact h.nod v
  · intro v
    by_cases ev : v = w
    · subst ev
      have hn := h.fin v
      have h0 : N.filterMap Tok.fin = [] := by
        rw [List.filterMap_eq_nil_iff]
        intro u hm
        cases u with
        | done t => exact absurd hm (nf t)
        | new _ _ => rfl
        | act _ _ => rfl
      rw [hs, List.filterMap_append, List.filterMap_cons_none rfl] at hn
      rw [e4, List.filterMap_append, List.filterMap_append, h0]
      exact hn
    · rw [e3 v ev]; exact h.fin v
  · intro v v' t; rw [dn, dn]; exact h.one v v' t
  · intro v t; rw [dn, e1]; exact h.run v t
  · intro v k2 c hm
    rcases old v _ hm with q | ⟨_, q⟩
    · exact h.new v k2 c q
    · exact nw k2 c q
  · rw [e1, e2]; exact h.tsk
  · intro t r k2 c
    rw [e1, e2]
    intro g1 g2 g3
    obtain ⟨q1, q2⟩ := h.idl t r k2 c g1 g2 (fun v hv => g3 v ((dn v t).2 hv))
    have hne : c ≠ a := by rintro rfl; rw [hp] at q2; cases q2
    obtain ⟨d1, d2⟩ := dt c hne (lv c k2 q1)
    rw [d1, d2]; exact ⟨q1, q2⟩
  · intro t c k2 g1 g2
    rw [e1, e2]
    have hne : ¬ (c = a ∨ x.live c = false) := by
      intro e
      obtain ⟨u, q1, q2⟩ := du c k2 g1 e
      have := (nt u k2 c q1 q2).2.1
      rw [g2] at this; cases this
    simp only [not_or, Bool.not_eq_false] at hne
    obtain ⟨d1, d2⟩ := dt c hne.1 hne.2
    rw [d1] at g1; rw [d2] at g2
    obtain ⟨q1, q2, q3⟩ := h.own t c k2 g1 g2
    exact ⟨q1, q2, fun v hv => q3 v ((dn v t).1 hv)⟩
  · intro c
    rw [e1, e2]
    intro g
    exact ⟨(h.l0 c g).1, yl c g⟩
  · intro c
    rw [e1]
    intro g
    have hcl := (h.l0 c g).2
    by_cases e : c = a
    · subst e
      right
      rcases h.l1 c g with q | ⟨v, q1, q2⟩
      · have := q.2; rw [hp] at this; cases this
      · refine ⟨v, (dn v _).2 q1, ?_⟩
        cases hy : y.duty c with
        | none => exact Or.inl rfl
        | some k2 =>
          right
          rcases q2 with q | ⟨l1, u, l2, b1, b2, b3, b4, b5⟩
          · rw [hd] at q; cases q
          · have hum : u ∈ x.stream v := by rw [b1]; simp
            have hue : u = .act k c := by
              by_contra hne
              exact oldTgt v u c hum b2 hne rfl
            subst hue
            have hvw : v = w := by
              have := (h.tok v _ k c hum rfl).2
              rw [hp] at this; cases this; rfl
            subst hvw
            have hB : l1 = A ∧ l2 = B := by
              rw [hs] at b1
              rcases split_mid b1 with ⟨m, _, m2⟩ | ⟨m1, _, m2⟩ | ⟨m, m1, _⟩
              · exact absurd rfl (uB (.act k c) (by rw [m2]; simp))
              · exact ⟨m1, m2⟩
              · exact absurd rfl (uA (.act k c) (by rw [m1]; simp))
            obtain ⟨rfl, rfl⟩ := hB
            obtain ⟨u2, m1, m2⟩ := du c k2 hy (Or.inl rfl)
            obtain ⟨N1, N2, rfl⟩ := List.append_of_mem m1
            have hdk : isDac k → dacTask y (y.s.c.ad c) := by
              rintro ⟨b, i, rfl⟩
              have := b5 b i rfl
              unfold dacTask at *; rw [e1, e2]; exact this
            refine ⟨l1 ++ N1, u2, N2 ++ l2, by rw [e4]; simp, tgt_job m2, by rw [e1]; simp [b3], ?_, ?_⟩
            · intro k' hk'
              obtain ⟨z1, z2⟩ := (na u2 m1 (tgt_job m2)).1 k' hk'
              exact ⟨hdk z1, z2⟩
            · intro b i hbi
              exact hdk ((na u2 m1 (tgt_job m2)).2 b i hbi)
    · obtain ⟨d1, d2⟩ := dt c e hcl
      rw [d1, d2]
      rcases h.l1 c g with q | ⟨v, q1, q2⟩
      · exact Or.inl q
      · refine Or.inr ⟨v, (dn v _).2 q1, ?_⟩
        rcases q2 with q | ⟨l1, u, l2, b1, b2, b3, b4, b5⟩
        · exact Or.inl q
        · right
          have b4' : ∀ k, u = .new k c → dacTask y (y.s.c.ad c) ∧ isComb k := by unfold dacTask at *; rw [e1, e2]; exact b4
          have b5' : ∀ b i, u = .act (.dac b i) c → dacTask y (y.s.c.ad c) := by unfold dacTask at *; rw [e1, e2]; exact b5
          by_cases ev : v = w
          · subst ev
            rw [hs] at b1
            rcases split_mid b1 with ⟨m, m1, m2⟩ | ⟨m1, m2, m3⟩ | ⟨m, m1, m2⟩
            · exact ⟨A ++ (N ++ m), u, l2, by rw [e4, m2]; simp, b2, by rw [e1]; exact b3, b4', b5'⟩
            · rw [m2] at b2; cases b2; exact absurd rfl e
            · refine ⟨l1, u, m ++ (N ++ B), by rw [e4, m1]; simp, b2, ?_, b4', b5'⟩
              rw [m2] at b3
              rw [e1]
              simp only [List.mem_append, List.mem_cons] at b3 ⊢
              rcases b3 with z | z | z
              · exact Or.inl z
              · cases z
              · exact Or.inr (Or.inr z)
          · exact ⟨l1, u, l2, by rw [e3 v ev]; exact b1, b2, by rw [e1]; exact b3, b4', b5'⟩
  · rw [e1, e2]; exact h.l2
  · intro p r b cs c
    rw [e1, e2]
    intro g1 g2 g3
    have g3' : ∀ v, Tok.done p ∉ x.stream v := fun v hv => g3 v ((dn v p).2 hv)
    obtain ⟨q1, _⟩ := h.idl p r _ c g1 g2 g3'
    intro d hd'
    rcases h.c1 p r b cs c g1 g2 g3' d hd' with ⟨z1, z2⟩ | z
    · left
      have hne : d ≠ a := by rintro rfl; rw [hd] at z1; cases z1
      rw [(dt d hne (lc c b cs q1 d hd')).1]
      exact ⟨z1, z2⟩
    · exact Or.inr z
  · intro v b cs c hm d hd'
    rw [e1]
    rcases old v _ hm with q | ⟨_, q⟩
    · obtain ⟨z1, z2⟩ := h.c2 v b cs c q d hd'
      have hne : d ≠ a := by rintro rfl; rw [hd] at z1; cases z1
      rw [(dt d hne (lc c b cs (h.tok v _ _ c q rfl).1 d hd')).1]
      exact ⟨z1, z2⟩
    · exact absurd q (nc b cs c)
  · intro v b v2 c blk hm hb d hd'
    rw [e1]
    rcases old v _ hm with q | ⟨_, q⟩
    · rcases hh b blk hb with z | z
      · exact h.c2' v b v2 c blk q z d hd'
      · intro g
        have := (h.l0 d g).2
        rw [z d hd'] at this; cases this
    · exact np b v2 c blk q hb d hd'
  · intro v l1 b cs c l2 g d hd'
    rw [e1]
    have main : ∀ l1', x.stream v = l1' ++ .new (.comb b cs) c :: l2 → (∀ e, e ∈ l1'.filterMap Tok.tgt → e ≠ a → e ∈ l1.filterMap Tok.tgt) →
        (a ∈ l1'.filterMap Tok.tgt → y.duty a = none ∨ a ∈ l1.filterMap Tok.tgt) →
        y.duty d = none ∨ lk x.s.c d ∨ d ∈ l1.filterMap Tok.tgt := by
      intro l1' g1 g2 g3
      have hm : Tok.new (.comb b cs) c ∈ x.stream v := by rw [g1]; simp
      rcases h.c3 v l1' b cs c l2 g1 d hd' with z | z | z
      · left
        have hne : d ≠ a := by rintro rfl; rw [hd] at z; cases z
        rw [(dt d hne (lc c b cs (h.tok v _ _ c hm rfl).1 d hd')).1]
        exact z
      · exact Or.inr (Or.inl z)
      · by_cases e : d = a
        · subst e
          rcases g3 z with z' | z'
          · exact Or.inl z'
          · exact Or.inr (Or.inr z')
        · exact Or.inr (Or.inr (g2 d z e))
    by_cases ev : v = w
    · subst ev
      rw [e4] at g
      have gg := g
      rw [List.append_eq_append_iff] at g
      have inB : ∀ m, B = m ++ .new (.comb b cs) c :: l2 → l1 = A ++ (N ++ m) → y.duty d = none ∨ lk x.s.c d ∨ d ∈ l1.filterMap Tok.tgt := by
        rintro m rfl rfl
        apply main (A ++ .act k a :: m) (by rw [hs]; simp)
        · intro e he hne
          simp only [List.filterMap_append, List.mem_append] at he ⊢
          rcases he with z | z
          · exact Or.inl z
          · rw [tgt_cons, List.mem_cons] at z
            rcases z with z | z
            · exact absurd z hne
            · exact Or.inr (Or.inr z)
        · intro _
          cases hy : y.duty a with
          | none => exact Or.inl rfl
          | some k2 =>
            right
            obtain ⟨u2, m1, m2⟩ := du a k2 hy (Or.inl rfl)
            simp only [List.filterMap_append, List.mem_append]
            exact Or.inr (Or.inl (List.mem_filterMap.2 ⟨u2, m1, tgt_job m2⟩))
      have inN : ∀ N1 N2, N = N1 ++ .new (.comb b cs) c :: N2 → l1 = A ++ N1 → y.duty d = none ∨ lk x.s.c d ∨ d ∈ l1.filterMap Tok.tgt := by
        intro N1 N2 hN hl
        rcases n3 N1 b cs c N2 hN d hd' with z | z
        · exact Or.inl z
        · right; right
          rw [hl, List.filterMap_append, List.mem_append]
          exact Or.inr z
      rcases g with ⟨m, g1, g2⟩ | ⟨m, g1, g2⟩
      · rw [List.append_eq_append_iff] at g2
        rcases g2 with ⟨m', g3, g4⟩ | ⟨m', g3, g4⟩
        · exact inB m' g4 (by rw [g1, g3])
        · cases m' with
          | nil =>
            simp only [List.nil_append] at g4
            exact inB [] (by simpa using g4.symm) (by rw [g1]; simp [g3])
          | cons z m' =>
            simp only [List.cons_append, List.cons.injEq] at g4
            obtain ⟨rfl, g4⟩ := g4
            exact inN m m' g3 g1
      · cases m with
        | nil =>
          simp only [List.nil_append] at g2
          cases N with
          | nil => exact inB [] (by simpa using g2.symm) (by simp [g1])
          | cons z N =>
            simp only [List.cons_append, List.cons.injEq] at g2
            obtain ⟨rfl, g2⟩ := g2
            exact inN [] N rfl (by simpa using g1.symm)
        | cons z m =>
          simp only [List.cons_append, List.cons.injEq] at g2
          obtain ⟨rfl, g2⟩ := g2
          rcases h.c3 v l1 b cs c (m ++ .act k a :: B) (by rw [hs, g1]; simp) d hd' with z | z | z
          · left
            have hne : d ≠ a := by rintro rfl; rw [hd] at z; cases z
            have hm : Tok.new (.comb b cs) c ∈ x.stream v := by rw [hs, g1]; simp
            rw [(dt d hne (lc c b cs (h.tok v _ _ c hm rfl).1 d hd')).1]
            exact z
          · exact Or.inr (Or.inl z)
          · exact Or.inr (Or.inr z)
    · rw [e3 v ev] at g
      refine main l1 g (fun e he _ => he) (fun he => ?_)
      exact Or.inr he
  · intro v b i c hm
    rw [e1]
    rcases old v _ hm with q | ⟨_, q⟩
    · exact h.n1 v b i c q
    · intro g
      have := (h.l0 c g).2
      rw [nd b i c q] at this; cases this

end FF.Dc
