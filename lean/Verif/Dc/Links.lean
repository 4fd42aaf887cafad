import Verif.Dc.Mem
/-! # Divide and conquer: obligations and dependencies -/
namespace FF.Dc
open FF.Mdf (Core Rec Cfg St)
open FF.Node (upd)

variable {Op R : Type}

def Tok.job : Tok R → Option (Kind R × Nat)
  | .new k a => some (k, a)
  | .act k a => some (k, a)
  | .done _ => none

def Tok.tgt : Tok R → Option Nat
  | .new _ a => some a
  | .act _ a => some a
  | .done _ => none

def Tok.fin : Tok R → Option Nat
  | .done t => some t
  | _ => none

theorem tgt_job {t : Tok R} {k : Kind R} {a : Nat} (h : t.job = some (k, a)) : t.tgt = some a := by
  cases t <;> simp_all [Tok.job, Tok.tgt]

theorem job_tgt {t : Tok R} {a : Nat} (h : t.tgt = some a) : ∃ k, t.job = some (k, a) := by
  cases t <;> simp_all [Tok.job, Tok.tgt]

/-- messages of thread `w` to the scheduler, sent or to be produced by the rest of its program -/
def S.stream (x : S Op R) (w : Nat) : List (Tok R) := x.chan w ++ x.prog w

/-- a task in the table is recorded as the writer of address `a` -/
def lk (c : Core) (a : Nat) : Prop := ∃ r, c.tk (c.ad a) = some r

def isDac (k : Kind R) : Prop := ∃ b i, k = .dac b i
def isComb (k : Kind R) : Prop := ∃ b cs, k = .comb b cs

def dacTask (x : S Op R) (t : Nat) : Prop := ∃ b i a, x.task t = some (.dac b i, a)

/-- in the stream of `w` the obligation for `a` is before the completion of the recorded writer of `a` -/
def Bef (x : S Op R) (w a : Nat) : Prop :=
  ∃ l1 t l2, x.stream w = l1 ++ t :: l2 ∧ t.tgt = some a ∧ Tok.done (x.s.c.ad a) ∈ l2 ∧
    (∀ k, t = .new k a → dacTask x (x.s.c.ad a) ∧ isComb k) ∧ (∀ b i, t = .act (.dac b i) a → dacTask x (x.s.c.ad a))

structure L (x : S Op R) : Prop where
  tok : ∀ w t k a, t ∈ x.stream w → t.job = some (k, a) → x.duty a = some k ∧ x.place a = .st w
  str : ∀ w a k, x.duty a = some k → x.place a = .st w → ∃ t ∈ x.stream w, t.job = some (k, a)
  nod : ∀ w, ((x.stream w).filterMap Tok.tgt).Nodup
  fin : ∀ w, ((x.stream w).filterMap Tok.fin).Nodup
  one : ∀ w w' t, Tok.done t ∈ x.stream w → Tok.done t ∈ x.stream w' → w = w'
  run : ∀ w t, Tok.done t ∈ x.stream w → ∃ r, x.s.c.tk t = some r ∧ r.st = .ready
  new : ∀ w k a, Tok.new k a ∈ x.stream w → isDac k ∨ isComb k
  tsk : ∀ t r, x.s.c.tk t = some r → ∃ k a, x.task t = some (k, a) ∧ (isDac k ∨ isComb k)
  idl : ∀ t r k a, x.s.c.tk t = some r → x.task t = some (k, a) → (∀ w, Tok.done t ∉ x.stream w) →
    x.duty a = some k ∧ x.place a = .tk t
  own : ∀ t a k, x.duty a = some k → x.place a = .tk t →
    (∃ r, x.s.c.tk t = some r) ∧ x.task t = some (k, a) ∧ ∀ w, Tok.done t ∉ x.stream w
  l0 : ∀ a, lk x.s.c a → (∃ k, x.task (x.s.c.ad a) = some (k, a)) ∧ x.live a = true
  l1 : ∀ a, lk x.s.c a → (x.duty a ≠ none ∧ x.place a = .tk (x.s.c.ad a)) ∨
    ∃ w, Tok.done (x.s.c.ad a) ∈ x.stream w ∧ (x.duty a = none ∨ Bef x w a)
  l2 : ∀ i r y, x.s.c.tk i = some r → y ∈ r.ubl → ∃ b cs ay kx ax, x.task y = some (.comb b cs, ay) ∧
    x.task i = some (kx, ax) ∧ ((ax ∈ cs ∧ x.s.c.ad ax = i) ∨ (ax = ay ∧ x.s.c.ad ax = y ∧ isDac kx))
  c1 : ∀ p r b cs a, x.s.c.tk p = some r → x.task p = some (.comb b cs, a) → (∀ w, Tok.done p ∉ x.stream w) →
    ∀ c ∈ cs, (x.duty c = none ∧ ¬ lk x.s.c c) ∨ ∃ r, x.s.c.tk (x.s.c.ad c) = some r ∧ p ∈ r.ubl
  c2 : ∀ w b cs a, Tok.act (.comb b cs) a ∈ x.stream w → ∀ c ∈ cs, x.duty c = none ∧ ¬ lk x.s.c c
  c2' : ∀ w b v a blk, Tok.act (.put (some b) v) a ∈ x.stream w → x.heap b = some blk → ∀ c ∈ blk.cells, ¬ lk x.s.c c
  c3 : ∀ w l1 b cs a l2, x.stream w = l1 ++ .new (.comb b cs) a :: l2 →
    ∀ c ∈ cs, x.duty c = none ∨ lk x.s.c c ∨ c ∈ l1.filterMap Tok.tgt
  n1 : ∀ w b i a, Tok.new (.dac b i) a ∈ x.stream w → ¬ lk x.s.c a

theorem Bef.same {x y : S Op R} (h1 : y.s.c = x.s.c) (h2 : y.task = x.task) {w a : Nat} (h3 : y.stream w = x.stream w)
    (h : Bef x w a) : Bef y w a := by
  unfold Bef dacTask at *
  rw [h1, h2, h3]
  exact h

/-- the invariant only depends on some parts of the state -/
theorem L.same {x y : S Op R} (h : L x) (h1 : y.s.c = x.s.c) (h2 : y.task = x.task) (h3 : ∀ w, y.stream w = x.stream w)
    (h4 : y.duty = x.duty) (h5 : y.place = x.place) (h6 : ∀ a, y.live a = x.live a) (h7 : y.heap = x.heap) : L y := by
  constructor
  · rw [h4, h5]; simp only [h3]; exact h.tok
  · rw [h4, h5]; simp only [h3]; exact h.str
  · simp only [h3]; exact h.nod
  · simp only [h3]; exact h.fin
  · simp only [h3]; exact h.one
  · rw [h1]; simp only [h3]; exact h.run
  · simp only [h3]; exact h.new
  · rw [h1, h2]; exact h.tsk
  · rw [h1, h2, h4, h5]; simp only [h3]; exact h.idl
  · rw [h1, h2, h4, h5]; simp only [h3]; exact h.own
  · rw [h1, h2]; simp only [h6]; exact h.l0
  · rw [h1, h4, h5]; simp only [h3]
    intro a ha
    rcases h.l1 a ha with q | ⟨w, q1, q2⟩
    · exact Or.inl q
    · refine Or.inr ⟨w, q1, ?_⟩
      rcases q2 with q | q
      · exact Or.inl q
      · exact Or.inr (q.same h1 h2 (h3 w))
  · rw [h1, h2]; exact h.l2
  · rw [h1, h2, h4]; simp only [h3]; exact h.c1
  · rw [h1, h4]; simp only [h3]; exact h.c2
  · rw [h1, h7]; simp only [h3]; exact h.c2'
  · rw [h1, h4]; simp only [h3]; exact h.c3
  · rw [h1]; simp only [h3]; exact h.n1

/-! ## Lists -/

theorem split_mid {T : Type} {A B l1 l2 : List T} {u t : T} (h : A ++ u :: B = l1 ++ t :: l2) :
    (∃ m, l1 = A ++ u :: m ∧ B = m ++ t :: l2) ∨ (l1 = A ∧ t = u ∧ l2 = B) ∨ (∃ m, A = l1 ++ t :: m ∧ l2 = m ++ u :: B) := by
  rw [List.append_eq_append_iff] at h
  rcases h with ⟨m, h1, h2⟩ | ⟨m, h1, h2⟩
  · cases m with
    | nil =>
      simp only [List.nil_append, List.cons.injEq] at h2
      exact Or.inr (Or.inl ⟨by simpa using h1, h2.1.symm, h2.2.symm⟩)
    | cons z m =>
      simp only [List.cons_append, List.cons.injEq] at h2
      obtain ⟨rfl, h2⟩ := h2
      exact Or.inl ⟨m, h1, h2⟩
  · cases m with
    | nil =>
      simp only [List.nil_append, List.cons.injEq] at h2
      exact Or.inr (Or.inl ⟨by simpa using h1.symm, h2.1, h2.2⟩)
    | cons z m =>
      simp only [List.cons_append, List.cons.injEq] at h2
      obtain ⟨rfl, h2⟩ := h2
      exact Or.inr (Or.inr ⟨m, h1, h2⟩)

theorem nodup_mid {T U : Type} {f : T → Option U} {A B : List T} {u : T} {v : U} (hf : f u = some v)
    (h : ((A ++ u :: B).filterMap f).Nodup) : (∀ t ∈ A, f t ≠ some v) ∧ (∀ t ∈ B, f t ≠ some v) := by
  rw [List.filterMap_append, List.filterMap_cons_some hf, List.nodup_append] at h
  obtain ⟨_, h2, h3⟩ := h
  rw [List.nodup_cons] at h2
  refine ⟨fun t ht e => ?_, fun t ht e => ?_⟩
  · exact h3 v (List.mem_filterMap.2 ⟨t, ht, e⟩) v (by simp) rfl
  · exact h2.1 (List.mem_filterMap.2 ⟨t, ht, e⟩)

/-! ## Start of a task -/

theorem L.start {x y : S Op R} (h : L x) (hT : Tb x.s.c) {w t a : Nat} {k : Kind R} {r : Rec}
    (ht : x.s.c.tk t = some r) (hr : r.st = .ready) (hk : x.task t = some (k, a)) (hi : ∀ v, Tok.done t ∉ x.stream v)
    (e1 : y.s.c = x.s.c) (e2 : y.task = x.task) (e3 : ∀ v, v ≠ w → y.stream v = x.stream v)
    (e4 : y.stream w = x.stream w ++ [.act k a, .done t]) (e5 : y.duty = x.duty)
    (e6 : y.place = upd x.place a (.st w)) (e7 : ∀ c, y.live c = x.live c) (e8 : y.heap = x.heap) : L y := by
  obtain ⟨hd, hp⟩ := h.idl t r k a ht hk hi
  obtain ⟨k', a', hk', hkk⟩ := h.tsk t r ht
  rw [hk] at hk'; cases hk'
  have hmem : ∀ v u, u ∈ y.stream v ↔ u ∈ x.stream v ∨ (v = w ∧ (u = .act k a ∨ u = .done t)) := by
    intro v u
    by_cases e : v = w
    · subst e; rw [e4]; simp
    · rw [e3 v e]; simp [e]
  have hno : ∀ v u, u ∈ x.stream v → u.tgt ≠ some a := by
    intro v u hu he
    obtain ⟨k2, hk2⟩ := job_tgt he
    have := (h.tok v u k2 a hu hk2).2
    rw [hp] at this; cases this
  have hub : ∀ i r' , x.s.c.tk i = some r' → t ∉ r'.ubl := by
    intro i r' hi' hm
    obtain ⟨q, q1, q2⟩ := hT.edg i r' t hi' hm
    rw [ht] at q1; cases q1; rw [hr] at q2; cases q2
  constructor
  · intro v u k2 a2 hu hj
    rw [e5, e6]
    rcases (hmem v u).1 hu with q | ⟨rfl, rfl | rfl⟩
    · have hne : a2 ≠ a := by rintro rfl; exact hno v u q (tgt_job hj)
      rw [upd_ne _ hne]
      exact h.tok v u k2 a2 q hj
    · cases hj; rw [upd_self]; exact ⟨hd, rfl⟩
    · cases hj
  · intro v a2 k2
    rw [e5, e6]
    intro h1 h2
    by_cases e : a2 = a
    · subst e
      rw [upd_self] at h2
      cases h2
      rw [hd] at h1; cases h1
      exact ⟨.act k a2, (hmem w _).2 (Or.inr ⟨rfl, Or.inl rfl⟩), rfl⟩
    · rw [upd_ne _ e] at h2
      obtain ⟨u, q1, q2⟩ := h.str v a2 k2 h1 h2
      exact ⟨u, (hmem v u).2 (Or.inl q1), q2⟩
  · intro v
    by_cases e : v = w
    · subst e
      rw [e4, List.filterMap_append, List.nodup_append]
      refine ⟨h.nod v, by simp [Tok.tgt, List.filterMap], ?_⟩
      intro p hp' q hq
      rw [List.mem_filterMap] at hp'
      obtain ⟨u, g1, g2⟩ := hp'
      have : q = a := by simpa [Tok.tgt, List.filterMap] using hq
      rintro rfl; subst this
      exact hno v u g1 g2
    · rw [e3 v e]; exact h.nod v
  · intro v
    by_cases e : v = w
    · subst e
      rw [e4, List.filterMap_append, List.nodup_append]
      refine ⟨h.fin v, by simp [Tok.fin, List.filterMap], ?_⟩
      intro p hp' q hq
      rw [List.mem_filterMap] at hp'
      obtain ⟨u, g1, g2⟩ := hp'
      have : q = t := by simpa [Tok.fin, List.filterMap] using hq
      rintro rfl; subst this
      cases u <;> simp only [Tok.fin, Option.some.injEq, reduceCtorEq] at g2
      subst g2
      exact hi v g1
    · rw [e3 v e]; exact h.fin v
  · intro v v' t2 h1 h2
    rcases (hmem v _).1 h1 with q | ⟨e, q | q⟩
    · rcases (hmem v' _).1 h2 with q' | ⟨e', q' | q'⟩
      · exact h.one v v' t2 q q'
      · cases q'
      · cases q'; exact absurd q (hi v)
    · cases q
    · cases q
      rcases (hmem v' _).1 h2 with q' | ⟨e', _⟩
      · exact absurd q' (hi v')
      · rw [e, e']
  · intro v t2 h1
    rw [e1]
    rcases (hmem v _).1 h1 with q | ⟨_, q | q⟩
    · exact h.run v t2 q
    · cases q
    · cases q; exact ⟨r, ht, hr⟩
  · intro v k2 a2 h1
    rcases (hmem v _).1 h1 with q | ⟨_, q | q⟩
    · exact h.new v k2 a2 q
    · cases q
    · cases q
  · rw [e1, e2]; exact h.tsk
  · intro t2 r2 k2 a2 g1 g2 g3
    rw [e1] at g1
    rw [e2] at g2
    rw [e5, e6]
    have hne : t2 ≠ t := by rintro rfl; exact g3 w ((hmem w _).2 (Or.inr ⟨rfl, Or.inr rfl⟩))
    obtain ⟨q1, q2⟩ := h.idl t2 r2 k2 a2 g1 g2 (fun v hv => g3 v ((hmem v _).2 (Or.inl hv)))
    have : a2 ≠ a := by rintro rfl; rw [hp] at q2; cases q2; exact hne rfl
    rw [upd_ne _ this]; exact ⟨q1, q2⟩
  · intro t2 a2 k2
    rw [e5, e6, e1, e2]
    intro g1 g2
    by_cases e : a2 = a
    · subst e; rw [upd_self] at g2; cases g2
    · rw [upd_ne _ e] at g2
      obtain ⟨q1, q2, q3⟩ := h.own t2 a2 k2 g1 g2
      refine ⟨q1, q2, fun v hv => ?_⟩
      rcases (hmem v _).1 hv with q | ⟨_, q | q⟩
      · exact q3 v q
      · cases q
      · cases q; rw [hk] at q2; cases q2; exact e rfl
  · rw [e1, e2]; simp only [e7]; exact h.l0
  · intro a2
    rw [e1, e5, e6]
    intro g
    by_cases e : a2 = a
    · subst e
      right
      have had : x.s.c.ad a2 = t := by
        rcases h.l1 a2 g with q | ⟨v, q1, q2⟩
        · have := q.2; rw [hp] at this; cases this; rfl
        · rcases q2 with q | ⟨l1, u, l2, b1, b2, _⟩
          · rw [hd] at q; cases q
          · exact absurd b2 (hno v u (by rw [b1]; simp))
      refine ⟨w, ?_, Or.inr ⟨x.stream w, .act k a2, [.done t], e4, rfl, ?_, ?_, ?_⟩⟩
      · rw [had, e4]; simp
      · rw [e1, had]; simp
      · intro k2 hk2; cases hk2
      · intro b i hbi
        cases hbi
        rw [e1, had]
        unfold dacTask
        rw [e2]
        exact ⟨b, i, a2, hk⟩
    · rw [upd_ne _ e]
      rcases h.l1 a2 g with q | ⟨v, q1, q2⟩
      · exact Or.inl q
      · refine Or.inr ⟨v, (hmem v _).2 (Or.inl q1), ?_⟩
        rcases q2 with q | ⟨l1, u, l2, b1, b2, b3, b4, b5⟩
        · exact Or.inl q
        · right
          by_cases ev : v = w
          · subst ev
            refine ⟨l1, u, l2 ++ [.act k a, .done t], by rw [e4, b1]; simp, b2, by rw [e1]; simp [b3], ?_, ?_⟩
            · unfold dacTask at *; rw [e1, e2]; exact b4
            · unfold dacTask at *; rw [e1, e2]; exact b5
          · refine ⟨l1, u, l2, by rw [e3 v ev, b1], b2, by rw [e1]; exact b3, ?_, ?_⟩
            · unfold dacTask at *; rw [e1, e2]; exact b4
            · unfold dacTask at *; rw [e1, e2]; exact b5
  · rw [e1, e2]; exact h.l2
  · intro p rp b cs a2
    rw [e1, e2, e5]
    intro g1 g2 g3
    exact h.c1 p rp b cs a2 g1 g2 (fun v hv => g3 v ((hmem v _).2 (Or.inl hv)))
  · intro v b cs a2 g
    rw [e1, e5]
    rcases (hmem v _).1 g with q | ⟨_, q | q⟩
    · exact h.c2 v b cs a2 q
    · cases q
      intro c hc
      rcases h.c1 t r b cs a ht hk hi c hc with q | ⟨r', q1, q2⟩
      · exact q
      · exact absurd q2 (hub _ r' q1)
    · cases q
  · intro v b v2 a2 blk g
    rw [e1, e8]
    rcases (hmem v _).1 g with q | ⟨_, q | q⟩
    · exact h.c2' v b v2 a2 blk q
    · cases q
      rcases hkk with ⟨_, _, q⟩ | ⟨_, _, q⟩ <;> cases q
    · cases q
  · intro v l1 b cs a2 l2 g
    rw [e1, e5]
    by_cases ev : v = w
    · subst ev
      rw [e4] at g
      have hm : Tok.new (.comb b cs) a2 ∈ x.stream v := by
        have : Tok.new (.comb b cs) a2 ∈ x.stream v ++ [.act k a, .done t] := by rw [g]; simp
        simpa using this
      rw [List.append_eq_append_iff] at g
      rcases g with ⟨m, g1, g2⟩ | ⟨m, g1, g2⟩
      · cases m with
        | nil => simp at g2
        | cons z m =>
          simp only [List.cons_append, List.cons.injEq] at g2
          obtain ⟨_, g2⟩ := g2
          cases m with
          | nil => simp at g2
          | cons z m => simp at g2
      · cases m with
        | nil => simp at g2
        | cons z m =>
          simp only [List.cons_append, List.cons.injEq] at g2
          obtain ⟨rfl, g2⟩ := g2
          exact h.c3 v l1 b cs a2 m g1
    · rw [e3 v ev] at g
      exact h.c3 v l1 b cs a2 l2 g
  · intro v b i a2 g
    rw [e1]
    rcases (hmem v _).1 g with q | ⟨_, q | q⟩
    · exact h.n1 v b i a2 q
    · cases q
    · cases q

end FF.Dc
