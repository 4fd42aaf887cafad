import Verif.Mdf.Queues
/-! # Invariant of a run of a macro data flow program -/
namespace FF.Mdf
open FF.Farm (sumN)
open FF.Node (upd)

def counts (log : List Ev) (k : Nat) : Nat × Nat × Nat := (log.count (.start k), log.count (.op k), log.count (.fin k))

/-- Specification: the orders of events that respect the dependencies of the program `P`.  A task starts
once, after the end of all the earlier tasks that it is in conflict with, performs its `len k` operations
and ends once. -/
inductive Legal (P : List (List Param)) (len : Nat → Nat) : List Ev → Prop
  | nil : Legal P len []
  | start {l k : _} (h : Legal P len l) (hk : k < P.length) (h0 : counts l k = (0, 0, 0))
      (hc : ∀ j p q, j < k → P[j]? = some p → P[k]? = some q → Conf p q → Ev.fin j ∈ l) : Legal P len (l ++ [.start k])
  | op {l k n : _} (h : Legal P len l) (hk : k < P.length) (h0 : counts l k = (1, n, 0)) (hn : n < len k) :
      Legal P len (l ++ [.op k])
  | fin {l k : _} (h : Legal P len l) (hk : k < P.length) (h0 : counts l k = (1, len k, 0)) :
      Legal P len (l ++ [.fin k])

/-- how many events of a task there are, from its place -/
def phase (G : Cfg) (s : S) (i : Nat) : Nat × Nat × Nat :=
  match s.loc i with
  | .no => if s.c.fin i then (1, G.len (s.num i), 1) else (0, 0, 0)
  | .rq _ => (0, 0, 0)
  | .q _ => (0, 0, 0)
  | .cur w => (1, s.pos w, 0)
  | .back _ => (1, G.len (s.num i), 1)

structure Inv0 (G : Cfg) (P : List (List Param)) (s : S) : Prop where
  g : Good s.c
  m : s.m < G.n
  numP : ∀ i p, s.c.par i = some p → s.num i < s.numb ∧ P[s.num i]? = some p
  mono : ∀ i j p q, s.c.par i = some p → s.c.par j = some q → i < j → s.num i < s.num j
  sur : ∀ k, k < s.numb → ∃ i p, s.c.par i = some p ∧ s.num i = k
  rest : P.drop s.numb = s.inq.filterMap id ++ s.todo
  le : s.numb ≤ P.length
  chE : s.ended = true → s.inq = [] ∧ s.endSent = true
  chS : s.endSent = true → s.todo = [] ∧ (s.ended = false → ∃ l, s.inq = l ++ [none] ∧ none ∉ l)
  chN : s.endSent = false → none ∉ s.inq
  cp : s.numb = sumN (fun i => (s.c.par i).toList.length) s.c.next
  cf : s.compl = sumN (fun i => (s.c.fin i).toNat) s.c.next
  fp : ∀ i, s.c.fin i = true → ∃ p, s.c.par i = some p
  bad : s.bad = false
  ph : ∀ i p, s.c.par i = some p → counts s.log (s.num i) = phase G s i
  pl : ∀ w i, s.cur w = some i → s.pos w ≤ G.len (s.num i)
  fut : ∀ k, s.numb ≤ k → counts s.log k = (0, 0, 0)
  leg : Legal P G.len s.log

structure Inv (G : Cfg) (P : List (List Param)) (s : S) : Prop where
  z : Inv0 G P s
  q : Qi G s (Rdy s.c)
  sat : s.nrd = 0 ∨ ∀ w, w < G.n → 1 ≤ s.nsch w
  ov : s.over = true ↔ s.ended = true ∧ s.numb = s.compl

theorem phase_moved {G : Cfg} {s s' : S} (h : Moved s s') (i : Nat) : phase G s' i = phase G s i := by
  unfold phase
  cases h.loc i with
  | inl e => rw [e, h.c, h.num, h.pos]
  | inr e => obtain ⟨w, w', e1, e2⟩ := e; rw [e1, e2]

theorem Inv0.moved {G : Cfg} {P : List (List Param)} {s s' : S} (h : Inv0 G P s) (g : Moved s s') : Inv0 G P s' := by
  constructor
  · rw [g.c]; exact h.g
  · rw [g.m]; exact h.m
  · rw [g.c, g.num, g.numb]; exact h.numP
  · rw [g.c, g.num]; exact h.mono
  · rw [g.c, g.num, g.numb]; exact h.sur
  · rw [g.inq, g.todo, g.numb]; exact h.rest
  · rw [g.numb]; exact h.le
  · rw [g.ended, g.inq, g.endSent]; exact h.chE
  · rw [g.endSent, g.todo, g.ended, g.inq]; exact h.chS
  · rw [g.endSent, g.inq]; exact h.chN
  · rw [g.numb, g.c]; exact h.cp
  · rw [g.compl, g.c]; exact h.cf
  · rw [g.c]; exact h.fp
  · exact g.bad h.bad
  · intro i p hp
    rw [g.c] at hp
    rw [phase_moved g, g.log, g.num]
    exact h.ph i p hp
  · rw [g.cur, g.pos, g.num]; exact h.pl
  · rw [g.numb, g.log]; exact h.fut
  · rw [g.log]; exact h.leg

theorem Inv0.pushed {G : Cfg} {P : List (List Param)} {l : List Nat} {s s' : S} (h : Inv0 G P s) (g : Pushed l s s')
    (hl : ∀ k ∈ l, s.loc k = .no ∧ s.c.fin k = false) : Inv0 G P s' := by
  constructor
  · rw [g.c]; exact h.g
  · rw [g.m]; exact h.m
  · rw [g.c, g.num, g.numb]; exact h.numP
  · rw [g.c, g.num]; exact h.mono
  · rw [g.c, g.num, g.numb]; exact h.sur
  · rw [g.inq, g.todo, g.numb]; exact h.rest
  · rw [g.numb]; exact h.le
  · rw [g.ended, g.inq, g.endSent]; exact h.chE
  · rw [g.endSent, g.todo, g.ended, g.inq]; exact h.chS
  · rw [g.endSent, g.inq]; exact h.chN
  · rw [g.numb, g.c]; exact h.cp
  · rw [g.compl, g.c]; exact h.cf
  · rw [g.c]; exact h.fp
  · rw [g.bad]; exact h.bad
  · intro i p hp
    rw [g.c] at hp
    have : phase G s' i = phase G s i := by
      unfold phase
      cases g.loc i with
      | inl e => rw [e, g.c, g.num, g.pos]
      | inr e =>
        obtain ⟨hm, w, e1⟩ := e
        obtain ⟨f1, f2⟩ := hl i hm
        rw [e1, f1]
        dsimp only
        rw [f2]; rfl
    rw [this, g.log, g.num]
    exact h.ph i p hp
  · rw [g.cur, g.pos, g.num]; exact h.pl
  · rw [g.numb, g.log]; exact h.fut
  · rw [g.log]; exact h.leg

theorem inv_init {G : Cfg} (hn : 1 ≤ G.n) (P : List (List Param)) : Inv G P (S.init P) := by
  refine ⟨?_, ?_, Or.inl rfl, by simp [S.init]⟩
  · constructor
    · exact good_init
    · show 0 < G.n; omega
    · intro i p h; cases h
    · intro i j p q h; cases h
    · intro k hk; exact absurd hk (Nat.not_lt_zero k)
    · simp [S.init]
    · exact Nat.zero_le _
    · intro h; cases h
    · intro h; cases h
    · simp [S.init]
    · rfl
    · rfl
    · intro i h; cases h
    · rfl
    · intro i p h; cases h
    · intro w i h; cases h
    · intro k _; rfl
    · exact Legal.nil
  · constructor
    · show 0 < G.n; omega
    · rw [Parfor.sumN_zero]; rfl; intro i _; rfl
    all_goals first | (intro w; simp [S.init]; done) | (intro w k; simp [S.init]; done) | skip
    intro k
    simp [S.init, Rdy, Core.init]

/-- a ready task has been submitted and is not completed -/
theorem rdy_real {c : Core} (h : Good c) {k : Nat} (hr : Rdy c k) : (∃ p, c.par k = some p) ∧ c.fin k = false := by
  obtain ⟨r, h1, h2⟩ := hr
  have hd : r.st ≠ .done := by rw [h2]; decide
  refine ⟨(h.b.real k r h1).1 ?_, h.b.dead k r h1 hd⟩
  cases hdm : r.dummy with
  | false => rfl
  | true => exact absurd (h.b.dum k r h1 hdm) hd

/-- different tasks have different numbers -/
theorem num_inj {G : Cfg} {P : List (List Param)} {s : S} (h : Inv0 G P s) {i j : Nat} {p q : List Param}
    (hi : s.c.par i = some p) (hj : s.c.par j = some q) (he : s.num i = s.num j) : i = j := by
  rcases Nat.lt_trichotomy i j with hl | hl | hl
  · have := h.mono i j p q hi hj hl; omega
  · exact hl
  · have := h.mono j i q p hj hi hl; omega

theorem fin_no {G : Cfg} {P : List (List Param)} {s : S} (h : Inv G P s) {i : Nat} (hf : s.c.fin i = true) :
    s.loc i = .no := by
  by_cases e : s.loc i = .no
  · exact e
  · have := (rdy_real h.z.g ((h.q.rdy i).2 e)).2
    rw [hf] at this; cases this

/-- a ready task may start: the earlier tasks in conflict with it are completed -/
theorem conf_fin {G : Cfg} {P : List (List Param)} {s : S} (h : Inv G P s) {t : Nat} (ht : Rdy s.c t)
    {j : Nat} {p q : List Param} (hj : j < s.num t) (hp : P[j]? = some p) (hq : P[s.num t]? = some q) (hc : Conf p q) :
    Ev.fin j ∈ s.log := by
  obtain ⟨⟨q', hq'⟩, _⟩ := rdy_real h.z.g ht
  have h1 := h.z.numP t q' hq'
  rw [hq] at h1
  have e : q' = q := by have := h1.2; simpa using this.symm
  subst e
  obtain ⟨i, p', hi, hn⟩ := h.z.sur j (by omega)
  have h2 := h.z.numP i p' hi
  rw [hn, hp] at h2
  have e : p' = p := by have := h2.2; simpa using this.symm
  subst e
  have hlt : i < t := by
    rcases Nat.lt_trichotomy i t with hl | hl | hl
    · exact hl
    · subst hl; omega
    · have := h.z.mono t i q' p' hq' hi hl; omega
  have hf : s.c.fin i = true := by
    cases hf : s.c.fin i with
    | true => rfl
    | false =>
      obtain ⟨r, e1, e2, _⟩ := path_live h.z.g.b (h.z.g.o i t p' q' hi hq' hlt hc hf)
      obtain ⟨r', e3, e4⟩ := ht
      rw [e1] at e3; cases e3; rw [e2] at e4; cases e4
  have hph := h.z.ph i p' hi
  unfold counts phase at hph
  rw [hn, fin_no h hf] at hph
  dsimp only at hph
  rw [hf] at hph
  simp only [if_true, Prod.mk.injEq] at hph
  exact List.count_pos_iff.1 (by omega)

/-! ## The actions -/

theorem counts_append (log : List Ev) (e : Ev) (k : Nat) : counts (log ++ [e]) k =
    (log.count (.start k) + (if e = .start k then 1 else 0), log.count (.op k) + (if e = .op k then 1 else 0),
     log.count (.fin k) + (if e = .fin k then 1 else 0)) := by
  unfold counts
  simp only [List.count_append, List.count_singleton, beq_iff_eq]

theorem compl_le {G : Cfg} {P : List (List Param)} {s : S} (h : Inv0 G P s) : s.compl ≤ s.numb := by
  rw [h.cp, h.cf]
  apply Parfor.sumN_le
  intro i _
  cases hf : s.c.fin i with
  | false => simp
  | true => obtain ⟨p, hp⟩ := h.fp i hf; rw [hp]; simp

theorem inv_submit {G : Cfg} {P : List (List Param)} {s s' : S} (h : Inv G P s) (hs : step G s .submit = some s') :
    Inv G P s' := by
  simp only [step] at hs
  split at hs
  · cases hs
  · rename_i p ps ht
    split at hs
    · simp only [Option.some.injEq] at hs
      subst hs
      refine ⟨⟨h.z.g, h.z.m, h.z.numP, h.z.mono, h.z.sur, ?_, h.z.le, ?_, ?_, ?_, h.z.cp, h.z.cf, h.z.fp, h.z.bad, h.z.ph,
        h.z.pl, h.z.fut, h.z.leg⟩, ⟨h.q.mm, h.q.nrd, h.q.nsch, h.q.few, h.q.lrq, h.q.lq, h.q.lcur, h.q.lback, h.q.nrq, h.q.nq,
        h.q.nback, h.q.far, h.q.rdy⟩, h.sat, h.ov⟩
      · dsimp only
        rw [h.z.rest, ht]; simp
      · intro he
        have := (h.z.chS (h.z.chE he).2).1
        rw [ht] at this; cases this
      · intro he
        have := (h.z.chS he).1
        rw [ht] at this; cases this
      · intro he
        have := h.z.chN he
        simpa using this
    · cases hs

theorem inv_submitEnd {G : Cfg} {P : List (List Param)} {s s' : S} (h : Inv G P s) (hs : step G s .submitEnd = some s') :
    Inv G P s' := by
  simp only [step] at hs
  split at hs
  · rename_i hc
    simp only [Option.some.injEq] at hs
    subst hs
    refine ⟨⟨h.z.g, h.z.m, h.z.numP, h.z.mono, h.z.sur, ?_, h.z.le, ?_, ?_, ?_, h.z.cp, h.z.cf, h.z.fp, h.z.bad, h.z.ph,
      h.z.pl, h.z.fut, h.z.leg⟩, ⟨h.q.mm, h.q.nrd, h.q.nsch, h.q.few, h.q.lrq, h.q.lq, h.q.lcur, h.q.lback, h.q.nrq, h.q.nq,
      h.q.nback, h.q.far, h.q.rdy⟩, h.sat, h.ov⟩
    · dsimp only
      rw [h.z.rest]; simp
    · intro he
      have := (h.z.chE he).2
      rw [hc.2.1] at this; cases this
    · intro _
      exact ⟨hc.1, fun _ => ⟨s.inq, rfl, h.z.chN hc.2.1⟩⟩
    · intro he; cases he
  · cases hs

theorem inv_null {G : Cfg} {P : List (List Param)} {s s' : S} (h : Inv G P s) (hs : step G s .null = some s') :
    Inv G P s' := by
  simp only [step] at hs
  split at hs
  · split at hs
    · simp only [Option.some.injEq] at hs
      subst hs
      exact ⟨⟨h.z.g, h.z.m, h.z.numP, h.z.mono, h.z.sur, h.z.rest, h.z.le, h.z.chE, h.z.chS, h.z.chN, h.z.cp, h.z.cf, h.z.fp, h.z.bad, h.z.ph,
        h.z.pl, h.z.fut, h.z.leg⟩, ⟨h.q.mm, h.q.nrd, h.q.nsch, h.q.few, h.q.lrq, h.q.lq, h.q.lcur, h.q.lback, h.q.nrq, h.q.nq,
        h.q.nback, h.q.far, h.q.rdy⟩, h.sat, h.ov⟩
    · simp only [Option.some.injEq] at hs
      subst hs; exact h
  · cases hs

/-- END is the last element of the input channel -/
theorem end_last {G : Cfg} {P : List (List Param)} {s : S} (h : Inv0 G P s) {rest : List (Option (List Param))}
    (hq : s.inq = none :: rest) : rest = [] ∧ s.endSent = true ∧ s.ended = false := by
  have he : s.endSent = true := by
    cases he : s.endSent with
    | true => rfl
    | false => have := h.chN he; rw [hq] at this; simp at this
  have hd : s.ended = false := by
    cases hd : s.ended with
    | false => rfl
    | true => have := (h.chE hd).1; rw [hq] at this; cases this
  obtain ⟨l, h1, h2⟩ := (h.chS he).2 hd
  refine ⟨?_, he, hd⟩
  rw [hq] at h1
  cases l with
  | nil => simpa using h1
  | cons a l =>
    simp only [List.cons_append, List.cons.injEq] at h1
    rw [← h1.1] at h2; simp at h2

theorem inv_end {G : Cfg} {P : List (List Param)} {s : S} (h : Inv G P s) {rest : List (Option (List Param))}
    (hq : s.inq = none :: rest) : Inv G P (S.theEnd { s with inq := rest }) := by
  obtain ⟨h1, h2, h3⟩ := end_last h.z hq
  refine ⟨⟨h.z.g, h.z.m, h.z.numP, h.z.mono, h.z.sur, ?_, h.z.le, ?_, ?_, ?_, h.z.cp, h.z.cf, h.z.fp, h.z.bad, h.z.ph,
    h.z.pl, h.z.fut, h.z.leg⟩, ⟨h.q.mm, h.q.nrd, h.q.nsch, h.q.few, h.q.lrq, h.q.lq, h.q.lcur, h.q.lback, h.q.nrq, h.q.nq,
    h.q.nback, h.q.far, h.q.rdy⟩, h.sat, ?_⟩
  · show P.drop s.numb = rest.filterMap id ++ s.todo
    rw [h.z.rest, hq]; simp
  · intro _; exact ⟨h1, h2⟩
  · intro _
    refine ⟨(h.z.chS h2).1, ?_⟩
    intro hx; cases hx
  · intro hx
    have : s.endSent = false := hx
    rw [h2] at this; cases this
  · show decide (s.numb = s.compl) = true ↔ true = true ∧ s.numb = s.compl
    simp

theorem far_next {c : Core} (h : Good c) : c.par c.next = none ∧ c.tk c.next = none ∧ c.fin c.next = false := by
  refine ⟨?_, ?_, ?_⟩
  · cases e : c.par c.next with
    | none => rfl
    | some p => have := h.b.idp _ p e; omega
  · cases e : c.tk c.next with
    | none => rfl
    | some p => have := h.b.idt _ p e; omega
  · cases e : c.fin c.next with
    | false => rfl
    | true => have := h.b.idf _ e; omega

theorem sumN_le_ext {f g : Nat → Nat} {n m : Nat} (hnm : n < m) (h : ∀ k, k < n → f k = g k)
    (hn : f n = 1) (h0 : ∀ k, n < k → k < m → f k = 0) : sumN f m = sumN g n + 1 := by
  rw [sumN_ext (n := n + 1) (by omega) (fun k h1 h2 => h0 k (by omega) h2)]
  simp only [sumN]
  rw [hn, Farm.sumN_congr h]

theorem inv_insert {G : Cfg} {P : List (List Param)} (hwf : ∀ ps ∈ P, WF ps) {s : S} (h : Inv G P s)
    {ps : List Param} {rest : List (Option (List Param))} (hq : s.inq = some ps :: rest) :
    Inv0 G P (S.insert G { s with inq := rest } ps) ∧
    Qi G (S.insert G { s with inq := rest } ps) (Rdy (S.insert G { s with inq := rest } ps).c) ∧
    (S.insert G { s with inq := rest } ps).over = s.over ∧ (S.insert G { s with inq := rest } ps).ended = s.ended := by
  have hdrop : P.drop s.numb = ps :: (rest.filterMap id ++ s.todo) := by rw [h.z.rest, hq]; simp
  have hget : P[s.numb]? = some ps := by
    have : (P.drop s.numb)[0]? = some ps := by rw [hdrop]; rfl
    simpa using this
  have hlt : s.numb < P.length := by
    by_cases hl : s.numb < P.length
    · exact hl
    · rw [List.drop_of_length_le (by omega)] at hdrop; cases hdrop
  have hw : WF ps := hwf ps (List.mem_of_getElem? hget)
  obtain ⟨g1, g2, g3, g4, g5⟩ := insert_desc h.z.g hw
  obtain ⟨f1, f2, f3⟩ := far_next h.z.g
  have hlocn : s.loc s.c.next = .no := by
    by_cases e : s.loc s.c.next = .no
    · exact e
    · obtain ⟨r, hr, _⟩ := (h.q.rdy _).2 e; rw [f2] at hr; cases hr
  obtain ⟨c', hc'⟩ : ∃ c', c' = s.c.insert ps := ⟨_, rfl⟩
  rw [← hc'] at g1 g2 g3 g4 g5
  obtain ⟨s1, hs1⟩ : ∃ s1 : S, s1 = { s with inq := rest, c := c', num := upd s.num s.c.next s.numb, numb := s.numb + 1 } := ⟨_, rfl⟩
  have hnumo : ∀ i p, s.c.par i = some p → upd s.num s.c.next s.numb i = s.num i := by
    intro i p hp
    have : i ≠ s.c.next := by rintro rfl; rw [f1] at hp; cases hp
    simp only [upd, if_neg this]
  have hparc : ∀ i p, c'.par i = some p → (i = s.c.next ∧ p = ps) ∨ (i ≠ s.c.next ∧ s.c.par i = some p) := by
    intro i p hp
    rw [g3] at hp
    by_cases e : i = s.c.next
    · rw [if_pos e] at hp; cases hp; exact Or.inl ⟨e, rfl⟩
    · rw [if_neg e] at hp; exact Or.inr ⟨e, hp⟩
  have hz : Inv0 G P s1 := by
    rw [hs1]
    constructor
    · exact g1
    · exact h.z.m
    · intro i p hp
      dsimp only at hp ⊢
      rcases hparc i p hp with ⟨rfl, rfl⟩ | ⟨e, hp⟩
      · simp only [upd, if_true]; exact ⟨by omega, hget⟩
      · rw [hnumo i p hp]
        obtain ⟨a, b⟩ := h.z.numP i p hp
        exact ⟨by omega, b⟩
    · intro i j p q hp hq hij
      dsimp only at hp hq ⊢
      rcases hparc j q hq with ⟨rfl, rfl⟩ | ⟨e, hq⟩
      · rcases hparc i p hp with ⟨rfl, rfl⟩ | ⟨e, hp⟩
        · omega
        · rw [hnumo i p hp]
          simp only [upd, if_true]
          exact (h.z.numP i p hp).1
      · have := h.z.g.b.idp j q hq
        rcases hparc i p hp with ⟨rfl, rfl⟩ | ⟨e, hp⟩
        · omega
        · rw [hnumo i p hp, hnumo j q hq]
          exact h.z.mono i j p q hp hq hij
    · intro k hk
      dsimp only at hk ⊢
      by_cases e : k = s.numb
      · refine ⟨s.c.next, ps, by rw [g3, if_pos rfl], ?_⟩
        simp only [upd, if_true]; exact e.symm
      · obtain ⟨i, p, hp, hn⟩ := h.z.sur k (by omega)
        refine ⟨i, p, ?_, by rw [hnumo i p hp]; exact hn⟩
        rw [g3, if_neg (by rintro rfl; rw [f1] at hp; cases hp)]; exact hp
    · dsimp only
      rw [← List.drop_drop, hdrop]; rfl
    · dsimp only; omega
    · intro he
      have := (h.z.chE he).1
      rw [hq] at this; cases this
    · intro he
      obtain ⟨h1, h2⟩ := h.z.chS he
      refine ⟨h1, fun hd => ?_⟩
      obtain ⟨l, h3, h4⟩ := h2 hd
      rw [hq] at h3
      cases l with
      | nil => simp at h3
      | cons a l =>
        simp only [List.cons_append, List.cons.injEq] at h3
        exact ⟨l, h3.2, fun hm => h4 (List.mem_cons_of_mem _ hm)⟩
    · intro he hm
      have := h.z.chN he
      rw [hq] at this
      exact this (List.mem_cons_of_mem _ hm)
    · dsimp only
      rw [h.z.cp]
      symm
      apply sumN_le_ext g5
      · intro k hk
        rw [g3, if_neg (by omega)]
      · rw [g3, if_pos rfl]; rfl
      · intro k h1 h2
        rw [g3, if_neg (by omega)]
        cases e : s.c.par k with
        | none => rfl
        | some p => have := h.z.g.b.idp k p e; omega
    · dsimp only
      rw [h.z.cf, g4, sumN_ext (Nat.le_of_lt g5)]
      intro k h1 _
      cases e : s.c.fin k with
      | false => rfl
      | true => have := h.z.g.b.idf k e; omega
    · intro i hf
      dsimp only at hf ⊢
      rw [g4] at hf
      obtain ⟨p, hp⟩ := h.z.fp i hf
      refine ⟨p, ?_⟩
      rw [g3, if_neg (by rintro rfl; rw [f1] at hp; cases hp)]; exact hp
    · exact h.z.bad
    · intro i p hp
      dsimp only at hp ⊢
      unfold phase
      dsimp only
      rcases hparc i p hp with ⟨rfl, rfl⟩ | ⟨e, hp⟩
      · rw [hlocn]
        dsimp only
        rw [g4, f3]
        simp only [upd, if_true]
        exact h.z.fut _ (Nat.le_refl _)
      · rw [hnumo i p hp, g4]
        exact h.z.ph i p hp
    · intro w i hi
      dsimp only at hi ⊢
      have hr : Rdy s.c i := (h.q.rdy i).2 (by rw [(h.q.lcur w i).1 hi]; simp)
      obtain ⟨⟨p, hp⟩, _⟩ := rdy_real h.z.g hr
      rw [hnumo i p hp]
      exact h.z.pl w i hi
    · intro k hk
      dsimp only at hk ⊢
      exact h.z.fut k (by omega)
    · exact h.z.leg
  have hqi : Qi G s1 (fun k => Rdy s.c k) := by
    rw [hs1]
    exact ⟨h.q.mm, h.q.nrd, h.q.nsch, h.q.few, h.q.lrq, h.q.lq, h.q.lcur, h.q.lback, h.q.nrq, h.q.nq,
      h.q.nback, h.q.far, h.q.rdy⟩
  have hnr : ¬ Rdy s.c s.c.next := by rintro ⟨r, hr, _⟩; rw [f2] at hr; cases hr
  have hfn : s1.c.fin s.c.next = false := by rw [hs1]; dsimp only; rw [g4]; exact f3
  have hl1 : s1.loc s.c.next = .no := by rw [hs1]; exact hlocn
  have hres : S.insert G { s with inq := rest } ps =
      if s1.c.isReady s.c.next then { s1.push s.m s.c.next with m := (s.m + 1) % G.n } else s1 := by
    unfold S.insert
    dsimp only
    rw [hs1, ← hc']
  have hc1 : s1.c = c' := by rw [hs1]
  rw [hres]
  have hn : 0 < G.n := by have := h.z.m; omega
  by_cases hr : s1.c.isReady s.c.next = true
  · rw [if_pos hr]
    have hp1 := push_ok hqi h.z.m hnr
    have hp2 : Pushed [s.c.next] s1 (s1.push s.m s.c.next) := by
      refine ⟨rfl, rfl, rfl, rfl, rfl, rfl, rfl, rfl, rfl, rfl, rfl, rfl, rfl, rfl, rfl, rfl, ?_⟩
      intro k
      unfold S.push
      dsimp only
      simp only [upd]
      by_cases ex : k = s.c.next
      · rw [if_pos ex]; exact Or.inr ⟨by simp [ex], _, rfl⟩
      · rw [if_neg ex]; exact Or.inl rfl
    have hz2 := hz.pushed hp2 (by
      intro k hk
      rw [List.mem_singleton] at hk
      subst hk; exact ⟨hl1, hfn⟩)
    refine ⟨⟨hz2.g, Nat.mod_lt _ hn, hz2.numP, hz2.mono, hz2.sur, hz2.rest, hz2.le, hz2.chE, hz2.chS, hz2.chN, hz2.cp, hz2.cf,
      hz2.fp, hz2.bad, hz2.ph, hz2.pl, hz2.fut, hz2.leg⟩, ?_, by rw [hs1]; rfl, by rw [hs1]; rfl⟩
    refine ⟨hp1.mm, hp1.nrd, hp1.nsch, hp1.few, hp1.lrq, hp1.lq, hp1.lcur, hp1.lback, hp1.nrq, hp1.nq, hp1.nback, hp1.far, ?_⟩
    intro k
    rw [← hp1.rdy k]
    show Rdy s1.c k ↔ _
    by_cases e : k = s.c.next
    · subst e
      rw [isReady_iff] at hr
      exact ⟨fun _ => Or.inr rfl, fun _ => hr⟩
    · rw [hc1, g2 k e]; simp [e]
  · rw [if_neg hr]
    refine ⟨hz, ⟨hqi.mm, hqi.nrd, hqi.nsch, hqi.few, hqi.lrq, hqi.lq, hqi.lcur, hqi.lback, hqi.nrq, hqi.nq, hqi.nback,
      hqi.far, ?_⟩, by rw [hs1], by rw [hs1]⟩
    intro k
    rw [← hqi.rdy k]
    by_cases e : k = s.c.next
    · subst e
      rw [isReady_iff] at hr
      exact ⟨fun x => absurd x hr, fun x => absurd x hnr⟩
    · rw [hc1, g2 k e]

theorem inv_input {G : Cfg} {P : List (List Param)} (hwf : ∀ ps ∈ P, WF ps) {s s' : S} {o : List Nat → Nat}
    (h : Inv G P s) (hs : step G s (.input o) = some s') : Inv G P s' := by
  simp only [step] at hs
  split at hs
  · rename_i hc
    split at hs
    · cases hs
    · rename_i ps rest hq
      simp only [Option.some.injEq] at hs
      subst hs
      obtain ⟨h1, h2, h3, h4⟩ := inv_insert hwf h hq
      have hne : s.ended = false := by
        cases hd : s.ended with
        | false => rfl
        | true => have := (h.z.chE hd).1; rw [hq] at this; cases this
      obtain ⟨g1, g2, g3⟩ := schedule_ok (o := o) (th := 0) (by omega) h2
      have hz := h1.moved g2
      have hov : (S.schedule G o 0 (S.insert G { s with inq := rest } ps)).over = true ↔
          (S.schedule G o 0 (S.insert G { s with inq := rest } ps)).ended = true ∧
          (S.schedule G o 0 (S.insert G { s with inq := rest } ps)).numb =
          (S.schedule G o 0 (S.insert G { s with inq := rest } ps)).compl := by
        rw [g2.over, g2.ended, h3, h4, hc.1, hne]; simp
      unfold S.task
      dsimp only
      split
      · exact ⟨⟨hz.g, hz.m, hz.numP, hz.mono, hz.sur, hz.rest, hz.le, hz.chE, hz.chS, hz.chN, hz.cp, hz.cf,
          hz.fp, hz.bad, hz.ph, hz.pl, hz.fut, hz.leg⟩, ⟨g1.mm, g1.nrd, g1.nsch, g1.few, g1.lrq, g1.lq, g1.lcur,
          g1.lback, g1.nrq, g1.nq, g1.nback, g1.far, g1.rdy⟩, g3, hov⟩
      · exact ⟨hz, g1, g3, hov⟩
    · rename_i rest hq
      simp only [Option.some.injEq] at hs
      subst hs
      exact inv_end h hq
  · cases hs

theorem recv_main {G : Cfg} {P : List (List Param)} {s s' : S} {w : Nat} {o : List Nat → Nat}
    (h : Inv G P s) (hov : s.over = false) (hw : w < G.n) {t : Nat} {rest : List Nat} (hb : s.back w = t :: rest)
    (hs : S.done G o { s with back := upd s.back w rest } w t = s') :
    Inv G P s' ∧ (s'.log = s.log ∧ s'.todo = s.todo ∧ s'.endSent = s.endSent ∧ s'.inq = s.inq ∧ s'.numb = s.numb ∧
      s'.compl = s.compl + 1 ∧ s'.inact = s.inact) := by
      subst hs
      have hloc : s.loc t = .back w := (h.q.lback w t).1 (by rw [hb]; simp)
      have hr : Rdy s.c t := (h.q.rdy t).2 (by rw [hloc]; simp)
      obtain ⟨⟨pt, hpt⟩, hft⟩ := rdy_real h.z.g hr
      obtain ⟨rt, hrt, hst⟩ := hr
      obtain ⟨c', rd, hh, g1, g2, g3, g4, g5, g6, g7⟩ := handle_good h.z.g hrt hst
      have htn : t < s.c.next := (h.z.g.b.idp t pt hpt).2
      have hnd := h.q.nback w
      rw [hb] at hnd
      obtain ⟨s1, hs1⟩ : ∃ s1 : S, s1 = { s with
          back := upd s.back w rest
          compl := s.compl + 1
          nsch := upd s.nsch w (s.nsch w - 1)
          loc := upd s.loc t .no
          c := c' } := ⟨_, rfl⟩
      have hz : Inv0 G P s1 := by
        rw [hs1]
        constructor
        · exact g1
        · exact h.z.m
        · dsimp only; rw [g2]; exact h.z.numP
        · dsimp only; rw [g2]; exact h.z.mono
        · dsimp only; rw [g2]; exact h.z.sur
        · exact h.z.rest
        · exact h.z.le
        · exact h.z.chE
        · exact h.z.chS
        · exact h.z.chN
        · dsimp only; rw [g2, g3]; exact h.z.cp
        · dsimp only
          rw [g3, h.z.cf]
          have := Parfor.sumN_change (f := fun i => (s.c.fin i).toNat) (g := fun i => (c'.fin i).toNat) htn
            (fun j _ hj => by simp only [g4, if_neg hj])
          simp only [g4 t, if_true, hft, Bool.toNat_true, Bool.toNat_false] at this
          omega
        · intro i hf
          dsimp only at hf ⊢
          rw [g2]
          rw [g4] at hf
          by_cases e : i = t
          · subst e; exact ⟨pt, hpt⟩
          · rw [if_neg e] at hf; exact h.z.fp i hf
        · exact h.z.bad
        · intro i p hp
          dsimp only at hp ⊢
          rw [g2] at hp
          have := h.z.ph i p hp
          rw [this]
          unfold phase
          dsimp only
          by_cases e : i = t
          · subst e
            rw [hloc]
            simp only [upd, if_true, g4]
          · simp only [upd, if_neg e, g4]
        · exact h.z.pl
        · exact h.z.fut
        · exact h.z.leg
      have hqi : Qi G s1 (fun x => x ≠ t ∧ Rdy s.c x) := by
        rw [hs1]
        have key : ∀ k (l : Loc), l ≠ .no → l ≠ .back w → (upd s.loc t Loc.no k = l ↔ s.loc k = l) := by
          intro k l h1 h2
          by_cases e : k = t
          · subst e
            simp only [upd, if_true, hloc]
            exact ⟨fun x => absurd x.symm h1, fun x => absurd x.symm h2⟩
          · simp only [upd, if_neg e]
        constructor
        · exact h.q.mm
        · exact h.q.nrd
        · intro v
          dsimp only
          by_cases e : v = w
          · subst e
            simp only [upd, if_true]
            have := h.q.nsch v
            rw [hb] at this
            simp only [List.length_cons] at this
            omega
          · simp only [upd, if_neg e]; exact h.q.nsch v
        · intro v
          dsimp only
          have := h.q.few v
          by_cases e : v = w
          · subst e; simp only [upd, if_true]; omega
          · simp only [upd, if_neg e]; exact this
        · intro v k
          dsimp only
          rw [key k _ (by simp) (by simp)]; exact h.q.lrq v k
        · intro v k
          dsimp only
          rw [key k _ (by simp) (by simp)]; exact h.q.lq v k
        · intro v k
          dsimp only
          rw [key k _ (by simp) (by simp)]; exact h.q.lcur v k
        · intro v k
          dsimp only
          by_cases e : v = w
          · subst e
            simp only [upd, if_true]
            by_cases ek : k = t
            · subst ek
              simp only [if_true]
              refine ⟨fun x => ?_, fun x => by cases x⟩
              exact absurd x (List.nodup_cons.1 hnd).1
            · rw [if_neg ek, ← h.q.lback v k, hb]
              simp [ek]
          · rw [key k _ (by simp) (by simp [e])]
            simp only [upd, if_neg e]
            exact h.q.lback v k
        · exact h.q.nrq
        · exact h.q.nq
        · intro v
          dsimp only
          by_cases e : v = w
          · subst e; simp only [upd, if_true]; exact (List.nodup_cons.1 hnd).2
          · simp only [upd, if_neg e]; exact h.q.nback v
        · intro v hv
          dsimp only
          obtain ⟨a, b, c, d⟩ := h.q.far v hv
          refine ⟨a, b, c, ?_⟩
          simp only [upd, if_neg (show v ≠ w by omega)]; exact d
        · intro k
          dsimp only
          by_cases e : k = t
          · subst e; simp [upd]
          · simp only [upd, if_neg e]
            rw [← h.q.rdy k]; simp [e]
      obtain ⟨p1, p2⟩ := pushes_ok hw rd hqi g5 (fun k hk x => (g6 k hk).1 x.2)
      have hl1 : ∀ k ∈ rd, s1.loc k = .no ∧ s1.c.fin k = false := by
        intro k hk
        refine ⟨?_, ?_⟩
        · by_cases e : s1.loc k = .no
          · exact e
          · exact absurd ((hqi.rdy k).2 e).2 (g6 k hk).1
        · have : s1.c = c' := by rw [hs1]
          rw [this]
          exact (rdy_real g1 (g6 k hk).2).2
      have hz2 := hz.pushed p2 hl1
      have p3 : Qi G (rd.foldl (S.push w) s1) (Rdy (rd.foldl (S.push w) s1).c) := by
        refine ⟨p1.mm, p1.nrd, p1.nsch, p1.few, p1.lrq, p1.lq, p1.lcur, p1.lback, p1.nrq, p1.nq, p1.nback, p1.far, ?_⟩
        intro k
        rw [← p1.rdy k, p2.c]
        have : s1.c = c' := by rw [hs1]
        rw [this]
        exact g7 k
      obtain ⟨q1, q2, _⟩ := schedule_ok (o := o) (th := 0) (by omega) p3
      obtain ⟨r1, r2, r3⟩ := schedule_ok (o := o) (th := 1) (by omega) q1
      have hz3 := (hz2.moved q2).moved r2
      have hres : S.done G o { s with back := upd s.back w rest } w t =
          if ((((rd.foldl (S.push w) s1).schedule G o 0).schedule G o 1).numb =
              (((rd.foldl (S.push w) s1).schedule G o 0).schedule G o 1).compl ∧
              (((rd.foldl (S.push w) s1).schedule G o 0).schedule G o 1).ended = true) then
            { (((rd.foldl (S.push w) s1).schedule G o 0).schedule G o 1) with over := true }
          else (((rd.foldl (S.push w) s1).schedule G o 0).schedule G o 1) := by
        unfold S.done
        dsimp only
        rw [hh]
        dsimp only
        rw [hs1]
      rw [hres]
      have hf : ∀ x : S, x.log = (((rd.foldl (S.push w) s1).schedule G o 0).schedule G o 1).log ∧
          x.todo = (((rd.foldl (S.push w) s1).schedule G o 0).schedule G o 1).todo ∧
          x.endSent = (((rd.foldl (S.push w) s1).schedule G o 0).schedule G o 1).endSent ∧
          x.inq = (((rd.foldl (S.push w) s1).schedule G o 0).schedule G o 1).inq ∧
          x.numb = (((rd.foldl (S.push w) s1).schedule G o 0).schedule G o 1).numb ∧
          x.compl = (((rd.foldl (S.push w) s1).schedule G o 0).schedule G o 1).compl ∧
          x.inact = (((rd.foldl (S.push w) s1).schedule G o 0).schedule G o 1).inact →
          x.log = s.log ∧ x.todo = s.todo ∧ x.endSent = s.endSent ∧ x.inq = s.inq ∧ x.numb = s.numb ∧
            x.compl = s.compl + 1 ∧ x.inact = s.inact := by
        rintro x ⟨a1, a2, a3, a4, a5, a6, a7⟩
        rw [a1, a2, a3, a4, a5, a6, a7, r2.log, r2.todo, r2.endSent, r2.inq, r2.numb, r2.compl, r2.inact,
          q2.log, q2.todo, q2.endSent, q2.inq, q2.numb, q2.compl, q2.inact,
          p2.log, p2.todo, p2.endSent, p2.inq, p2.numb, p2.compl, p2.inact, hs1]
        exact ⟨rfl, rfl, rfl, rfl, rfl, rfl, rfl⟩
      have hov2 : (((rd.foldl (S.push w) s1).schedule G o 0).schedule G o 1).over = false := by
        rw [r2.over, q2.over, p2.over, hs1]; exact hov
      split
      · rename_i he
        refine ⟨?_, hf _ ⟨rfl, rfl, rfl, rfl, rfl, rfl, rfl⟩⟩
        exact ⟨⟨hz3.g, hz3.m, hz3.numP, hz3.mono, hz3.sur, hz3.rest, hz3.le, hz3.chE, hz3.chS, hz3.chN, hz3.cp, hz3.cf,
          hz3.fp, hz3.bad, hz3.ph, hz3.pl, hz3.fut, hz3.leg⟩, ⟨r1.mm, r1.nrd, r1.nsch, r1.few, r1.lrq, r1.lq, r1.lcur,
          r1.lback, r1.nrq, r1.nq, r1.nback, r1.far, r1.rdy⟩, r3, ⟨fun _ => ⟨he.2, he.1⟩, fun _ => rfl⟩⟩
      · rename_i he
        refine ⟨⟨hz3, r1, r3, ?_⟩, hf _ ⟨rfl, rfl, rfl, rfl, rfl, rfl, rfl⟩⟩
        rw [hov2]
        exact ⟨fun x => (by cases x), fun x => absurd ⟨x.2, x.1⟩ he⟩

theorem inv_recv {G : Cfg} {P : List (List Param)} {s s' : S} {w : Nat} {o : List Nat → Nat}
    (h : Inv G P s) (hs : step G s (.recv w o) = some s') : Inv G P s' := by
  simp only [step] at hs
  split at hs
  · rename_i hc
    split at hs
    · cases hs
    · rename_i t rest hb
      simp only [Option.some.injEq] at hs
      exact (recv_main h hc.1 hc.2 hb hs).1
  · cases hs

theorem inv_start {G : Cfg} {P : List (List Param)} {s s' : S} {w : Nat}
    (h : Inv G P s) (hs : step G s (.start w) = some s') : Inv G P s' := by
  simp only [step] at hs
  split at hs
  · rename_i hw
    split at hs
    · rename_i t rest hcur hqw
      simp only [Option.some.injEq] at hs
      subst hs
      have hloc : s.loc t = .q w := (h.q.lq w t).1 (by rw [hqw]; simp)
      have hr : Rdy s.c t := (h.q.rdy t).2 (by rw [hloc]; simp)
      obtain ⟨⟨pt, hpt⟩, hft⟩ := rdy_real h.z.g hr
      have hnP := h.z.numP t pt hpt
      have hnd := h.q.nq w
      rw [hqw] at hnd
      have hnoc : ∀ k, s.loc k ≠ .cur w := by
        intro k x
        have := (h.q.lcur w k).2 x
        rw [hcur] at this; cases this
      have h0 : counts s.log (s.num t) = (0, 0, 0) := by
        rw [h.z.ph t pt hpt]; unfold phase; rw [hloc]
      refine ⟨?_, ?_, ?_, h.ov⟩
      · constructor
        · exact h.z.g
        · exact h.z.m
        · exact h.z.numP
        · exact h.z.mono
        · exact h.z.sur
        · exact h.z.rest
        · exact h.z.le
        · exact h.z.chE
        · exact h.z.chS
        · exact h.z.chN
        · exact h.z.cp
        · exact h.z.cf
        · exact h.z.fp
        · exact h.z.bad
        · intro i p hp
          dsimp only at hp ⊢
          rw [counts_append]
          have hi := h.z.ph i p hp
          unfold phase at hi ⊢
          dsimp only
          by_cases e : i = t
          · subst e
            simp only [upd, if_true]
            unfold counts at h0
            simp only [Prod.mk.injEq] at h0
            simp only [h0.1, h0.2.1, h0.2.2]
            simp
          · have hne : s.num t ≠ s.num i := fun x => e (num_inj h.z hp hpt x.symm)
            simp only [Ev.start.injEq, hne, if_false, Nat.add_zero, upd, if_neg e]
            simp only [reduceCtorEq, if_false, Nat.add_zero]
            unfold counts at hi
            rw [hi]
            cases hl : s.loc i with
            | cur v =>
              dsimp only
              have : v ≠ w := by rintro rfl; exact hnoc i hl
              rw [if_neg this]
            | no => rfl
            | rq _ => rfl
            | q _ => rfl
            | back _ => rfl
        · intro v i hi
          dsimp only at hi ⊢
          by_cases e : v = w
          · subst e; simp only [upd, if_true]; omega
          · simp only [upd, if_neg e] at hi ⊢; exact h.z.pl v i hi
        · intro k hk
          dsimp only at hk ⊢
          rw [counts_append]
          have := h.z.fut k hk
          unfold counts at this
          have hne : s.num t ≠ k := by omega
          simp only [Ev.start.injEq, hne, if_false, Nat.add_zero, reduceCtorEq]
          exact this
        · refine Legal.start h.z.leg ?_ h0 ?_
          · have := h.z.le; omega
          · intro j p q hj hp hq hc
            exact conf_fin h hr hj hp hq hc
      · constructor
        · exact h.q.mm
        · exact h.q.nrd
        · intro v
          dsimp only
          have := h.q.nsch v
          by_cases e : v = w
          · subst e
            rw [hqw, hcur] at this
            simp only [upd, if_true]
            simp only [List.length_cons, Option.toList_none, List.length_nil, Option.toList_some, List.length_singleton] at this ⊢
            omega
          · simp only [upd, if_neg e]; exact this
        · exact h.q.few
        · intro v k
          dsimp only
          rw [h.q.lrq]
          by_cases e : k = t
          · subst e; simp [upd, hloc]
          · simp only [upd, if_neg e]
        · intro v k
          dsimp only
          by_cases ev : v = w
          · subst ev
            by_cases e : k = t
            · subst e; simp only [upd, if_true]
              exact ⟨fun x => absurd x (List.nodup_cons.1 hnd).1, fun x => by cases x⟩
            · simp only [upd, if_neg e, if_true]
              rw [← h.q.lq, hqw]; simp [e]
          · simp only [upd, if_neg ev]
            rw [h.q.lq]
            by_cases e : k = t
            · subst e; simp only [if_true, hloc]; simp; exact fun x => ev x.symm
            · simp only [if_neg e]
        · intro v k
          dsimp only
          by_cases ev : v = w
          · subst ev
            by_cases e : k = t
            · subst e; simp only [upd, if_true]
            · simp only [upd, if_neg e, if_true, Option.some.injEq]
              exact ⟨fun x => absurd x.symm e, fun x => absurd x (hnoc k)⟩
          · simp only [upd, if_neg ev]
            rw [h.q.lcur]
            by_cases e : k = t
            · subst e; simp only [if_true, hloc]; simp; exact fun x => ev x.symm
            · simp only [if_neg e]
        · intro v k
          dsimp only
          rw [h.q.lback]
          by_cases e : k = t
          · subst e; simp [upd, hloc]
          · simp only [upd, if_neg e]
        · exact h.q.nrq
        · intro v
          dsimp only
          by_cases e : v = w
          · subst e; simp only [upd, if_true]; exact (List.nodup_cons.1 hnd).2
          · simp only [upd, if_neg e]; exact h.q.nq v
        · exact h.q.nback
        · intro v hv
          dsimp only
          have e : v ≠ w := by omega
          simp only [upd, if_neg e]
          exact h.q.far v hv
        · intro k
          dsimp only
          rw [h.q.rdy]
          by_cases e : k = t
          · subst e; simp [upd, hloc]
          · simp only [upd, if_neg e]
      · exact h.sat
    · cases hs
  · cases hs

theorem inv_op {G : Cfg} {P : List (List Param)} {s s' : S} {w : Nat}
    (h : Inv G P s) (hs : step G s (.op w) = some s') : Inv G P s' := by
  simp only [step] at hs
  split at hs
  · rename_i hw
    split at hs
    · cases hs
    · rename_i t hcur
      split at hs
      · rename_i hlt
        simp only [Option.some.injEq] at hs
        subst hs
        have hloc : s.loc t = .cur w := (h.q.lcur w t).1 hcur
        have hr : Rdy s.c t := (h.q.rdy t).2 (by rw [hloc]; simp)
        obtain ⟨⟨pt, hpt⟩, hft⟩ := rdy_real h.z.g hr
        have hnP := h.z.numP t pt hpt
        have h0 : counts s.log (s.num t) = (1, s.pos w, 0) := by
          rw [h.z.ph t pt hpt]; unfold phase; rw [hloc]
        refine ⟨?_, ⟨h.q.mm, h.q.nrd, h.q.nsch, h.q.few, h.q.lrq, h.q.lq, h.q.lcur, h.q.lback, h.q.nrq, h.q.nq,
          h.q.nback, h.q.far, h.q.rdy⟩, h.sat, h.ov⟩
        constructor
        · exact h.z.g
        · exact h.z.m
        · exact h.z.numP
        · exact h.z.mono
        · exact h.z.sur
        · exact h.z.rest
        · exact h.z.le
        · exact h.z.chE
        · exact h.z.chS
        · exact h.z.chN
        · exact h.z.cp
        · exact h.z.cf
        · exact h.z.fp
        · exact h.z.bad
        · intro i p hp
          dsimp only at hp ⊢
          rw [counts_append]
          have hi := h.z.ph i p hp
          unfold phase at hi ⊢
          dsimp only
          by_cases e : i = t
          · subst e
            rw [hloc]
            unfold counts at h0
            simp only [Prod.mk.injEq] at h0
            simp only [h0.1, h0.2.1, h0.2.2]
            simp [upd]
          · have hne : s.num t ≠ s.num i := fun x => e (num_inj h.z hp hpt x.symm)
            simp only [Ev.op.injEq, hne, if_false, Nat.add_zero]
            simp only [reduceCtorEq, if_false, Nat.add_zero]
            unfold counts at hi
            rw [hi]
            cases hl : s.loc i with
            | cur v =>
              dsimp only
              have : v ≠ w := by
                rintro rfl
                have := (h.q.lcur v i).2 hl
                rw [hcur] at this; cases this; exact e rfl
              simp only [upd, if_neg this]
            | no => rfl
            | rq _ => rfl
            | q _ => rfl
            | back _ => rfl
        · intro v i hi
          dsimp only at hi ⊢
          by_cases e : v = w
          · subst e
            rw [hcur] at hi
            cases hi
            simp only [upd, if_true]; omega
          · simp only [upd, if_neg e]; exact h.z.pl v i hi
        · intro k hk
          dsimp only at hk ⊢
          rw [counts_append]
          have := h.z.fut k hk
          unfold counts at this
          have hne : s.num t ≠ k := by omega
          simp only [Ev.op.injEq, hne, if_false, Nat.add_zero, reduceCtorEq]
          exact this
        · refine Legal.op h.z.leg ?_ h0 hlt
          have := h.z.le; omega
      · cases hs
  · cases hs

theorem inv_stop {G : Cfg} {P : List (List Param)} {s s' : S} {w : Nat}
    (h : Inv G P s) (hs : step G s (.stop w) = some s') : Inv G P s' := by
  simp only [step] at hs
  split at hs
  · rename_i hw
    split at hs
    · cases hs
    · rename_i t hcur
      split at hs
      · rename_i hlt
        simp only [Option.some.injEq] at hs
        subst hs
        have hloc : s.loc t = .cur w := (h.q.lcur w t).1 hcur
        have hr : Rdy s.c t := (h.q.rdy t).2 (by rw [hloc]; simp)
        obtain ⟨⟨pt, hpt⟩, hft⟩ := rdy_real h.z.g hr
        have hnP := h.z.numP t pt hpt
        have h0 : counts s.log (s.num t) = (1, G.len (s.num t), 0) := by
          rw [h.z.ph t pt hpt]; unfold phase; rw [hloc]; dsimp only; rw [hlt]
        have htb : t ∉ s.back w := fun x => by rw [h.q.lback, hloc] at x; cases x
        refine ⟨?_, ?_, h.sat, h.ov⟩
        · constructor
          · exact h.z.g
          · exact h.z.m
          · exact h.z.numP
          · exact h.z.mono
          · exact h.z.sur
          · exact h.z.rest
          · exact h.z.le
          · exact h.z.chE
          · exact h.z.chS
          · exact h.z.chN
          · exact h.z.cp
          · exact h.z.cf
          · exact h.z.fp
          · exact h.z.bad
          · intro i p hp
            dsimp only at hp ⊢
            rw [counts_append]
            have hi := h.z.ph i p hp
            unfold phase at hi ⊢
            dsimp only
            by_cases e : i = t
            · subst e
              simp only [upd, if_true]
              unfold counts at h0
              simp only [Prod.mk.injEq] at h0
              simp only [h0.1, h0.2.1, h0.2.2]
              simp
            · have hne : s.num t ≠ s.num i := fun x => e (num_inj h.z hp hpt x.symm)
              simp only [Ev.fin.injEq, hne, if_false, Nat.add_zero, upd, if_neg e]
              simp only [reduceCtorEq, if_false, Nat.add_zero]
              unfold counts at hi
              rw [hi]
          · intro v i hi
            dsimp only at hi ⊢
            by_cases e : v = w
            · subst e; simp only [upd, if_true] at hi; cases hi
            · simp only [upd, if_neg e] at hi ⊢; exact h.z.pl v i hi
          · intro k hk
            dsimp only at hk ⊢
            rw [counts_append]
            have := h.z.fut k hk
            unfold counts at this
            have hne : s.num t ≠ k := by omega
            simp only [Ev.fin.injEq, hne, if_false, Nat.add_zero, reduceCtorEq]
            exact this
          · refine Legal.fin h.z.leg ?_ h0
            have := h.z.le; omega
        · constructor
          · exact h.q.mm
          · exact h.q.nrd
          · intro v
            dsimp only
            have := h.q.nsch v
            by_cases e : v = w
            · subst e
              rw [hcur] at this
              simp only [upd, if_true]
              simp only [List.length_append, Option.toList_none, List.length_nil, Option.toList_some, List.length_singleton] at this ⊢
              omega
            · simp only [upd, if_neg e]; exact this
          · exact h.q.few
          · intro v k
            dsimp only
            rw [h.q.lrq]
            by_cases e : k = t
            · subst e; simp [upd, hloc]
            · simp only [upd, if_neg e]
          · intro v k
            dsimp only
            rw [h.q.lq]
            by_cases e : k = t
            · subst e; simp [upd, hloc]
            · simp only [upd, if_neg e]
          · intro v k
            dsimp only
            by_cases ev : v = w
            · subst ev
              simp only [upd, if_true]
              by_cases e : k = t
              · subst e; simp
              · simp only [if_neg e]
                refine ⟨fun x => (by cases x), fun x => ?_⟩
                have := (h.q.lcur v k).2 x
                rw [hcur] at this; cases this; exact absurd rfl e
            · simp only [upd, if_neg ev]
              rw [h.q.lcur]
              by_cases e : k = t
              · subst e; simp only [if_true, hloc]; simp; exact fun x => ev x.symm
              · simp only [if_neg e]
          · intro v k
            dsimp only
            by_cases ev : v = w
            · subst ev
              simp only [upd, if_true, List.mem_append, List.mem_singleton]
              by_cases e : k = t
              · subst e; simp
              · simp only [if_neg e, e, or_false]; exact h.q.lback v k
            · simp only [upd, if_neg ev]
              rw [h.q.lback]
              by_cases e : k = t
              · subst e; simp only [if_true, hloc]; simp; exact fun x => ev x.symm
              · simp only [if_neg e]
          · exact h.q.nrq
          · exact h.q.nq
          · intro v
            dsimp only
            by_cases e : v = w
            · subst e
              simp only [upd, if_true]
              rw [List.nodup_append]
              refine ⟨h.q.nback v, by simp, ?_⟩
              intro a ha b hb
              rw [List.mem_singleton] at hb
              subst hb
              rintro rfl; exact htb ha
            · simp only [upd, if_neg e]; exact h.q.nback v
          · intro v hv
            dsimp only
            have e : v ≠ w := by omega
            simp only [upd, if_neg e]
            exact h.q.far v hv
          · intro k
            dsimp only
            rw [h.q.rdy]
            by_cases e : k = t
            · subst e; simp [upd, hloc]
            · simp only [upd, if_neg e]
      · cases hs
  · cases hs

theorem inv_step {G : Cfg} {P : List (List Param)} (hwf : ∀ ps ∈ P, WF ps) {s s' : S} (h : Inv G P s) {a : Step}
    (hs : step G s a = some s') : Inv G P s' := by
  cases a with
  | submit => exact inv_submit h hs
  | submitEnd => exact inv_submitEnd h hs
  | input o => exact inv_input hwf h hs
  | null => exact inv_null h hs
  | recv w o => exact inv_recv h hs
  | start w => exact inv_start h hs
  | op w => exact inv_op h hs
  | stop w => exact inv_stop h hs

theorem inv_reach {G : Cfg} (hn : 1 ≤ G.n) {P : List (List Param)} (hwf : ∀ ps ∈ P, WF ps) {s : S}
    (hr : Reach (step G) (S.init P) s) : Inv G P s :=
  Reach.inv hr (inv_init hn P) (fun _ _ _ h hs => inv_step hwf h hs)

end FF.Mdf
