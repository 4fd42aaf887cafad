import Verif.Mdf.Sched
/-! # The queues of the scheduler -/
namespace FF.Mdf
open FF.Farm (sumN)
open FF.Node (upd)

/-- the ready tasks `R` are exactly those in the queues, each in one place -/
structure Qi (G : Cfg) (s : S) (R : Nat → Prop) : Prop where
  mm : s.mmax < G.n
  nrd : s.nrd = sumN (fun w => (s.rq w).length) G.n
  nsch : ∀ w, s.nsch w = (s.q w).length + (s.cur w).toList.length + (s.back w).length
  few : ∀ w, s.nsch w ≤ 2
  lrq : ∀ w k, k ∈ s.rq w ↔ s.loc k = .rq w
  lq : ∀ w k, k ∈ s.q w ↔ s.loc k = .q w
  lcur : ∀ w k, s.cur w = some k ↔ s.loc k = .cur w
  lback : ∀ w k, k ∈ s.back w ↔ s.loc k = .back w
  nrq : ∀ w, (s.rq w).Nodup
  nq : ∀ w, (s.q w).Nodup
  nback : ∀ w, (s.back w).Nodup
  far : ∀ w, G.n ≤ w → s.rq w = [] ∧ s.q w = [] ∧ s.cur w = none ∧ s.back w = []
  rdy : ∀ k, R k ↔ s.loc k ≠ .no

/-- what `schedule_task` leaves alone -/
structure Moved (s s' : S) : Prop where
  c : s'.c = s.c
  todo : s'.todo = s.todo
  endSent : s'.endSent = s.endSent
  inq : s'.inq = s.inq
  inact : s'.inact = s.inact
  m : s'.m = s.m
  cur : s'.cur = s.cur
  pos : s'.pos = s.pos
  back : s'.back = s.back
  numb : s'.numb = s.numb
  compl : s'.compl = s.compl
  ended : s'.ended = s.ended
  over : s'.over = s.over
  num : s'.num = s.num
  log : s'.log = s.log
  bad : s.bad = false → s'.bad = false
  loc : ∀ k, s'.loc k = s.loc k ∨ ∃ w w', s.loc k = .rq w ∧ s'.loc k = .q w'

theorem Moved.refl (s : S) : Moved s s :=
  ⟨rfl, rfl, rfl, rfl, rfl, rfl, rfl, rfl, rfl, rfl, rfl, rfl, rfl, rfl, rfl, id, fun _ => Or.inl rfl⟩

theorem Moved.trans {a b c : S} (h : Moved a b) (g : Moved b c) : Moved a c := by
  refine ⟨g.c.trans h.c, g.todo.trans h.todo, g.endSent.trans h.endSent, g.inq.trans h.inq, g.inact.trans h.inact,
    g.m.trans h.m, g.cur.trans h.cur, g.pos.trans h.pos, g.back.trans h.back, g.numb.trans h.numb,
    g.compl.trans h.compl, g.ended.trans h.ended, g.over.trans h.over, g.num.trans h.num, g.log.trans h.log,
    fun x => g.bad (h.bad x), ?_⟩
  intro k
  cases g.loc k with
  | inl e =>
    rw [e]; exact h.loc k
  | inr e =>
    obtain ⟨w, w', e1, e2⟩ := e
    cases h.loc k with
    | inl f => exact Or.inr ⟨w, w', by rw [← f]; exact e1, e2⟩
    | inr f => obtain ⟨_, _, _, f2⟩ := f; rw [e1] at f2; cases f2

theorem pick_mem {o : List Nat → Nat} {l : List Nat} (h : l ≠ []) : pick o l ∈ l := by
  unfold pick
  split
  · assumption
  · cases l with
    | nil => exact absurd rfl h
    | cons a l => simp

theorem send_ok {G : Cfg} {o : List Nat → Nat} {s : S} {i k : Nat} (h : Qi G s (Rdy s.c)) (hi : i < G.n)
    (hk : k < G.n) (hne : s.rq k ≠ []) (hf : s.nsch i ≤ 1) :
    Qi G (s.send o i k) (Rdy (s.send o i k).c) ∧ Moved s (s.send o i k) ∧
    (∀ w, (s.send o i k).nsch w = if w = i then s.nsch w + 1 else s.nsch w) ∧ (s.send o i k).nrd + 1 = s.nrd := by
  obtain ⟨t, ht⟩ : ∃ t, t = pick o (s.rq k) := ⟨_, rfl⟩
  have hm : t ∈ s.rq k := by rw [ht]; exact pick_mem hne
  have hloc := (h.lrq k t).1 hm
  have hlen : ((s.rq k).erase t).length + 1 = (s.rq k).length := by
    rw [List.length_erase_of_mem hm]
    have := List.length_pos_of_mem hm
    omega
  have hsum : sumN (fun w => (upd s.rq k ((s.rq k).erase t) w).length) G.n + 1 = sumN (fun w => (s.rq w).length) G.n := by
    have := Parfor.sumN_change (f := fun w => (upd s.rq k ((s.rq k).erase t) w).length) (g := fun w => (s.rq w).length)
      hk (fun j _ hj => by simp only [upd, if_neg hj])
    simp only [upd, if_true] at this ⊢
    omega
  have hready : s.c.isReady t = true := (isReady_iff _ _).2 ((h.rdy t).2 (by rw [hloc]; simp))
  have hqt : t ∉ s.q i := fun x => by rw [h.lq, hloc] at x; cases x
  unfold S.send
  rw [← ht]
  refine ⟨⟨h.mm, ?_, ?_, ?_, ?_, ?_, ?_, ?_, ?_, ?_, ?_, ?_, ?_⟩, ⟨rfl, rfl, rfl, rfl, rfl, rfl, rfl, rfl, rfl, rfl, rfl, rfl, rfl, rfl, rfl, ?_, ?_⟩, ?_, ?_⟩
  · dsimp only; have := h.nrd; omega
  · intro w
    dsimp only
    have := h.nsch w
    by_cases e : w = i
    · subst e; simp only [upd, if_true, List.length_append, List.length_singleton]; omega
    · simp only [upd, if_neg e]; exact this
  · intro w
    dsimp only
    have := h.few w
    by_cases e : w = i
    · subst e; simp only [upd, if_true]; omega
    · simp only [upd, if_neg e]; exact this
  · intro w x
    dsimp only
    by_cases e : w = k
    · subst e
      simp only [upd, if_true]
      rw [(h.nrq w).mem_erase_iff, h.lrq]
      by_cases ex : x = t
      · subst ex; simp
      · simp [ex]
    · simp only [upd, if_neg e]
      rw [h.lrq]
      by_cases ex : x = t
      · subst ex; rw [if_pos rfl, hloc]; simp [Ne.symm e]
      · rw [if_neg ex]
  · intro w x
    dsimp only
    by_cases e : w = i
    · subst e
      simp only [upd, if_true, List.mem_append, List.mem_singleton]
      rw [h.lq]
      by_cases ex : x = t
      · subst ex; simp
      · simp [ex]
    · simp only [upd, if_neg e]
      rw [h.lq]
      by_cases ex : x = t
      · subst ex; rw [if_pos rfl, hloc]; simp [Ne.symm e]
      · rw [if_neg ex]
  · intro w x
    dsimp only
    rw [h.lcur]
    simp only [upd]
    by_cases ex : x = t
    · subst ex; rw [if_pos rfl, hloc]; simp
    · rw [if_neg ex]
  · intro w x
    dsimp only
    rw [h.lback]
    simp only [upd]
    by_cases ex : x = t
    · subst ex; rw [if_pos rfl, hloc]; simp
    · rw [if_neg ex]
  · intro w
    dsimp only
    by_cases e : w = k
    · subst e; simp only [upd, if_true]; exact (h.nrq w).erase t
    · simp only [upd, if_neg e]; exact h.nrq w
  · intro w
    dsimp only
    by_cases e : w = i
    · subst e
      simp only [upd, if_true]
      rw [List.nodup_append]
      refine ⟨h.nq w, by simp, ?_⟩
      intro a ha b hb
      rw [List.mem_singleton] at hb
      rintro rfl
      subst hb; exact hqt ha
    · simp only [upd, if_neg e]; exact h.nq w
  · exact h.nback
  · intro w hw
    dsimp only
    simp only [upd, if_neg (show w ≠ k by omega), if_neg (show w ≠ i by omega)]
    exact h.far w hw
  · intro x
    dsimp only
    simp only [upd]
    by_cases ex : x = t
    · subst ex; rw [if_pos rfl, h.rdy, hloc]; simp
    · rw [if_neg ex]; exact h.rdy x
  · intro hb; dsimp only; rw [hb, hready]; rfl
  · intro x
    dsimp only
    simp only [upd]
    by_cases ex : x = t
    · subst ex; rw [if_pos rfl]; exact Or.inr ⟨k, i, hloc, rfl⟩
    · rw [if_neg ex]; exact Or.inl rfl
  · intro w
    dsimp only
    simp only [upd]
    by_cases e : w = i
    · rw [if_pos e, if_pos e, e]
    · rw [if_neg e, if_neg e]
  · dsimp only; have := h.nrd; omega

theorem mmax_ok {G : Cfg} {s : S} {R : Nat → Prop} (h : Qi G s R) {v : Nat} (hv : v < G.n) : Qi G { s with mmax := v } R :=
  ⟨hv, h.nrd, h.nsch, h.few, h.lrq, h.lq, h.lcur, h.lback, h.nrq, h.nq, h.nback, h.far, h.rdy⟩

theorem mmax_moved (s : S) (v : Nat) : Moved s { s with mmax := v } :=
  ⟨rfl, rfl, rfl, rfl, rfl, rfl, rfl, rfl, rfl, rfl, rfl, rfl, rfl, rfl, rfl, id, fun _ => Or.inl rfl⟩

theorem search_ok {G : Cfg} {o : List Nat → Nat} {i : Nat} (hi : i < G.n) (j : Nat) : ∀ {s : S}, Qi G s (Rdy s.c) →
    s.nsch i ≤ 1 →
    Qi G (s.search G o i j) (Rdy (s.search G o i j).c) ∧ Moved s (s.search G o i j) ∧
    (∀ w, s.nsch w ≤ (s.search G o i j).nsch w) ∧ (s.search G o i j).nrd ≤ s.nrd ∧
    (1 ≤ (s.search G o i j).nsch i ∨ ∀ t, t < j → s.rq ((s.mmax + t) % G.n) = []) := by
  induction j with
  | zero => intro s h _; exact ⟨h, Moved.refl s, fun _ => Nat.le_refl _, Nat.le_refl _, Or.inr fun t ht => by omega⟩
  | succ j ih =>
    intro s h hf
    unfold S.search
    have hn : 0 < G.n := by omega
    have hv : (s.mmax + 1) % G.n < G.n := Nat.mod_lt _ hn
    by_cases he : s.rq s.mmax ≠ []
    · rw [if_pos he]
      obtain ⟨h1, h2, h3, h4⟩ := send_ok (o := o) h hi h.mm he hf
      refine ⟨mmax_ok h1 hv, h2.trans (mmax_moved _ _), ?_, ?_, Or.inl ?_⟩
      · intro w; dsimp only; rw [h3]; split <;> omega
      · dsimp only; omega
      · dsimp only; rw [h3, if_pos rfl]; omega
    · rw [if_neg he]
      have he' : s.rq s.mmax = [] := by simpa using he
      obtain ⟨h1, h2, h3, h4, h5⟩ := ih (s := { s with mmax := (s.mmax + 1) % G.n }) (mmax_ok h hv) hf
      refine ⟨h1, (mmax_moved _ _).trans h2, h3, h4, ?_⟩
      cases h5 with
      | inl h5 => exact Or.inl h5
      | inr h5 =>
        refine Or.inr ?_
        intro t ht
        cases t with
        | zero => rw [Nat.add_zero, Nat.mod_eq_of_lt h.mm]; exact he'
        | succ t =>
          have := h5 t (by omega)
          dsimp only at this
          rw [Nat.mod_add_mod] at this
          rw [show s.mmax + (t + 1) = s.mmax + 1 + t by omega]; exact this

theorem exists_rq {G : Cfg} {s : S} {R : Nat → Prop} (h : Qi G s R) (hp : 0 < s.nrd) : ∃ k, k < G.n ∧ s.rq k ≠ [] := by
  by_cases hc : ∃ k, k < G.n ∧ s.rq k ≠ []
  · exact hc
  · have : sumN (fun w => (s.rq w).length) G.n = 0 := by
      apply Parfor.sumN_zero
      intro w hw
      by_cases e : s.rq w = []
      · rw [e]; rfl
      · exact absurd ⟨w, hw, e⟩ hc
    have := h.nrd
    omega

theorem sched1_ok {G : Cfg} {o : List Nat → Nat} {th : Nat} (hth : th ≤ 1) {s : S} {i : Nat} (hi : i < G.n)
    (h : Qi G s (Rdy s.c)) :
    Qi G (s.sched1 G o th i) (Rdy (s.sched1 G o th i).c) ∧ Moved s (s.sched1 G o th i) ∧
    (∀ w, s.nsch w ≤ (s.sched1 G o th i).nsch w) ∧ (s.sched1 G o th i).nrd ≤ s.nrd ∧
    ((s.sched1 G o th i).nrd = 0 ∨ 1 ≤ (s.sched1 G o th i).nsch i) := by
  unfold S.sched1
  by_cases hc : 0 < s.nrd ∧ s.nsch i ≤ th
  · rw [if_pos hc]
    by_cases he : s.rq i ≠ []
    · rw [if_pos he]
      obtain ⟨h1, h2, h3, h4⟩ := send_ok (o := o) h hi hi he (by omega)
      refine ⟨h1, h2, ?_, by omega, Or.inr ?_⟩
      · intro w; rw [h3]; split <;> omega
      · rw [h3, if_pos rfl]; omega
    · rw [if_neg he]
      obtain ⟨h1, h2, h3, h4, h5⟩ := search_ok (o := o) hi G.n h (by omega)
      refine ⟨h1, h2, h3, h4, ?_⟩
      cases h5 with
      | inl h5 => exact Or.inr h5
      | inr h5 =>
        obtain ⟨k, hk, hne⟩ := exists_rq h hc.1
        have hmm := h.mm
        have : s.rq k = [] := by
          by_cases hle : s.mmax ≤ k
          · have := h5 (k - s.mmax) (by omega)
            rwa [show s.mmax + (k - s.mmax) = k by omega, Nat.mod_eq_of_lt hk] at this
          · have := h5 (G.n - s.mmax + k) (by omega)
            rwa [show s.mmax + (G.n - s.mmax + k) = k + G.n by omega, Nat.add_mod_right, Nat.mod_eq_of_lt hk] at this
        exact absurd this hne
  · rw [if_neg hc]
    refine ⟨h, Moved.refl s, fun _ => Nat.le_refl _, Nat.le_refl _, ?_⟩
    by_cases hz : s.nrd = 0
    · exact Or.inl hz
    · right
      have : ¬ s.nsch i ≤ th := fun x => hc ⟨by omega, x⟩
      omega

theorem schedule_fold {G : Cfg} {o : List Nat → Nat} {th : Nat} (hth : th ≤ 1) (l : List Nat) : ∀ {s : S},
    (∀ i ∈ l, i < G.n) → Qi G s (Rdy s.c) →
    Qi G (l.foldl (S.sched1 G o th) s) (Rdy (l.foldl (S.sched1 G o th) s).c) ∧ Moved s (l.foldl (S.sched1 G o th) s) ∧
    (∀ w, s.nsch w ≤ (l.foldl (S.sched1 G o th) s).nsch w) ∧ (l.foldl (S.sched1 G o th) s).nrd ≤ s.nrd ∧
    ((l.foldl (S.sched1 G o th) s).nrd = 0 ∨ ∀ i ∈ l, 1 ≤ (l.foldl (S.sched1 G o th) s).nsch i) := by
  induction l with
  | nil => intro s _ h; exact ⟨h, Moved.refl s, fun _ => Nat.le_refl _, Nat.le_refl _, Or.inr fun i hi => by cases hi⟩
  | cons y l ih =>
    intro s hl h
    simp only [List.foldl_cons]
    obtain ⟨h1, h2, h3, h4, h5⟩ := sched1_ok (o := o) hth (hl y (by simp)) h
    obtain ⟨g1, g2, g3, g4, g5⟩ := ih (fun i hi => hl i (by simp [hi])) h1
    refine ⟨g1, h2.trans g2, fun w => Nat.le_trans (h3 w) (g3 w), by omega, ?_⟩
    cases g5 with
    | inl g5 => exact Or.inl g5
    | inr g5 =>
      cases h5 with
      | inl h5 => exact Or.inl (by omega)
      | inr h5 =>
        refine Or.inr ?_
        intro i hi
        cases hi with
        | head => have := g3 y; omega
        | tail _ hi => exact g5 i hi

/-- `schedule_task` keeps the queues in order; afterwards no task is ready or every worker has a task -/
theorem schedule_ok {G : Cfg} {o : List Nat → Nat} {th : Nat} (hth : th ≤ 1) {s : S} (h : Qi G s (Rdy s.c)) :
    Qi G (s.schedule G o th) (Rdy (s.schedule G o th).c) ∧ Moved s (s.schedule G o th) ∧
    ((s.schedule G o th).nrd = 0 ∨ ∀ w, w < G.n → 1 ≤ (s.schedule G o th).nsch w) := by
  obtain ⟨h1, h2, _, _, h5⟩ := schedule_fold (o := o) hth (List.range G.n) (fun i hi => List.mem_range.1 hi) h
  refine ⟨h1, h2, ?_⟩
  cases h5 with
  | inl h5 => exact Or.inl h5
  | inr h5 => exact Or.inr fun w hw => h5 w (List.mem_range.2 hw)

theorem push_ok {G : Cfg} {s : S} {R : Nat → Prop} (h : Qi G s R) {w k : Nat} (hw : w < G.n) (hk : ¬ R k) :
    Qi G (s.push w k) (fun x => R x ∨ x = k) := by
  have hloc : s.loc k = .no := by
    by_cases e : s.loc k = .no
    · exact e
    · exact absurd ((h.rdy k).2 e) hk
  have hkq : k ∉ s.rq w := fun x => by rw [h.lrq, hloc] at x; cases x
  unfold S.push
  refine ⟨h.mm, ?_, h.nsch, h.few, ?_, ?_, ?_, ?_, ?_, h.nq, h.nback, ?_, ?_⟩
  · dsimp only
    have := Parfor.sumN_change (f := fun v => (upd s.rq w (s.rq w ++ [k]) v).length) (g := fun v => (s.rq v).length)
      hw (fun j _ hj => by simp only [upd, if_neg hj])
    simp only [upd, if_true, List.length_append, List.length_singleton] at this ⊢
    have := h.nrd
    omega
  · intro v x
    dsimp only
    by_cases e : v = w
    · subst e
      simp only [upd, if_true, List.mem_append, List.mem_singleton]
      rw [h.lrq]
      by_cases ex : x = k
      · subst ex; simp
      · simp [ex]
    · simp only [upd, if_neg e]
      rw [h.lrq]
      by_cases ex : x = k
      · subst ex; rw [if_pos rfl, hloc]; simp [Ne.symm e]
      · rw [if_neg ex]
  · intro v x
    dsimp only
    rw [h.lq]
    simp only [upd]
    by_cases ex : x = k
    · subst ex; rw [if_pos rfl, hloc]; simp
    · rw [if_neg ex]
  · intro v x
    dsimp only
    rw [h.lcur]
    simp only [upd]
    by_cases ex : x = k
    · subst ex; rw [if_pos rfl, hloc]; simp
    · rw [if_neg ex]
  · intro v x
    dsimp only
    rw [h.lback]
    simp only [upd]
    by_cases ex : x = k
    · subst ex; rw [if_pos rfl, hloc]; simp
    · rw [if_neg ex]
  · intro v
    dsimp only
    by_cases e : v = w
    · subst e
      simp only [upd, if_true]
      rw [List.nodup_append]
      refine ⟨h.nrq v, by simp, ?_⟩
      intro a ha b hb
      rw [List.mem_singleton] at hb
      rintro rfl
      subst hb; exact hkq ha
    · simp only [upd, if_neg e]; exact h.nrq v
  · intro v hv
    dsimp only
    simp only [upd, if_neg (show v ≠ w by omega)]
    exact h.far v hv
  · intro x
    dsimp only
    simp only [upd]
    by_cases ex : x = k
    · subst ex; simp
    · rw [if_neg ex]; simp only [ex, or_false]; exact h.rdy x

/-- what pushing ready tasks leaves alone -/
structure Pushed (l : List Nat) (s s' : S) : Prop where
  c : s'.c = s.c
  todo : s'.todo = s.todo
  endSent : s'.endSent = s.endSent
  inq : s'.inq = s.inq
  inact : s'.inact = s.inact
  m : s'.m = s.m
  cur : s'.cur = s.cur
  pos : s'.pos = s.pos
  back : s'.back = s.back
  numb : s'.numb = s.numb
  compl : s'.compl = s.compl
  ended : s'.ended = s.ended
  over : s'.over = s.over
  num : s'.num = s.num
  log : s'.log = s.log
  bad : s'.bad = s.bad
  loc : ∀ k, s'.loc k = s.loc k ∨ (k ∈ l ∧ ∃ w, s'.loc k = .rq w)

theorem pushes_ok {G : Cfg} {w : Nat} (hw : w < G.n) (l : List Nat) : ∀ {s : S} {R : Nat → Prop}, Qi G s R → l.Nodup →
    (∀ k ∈ l, ¬ R k) →
    Qi G (l.foldl (S.push w) s) (fun x => R x ∨ x ∈ l) ∧ Pushed l s (l.foldl (S.push w) s) := by
  induction l with
  | nil =>
    intro s R h _ _
    refine ⟨?_, ⟨rfl, rfl, rfl, rfl, rfl, rfl, rfl, rfl, rfl, rfl, rfl, rfl, rfl, rfl, rfl, rfl, fun _ => Or.inl rfl⟩⟩
    simpa using h
  | cons y l ih =>
    intro s R h hn hk
    rw [List.nodup_cons] at hn
    simp only [List.foldl_cons]
    have h1 := push_ok h hw (hk y (by simp))
    obtain ⟨h2, h3⟩ := ih (s := s.push w y) h1 hn.2 (by
      intro k hkl x
      cases x with
      | inl x => exact hk k (by simp [hkl]) x
      | inr x => subst x; exact hn.1 hkl)
    refine ⟨?_, ?_⟩
    · have : (fun x => R x ∨ x ∈ y :: l) = fun x => (R x ∨ x = y) ∨ x ∈ l := by
        funext x; simp only [List.mem_cons, or_assoc]
      rw [this]; exact h2
    · refine ⟨h3.c, h3.todo, h3.endSent, h3.inq, h3.inact, h3.m, h3.cur, h3.pos, h3.back, h3.numb, h3.compl,
        h3.ended, h3.over, h3.num, h3.log, h3.bad, ?_⟩
      intro k
      cases h3.loc k with
      | inr e => exact Or.inr ⟨by simp [e.1], e.2⟩
      | inl e =>
        rw [e]
        unfold S.push
        dsimp only
        simp only [upd]
        by_cases ex : k = y
        · rw [if_pos ex]; exact Or.inr ⟨by simp [ex], w, rfl⟩
        · rw [if_neg ex]; exact Or.inl rfl

end FF.Mdf
