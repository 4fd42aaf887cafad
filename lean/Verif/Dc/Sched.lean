import Verif.Dc.Recv
/-! # Divide and conquer: the queues of the scheduler -/
namespace FF.Mdf
open FF.Node (upd)

/-- a worker gives a completed task back: the queues -/
theorem qi_back {G : Cfg} {s : S} {R : Nat → Prop} (h : Qi G s R) {w t : Nat} {rest : List Nat} (hw : w < G.n)
    (hb : s.back w = t :: rest) (cp : Nat) (c' : Core) :
    Qi G { s with back := upd s.back w rest, compl := cp, nsch := upd s.nsch w (s.nsch w - 1), loc := upd s.loc t .no, c := c' }
      (fun x => x ≠ t ∧ R x) := by
  have hloc : s.loc t = .back w := (h.lback w t).1 (by rw [hb]; simp)
  have hnd := h.nback w
  rw [hb] at hnd
  have key : ∀ k (l : Loc), l ≠ .no → l ≠ .back w → (upd s.loc t Loc.no k = l ↔ s.loc k = l) := by
    intro k l h1 h2
    by_cases e : k = t
    · subst e
      simp only [upd, if_true, hloc]
      exact ⟨fun x => absurd x.symm h1, fun x => absurd x.symm h2⟩
    · simp only [upd, if_neg e]
  constructor
  · exact h.mm
  · exact h.nrd
  · intro v
    dsimp only
    by_cases e : v = w
    · subst e
      simp only [upd, if_true]
      have := h.nsch v
      rw [hb] at this
      simp only [List.length_cons] at this
      omega
    · simp only [upd, if_neg e]; exact h.nsch v
  · intro v
    dsimp only
    have := h.few v
    by_cases e : v = w
    · subst e; simp only [upd, if_true]; omega
    · simp only [upd, if_neg e]; exact this
  · intro v k
    dsimp only
    rw [key k _ (by simp) (by simp)]; exact h.lrq v k
  · intro v k
    dsimp only
    rw [key k _ (by simp) (by simp)]; exact h.lq v k
  · intro v k
    dsimp only
    rw [key k _ (by simp) (by simp)]; exact h.lcur v k
  · intro v k
    dsimp only
    by_cases e : v = w
    · subst e
      simp only [upd, if_true]
      by_cases ek : k = t
      · subst ek
        simp only [if_true]
        refine ⟨fun x => ?_, fun x => by cases x⟩
        exact absurd x (List.nodup_cons.1 hnd).1
      · rw [if_neg ek, ← h.lback v k, hb]
        simp [ek]
    · rw [key k _ (by simp) (by simp [e])]
      simp only [upd, if_neg e]
      exact h.lback v k
  · exact h.nrq
  · exact h.nq
  · intro v
    dsimp only
    by_cases e : v = w
    · subst e; simp only [upd, if_true]; exact (List.nodup_cons.1 hnd).2
    · simp only [upd, if_neg e]; exact h.nback v
  · intro v hv
    dsimp only
    obtain ⟨a, b, c, d⟩ := h.far v hv
    refine ⟨a, b, c, ?_⟩
    simp only [upd, if_neg (show v ≠ w by omega)]; exact d
  · intro k
    dsimp only
    by_cases e : k = t
    · subst e; simp [upd]
    · simp only [upd, if_neg e]
      rw [← h.rdy k]; simp [e]

/-- a worker takes a task from its queue: the queues -/
theorem qi_start {G : Cfg} {s : S} {R : Nat → Prop} (h : Qi G s R) {w t : Nat} {rest : List Nat} (hw : w < G.n)
    (hcur : s.cur w = none) (hqw : s.q w = t :: rest) :
    Qi G { s with cur := upd s.cur w (some t), q := upd s.q w rest, loc := upd s.loc t (.cur w) } R := by
  have hloc : s.loc t = .q w := (h.lq w t).1 (by rw [hqw]; simp)
  have hnd := h.nq w
  rw [hqw] at hnd
  have hnoc : ∀ k, s.loc k ≠ .cur w := by
    intro k x
    have := (h.lcur w k).2 x
    rw [hcur] at this; cases this
  constructor
  · exact h.mm
  · exact h.nrd
  · intro v
    dsimp only
    have := h.nsch v
    by_cases e : v = w
    · subst e
      rw [hqw, hcur] at this
      simp only [upd, if_true]
      simp only [List.length_cons, Option.toList_none, List.length_nil, Option.toList_some, List.length_singleton] at this ⊢
      omega
    · simp only [upd, if_neg e]; exact this
  · exact h.few
  · intro v k
    dsimp only
    rw [h.lrq]
    by_cases e : k = t
    · subst e; simp [upd, hloc]
    · simp only [upd, if_neg e]
  · intro v k
    dsimp only
    by_cases ev : v = w
    · subst ev
      by_cases e : k = t
      · subst e; simp only [upd, if_true]
        exact ⟨fun x => absurd x (List.nodup_cons.1 hnd).1, fun x => by cases x⟩
      · simp only [upd, if_neg e, if_true]
        rw [← h.lq, hqw]; simp [e]
    · simp only [upd, if_neg ev]
      rw [h.lq]
      by_cases e : k = t
      · subst e; simp only [if_true, hloc]; simp; exact fun x => ev x.symm
      · simp only [if_neg e]
  · intro v k
    dsimp only
    by_cases ev : v = w
    · subst ev
      by_cases e : k = t
      · subst e; simp only [upd, if_true]
      · simp only [upd, if_neg e, if_true, Option.some.injEq]
        exact ⟨fun x => absurd x.symm e, fun x => absurd x (hnoc k)⟩
    · simp only [upd, if_neg ev]
      rw [h.lcur]
      by_cases e : k = t
      · subst e; simp only [if_true, hloc]; simp; exact fun x => ev x.symm
      · simp only [if_neg e]
  · intro v k
    dsimp only
    rw [h.lback]
    by_cases e : k = t
    · subst e; simp [upd, hloc]
    · simp only [upd, if_neg e]
  · exact h.nrq
  · intro v
    dsimp only
    by_cases e : v = w
    · subst e; simp only [upd, if_true]; exact (List.nodup_cons.1 hnd).2
    · simp only [upd, if_neg e]; exact h.nq v
  · exact h.nback
  · intro v hv
    dsimp only
    have e : v ≠ w := by omega
    simp only [upd, if_neg e]
    exact h.far v hv
  · intro k
    dsimp only
    rw [h.rdy]
    by_cases e : k = t
    · subst e; simp [upd, hloc]
    · simp only [upd, if_neg e]

/-- a worker has finished its task: the queues -/
theorem qi_stop {G : Cfg} {s : S} {R : Nat → Prop} (h : Qi G s R) {w t : Nat} (hw : w < G.n) (hcur : s.cur w = some t) :
    Qi G { s with cur := upd s.cur w none, back := upd s.back w (s.back w ++ [t]), loc := upd s.loc t (.back w) } R := by
  have hloc : s.loc t = .cur w := (h.lcur w t).1 hcur
  have htb : t ∉ s.back w := fun x => by rw [h.lback, hloc] at x; cases x
  constructor
  · exact h.mm
  · exact h.nrd
  · intro v
    dsimp only
    have := h.nsch v
    by_cases e : v = w
    · subst e
      rw [hcur] at this
      simp only [upd, if_true]
      simp only [List.length_append, Option.toList_none, List.length_nil, Option.toList_some, List.length_singleton] at this ⊢
      omega
    · simp only [upd, if_neg e]; exact this
  · exact h.few
  · intro v k
    dsimp only
    rw [h.lrq]
    by_cases e : k = t
    · subst e; simp [upd, hloc]
    · simp only [upd, if_neg e]
  · intro v k
    dsimp only
    rw [h.lq]
    by_cases e : k = t
    · subst e; simp [upd, hloc]
    · simp only [upd, if_neg e]
  · intro v k
    dsimp only
    by_cases ev : v = w
    · subst ev
      simp only [upd, if_true]
      by_cases e : k = t
      · subst e; simp
      · simp only [if_neg e]
        refine ⟨fun x => (by cases x), fun x => ?_⟩
        have := (h.lcur v k).2 x
        rw [hcur] at this; cases this; exact absurd rfl e
    · simp only [upd, if_neg ev]
      rw [h.lcur]
      by_cases e : k = t
      · subst e; simp only [if_true, hloc]; simp; exact fun x => ev x.symm
      · simp only [if_neg e]
  · intro v k
    dsimp only
    by_cases ev : v = w
    · subst ev
      simp only [upd, if_true, List.mem_append, List.mem_singleton]
      by_cases e : k = t
      · subst e; simp
      · simp only [if_neg e, e, or_false]; exact h.lback v k
    · simp only [upd, if_neg ev]
      rw [h.lback]
      by_cases e : k = t
      · subst e; simp only [if_true, hloc]; simp; exact fun x => ev x.symm
      · simp only [if_neg e]
  · exact h.nrq
  · exact h.nq
  · intro v
    dsimp only
    by_cases e : v = w
    · subst e
      simp only [upd, if_true]
      rw [List.nodup_append]
      refine ⟨h.nback v, by simp, ?_⟩
      intro a ha b hb
      rw [List.mem_singleton] at hb
      subst hb
      rintro rfl; exact htb ha
    · simp only [upd, if_neg e]; exact h.nback v
  · intro v hv
    dsimp only
    have e : v ≠ w := by omega
    simp only [upd, if_neg e]
    exact h.far v hv
  · intro k
    dsimp only
    rw [h.rdy]
    by_cases e : k = t
    · subst e; simp [upd, hloc]
    · simp only [upd, if_neg e]

/-- the queues only depend on the fields of the queues -/
theorem Qi.same {G : Cfg} {s s' : S} {R R' : Nat → Prop} (h : Qi G s R) (h1 : s'.mmax = s.mmax) (h2 : s'.nrd = s.nrd)
    (h3 : s'.rq = s.rq) (h4 : s'.nsch = s.nsch) (h5 : s'.q = s.q) (h6 : s'.cur = s.cur) (h7 : s'.back = s.back)
    (h8 : s'.loc = s.loc) (h9 : ∀ k, R' k ↔ R k) : Qi G s' R' := by
  refine ⟨by rw [h1]; exact h.mm, by rw [h2, h3]; exact h.nrd, by rw [h4, h5, h6, h7]; exact h.nsch, by rw [h4]; exact h.few,
    by rw [h3, h8]; exact h.lrq, by rw [h5, h8]; exact h.lq, by rw [h6, h8]; exact h.lcur, by rw [h7, h8]; exact h.lback,
    by rw [h3]; exact h.nrq, by rw [h5]; exact h.nq, by rw [h7]; exact h.nback, by rw [h3, h5, h6, h7]; exact h.far, ?_⟩
  intro k; rw [h9, h8]; exact h.rdy k

end FF.Mdf
