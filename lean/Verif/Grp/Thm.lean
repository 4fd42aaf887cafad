import Verif.Grp.Term
/-!
# C67: theorems
-/
namespace FF.Grp
variable {D : Type} {N : Net D}

/-- **C67.** No run goes on for ever. -/
theorem C67_terminates (hg : Good N) :
    ¬ ∃ f : ℕ → S N, f 0 = S.start N ∧ ∀ i, ∃ a, step N (f i) a = some (f (i + 1)) := by
  rintro ⟨f, h0, h⟩
  exact no_inf hg f h0 h

/-- **C67.** When nothing can happen any more, everything has ended, and every node has received all that
was meant for it, in order. -/
theorem C67_final (hg : Good N) (hm : Room N) {s : S N} (hr : Reach (step N) (S.start N) s)
    (hk : Stuck N s) : Final N s ∧ Complete N s.cons := by
  obtain ⟨hi, h2⟩ := inv_reach hg hr
  exact ⟨stuck_final hg hm hi h2 hk, stuck_complete hg hm hi h2 hk⟩

/-- **C67.** From wherever the run has got to it can be brought to its end. -/
theorem C67_ends (hg : Good N) (hm : Room N) {s : S N} (hr : Reach (step N) (S.start N) s) :
    ∃ s', Reach (step N) s s' ∧ Stuck N s' ∧ Final N s' ∧ Complete N s'.cons := by
  classical
  by_contra hn
  have hgo : ∀ s', Reach (step N) s s' → ∃ s'', ∃ a, step N s' a = some s'' := by
    intro s' h
    by_contra hk
    have hk' : Stuck N s' := by
      intro a
      by_contra ha
      obtain ⟨s'', e⟩ := Option.ne_none_iff_exists'.1 ha
      exact hk ⟨s'', a, e⟩
    exact hn ⟨s', h, hk', C67_final hg hm (hr.trans h) hk'⟩
  -- follow the schedule up to `s`, and then go on for ever
  obtain ⟨acts, he⟩ := hr
  have : ∀ (l : List Act) (t : S N), exec (step N) t l = some s →
      ∃ f : ℕ → S N, f 0 = t ∧ ∀ i, ∃ a, step N (f i) a = some (f (i + 1)) := by
    intro l
    induction l with
    | nil =>
      intro t ht
      simp only [exec, Option.some.injEq] at ht
      subst ht
      let nxt : {s' // Reach (step N) t s'} → {s' // Reach (step N) t s'} := fun p =>
        ⟨(hgo p.1 p.2).choose, p.2.tail (hgo p.1 p.2).choose_spec.choose_spec⟩
      let f : ℕ → {s' // Reach (step N) t s'} := fun i => nxt^[i] ⟨t, Reach.refl _ _⟩
      refine ⟨fun i => (f i).1, rfl, fun i => ?_⟩
      have e : f (i + 1) = nxt (f i) := Function.iterate_succ_apply' _ _ _
      refine ⟨(hgo (f i).1 (f i).2).choose_spec.choose, ?_⟩
      have := (hgo (f i).1 (f i).2).choose_spec.choose_spec
      rw [this]
      show _ = some (f (i + 1)).1
      rw [e]
    | cons a l ih =>
      intro t ht
      simp only [exec] at ht
      split at ht
      · exact absurd ht (by simp)
      · rename_i t' ha
        obtain ⟨f, h0, h⟩ := ih t' ht
        refine ⟨fun i => match i with | 0 => t | i + 1 => f i, rfl, fun i => ?_⟩
        cases i with
        | zero => exact ⟨a, by simp only [h0]; exact ha⟩
        | succ i => exact h i
  obtain ⟨f, h0, h⟩ := this acts _ he
  exact no_inf hg f h0 h

theorem Deal.sublist {α : Type} {ok : α → Nat → Prop} {l : List α} {f : Nat → List α}
    (h : Deal ok l f) (i : Nat) : (f i).Sublist l := by
  induction h with
  | nil h => rw [h]
  | @snoc l a f f' j hd ho h1 h2 ih =>
    by_cases e : i = j
    · subst e; rw [h1]; exact ih.append_right _
    · rw [h2 i e]; exact ih.trans (List.sublist_append_left _ _)

theorem od_sublist {l l' : List (O D)} (h : l.Sublist l') : (od l).Sublist (od l') := h.filterMap _

theorem dat_sublist {l l' : List (M D)} (y : Nat) (h : l.Sublist l') : (dat y l).Sublist (dat y l') :=
  h.filterMap _

/-- **C67.** At any time: a node has consumed messages of its feeders only; from each, data, and at most
one end mark, which is the last; and the data are in the order in which the feeder has put them out. -/
theorem C67_order (hg : Good N) {s : S N} (hr : Reach (step N) (S.start N) s) {x : Nat}
    (hx : x < N.n) :
    (∀ m ∈ s.cons x, m.src ∈ N.ing x) ∧
    ∀ y ∈ N.ing x,
      ((∀ m ∈ (s.cons x).filter (·.src == y), m.body ≠ none) ∨
        ∃ l, (∀ m ∈ l, m.body ≠ none) ∧ (s.cons x).filter (·.src == y) = l ++ [leos y]) ∧
      (dat y (s.cons x)).Sublist (sent N y (s.cons y)) := by
  obtain ⟨hi, h2⟩ := inv_reach hg hr
  have honce : ∀ x, x < N.n → Once (s.cons x) := by
    intro x hx
    have : Once (s.R x) := by
      refine once_of fun a ha => ?_
      have hy := (hi.recv x a ha).2
      exact ⟨_, hi.eos2 _ (hg.ing_lt x hx _ hy) x hx hy⟩
    exact List.Pairwise.sublist (by simp only [S.R, List.append_assoc]; exact List.sublist_append_left _ _) this
  refine ⟨fun m h => (hi.recv x m (by simp [S.R, h])).2, fun y hy => ?_⟩
  have hyn := hg.ing_lt x hx y hy
  have hRl : s.R x = s.cons x ++ (s.inq x ++ toG (s.rtodo (N.grp x)) x) := by simp [S.R]
  refine ⟨?_, ?_⟩
  · by_cases hl : leos y ∈ s.cons x
    · right
      have h0 := hi.eos2 y hyn x hx hy
      have : (s.R x).filter (·.src == y) = (s.cons x).filter (·.src == y) := by
        rw [hRl, List.filter_append]
        conv => rhs; rw [← List.append_nil ((s.cons x).filter _)]
        congr 1
        rw [List.filter_eq_nil_iff]
        intro m hm
        simpa using nothing_after hg hi hx hyn hy hl hm
      rw [this] at h0
      refine h0.1 (by_contra fun hn => ?_)
      exact h0.2 hn (leos y) (List.mem_filter.2 ⟨hl, by simp⟩) rfl
    · left
      intro m hm hb
      rw [List.mem_filter] at hm
      have hmR : m ∈ s.R x := by rw [hRl]; exact List.mem_append_left _ hm.1
      have h0 := hi.eos2 y hyn x hx hy
      have hmf : m ∈ (s.R x).filter (·.src == y) := List.mem_filter.2 ⟨hmR, hm.2⟩
      by_cases hb' : leos y ∈ s.cproc (N.grp y) (N.grp x)
      · obtain ⟨ds, hd, e⟩ := h0.1 hb'
        rw [e] at hmf
        rcases List.mem_append.1 hmf with h | h
        · exact hd m h hb
        · rw [List.mem_singleton.1 h] at hm; exact hl hm.1
      · exact h0.2 hb' m hmf hb
  · have s1 : (dat y (s.cons x)).Sublist (dat y (s.R x)) :=
      dat_sublist y (by rw [hRl]; exact List.sublist_append_left _ _)
    have s2 := (hi.deal2 y hyn (N.grp x)).sublist x
    simp only [if_true] at s2
    have s3 : (dat y (s.cproc (N.grp y) (N.grp x))).Sublist (dat y (s.C (N.grp y) (N.grp x))) :=
      dat_sublist y (by simp only [S.C, List.append_assoc]; exact List.sublist_append_left _ _)
    have s4 := (hi.deal1 y hyn).sublist (N.grp x)
    have s5 : (od (s.oproc y)).Sublist (od (s.X y)) :=
      od_sublist (by simp only [S.X, List.append_assoc]; exact List.sublist_append_left _ _)
    have hne : N.eg y ≠ [] := List.ne_nil_of_mem ((hg.dual x y hx hyn).2 hy)
    rw [← od_produced hne (honce y hyn)]
    have s6 : (od (s.X y)).Sublist (od (produced N y (s.cons y))) := by
      apply od_sublist
      by_cases hs : N.ing y = []
      · rw [hi.srcs y hyn hs, produced, if_pos hs]
        split
        · exact List.Sublist.refl _
        · exact List.nil_sublist _
      · rw [(hi.wrun y hyn hs).2, produced, if_neg hs]
    exact ((((s1.trans s2).trans s3).trans s4).trans s5).trans s6

/-- **C67.** A group that has ended was not needed any more: nothing is on its way to it. -/
theorem C67_group_end (hg : Good N) {s : S N} (hr : Reach (step N) (S.start N) s) {g : Nat}
    (he : s.ended g = true) :
    s.rtodo g = [] ∧ ∀ a, s.wire a g = [] ∧ ∀ p ∈ s.stodo a, p.1 ≠ g := by
  obtain ⟨hi, h2⟩ := inv_reach hg hr
  have hex : ∀ x, x < N.n → N.grp x = g → (s.w x).exited = true := by
    intro x hx hgx
    simp only [S.ended, Bool.and_eq_true, List.all_eq_true, List.mem_range, Bool.or_eq_true, bne_iff_ne,
      ne_eq] at he
    rcases he.1 x hx with h | h
    · exact absurd hgx h
    · exact h.1.1
  have hC : ∀ a, ∀ m ∈ s.C a g, m ∈ s.wire a g ++ toG (s.stodo a) g → False := by
    intro a m hm hmw
    have hc := hi.conn a g m hm
    obtain ⟨x, hx, hgx, hyx⟩ : ∃ x, x < N.n ∧ N.grp x = g ∧ m.src ∈ N.ing x := by
      cases hd : m.dest with
      | some d =>
        obtain ⟨h1, h2⟩ := hc.dest d hd
        have := hg.eg_lt _ hc.lt _ h1
        exact ⟨d, this, h2, (hg.dual d _ this hc.lt).1 h1⟩
      | none =>
        obtain ⟨z, h1, h2⟩ := (mem_conns hg hc.lt).1 (hc.anon hd)
        have := hg.eg_lt _ hc.lt _ h1
        exact ⟨z, this, h2, (hg.dual z _ this hc.lt).1 h1⟩
    have hl := exited_seen hg hi hx (hex x hx hgx) hyx
    have h0 := hi.eos2 _ hc.lt x hx hyx
    have hcp : leos m.src ∈ s.cproc (N.grp m.src) (N.grp x) :=
      by_contra fun hn => h0.2 hn (leos m.src) (List.mem_filter.2 ⟨by simp [S.R, hl], by simp⟩) rfl
    rw [hc.grp, hgx] at hcp
    have h1 := hi.eos1 _ hc.lt g
    rw [hc.grp] at h1
    obtain ⟨u, v, e⟩ := List.append_of_mem hmw
    have : (s.C a g).filter (·.src == m.src) =
        (s.cproc a g ++ u).filter (·.src == m.src) ++ m :: v.filter (·.src == m.src) := by
      simp only [S.C, List.append_assoc, e]
      simp
    exact h1.before this (leos m.src) (List.mem_filter.2 ⟨List.mem_append_left _ hcp, by simp⟩) rfl
  refine ⟨by_contra fun hn => ?_, fun a => ⟨by_contra fun hn => ?_, fun p hp e => ?_⟩⟩
  · obtain ⟨⟨x, m⟩, l, e⟩ := List.exists_cons_of_ne_nil hn
    have hgx : N.grp x = g := hi.rt g (x, m) (by rw [e]; exact List.mem_cons_self)
    have hmt : m ∈ toG (s.rtodo (N.grp x)) x := by rw [hgx, e]; simp [toG]
    obtain ⟨hx, hy⟩ := hi.recv x m (by simp only [S.R]; exact List.mem_append_right _ hmt)
    exact nothing_after hg hi hx (hg.ing_lt x hx _ hy) hy (exited_seen hg hi hx (hex x hx hgx) hy)
      (List.mem_append_right _ hmt) rfl
  · obtain ⟨m, l, e⟩ := List.exists_cons_of_ne_nil hn
    exact hC a m (by simp [S.C, e]) (by simp [e])
  · have hmt : p.2 ∈ toG (s.stodo a) g := mem_toG.2 (by rw [← e]; exact hp)
    exact hC a p.2 (by simp [S.C, hmt]) (by simp [hmt])

end FF.Grp
