import Verif.Grp.Sent
import Mathlib.Data.List.Perm.Subperm
/-!
# C67: a run that cannot go on has ended everywhere
-/
namespace FF.Grp
variable {D : Type} {N : Net D}

def isFin : O D → Bool
  | .fin => true
  | .msg _ => false

/-- number of real end marks -/
def fins (l : List (O D)) : Nat := l.countP isFin

theorem fins_append (l l' : List (O D)) : fins (l ++ l') = fins l + fins l' := List.countP_append
theorem fins_data {l : List (O D)} (h : ∀ o ∈ l, IsD o) : fins l = 0 := by
  rw [fins, List.countP_eq_zero]
  intro o ho
  have := h o ho
  cases o with
  | msg m => simp [isFin]
  | fin => exact absurd this (by simp [IsD])

theorem srcOut_fins (hg : Good N) {x : Nat} (hx : x < N.n) (hs : N.ing x = []) :
    fins (srcOut N x) ≤ 2 := by
  have hr := hg.once x hx hs
  simp only [srcOut, hr, serRet, fins_append]
  rw [fins_data fun o ho => (ser_mem (hg.idx0 x hx) ho).1]
  split <;> simp [fins, isFin, List.countP_cons]

theorem wstep_fins (hg : Good N) {x : Nat} (hx : x < N.n) (w : W (N.node x)) (m : M D) :
    fins (wstep N x w m).2 ≤ 1 := by
  simp only [wstep]
  cases hb : m.body with
  | none =>
    simp only
    split
    · simp [fins]
    · split
      · simp only [fins_append]
        rw [fins_data fun o ho => (ser_mem (hg.idx2 x hx _ _) ho).1]
        split <;> simp [fins, isFin, List.countP_cons]
      · simp only
        rw [fins_data fun o ho => (ser_mem (hg.idx2 x hx _ _) ho).1]
        exact Nat.zero_le _
  | some d =>
    simp only [fins_append]
    rw [fins_data fun o ho => (ser_mem (hg.idx1 x hx _ _ _) ho).1,
      fins_data fun o ho => (serRet_mem (hg.steady x hx _ _ _) ho).1]
    exact Nat.zero_le _

/-- more invariants -/
structure Inv2 (N : Net D) (s : S N) : Prop where
  none : ∀ x, N.n ≤ x → s.X x = []
  cnt : ∀ x, fins (s.X x) ≤ 2

theorem Inv2.move {s s' : S N} (h2 : Inv2 N s) (h : ∀ x, s'.X x = s.X x) : Inv2 N s' :=
  ⟨fun x hx => by rw [h]; exact h2.none x hx, fun x => by rw [h]; exact h2.cnt x⟩

/-- what a step does to what the wrappers have put out -/
theorem step_X {s s' : S N} {a : Act} (hi : Inv N s) (h : step N s a = some s') :
    (∀ x, s'.X x = s.X x) ∨
    (∃ x, x < N.n ∧ N.ing x = [] ∧ s.X x = [] ∧ s'.X x = srcOut N x ∧ ∀ z, z ≠ x → s'.X z = s.X z) ∨
    ∃ x m, x < N.n ∧ (s.w x).exited = false ∧ s'.X x = s.X x ++ (wstep N x (s.w x) m).2 ∧
      ∀ z, z ≠ x → s'.X z = s.X z := by
  cases a with
  | first x =>
    simp only [step] at h
    split at h
    · rename_i hc
      obtain ⟨h1, h2, h3⟩ := hc
      simp only [Option.some.injEq] at h
      subst h
      have h0 := hi.srcs x h1 h2
      rw [h3] at h0
      simp only [Bool.false_eq_true, if_false] at h0
      refine .inr (.inl ⟨x, h1, h2, h0, ?_, fun z hz => by simp [S.X, upd_ne _ _ hz]⟩)
      simp only [S.X, List.append_eq_nil_iff] at h0
      simp [S.X, h0.1.1, h0.1.2]
    · exact absurd h (by simp)
  | pop x =>
    simp only [step] at h
    split at h
    · exact absurd h (by simp)
    · rename_i m ms hq
      split at h
      · rename_i hc
        simp only [Option.some.injEq] at h
        subst h
        refine .inr (.inr ⟨x, m, hc.1, hc.2.2.1, by simp [S.X, hc.2.2.2], fun z hz => by simp [S.X, upd_ne _ _ hz]⟩)
      · exact absurd h (by simp)
  | push x =>
    simp only [step] at h
    split at h
    · exact absurd h (by simp)
    · rename_i o os hq
      split at h
      · simp only [Option.some.injEq] at h
        subst h
        left
        intro z
        by_cases e : z = x
        · subst e; simp [S.X, hq]
        · simp [S.X, upd_ne _ _ e]
      · exact absurd h (by simp)
  | gather x c =>
    simp only [step] at h
    split at h
    · exact absurd h (by simp)
    · rename_i o os hq
      split at h
      · left
        cases o with
        | fin =>
          simp only [Option.some.injEq] at h
          subst h
          intro z
          by_cases e : z = x
          · subst e; simp [S.X, hq]
          · simp [S.X, upd_ne _ _ e]
        | msg m =>
          simp only [Option.map_eq_some_iff] at h
          obtain ⟨l, -, rfl⟩ := h
          intro z
          by_cases e : z = x
          · subst e; simp [S.X, hq]
          · simp [S.X, upd_ne _ _ e]
      · exact absurd h (by simp)
  | send g =>
    simp only [step] at h
    split at h
    · exact absurd h (by simp)
    · split at h
      · simp only [Option.some.injEq] at h
        subst h
        exact .inl fun z => rfl
      · exact absurd h (by simp)
  | recv a g x =>
    simp only [step] at h
    split at h
    · exact absurd h (by simp)
    · split at h
      · simp only [Option.map_eq_some_iff] at h
        obtain ⟨l, -, rfl⟩ := h
        exact .inl fun z => rfl
      · exact absurd h (by simp)
  | deliver g =>
    simp only [step] at h
    split at h
    · exact absurd h (by simp)
    · split at h
      · simp only [Option.some.injEq] at h
        subst h
        exact .inl fun z => rfl
      · exact absurd h (by simp)

theorem Inv2.step {s s' : S N} {a : Act} (hg : Good N) (hi : Inv N s) (h2 : Inv2 N s)
    (h : FF.Grp.step N s a = some s') : Inv2 N s' := by
  rcases step_X hi h with h | ⟨x, h1, hs, h0, h3, h4⟩ | ⟨x, m, h1, he, h3, h4⟩
  · exact h2.move h
  · refine ⟨fun z hz => ?_, fun z => ?_⟩
    · rw [h4 z (by omega)]; exact h2.none z hz
    · by_cases e : z = x
      · subst e; rw [h3]; exact srcOut_fins hg h1 hs
      · rw [h4 z e]; exact h2.cnt z
  · refine ⟨fun z hz => ?_, fun z => ?_⟩
    · rw [h4 z (by omega)]; exact h2.none z hz
    · by_cases e : z = x
      · subst e
        rw [h3, fins_append, fins_data (l := s.X z)]
        · have := wstep_fins hg h1 (s.w z) m
          omega
        · intro o ho
          refine Classical.byContradiction fun hn => ?_
          have := hi.fin z h1 o ho hn
          rw [he] at this; exact absurd this (by simp)
      · rw [h4 z e]; exact h2.cnt z

theorem Inv2.start : Inv2 N (S.start N) :=
  ⟨fun x _ => by simp [S.start, S.X], fun x => by simp [S.start, S.X, fins]⟩

theorem inv_reach {s : S N} (hg : Good N) (hr : Reach (FF.Grp.step N) (S.start N) s) :
    Inv N s ∧ Inv2 N s :=
  hr.inv (Inv := fun s => Inv N s ∧ Inv2 N s) ⟨Inv.start, Inv2.start⟩
    fun _ _ _ hi h => ⟨hi.1.step hg h, hi.2.step hg hi.1 h⟩

/-- After the sender has the real end mark only one more can follow. -/
theorem off_rest {s : S N} (hi : Inv N s) (h2 : Inv2 N s) {x : Nat} (hx : x < N.n)
    (ho : s.off x = true) :
    (∀ o ∈ s.outq x ++ s.pend x, o = .fin) ∧ (s.outq x ++ s.pend x).length ≤ 1 := by
  have hf := (hi.off x).1 ho
  have h1 : ∀ o ∈ s.outq x ++ s.pend x, o = .fin := by
    intro o hm
    refine Classical.byContradiction fun hn => ?_
    have := hi.ord x hx
    simp only [S.X, List.append_assoc] at this
    exact (List.pairwise_append.1 this).2.2 _ hf o hm hn
  refine ⟨h1, ?_⟩
  have hc := h2.cnt x
  simp only [S.X, List.append_assoc, fins_append] at hc
  have e : fins (s.outq x) + fins (s.pend x) = (s.outq x ++ s.pend x).length := by
    rw [← fins_append, fins, List.countP_eq_length]
    intro o hm
    rw [h1 o hm]; rfl
  have : 0 < fins (s.oproc x) := List.countP_pos_iff.2 ⟨_, hf, rfl⟩
  omega

section
variable {s : S N} (hg : Good N) (hm : Room N) (hi : Inv N s) (h2 : Inv2 N s) (hk : Stuck N s)

include hg hi in
/-- a node that has ended has the end marks of all its feeders -/
theorem exited_seen {x : Nat} (hx : x < N.n) (he : (s.w x).exited = true) {y : Nat} (hy : y ∈ N.ing x) :
    leos y ∈ s.cons x := by
  obtain ⟨h1, h3, h4⟩ := hi.seen x hx (List.ne_nil_of_mem hy)
  have hl := h4.1 he
  have hsub : (s.w x).seen ⊆ N.ing x := by
    intro z hz
    exact (hi.recv x _ (by simp only [S.R, List.append_assoc]; exact List.mem_append_left _ ((h1 z).1 hz))).2
  have hp := (List.subperm_of_subset h3 hsub).perm_of_length_le hl
  exact (h1 y).1 (hp.symm.subset hy)

include hg hi in
/-- nothing of a feeder follows its end mark -/
theorem nothing_after {x y : Nat} (hx : x < N.n) (hy : y < N.n) (hyx : y ∈ N.ing x)
    (h : leos y ∈ s.cons x) {m : M D} (hm : m ∈ s.inq x ++ toG (s.rtodo (N.grp x)) x) : m.src ≠ y := by
  intro e
  have h0 := hi.eos2 y hy x hx hyx
  obtain ⟨a, b, e'⟩ := List.append_of_mem hm
  have : (s.R x).filter (·.src == y) =
      (s.cons x ++ a).filter (·.src == y) ++ m :: b.filter (·.src == y) := by
    simp only [S.R, List.append_assoc, e']
    simp [e]
  exact h0.before this (leos y) (List.mem_filter.2 ⟨List.mem_append_left _ h, by simp⟩) rfl

include hg hi in
theorem nothing_after_wire {x y : Nat} (hx : x < N.n) (hy : y < N.n) (hyx : y ∈ N.ing x)
    (h : leos y ∈ s.cons x) {m : M D} (hm : m ∈ s.wire (N.grp y) (N.grp x)) : m.src ≠ y := by
  intro e
  have h0 := hi.eos2 y hy x hx hyx
  have hc : leos y ∈ s.cproc (N.grp y) (N.grp x) := by
    refine Classical.byContradiction fun hn => ?_
    exact h0.2 hn (leos y) (List.mem_filter.2 ⟨by simp [S.R, h], by simp⟩) rfl
  have h1 := hi.eos1 y hy (N.grp x)
  obtain ⟨a, b, e'⟩ := List.append_of_mem hm
  have : (s.C (N.grp y) (N.grp x)).filter (·.src == y) =
      (s.cproc (N.grp y) (N.grp x) ++ a).filter (·.src == y) ++
        m :: (b ++ toG (s.stodo (N.grp y)) (N.grp x)).filter (·.src == y) := by
    simp only [S.C, e']
    simp [e]
  exact h1.before this (leos y) (List.mem_filter.2 ⟨List.mem_append_left _ hc, by simp⟩) rfl

include hg hi in
/-- a message on a connection has a consumer at the other end -/
theorem wire_consumer {a g : Nat} {m : M D} (h : m ∈ s.wire a g) :
    m.src < N.n ∧ N.grp m.src = a ∧ ∃ x, x < N.n ∧ N.grp x = g ∧ m.src ∈ N.ing x := by
  have hc : ConnOk N a g m := hi.conn a g m (by simp [S.C, h])
  refine ⟨hc.lt, hc.grp, ?_⟩
  cases hd : m.dest with
  | some d =>
    obtain ⟨h1, h2⟩ := hc.dest d hd
    have := hg.eg_lt _ hc.lt _ h1
    exact ⟨d, this, h2, (hg.dual d _ this hc.lt).1 h1⟩
  | none =>
    obtain ⟨z, h1, h2⟩ := (mem_conns hg hc.lt).1 (hc.anon hd)
    have := hg.eg_lt _ hc.lt _ h1
    exact ⟨z, this, h2, (hg.dual z _ this hc.lt).1 h1⟩

include hm hk in
theorem stuck_pend {x : Nat} (h : s.pend x ≠ []) : s.outq x ≠ [] := by
  obtain ⟨o, os, e⟩ := List.exists_cons_of_ne_nil h
  have := hk (.push x)
  simp only [step, e] at this
  split at this
  · exact absurd this (by simp)
  · rename_i hn
    have := hm.out x
    intro e'
    rw [e'] at hn
    exact hn this

include hg hi hk in
theorem stuck_outq {x : Nat} (hx : x < N.n) (h : s.outq x ≠ []) (ho : s.off x = false) :
    s.stodo (N.grp x) ≠ [] := by
  intro hst
  obtain ⟨o, os, e⟩ := List.exists_cons_of_ne_nil h
  cases o with
  | fin =>
    have := hk (.gather x 0)
    simp [step, e, hx, ho, hst] at this
  | msg m =>
    have hom : OutOk N x m := hi.out x hx m (by simp [S.X, e])
    obtain ⟨z, zs, ez⟩ := List.exists_cons_of_ne_nil hom.ne
    have hz : z ∈ N.eg x := by rw [ez]; exact List.mem_cons_self
    have hc : N.grp z ∈ conns N m.src := by
      rw [hom.src]
      exact (mem_conns hg hx).2 ⟨z, hz, rfl⟩
    have := hk (.gather x (N.grp z))
    simp only [step, e, hx, ho, hst, and_self, if_true, Option.map_eq_none_iff, senderRoute] at this
    split at this
    · simp at this
    · simp at this
    · simp [hc] at this

include hm hk in
theorem stuck_stodo {g : Nat} (h : s.stodo g ≠ []) : ∃ c, s.wire g c ≠ [] := by
  obtain ⟨⟨c, m⟩, l, e⟩ := List.exists_cons_of_ne_nil h
  have := hk (.send g)
  simp only [step, e] at this
  split at this
  · exact absurd this (by simp)
  · rename_i hn
    refine ⟨c, fun e' => hn ?_⟩
    rw [e']
    exact hm.wire g c

include hg hi hk in
theorem stuck_wire {a g : Nat} (h : s.wire a g ≠ []) : s.rtodo g ≠ [] := by
  intro hrt
  obtain ⟨m, ms, e⟩ := List.exists_cons_of_ne_nil h
  have hmw : m ∈ s.wire a g := by rw [e]; exact List.mem_cons_self
  obtain ⟨hy, ha, x, hx, hgx, hyx⟩ := wire_consumer hg hi hmw
  have hcon : ConnOk N a g m := hi.conn a g m (by simp [S.C, e])
  -- the group has not ended
  have hen : s.ended g = false := by
    refine Classical.byContradiction fun hn => ?_
    simp only [Bool.not_eq_false, S.ended, Bool.and_eq_true, List.all_eq_true, List.mem_range,
      Bool.or_eq_true, bne_iff_ne, ne_eq] at hn
    have := hn.1 x hx
    rcases this with h | h
    · exact h hgx
    · have hl := exited_seen hg hi hx h.1.1 hyx
      exact nothing_after_wire hg hi hx hy hyx hl (by rw [ha, hgx]; exact hmw) rfl
  have := hk (.recv a g x)
  simp only [step, e, hrt, hen, and_self, if_true, Option.map_eq_none_iff, boxRoute] at this
  split at this
  · rename_i d hd
    simp [(hcon.dest d hd).2] at this
  · simp at this
  · have hp : x ∈ poss N g m.src := mem_poss.2 ⟨hx, hgx, hyx⟩
    simp [List.ne_nil_of_mem hp, hp] at this

include hi hm hk in
theorem stuck_rtodo {g : Nat} (h : s.rtodo g ≠ []) :
    ∃ x, x < N.n ∧ N.grp x = g ∧ N.capI x ≠ none ∧ s.inq x ≠ [] := by
  obtain ⟨⟨x, m⟩, l, e⟩ := List.exists_cons_of_ne_nil h
  have hgx : N.grp x = g := hi.rt g (x, m) (by rw [e]; exact List.mem_cons_self)
  have hx := (hi.recv x m (by simp [S.R, hgx, e, toG])).1
  have := hk (.deliver g)
  simp only [step, e] at this
  split at this
  · exact absurd this (by simp)
  · rename_i hn
    refine ⟨x, hx, hgx, ?_, ?_⟩
    · intro e'; rw [e'] at hn; exact hn rfl
    · intro e'
      rw [e'] at hn
      have hq := hm.inq x
      cases hc : N.capI x with
      | none => rw [hc] at hn; exact hn rfl
      | some c =>
        rw [hc] at hn hq
        simp only [room, List.length_nil, decide_eq_true_eq] at hn
        apply hq
        congr 1
        omega

include hg hi hk in
theorem stuck_inq {x : Nat} (h : s.inq x ≠ []) : s.pend x ≠ [] := by
  intro hp
  obtain ⟨m, ms, e⟩ := List.exists_cons_of_ne_nil h
  obtain ⟨hx, hy⟩ := hi.recv x m (by simp [S.R, e])
  cases he : (s.w x).exited with
  | true =>
    have hl := exited_seen hg hi hx he hy
    exact nothing_after hg hi hx (hg.ing_lt x hx _ hy) hy hl
      (List.mem_append_left _ (by rw [e]; exact List.mem_cons_self)) rfl
  | false =>
    have := hk (.pop x)
    simp [step, e, hx, List.ne_nil_of_mem hy, he, hp] at this

include hg hm hi h2 hk in
theorem stuck_pend' {x : Nat} (hx : x < N.n) (h : s.pend x ≠ []) : s.stodo (N.grp x) ≠ [] := by
  have ho := stuck_pend hm hk h
  refine stuck_outq hg hi hk hx ho ?_
  refine Classical.byContradiction fun hn => ?_
  rw [Bool.not_eq_false] at hn
  have := (off_rest hi h2 hx hn).2
  have h3 := List.length_pos_iff.2 h
  have h4 := List.length_pos_iff.2 ho
  rw [List.length_append] at this
  omega

theorem bounded (r : Nat → Nat) (k : Nat) : ∃ B, ∀ g, g < k → r g ≤ B := by
  induction k with
  | zero => exact ⟨0, fun g h => absurd h (by omega)⟩
  | succ k ih =>
    obtain ⟨B, hB⟩ := ih
    refine ⟨max B (r k), fun g h => ?_⟩
    by_cases e : g = k
    · subst e; exact Nat.le_max_right _ _
    · exact Nat.le_trans (hB g (by omega)) (Nat.le_max_left _ _)

include hg hm hi h2 hk in
theorem stuck_no_rtodo (g : Nat) : s.rtodo g = [] := by
  obtain ⟨r, hr⟩ := hm.order
  obtain ⟨B, hB⟩ := bounded r N.k
  have key : ∀ d g, B - r g ≤ d → s.rtodo g ≠ [] → False := by
    intro d
    induction d with
    | zero =>
      intro g hd h
      obtain ⟨x, hx, hgx, -, hq⟩ := stuck_rtodo hm hi hk h
      have hst := stuck_pend' hg hm hi h2 hk hx (stuck_inq hg hi hk hq)
      obtain ⟨c, hw⟩ := stuck_stodo hm hk hst
      obtain ⟨m, ms, e⟩ := List.exists_cons_of_ne_nil hw
      obtain ⟨hy, ha, z, hz, hgz, hyz⟩ := wire_consumer hg hi (m := m) (by rw [e]; exact List.mem_cons_self)
      obtain ⟨x', hx', hgx', hc, -⟩ := stuck_rtodo hm hi hk (stuck_wire hg hi hk hw)
      have h1 := hr x' z hx' hz hc (by rw [hgx', hgz]) _ hyz
      rw [ha, hgz, hgx] at h1
      have h3 := hB c (by rw [← hgz]; exact hg.grp_lt z hz)
      omega
    | succ d ih =>
      intro g hd h
      obtain ⟨x, hx, hgx, -, hq⟩ := stuck_rtodo hm hi hk h
      have hst := stuck_pend' hg hm hi h2 hk hx (stuck_inq hg hi hk hq)
      obtain ⟨c, hw⟩ := stuck_stodo hm hk hst
      obtain ⟨m, ms, e⟩ := List.exists_cons_of_ne_nil hw
      obtain ⟨hy, ha, z, hz, hgz, hyz⟩ := wire_consumer hg hi (m := m) (by rw [e]; exact List.mem_cons_self)
      have hrc := stuck_wire hg hi hk hw
      obtain ⟨x', hx', hgx', hc, -⟩ := stuck_rtodo hm hi hk hrc
      have h1 := hr x' z hx' hz hc (by rw [hgx', hgz]) _ hyz
      rw [ha, hgz, hgx] at h1
      have h3 := hB c (by rw [← hgz]; exact hg.grp_lt z hz)
      exact ih c (by omega) hrc
  exact Classical.byContradiction fun hn => key _ g (Nat.le_refl _) hn

include hg hm hi h2 hk in
theorem stuck_empty : (∀ g, s.rtodo g = []) ∧ (∀ a g, s.wire a g = []) ∧ (∀ g, s.stodo g = []) ∧
    (∀ x, s.inq x = []) ∧ (∀ x, s.pend x = []) ∧ ∀ x, x < N.n → s.outq x ≠ [] → s.off x = true := by
  have hr := stuck_no_rtodo hg hm hi h2 hk
  have hw : ∀ a g, s.wire a g = [] := fun a g =>
    Classical.byContradiction fun hn => stuck_wire hg hi hk hn (hr g)
  have hst : ∀ g, s.stodo g = [] := fun g => Classical.byContradiction fun hn => by
    obtain ⟨c, h⟩ := stuck_stodo hm hk hn
    exact h (hw g c)
  have hp : ∀ x, s.pend x = [] := fun x => Classical.byContradiction fun hn => by
    by_cases hx : x < N.n
    · exact stuck_pend' hg hm hi h2 hk hx hn (hst _)
    · have := h2.none x (by omega)
      simp only [S.X, List.append_eq_nil_iff] at this
      exact hn this.2
  refine ⟨hr, hw, hst, fun x => Classical.byContradiction fun hn => stuck_inq hg hi hk hn (hp x), hp, ?_⟩
  intro x hx ho
  refine Classical.byContradiction fun hn => ?_
  rw [Bool.not_eq_true] at hn
  exact stuck_outq hg hi hk hx ho hn (hst _)

include hg hm hi h2 hk in
theorem stuck_oproc {y : Nat} (hy : y < N.n) {m : M D} (h : .msg m ∈ s.X y) : .msg m ∈ s.oproc y := by
  obtain ⟨-, -, -, -, hp, ho⟩ := stuck_empty hg hm hi h2 hk
  simp only [S.X, hp, List.append_nil] at h
  rcases List.mem_append.1 h with h | h
  · exact h
  · have := (off_rest hi h2 hy (ho y hy (List.ne_nil_of_mem h))).1 _ (List.mem_append_left _ h)
    exact absurd this (by simp)

include hg hm hi h2 hk in
theorem stuck_exited : ∀ x, x < N.n → (s.w x).exited = true := by
  obtain ⟨h, hh⟩ := hg.acyclic
  obtain ⟨hr, hw, hst, hq, hp, ho⟩ := stuck_empty hg hm hi h2 hk
  have key : ∀ d x, h x < d → x < N.n → (s.w x).exited = true := by
    intro d
    induction d with
    | zero => intro x hd; omega
    | succ d ih =>
      intro x hd hx
      by_cases hs : N.ing x = []
      · refine Classical.byContradiction fun hn => ?_
        rw [Bool.not_eq_true] at hn
        have := hk (.first x)
        simp [step, hx, hs, hn] at this
      · obtain ⟨h1, h3, h4⟩ := hi.seen x hx hs
        refine h4.2 ?_
        have hsub : N.ing x ⊆ (s.w x).seen := by
          intro y hy
          have hyn := hg.ing_lt x hx y hy
          have hye := ih y (by have := hh x hx y hy; omega) hyn
          have hxe : x ∈ N.eg y := (hg.dual x y hx hyn).2 hy
          have ho' := stuck_oproc hg hm hi h2 hk hyn ((hi.ends y hyn hye).2 (List.ne_nil_of_mem hxe))
          have hc : N.grp x ∈ conns N y := (mem_conns hg hyn).2 ⟨x, hxe, rfl⟩
          obtain ⟨ds, -, e⟩ := (hi.eos1 y hyn (N.grp x)).1 ⟨ho', hc⟩
          have hC : s.C (N.grp y) (N.grp x) = s.cproc (N.grp y) (N.grp x) := by simp [S.C, hw, hst]
          have hcp : leos y ∈ s.cproc (N.grp y) (N.grp x) := by
            rw [← hC]
            have : leos y ∈ (s.C (N.grp y) (N.grp x)).filter (·.src == y) := by rw [e]; simp
            exact (List.mem_filter.1 this).1
          obtain ⟨ds', -, e'⟩ := (hi.eos2 y hyn x hx hy).1 hcp
          have hR : s.R x = s.cons x := by simp [S.R, hq, hr]
          refine (h1 y).2 ?_
          rw [← hR]
          have : leos y ∈ (s.R x).filter (·.src == y) := by rw [e']; simp
          exact (List.mem_filter.1 this).1
        exact (List.subperm_of_subset (hg.nodup x hx) hsub).length_le
  exact fun x hx => key _ x (Nat.lt_succ_self _) hx

include hg hm hi h2 hk in
theorem stuck_final : Final N s := by
  obtain ⟨hr, hw, hst, hq, hp, ho⟩ := stuck_empty hg hm hi h2 hk
  have he := stuck_exited hg hm hi h2 hk
  have hoff : ∀ x, x < N.n → s.off x = true := by
    intro x hx
    have := (hi.ends x hx (he x hx)).1
    simp only [S.X, hp, List.append_nil] at this
    rcases List.mem_append.1 this with h | h
    · exact (hi.off x).2 h
    · exact ho x hx (List.ne_nil_of_mem h)
  refine ⟨fun x hx => ⟨he x hx, hp x, hq x⟩, ⟨hoff, hst⟩, fun g => ⟨?_, hr g⟩, hw⟩
  simp only [S.ended, Bool.and_eq_true, List.all_eq_true, List.mem_range, Bool.or_eq_true, bne_iff_ne,
    ne_eq, hst, hp, List.isEmpty_nil, and_true]
  exact fun x hx => .inr ⟨he x hx, hoff x hx⟩

end

/-- Two dealings, one after the other. -/
theorem Deal.comp {α : Type} {ok1 ok2 : α → Nat → Prop} {l : List α} {f : Nat → List α}
    (h : Deal ok1 l f) (G : Nat → Nat) (H : Nat → List α)
    (h' : ∀ g, Deal ok2 (f g) fun x => if G x = g then H x else []) : Deal ok2 l H := by
  induction h generalizing H with
  | nil h0 =>
    refine .nil fun x => ?_
    have := h' (G x)
    rw [h0] at this
    generalize e : (fun z => if G z = G x then H z else []) = q at this
    generalize e2 : ([] : List α) = n at this
    cases this with
    | nil h => have := h x; rw [← e] at this; simpa using this
    | snoc i _ _ _ _ => simp at e2
  | snoc i hd ho hi hj ih =>
    rename_i l a f f'
    have h1 := h' i
    rw [hi] at h1
    generalize e : (fun z => if G z = i then H z else []) = q at h1
    generalize e2 : f i ++ [a] = n at h1
    cases h1 with
    | nil h => simp at e2
    | @snoc l2 a2 h0 _ x hd2 ho2 hx hz =>
      obtain ⟨e3, e4⟩ := List.append_inj' e2 rfl
      simp only [List.cons.injEq, and_true] at e4
      subst e3 e4
      have hG : G x = i := by
        refine Classical.byContradiction fun hn => ?_
        rw [← e] at hx
        simp [hn] at hx
      rw [← e] at hx hz
      simp only [hG, if_true] at hx
      refine .snoc x (f := fun z => if z = x then h0 x else H z) (ih _ ?_) ho2 (by simp [hx]) ?_
      · intro g
        by_cases hgi : g = i
        · subst hgi
          have : (fun z => if G z = g then (if z = x then h0 x else H z) else []) = h0 := by
            funext z
            by_cases hzx : z = x
            · subst hzx; simp [hG]
            · rw [← hz z hzx]; simp [hzx]
          rw [this]; exact hd2
        · have := h' g
          rw [hj g hgi] at this
          have e5 : (fun z => if G z = g then (if z = x then h0 x else H z) else []) =
              fun z => if G z = g then H z else [] := by
            funext z
            by_cases hzx : z = x
            · subst hzx; simp [hG, Ne.symm hgi]
            · simp [hzx]
          rw [e5]; exact this
      · intro j hj; simp [hj]

theorem stuck_complete {s : S N} (hg : Good N) (hm : Room N) (hi : Inv N s) (h2 : Inv2 N s)
    (hk : Stuck N s) : Complete N s.cons := by
  obtain ⟨hr, hw, hst, hq, hp, ho⟩ := stuck_empty hg hm hi h2 hk
  have he := stuck_exited hg hm hi h2 hk
  have hR : ∀ x, s.R x = s.cons x := fun x => by simp [S.R, hq, hr]
  have hC : ∀ a g, s.C a g = s.cproc a g := fun a g => by simp [S.C, hw, hst]
  have hf : ∀ x, x < N.n → ∀ m ∈ s.cons x, m.src ∈ N.ing x :=
    fun x hx m h => (hi.recv x m (by rw [hR]; exact h)).2
  have honce : ∀ x, x < N.n → Once (s.cons x) := by
    intro x hx
    refine once_of fun a ha => ?_
    have hy := hf x hx a ha
    have := hi.eos2 _ (hg.ing_lt x hx _ hy) x hx hy
    rw [hR] at this
    exact ⟨_, this⟩
  refine ⟨hf, ?_, ?_⟩
  · intro x hx y hy
    have hyn := hg.ing_lt x hx y hy
    have hl := exited_seen hg hi hx (he x hx) hy
    rw [← hR] at hl ⊢
    have h0 := hi.eos2 y hyn x hx hy
    refine h0.1 (Classical.byContradiction fun hn => ?_)
    exact h0.2 hn (leos y) (List.mem_filter.2 ⟨hl, by simp⟩) rfl
  · intro y hy hne
    rw [← od_produced hne (honce y hy)]
    have hX : s.X y = produced N y (s.cons y) := by
      by_cases hs : N.ing y = []
      · rw [hi.srcs y hy hs, he y hy]; simp [produced, hs]
      · rw [(hi.wrun y hy hs).2]; simp [produced, hs]
    have hod : od (s.X y) = od (s.oproc y) := by
      simp only [S.X, hp, List.append_nil, od_append]
      have : od (s.outq y) = [] := by
        by_cases e : s.outq y = []
        · rw [e]; rfl
        · have h1 := (off_rest hi h2 hy (ho y hy e)).1
          rw [od, List.filterMap_eq_nil_iff]
          intro o hm
          rw [h1 o (List.mem_append_left _ hm)]
      rw [this, List.append_nil]
    rw [← hX, hod]
    refine (hi.deal1 y hy).comp N.grp _ fun g => ?_
    have := hi.deal2 y hy g
    simp only [hR] at this
    simp only [hC]
    exact this

end FF.Grp
