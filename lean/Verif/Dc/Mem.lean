import Verif.Dc.Table
/-! # Divide and conquer: the memory -/
namespace FF.Dc
open FF.Node (upd)

variable {Op R : Type}

/-- Specification of the user's functions: `sol` solves the problem for every operand in `D` by dividing,
solving and combining, and `D` contains the parts of its operands. -/
structure Solves (P : Prob Op R) (D : Op → Prop) (sol : Op → R) : Prop where
  base : ∀ op, D op → P.cond op = true → sol op = P.seq op
  split : ∀ op, D op → P.cond op = false → sol op = P.comb ((P.divide op).map sol)
  parts : ∀ op, D op → P.cond op = false → P.divide op ≠ [] ∧ ∀ o ∈ P.divide op, D o

/-- what every live cell contains, or what remains to be done for it -/
structure M (P : Prob Op R) (D : Op → Prop) (sol : Op → R) (x : S Op R) : Prop where
  root0 : x.root ≠ 0
  val : ∀ a, x.live a = true → x.duty a = none → x.mem a = sol (x.goal a)
  liv : ∀ a k, x.duty a = some k → x.live a = true
  dac : ∀ a b i, x.duty a = some (.dac b i) →
    D (x.goal a) ∧ ∃ blk, x.heap b = some blk ∧ blk.cells[i]? = some a ∧ blk.ops[i]? = some (x.goal a)
  comb : ∀ a b cs, x.duty a = some (.comb b cs) →
    x.up b = a ∧ sol (x.goal a) = P.comb (cs.map fun c => sol (x.goal c)) ∧ ∃ blk, x.heap b = some blk ∧ blk.cells = cs
  put : ∀ a ob v, x.duty a = some (.put ob v) → v = sol (x.goal a) ∧
    ∀ b, ob = some b → x.up b = a ∧ ∃ blk, x.heap b = some blk ∧ ∀ c ∈ blk.cells, x.duty c = none
  blk : ∀ b blk, x.heap b = some blk → b < x.nb ∧
    ((∃ cs, x.duty (x.up b) = some (.comb b cs)) ∨ ∃ v, x.duty (x.up b) = some (.put (some b) v))
  cel : ∀ b blk, x.heap b = some blk → blk.cells.Nodup ∧ ∀ c ∈ blk.cells, c ≠ 0 ∧ c ≠ x.root
  dis : ∀ b b' blk blk' c, x.heap b = some blk → x.heap b' = some blk' → c ∈ blk.cells → c ∈ blk'.cells → b = b'
  tre : ∀ b b' blk blk', x.heap b = some blk → x.heap b' = some blk' → x.up b ∈ blk'.cells → b' < b

theorem live_iff {x : S Op R} (h : ∀ b blk, x.heap b = some blk → b < x.nb) (a : Nat) :
    x.live a = true ↔ a = x.root ∨ ∃ b blk, x.heap b = some blk ∧ a ∈ blk.cells := by
  unfold S.live
  rw [Bool.or_eq_true, beq_iff_eq, List.any_eq_true]
  constructor
  · rintro (h1 | ⟨b, _, h2⟩)
    · exact Or.inl h1
    · rw [Option.any_eq_true] at h2
      obtain ⟨blk, h3, h4⟩ := h2
      exact Or.inr ⟨b, blk, h3, by simpa using h4⟩
  · rintro (h1 | ⟨b, blk, h2, h3⟩)
    · exact Or.inl h1
    · refine Or.inr ⟨b, List.mem_range.2 (h b blk h2), ?_⟩
      rw [Option.any_eq_true]
      exact ⟨blk, h2, by simpa using h3⟩

theorem M.live {P : Prob Op R} {D : Op → Prop} {sol : Op → R} {x : S Op R} (h : M P D sol x) (a : Nat) :
    x.live a = true ↔ a = x.root ∨ ∃ b blk, x.heap b = some blk ∧ a ∈ blk.cells :=
  live_iff (fun b blk hb => (h.blk b blk hb).1) a

/-- the invariant only depends on the memory part of the state -/
theorem M.same {P : Prob Op R} {D : Op → Prop} {sol : Op → R} {x y : S Op R} (h : M P D sol x)
    (h1 : y.mem = x.mem) (h2 : y.heap = x.heap) (h3 : y.nb = x.nb) (h4 : y.root = x.root) (h5 : y.duty = x.duty)
    (h6 : y.goal = x.goal) (h7 : y.up = x.up) : M P D sol y := by
  have hl : ∀ a, y.live a = x.live a := by intro a; unfold S.live; rw [h2, h3, h4]
  refine ⟨by rw [h4]; exact h.root0, ?_, ?_, ?_, ?_, ?_, ?_, ?_, ?_, ?_⟩
  · intro a; rw [hl, h5, h1, h6]; exact h.val a
  · intro a k; rw [hl, h5]; exact h.liv a k
  · intro a b i; rw [h2, h5, h6]; exact h.dac a b i
  · intro a b cs; rw [h2, h5, h6, h7]; exact h.comb a b cs
  · intro a ob v; rw [h2, h5, h6, h7]; exact h.put a ob v
  · intro b blk; rw [h2, h3, h5, h7]; exact h.blk b blk
  · intro b blk; rw [h2, h4]; exact h.cel b blk
  · intro b b' blk blk' c; rw [h2]; exact h.dis b b' blk blk' c
  · intro b b' blk blk'; rw [h2, h7]; exact h.tre b b' blk blk'

theorem upd_self {α : Type} (f : Nat → α) (i : Nat) (v : α) : upd f i v i = v := by unfold upd; rw [if_pos rfl]

theorem upd_ne {α : Type} (f : Nat → α) {i j : Nat} (h : j ≠ i) (v : α) : upd f i v j = f j := by unfold upd; rw [if_neg h]

/-- base case -/
theorem M.base {P : Prob Op R} {D : Op → Prop} {sol : Op → R} {x : S Op R} (h : M P D sol x) (hS : Solves P D sol)
    {a b i : Nat} (hd : x.duty a = some (.dac b i)) {blk : Block Op} (hb : x.heap b = some blk) {op : Op}
    (ho : blk.ops[i]? = some op) (hc : P.cond op = true) (prog : Nat → List (Tok R)) :
    M P D sol { x with prog := prog, duty := upd x.duty a (some (.put none (P.seq op))) } := by
  obtain ⟨hD, blk', e1, e2, e3⟩ := h.dac a b i hd
  rw [hb] at e1; cases e1
  rw [ho] at e3; cases e3
  have hnn : ∀ c, upd x.duty a (some (Kind.put none (P.seq (x.goal a)))) c = none ↔ x.duty c = none := by
    intro c
    by_cases e : c = a
    · subst e; rw [upd_self, hd]; simp
    · rw [upd_ne _ e]
  refine ⟨h.root0, ?_, ?_, ?_, ?_, ?_, ?_, h.cel, h.dis, h.tre⟩
  · intro c hl hn
    exact h.val c hl ((hnn c).1 hn)
  · intro c k hk
    by_cases e : c = a
    · subst e; exact h.liv c _ hd
    · exact h.liv c k (by dsimp only at hk; rwa [upd_ne _ e] at hk)
  · intro c b' j hk
    by_cases e : c = a
    · subst e; dsimp only at hk; rw [upd_self] at hk; cases hk
    · exact h.dac c b' j (by dsimp only at hk; rwa [upd_ne _ e] at hk)
  · intro c b' cs hk
    by_cases e : c = a
    · subst e; dsimp only at hk; rw [upd_self] at hk; cases hk
    · exact h.comb c b' cs (by dsimp only at hk; rwa [upd_ne _ e] at hk)
  · intro c ob v hk
    by_cases e : c = a
    · subst e
      dsimp only at hk
      rw [upd_self] at hk
      cases hk
      exact ⟨(hS.base _ hD hc).symm, fun b' hb' => by cases hb'⟩
    · obtain ⟨q1, q2⟩ := h.put c ob v (by dsimp only at hk; rwa [upd_ne _ e] at hk)
      refine ⟨q1, fun b' hb' => ?_⟩
      obtain ⟨q3, blk', q4, q5⟩ := q2 b' hb'
      exact ⟨q3, blk', q4, fun d hd' => (hnn d).2 (q5 d hd')⟩
  · intro b' blk' hb'
    obtain ⟨q1, q2⟩ := h.blk b' blk' hb'
    refine ⟨q1, ?_⟩
    have e : x.up b' ≠ a := by
      intro e; rw [e, hd] at q2
      rcases q2 with ⟨_, q⟩ | ⟨_, q⟩ <;> cases q
    dsimp only
    rw [upd_ne _ e]; exact q2

/-- the results of a block are combined -/
theorem M.combine {P : Prob Op R} {D : Op → Prop} {sol : Op → R} {x : S Op R} (h : M P D sol x)
    {a b : Nat} {cs : List Nat} (hd : x.duty a = some (.comb b cs)) (hw : ∀ c ∈ cs, x.duty c = none)
    (prog : Nat → List (Tok R)) :
    M P D sol { x with prog := prog, duty := upd x.duty a (some (.put (some b) (P.comb (cs.map x.mem)))) } := by
  obtain ⟨hu, hs, blk, e1, e2⟩ := h.comb a b cs hd
  have hmem : cs.map x.mem = cs.map fun c => sol (x.goal c) := by
    apply List.map_congr_left
    intro c hc
    exact h.val c ((h.live c).2 (Or.inr ⟨b, blk, e1, by rw [e2]; exact hc⟩)) (hw c hc)
  rw [hmem, ← hs]
  have hnn : ∀ c, upd x.duty a (some (Kind.put (some b) (sol (x.goal a)))) c = none ↔ x.duty c = none := by
    intro c
    by_cases e : c = a
    · subst e; rw [upd_self, hd]; simp
    · rw [upd_ne _ e]
  refine ⟨h.root0, ?_, ?_, ?_, ?_, ?_, ?_, h.cel, h.dis, h.tre⟩
  · intro c hl hn
    exact h.val c hl ((hnn c).1 hn)
  · intro c k hk
    by_cases e : c = a
    · subst e; exact h.liv c _ hd
    · exact h.liv c k (by dsimp only at hk; rwa [upd_ne _ e] at hk)
  · intro c b' j hk
    by_cases e : c = a
    · subst e; dsimp only at hk; rw [upd_self] at hk; cases hk
    · exact h.dac c b' j (by dsimp only at hk; rwa [upd_ne _ e] at hk)
  · intro c b' cs' hk
    by_cases e : c = a
    · subst e; dsimp only at hk; rw [upd_self] at hk; cases hk
    · exact h.comb c b' cs' (by dsimp only at hk; rwa [upd_ne _ e] at hk)
  · intro c ob v hk
    by_cases e : c = a
    · subst e
      dsimp only at hk
      rw [upd_self] at hk
      cases hk
      refine ⟨rfl, fun b' hb' => ?_⟩
      cases hb'
      exact ⟨hu, blk, e1, fun d hd' => (hnn d).2 (hw d (by rw [e2] at hd'; exact hd'))⟩
    · obtain ⟨q1, q2⟩ := h.put c ob v (by dsimp only at hk; rwa [upd_ne _ e] at hk)
      refine ⟨q1, fun b' hb' => ?_⟩
      obtain ⟨q3, blk', q4, q5⟩ := q2 b' hb'
      exact ⟨q3, blk', q4, fun d hd' => (hnn d).2 (q5 d hd')⟩
  · intro b' blk' hb'
    obtain ⟨q1, q2⟩ := h.blk b' blk' hb'
    refine ⟨q1, ?_⟩
    dsimp only
    by_cases e : x.up b' = a
    · rw [e, hd] at q2
      rcases q2 with ⟨_, q⟩ | ⟨_, q⟩
      · cases q; rw [e, upd_self]; exact Or.inr ⟨_, rfl⟩
      · cases q
    · rw [upd_ne _ e]; exact q2

/-- a result is written -/
theorem M.write {P : Prob Op R} {D : Op → Prop} {sol : Op → R} {x : S Op R} (h : M P D sol x)
    {a : Nat} {v : R} (hd : x.duty a = some (.put none v)) (prog : Nat → List (Tok R)) :
    M P D sol { x with prog := prog, mem := upd x.mem a v, duty := upd x.duty a none } := by
  obtain ⟨hv, _⟩ := h.put a none v hd
  have hsome : ∀ c k, upd x.duty a none c = some k → c ≠ a ∧ x.duty c = some k := by
    intro c k hk
    by_cases e : c = a
    · subst e; rw [upd_self] at hk; cases hk
    · rw [upd_ne _ e] at hk; exact ⟨e, hk⟩
  refine ⟨h.root0, ?_, ?_, ?_, ?_, ?_, ?_, h.cel, h.dis, h.tre⟩
  · intro c hl hn
    dsimp only at hn ⊢
    by_cases e : c = a
    · subst e; rw [upd_self]; exact hv
    · rw [upd_ne _ e] at hn ⊢; exact h.val c hl hn
  · intro c k hk; exact h.liv c k (hsome c k hk).2
  · intro c b j hk; exact h.dac c b j (hsome c _ hk).2
  · intro c b cs hk; exact h.comb c b cs (hsome c _ hk).2
  · intro c ob v' hk
    obtain ⟨q1, q2⟩ := h.put c ob v' (hsome c _ hk).2
    refine ⟨q1, fun b' hb' => ?_⟩
    obtain ⟨q3, blk', q4, q5⟩ := q2 b' hb'
    refine ⟨q3, blk', q4, fun d hd' => ?_⟩
    dsimp only
    by_cases e : d = a
    · subst e; rw [upd_self]
    · rw [upd_ne _ e]; exact q5 d hd'
  · intro b' blk' hb'
    obtain ⟨q1, q2⟩ := h.blk b' blk' hb'
    refine ⟨q1, ?_⟩
    have e : x.up b' ≠ a := by
      intro e; rw [e, hd] at q2
      rcases q2 with ⟨_, q⟩ | ⟨_, q⟩ <;> cases q
    dsimp only
    rw [upd_ne _ e]; exact q2

/-- a combined result is written and the block is deleted -/
theorem M.free {P : Prob Op R} {D : Op → Prop} {sol : Op → R} {x : S Op R} (h : M P D sol x)
    {a b : Nat} {v : R} (hd : x.duty a = some (.put (some b) v)) (prog : Nat → List (Tok R)) :
    M P D sol { x with prog := prog, mem := upd x.mem a v, duty := upd x.duty a none, heap := upd x.heap b none } := by
  obtain ⟨hv, hb⟩ := h.put a _ v hd
  obtain ⟨hu, blk, e1, e2⟩ := hb b rfl
  have hsome : ∀ c k, upd x.duty a none c = some k → c ≠ a ∧ x.duty c = some k := by
    intro c k hk
    by_cases e : c = a
    · subst e; rw [upd_self] at hk; cases hk
    · rw [upd_ne _ e] at hk; exact ⟨e, hk⟩
  have hheap : ∀ b' blk', upd x.heap b none b' = some blk' → b' ≠ b ∧ x.heap b' = some blk' := by
    intro b' blk' hk
    by_cases e : b' = b
    · subst e; rw [upd_self] at hk; cases hk
    · rw [upd_ne _ e] at hk; exact ⟨e, hk⟩
  have hbn : ∀ b' blk', upd x.heap b none b' = some blk' → b' < x.nb :=
    fun b' blk' hk => (h.blk b' blk' (hheap b' blk' hk).2).1
  have hl := live_iff (x := { x with prog := prog, mem := upd x.mem a v, duty := upd x.duty a none, heap := upd x.heap b none }) hbn
  refine ⟨h.root0, ?_, ?_, ?_, ?_, ?_, ?_, ?_, ?_, ?_⟩
  · intro c hlc hn
    dsimp only at hn ⊢
    by_cases e : c = a
    · subst e; rw [upd_self]; exact hv
    · rw [upd_ne _ e] at hn ⊢
      refine h.val c ((h.live c).2 ?_) hn
      rcases (hl c).1 hlc with q | ⟨b', blk', q1, q2⟩
      · exact Or.inl q
      · exact Or.inr ⟨b', blk', (hheap b' blk' q1).2, q2⟩
  · intro c k hk
    obtain ⟨q1, q2⟩ := hsome c k hk
    refine (hl c).2 ?_
    rcases (h.live c).1 (h.liv c k q2) with q | ⟨b', blk', q3, q4⟩
    · exact Or.inl q
    · refine Or.inr ⟨b', blk', ?_, q4⟩
      dsimp only
      by_cases e : b' = b
      · subst e; rw [e1] at q3; cases q3; rw [e2 c q4] at q2; cases q2
      · rw [upd_ne _ e]; exact q3
  · intro c b' j hk
    obtain ⟨q1, q2⟩ := hsome c _ hk
    obtain ⟨q3, blk', q4, q5, q6⟩ := h.dac c b' j q2
    refine ⟨q3, blk', ?_, q5, q6⟩
    dsimp only
    by_cases e : b' = b
    · subst e; rw [e1] at q4; cases q4; rw [e2 c (List.mem_of_getElem? q5)] at q2; cases q2
    · rw [upd_ne _ e]; exact q4
  · intro c b' cs hk
    obtain ⟨q1, q2⟩ := hsome c _ hk
    obtain ⟨q3, q4, blk', q5, q6⟩ := h.comb c b' cs q2
    refine ⟨q3, q4, blk', ?_, q6⟩
    dsimp only
    by_cases e : b' = b
    · subst e; rw [hu] at q3; exact absurd q3.symm q1
    · rw [upd_ne _ e]; exact q5
  · intro c ob v' hk
    obtain ⟨q1, q2⟩ := hsome c _ hk
    obtain ⟨q3, q4⟩ := h.put c ob v' q2
    refine ⟨q3, fun b' hb' => ?_⟩
    obtain ⟨q5, blk', q6, q7⟩ := q4 b' hb'
    refine ⟨q5, blk', ?_, fun d hd' => ?_⟩
    · dsimp only
      by_cases e : b' = b
      · subst e; rw [hu] at q5; exact absurd q5.symm q1
      · rw [upd_ne _ e]; exact q6
    · dsimp only
      by_cases e : d = a
      · subst e; rw [upd_self]
      · rw [upd_ne _ e]; exact q7 d hd'
  · intro b' blk' hb'
    obtain ⟨q0, hb''⟩ := hheap b' blk' hb'
    obtain ⟨q1, q2⟩ := h.blk b' blk' hb''
    refine ⟨q1, ?_⟩
    have e : x.up b' ≠ a := by
      intro e; rw [e, hd] at q2
      rcases q2 with ⟨_, q⟩ | ⟨_, q⟩
      · cases q
      · cases q; exact q0 rfl
    dsimp only
    rw [upd_ne _ e]; exact q2
  · intro b' blk' hb'; exact h.cel b' blk' (hheap b' blk' hb').2
  · intro b1 b2 k1 k2 c h1 h2; exact h.dis b1 b2 k1 k2 c (hheap b1 k1 h1).2 (hheap b2 k2 h2).2
  · intro b1 b2 k1 k2 h1 h2; exact h.tre b1 b2 k1 k2 (hheap b1 k1 h1).2 (hheap b2 k2 h2).2

theorem aim_get {goal : Nat → Op} : ∀ {cs : List Nat} {os : List Op}, cs.Nodup → cs.length = os.length →
    ∀ (i c : Nat), cs[i]? = some c → os[i]? = some (aim goal cs os c) := by
  intro cs
  induction cs with
  | nil => intro os _ _ i c h; simp at h
  | cons d cs ih =>
    intro os hn hl i c h
    cases os with
    | nil => simp at hl
    | cons o os =>
      rw [List.nodup_cons] at hn
      cases i with
      | zero =>
        simp only [List.getElem?_cons_zero, Option.some.injEq] at h ⊢
        subst h; unfold aim; rw [upd_self]
      | succ i =>
        simp only [List.getElem?_cons_succ] at h ⊢
        have hc : c ≠ d := by rintro rfl; exact hn.1 (List.mem_of_getElem? h)
        unfold aim
        rw [upd_ne _ hc]
        exact ih hn.2 (by simpa using hl) i c h

theorem aim_other {goal : Nat → Op} : ∀ {cs : List Nat} {os : List Op} {c : Nat}, c ∉ cs → aim goal cs os c = goal c := by
  intro cs
  induction cs with
  | nil => intro os c _; unfold aim; rfl
  | cons d cs ih =>
    intro os c h
    cases os with
    | nil => unfold aim; rfl
    | cons o os =>
      simp only [List.mem_cons, not_or] at h
      unfold aim
      rw [upd_ne _ h.1]; exact ih h.2

theorem aim_map {goal : Nat → Op} : ∀ {cs : List Nat} {os : List Op}, cs.Nodup → cs.length = os.length →
    cs.map (aim goal cs os) = os := by
  intro cs
  induction cs with
  | nil => intro os _ hl; cases os with
    | nil => rfl
    | cons o os => simp at hl
  | cons d cs ih =>
    intro os hn hl
    cases os with
    | nil => simp at hl
    | cons o os =>
      rw [List.nodup_cons] at hn
      rw [List.map_cons]
      congr 1
      · unfold aim; rw [upd_self]
      · refine Eq.trans (List.map_congr_left ?_) (ih (os := os) hn.2 (by simpa using hl))
        intro c hc
        have hc' : c ≠ d := by rintro rfl; exact hn.1 hc
        rw [aim, upd_ne _ hc']

theorem owe_get {b : Nat} {duty : Nat → Option (Kind R)} : ∀ {cs : List Nat} {j : Nat}, cs.Nodup →
    ∀ (i c : Nat), cs[i]? = some c → owe b duty j cs c = some (.dac b (j + i)) := by
  intro cs
  induction cs with
  | nil => intro j _ i c h; simp at h
  | cons d cs ih =>
    intro j hn i c h
    rw [List.nodup_cons] at hn
    cases i with
    | zero =>
      simp only [List.getElem?_cons_zero, Option.some.injEq] at h
      subst h; unfold owe; rw [upd_self]; rfl
    | succ i =>
      simp only [List.getElem?_cons_succ] at h
      have hc : c ≠ d := by rintro rfl; exact hn.1 (List.mem_of_getElem? h)
      unfold owe
      rw [upd_ne _ hc, ih hn.2 i c h]
      congr 2; omega

theorem owe_other {b : Nat} {duty : Nat → Option (Kind R)} : ∀ {cs : List Nat} {j c : Nat}, c ∉ cs → owe b duty j cs c = duty c := by
  intro cs
  induction cs with
  | nil => intro j c _; unfold owe; rfl
  | cons d cs ih =>
    intro j c h
    simp only [List.mem_cons, not_or] at h
    unfold owe
    rw [upd_ne _ h.1]; exact ih h.2

theorem fresh_iff {x : S Op R} {n : Nat} {cells : List Nat} (h : x.fresh n cells = true) :
    cells.length = n ∧ cells.Nodup ∧ ∀ a ∈ cells, a ≠ 0 ∧ x.live a = false := by
  unfold S.fresh at h
  simp only [Bool.and_eq_true, beq_iff_eq, decide_eq_true_eq, List.all_eq_true, bne_iff_ne, Bool.not_eq_eq_eq_not, Bool.not_true] at h
  obtain ⟨⟨h1, h2⟩, h3⟩ := h
  exact ⟨h1, h2, fun a ha => h3 a ha⟩

/-- the duty of a cell after a division -/
theorem split_duty {x : S Op R} {a b : Nat} {cells : List Nat} (hn : cells.Nodup) (ha : a ∉ cells) (c : Nat) (k : Kind R) :
    upd (owe b x.duty 0 cells) a (some (.comb b cells)) c = some k ↔
      (c = a ∧ k = .comb b cells) ∨ (∃ i, cells[i]? = some c ∧ k = .dac b i) ∨ (c ≠ a ∧ c ∉ cells ∧ x.duty c = some k) := by
  by_cases e : c = a
  · subst e
    rw [upd_self]
    constructor
    · intro h; cases h; exact Or.inl ⟨rfl, rfl⟩
    · rintro (⟨_, rfl⟩ | ⟨i, h, _⟩ | ⟨h, _⟩)
      · rfl
      · exact absurd (List.mem_of_getElem? h) ha
      · exact absurd rfl h
  · rw [upd_ne _ e]
    by_cases hm : c ∈ cells
    · obtain ⟨i, hi⟩ := List.mem_iff_getElem?.1 hm
      rw [owe_get hn i c hi, Nat.zero_add]
      constructor
      · intro h; cases h; exact Or.inr (Or.inl ⟨i, hi, rfl⟩)
      · rintro (⟨h, _⟩ | ⟨j, h, rfl⟩ | ⟨_, h, _⟩)
        · exact absurd h e
        · have hi' := hi
          rw [List.getElem?_eq_some_iff] at hi h
          obtain ⟨l1, g1⟩ := hi
          obtain ⟨l2, g2⟩ := h
          have : i = j := (List.Nodup.getElem_inj_iff hn).1 (g1.trans g2.symm)
          rw [this]
        · exact absurd hm h
    · rw [owe_other hm]
      constructor
      · intro h; exact Or.inr (Or.inr ⟨e, hm, h⟩)
      · rintro (⟨h, _⟩ | ⟨j, h, _⟩ | ⟨_, _, h⟩)
        · exact absurd h e
        · exact absurd (List.mem_of_getElem? h) hm
        · exact h

/-- an operand is divided -/
theorem M.split {P : Prob Op R} {D : Op → Prop} {sol : Op → R} {x : S Op R} (h : M P D sol x) (hS : Solves P D sol)
    {a b i w : Nat} (hd : x.duty a = some (.dac b i)) {blk : Block Op} (hb : x.heap b = some blk) {op : Op}
    (ho : blk.ops[i]? = some op) (hc : P.cond op = false) {cells : List Nat}
    (hf : x.fresh (P.divide op).length cells = true) (rest : List (Tok R)) :
    M P D sol (x.split w a (P.divide op) cells rest) := by
  obtain ⟨hlen, hnd, hnew⟩ := fresh_iff hf
  obtain ⟨hD, blk', e1, e2, e3⟩ := h.dac a b i hd
  rw [hb] at e1; cases e1
  rw [ho] at e3; cases e3
  have hla := h.liv a _ hd
  have hnl : ∀ c, x.live c = true → c ∉ cells := fun c hl hm => by rw [(hnew c hm).2] at hl; cases hl
  have hac := hnl a hla
  have hnb : x.heap x.nb = none := by
    cases hx : x.heap x.nb with
    | none => rfl
    | some q => have := (h.blk _ q hx).1; omega
  have hheap : ∀ b' k', upd x.heap x.nb (some ⟨P.divide (x.goal a), cells⟩) b' = some k' →
      (b' = x.nb ∧ k' = ⟨P.divide (x.goal a), cells⟩) ∨ (b' ≠ x.nb ∧ x.heap b' = some k') := by
    intro b' k' hk
    by_cases e : b' = x.nb
    · subst e; rw [upd_self] at hk; cases hk; exact Or.inl ⟨rfl, rfl⟩
    · rw [upd_ne _ e] at hk; exact Or.inr ⟨e, hk⟩
  have hkeep : ∀ b' k', x.heap b' = some k' → upd x.heap x.nb (some ⟨P.divide (x.goal a), cells⟩) b' = some k' := by
    intro b' k' hk
    rw [upd_ne]; exact hk
    rintro rfl; rw [hnb] at hk; cases hk
  have hcl : ∀ b' k' c, x.heap b' = some k' → c ∈ k'.cells → c ∉ cells := fun b' k' c h1 h2 =>
    hnl c ((h.live c).2 (Or.inr ⟨b', k', h1, h2⟩))
  have hbn : ∀ b' k', upd x.heap x.nb (some ⟨P.divide (x.goal a), cells⟩) b' = some k' → b' < x.nb + 1 := by
    intro b' k' hk
    rcases hheap b' k' hk with ⟨e, _⟩ | ⟨_, q⟩
    · omega
    · have := (h.blk b' k' q).1; omega
  have hl := live_iff (x := x.split w a (P.divide (x.goal a)) cells rest) hbn
  have hlive : ∀ c, (x.split w a (P.divide (x.goal a)) cells rest).live c = true ↔ x.live c = true ∨ c ∈ cells := by
    intro c
    rw [hl, h.live]
    constructor
    · rintro (q | ⟨b', k', q1, q2⟩)
      · exact Or.inl (Or.inl q)
      · rcases hheap b' k' q1 with ⟨_, rfl⟩ | ⟨_, q3⟩
        · exact Or.inr q2
        · exact Or.inl (Or.inr ⟨b', k', q3, q2⟩)
    · rintro ((q | ⟨b', k', q1, q2⟩) | q)
      · exact Or.inl q
      · exact Or.inr ⟨b', k', hkeep b' k' q1, q2⟩
      · exact Or.inr ⟨x.nb, ⟨P.divide (x.goal a), cells⟩, upd_self _ _ _, q⟩
  have hgoal : ∀ c, x.live c = true → (x.split w a (P.divide (x.goal a)) cells rest).goal c = x.goal c :=
    fun c hc' => aim_other (hnl c hc')
  have hsd : ∀ c k, (x.split w a (P.divide (x.goal a)) cells rest).duty c = some k ↔ _ :=
    fun c k => split_duty (x := x) (b := x.nb) hnd hac c k
  have hup : ∀ b', b' ≠ x.nb → (x.split w a (P.divide (x.goal a)) cells rest).up b' = x.up b' := fun b' e => upd_ne _ e _
  have hparts := hS.parts _ hD hc
  refine ⟨h.root0, ?_, ?_, ?_, ?_, ?_, ?_, ?_, ?_, ?_⟩
  · intro c hlc hn
    rcases (hlive c).1 hlc with q | q
    · have hna : c ≠ a := by
        rintro rfl
        have := (hsd c (.comb x.nb cells)).2 (Or.inl ⟨rfl, rfl⟩)
        rw [hn] at this; cases this
      rw [hgoal c q]
      refine h.val c q ?_
      cases hx : x.duty c with
      | none => rfl
      | some k =>
        have := (hsd c k).2 (Or.inr (Or.inr ⟨hna, hnl c q, hx⟩))
        rw [hn] at this; cases this
    · obtain ⟨j, hj⟩ := List.mem_iff_getElem?.1 q
      have := (hsd c (.dac x.nb j)).2 (Or.inr (Or.inl ⟨j, hj, rfl⟩))
      rw [hn] at this; cases this
  · intro c k hk
    rcases (hsd c k).1 hk with ⟨rfl, _⟩ | ⟨j, q, _⟩ | ⟨_, _, q⟩
    · exact (hlive c).2 (Or.inl hla)
    · exact (hlive c).2 (Or.inr (List.mem_of_getElem? q))
    · exact (hlive c).2 (Or.inl (h.liv c k q))
  · intro c b' j hk
    rcases (hsd c _).1 hk with ⟨rfl, q⟩ | ⟨j', q, q'⟩ | ⟨_, _, q⟩
    · cases q
    · cases q'
      have ho' : (P.divide (x.goal a))[j]? = some (aim x.goal cells (P.divide (x.goal a)) c) := aim_get hnd hlen j c q
      exact ⟨hparts.2 _ (List.mem_of_getElem? ho'), ⟨P.divide (x.goal a), cells⟩, upd_self _ _ _, q, ho'⟩
    · obtain ⟨g1, k', g2, g3, g4⟩ := h.dac c b' j q
      rw [hgoal c (h.liv c _ q)]
      exact ⟨g1, k', hkeep b' k' g2, g3, g4⟩
  · intro c b' cs hk
    rcases (hsd c _).1 hk with ⟨rfl, q⟩ | ⟨j', q, q'⟩ | ⟨_, _, q⟩
    · cases q
      refine ⟨upd_self _ _ _, ?_, ⟨P.divide (x.goal c), cells⟩, upd_self _ _ _, rfl⟩
      rw [hgoal c hla, hS.split _ hD hc]
      congr 1
      have : (fun d => sol ((x.split w c (P.divide (x.goal c)) cells rest).goal d)) =
          sol ∘ aim x.goal cells (P.divide (x.goal c)) := rfl
      rw [this, ← List.map_map, aim_map hnd hlen]
    · cases q'
    · obtain ⟨g1, g2, k', g3, g4⟩ := h.comb c b' cs q
      have hb' : b' ≠ x.nb := by rintro rfl; rw [hnb] at g3; cases g3
      refine ⟨by rw [hup b' hb']; exact g1, ?_, k', hkeep b' k' g3, g4⟩
      rw [hgoal c (h.liv c _ q), g2]
      congr 1
      apply List.map_congr_left
      intro d hd'
      rw [hgoal d ((h.live d).2 (Or.inr ⟨b', k', g3, by rw [g4]; exact hd'⟩))]
  · intro c ob v hk
    rcases (hsd c _).1 hk with ⟨rfl, q⟩ | ⟨j', q, q'⟩ | ⟨_, _, q⟩
    · cases q
    · cases q'
    · obtain ⟨g1, g2⟩ := h.put c ob v q
      refine ⟨by rw [hgoal c (h.liv c _ q)]; exact g1, fun b' hb' => ?_⟩
      obtain ⟨g3, k', g4, g5⟩ := g2 b' hb'
      have hne : b' ≠ x.nb := by rintro rfl; rw [hnb] at g4; cases g4
      refine ⟨by rw [hup b' hne]; exact g3, k', hkeep b' k' g4, fun d hd' => ?_⟩
      have hda : d ≠ a := by rintro rfl; rw [g5 d hd'] at hd; cases hd
      show upd _ a _ d = none
      rw [upd_ne _ hda, owe_other (hcl b' k' d g4 hd')]
      exact g5 d hd'
  · intro b' k' hk
    rcases hheap b' k' hk with ⟨rfl, rfl⟩ | ⟨hne, q⟩
    · refine ⟨Nat.lt_succ_self _, Or.inl ⟨cells, ?_⟩⟩
      show upd _ a _ (upd x.up x.nb a x.nb) = _
      rw [upd_self, upd_self]
    · obtain ⟨g1, g2⟩ := h.blk b' k' q
      refine ⟨Nat.lt_succ_of_lt g1, ?_⟩
      rw [hup b' hne]
      have hua : x.up b' ≠ a := by
        intro e; rw [e, hd] at g2
        rcases g2 with ⟨_, g⟩ | ⟨_, g⟩ <;> cases g
      have huc : x.up b' ∉ cells := by
        rcases g2 with ⟨_, g⟩ | ⟨_, g⟩
        · exact hnl _ (h.liv _ _ g)
        · exact hnl _ (h.liv _ _ g)
      have e : (x.split w a (P.divide (x.goal a)) cells rest).duty (x.up b') = x.duty (x.up b') := by
        show upd _ a _ (x.up b') = _
        rw [upd_ne _ hua, owe_other huc]
      rw [e]; exact g2
  · intro b' k' hk
    rcases hheap b' k' hk with ⟨rfl, rfl⟩ | ⟨hne, q⟩
    · refine ⟨hnd, fun c hc' => ⟨(hnew c hc').1, ?_⟩⟩
      rintro rfl
      exact hnl _ ((h.live _).2 (Or.inl rfl)) hc'
    · exact h.cel b' k' q
  · intro b1 b2 k1 k2 c h1 h2 h3 h4
    rcases hheap b1 k1 h1 with ⟨rfl, rfl⟩ | ⟨n1, q1⟩ <;> rcases hheap b2 k2 h2 with ⟨rfl, rfl⟩ | ⟨n2, q2⟩
    · rfl
    · exact absurd h3 (hcl b2 k2 c q2 h4)
    · exact absurd h4 (hcl b1 k1 c q1 h3)
    · exact h.dis b1 b2 k1 k2 c q1 q2 h3 h4
  · intro b1 b2 k1 k2 h1 h2 h3
    rcases hheap b1 k1 h1 with ⟨rfl, rfl⟩ | ⟨n1, q1⟩
    · rcases hheap b2 k2 h2 with ⟨rfl, rfl⟩ | ⟨n2, q2⟩
      · have h3' : upd x.up x.nb a x.nb ∈ cells := h3
        rw [upd_self] at h3'
        exact absurd h3' hac
      · exact (h.blk b2 k2 q2).1
    · rw [hup b1 n1] at h3
      rcases hheap b2 k2 h2 with ⟨rfl, rfl⟩ | ⟨n2, q2⟩
      · obtain ⟨_, g2⟩ := h.blk b1 k1 q1
        have hlu : x.live (x.up b1) = true := by
          rcases g2 with ⟨_, g⟩ | ⟨_, g⟩
          · exact h.liv _ _ g
          · exact h.liv _ _ g
        exact absurd h3 (hnl _ hlu)
      · exact h.tre b1 b2 k1 k2 q1 q2 h3

end FF.Dc
