import Verif.Dc.Step
/-! # Divide and conquer: the beginning, the end, and progress -/
namespace FF.Dc
open FF.Mdf (Core Rec Cfg St decRow Qi Moved Pushed Rdy)
open FF.Farm (sumN)
open FF.Node (upd)

variable {Op R : Type} {P : Prob Op R} {D : Op → Prop} {sol : Op → R} {G : Cfg} {op : Op}

theorem seeds_mem (b : Nat) : ∀ (cs : List Nat) (i : Nat) (u : Tok R), u ∈ seeds b i cs ↔
    ∃ j c, cs[j]? = some c ∧ u = .new (.dac b (i + j)) c := by
  intro cs
  induction cs with
  | nil => intro i u; simp [seeds]
  | cons c cs ih =>
    intro i u
    unfold seeds
    rw [List.mem_cons, ih]
    constructor
    · rintro (h | ⟨j, d, h1, h2⟩)
      · exact ⟨0, c, rfl, h⟩
      · exact ⟨j + 1, d, h1, by rw [h2, show i + 1 + j = i + (j + 1) by omega]⟩
    · rintro ⟨j, d, h1, h2⟩
      cases j with
      | zero =>
        simp only [List.getElem?_cons_zero, Option.some.injEq] at h1
        subst h1; exact Or.inl h2
      | succ j => exact Or.inr ⟨j, d, by simpa using h1, by rw [h2, show i + 1 + j = i + (j + 1) by omega]⟩

theorem seeds_tgt (b : Nat) : ∀ (cs : List Nat) (i : Nat), (seeds (R := R) b i cs).filterMap Tok.tgt = cs := by
  intro cs
  induction cs with
  | nil => intro i; rfl
  | cons c cs ih => intro i; unfold seeds; rw [new_cons, ih]

theorem qi_sched0 (hn : 1 ≤ G.n) (b : Bool) : Qi G { sched0 with over := b } (Rdy sched0.c) := by
  refine ⟨hn, ?_, fun _ => rfl, fun _ => by show 0 ≤ 2; omega, ?_, ?_, ?_, ?_, fun _ => List.nodup_nil, fun _ => List.nodup_nil,
    fun _ => List.nodup_nil, fun _ _ => ⟨rfl, rfl, rfl, rfl⟩, ?_⟩
  · show 0 = sumN (fun _ => 0) G.n
    exact (Parfor.sumN_zero fun _ _ => rfl).symm
  · intro w k; constructor <;> intro h <;> cases h
  · intro w k; constructor <;> intro h <;> cases h
  · intro w k; constructor <;> intro h <;> cases h
  · intro w k; constructor <;> intro h <;> cases h
  · intro k
    constructor
    · rintro ⟨r, h, _⟩; cases h
    · intro h; exact absurd rfl h

theorem tb_init : Tb Core.init := by
  refine ⟨Nat.le_refl _, ?_, fun d => Nat.one_pos, ?_, ?_, ?_⟩
  · intro i r h; cases h
  · intro i r h; cases h
  · intro i r h; cases h
  · intro i r j h; cases h

theorem size_init : size Core.init = 0 := rfl

/-- what the environment guarantees for the addresses of the results of the first level -/
structure Start (P : Prob Op R) (op : Op) (root : Nat) (cells : List Nat) : Prop where
  root0 : root ≠ 0
  len : cells.length = (P.divide op).length
  nodup : cells.Nodup
  ne : ∀ a ∈ cells, a ≠ 0 ∧ a ≠ root

/-- the first operand is solved by dividing, solving and combining -/
structure Top (P : Prob Op R) (D : Op → Prop) (sol : Op → R) (op : Op) : Prop where
  base : P.cond op = true → sol op = P.seq op
  split : P.cond op = false → sol op = P.comb ((P.divide op).map sol)
  parts : P.cond op = false → ∀ o ∈ P.divide op, D o

theorem I.init (hS : Top P D sol op) (hn : 1 ≤ G.n) {root : Nat} {mem : Nat → R} {cells : List Nat}
    (hs : Start P op root cells) : I P D sol G op (init P G op root mem cells) := by
  unfold Dc.init
  have nolk : ∀ a, ¬ lk Core.init a := by rintro a ⟨r, hr⟩; cases hr
  split
  · rename_i hc
    refine ⟨⟨hs.root0, ?_, ?_, ?_, ?_, ?_, ?_, ?_, ?_, ?_⟩, tb_init, ?_, ?_⟩
    · intro a ha _
      have : a = root := by
        unfold S.live at ha
        simpa using ha
      subst this
      dsimp only
      rw [upd_self]
      exact (hS.base hc).symm
    · intro a k h; cases h
    · intro a b i h; cases h
    · intro a b cs h; cases h
    · intro a ob v h; cases h
    · intro b blk h; cases h
    · intro b blk h; cases h
    · intro b b' blk blk' c h; cases h
    · intro b b' blk blk' h; cases h
    · constructor
      · intro w t k a h; cases h
      · intro w a k h; cases h
      · intro w; exact List.nodup_nil
      · intro w; exact List.nodup_nil
      · intro w w' t h; cases h
      · intro w t h; cases h
      · intro w k a h; cases h
      · intro t r h; cases h
      · intro t r k a h; cases h
      · intro t a k h; cases h
      · intro a h; exact absurd h (nolk a)
      · intro a h; exact absurd h (nolk a)
      · intro i r p h; cases h
      · intro p r b cs a h; cases h
      · intro w b cs a h; cases h
      · intro w b v a blk h; cases h
      · intro w l1 b cs a l2 h
        have : ([] : List (Tok R)) = l1 ++ .new (.comb b cs) a :: l2 := h
        simp at this
      · intro w b i a h; cases h
    · refine ⟨qi_sched0 hn true, Or.inl rfl, hn, fun _ => rfl, fun _ => Or.inl ⟨rfl, rfl⟩, ?_, fun _ _ => rfl, fun _ _ _ => Or.inl rfl,
        rfl, fun _ => ⟨rfl, rfl⟩, ?_, rfl, ⟨rfl, rfl⟩, rfl⟩
      · intro w k a h; cases h
      · intro h; cases h
  · rename_i hc
    have hc' : P.cond op = false := by simpa using hc
    have hrc : root ∉ cells := fun h => (hs.ne root h).2 rfl
    obtain ⟨z, hz⟩ : ∃ z : S Op R, z =
      { s := sched0, task := fun _ => none
        chan := upd (fun _ => []) G.n (seeds 0 0 cells ++ [.new (.comb 0 cells) root]), prog := fun _ => []
        mem := mem, heap := upd (fun _ => none) 0 (some ⟨P.divide op, cells⟩), nb := 1, root := root, bad := false
        duty := upd (owe 0 (fun _ => none) 0 cells) root (some (.comb 0 cells))
        place := fun _ => .st G.n, goal := aim (fun _ => op) cells (P.divide op), up := fun _ => root } := ⟨_, rfl⟩
    rw [← hz]
    have hsd : ∀ c k, z.duty c = some k ↔ (c = root ∧ k = .comb 0 cells) ∨ ∃ i, cells[i]? = some c ∧ k = .dac 0 i := by
      intro c k
      have := split_duty (x := { z with duty := fun _ => none }) (b := 0) hs.nodup hrc c k
      rw [hz]
      dsimp only at this ⊢
      rw [this]
      simp
    have hheap : ∀ b blk, z.heap b = some blk ↔ b = 0 ∧ blk = ⟨P.divide op, cells⟩ := by
      intro b blk
      rw [hz]
      dsimp only
      by_cases e : b = 0
      · subst e; rw [upd_self]; simp [eq_comm]
      · rw [upd_ne _ e]; simp [e]
    have hnb : ∀ b blk, z.heap b = some blk → b < z.nb := by
      intro b blk h
      rw [hz]; show b < 1
      rw [((hheap b blk).1 h).1]; exact Nat.one_pos
    have hlive : ∀ a, z.live a = true ↔ a = root ∨ a ∈ cells := by
      intro a
      rw [live_iff hnb]
      have hr : z.root = root := by rw [hz]
      rw [hr]
      constructor
      · rintro (h | ⟨b, blk, h1, h2⟩)
        · exact Or.inl h
        · rw [((hheap b blk).1 h1).2] at h2; exact Or.inr h2
      · rintro (h | h)
        · exact Or.inl h
        · exact Or.inr ⟨0, _, (hheap 0 _).2 ⟨rfl, rfl⟩, h⟩
    have hgoal : z.goal = aim (fun _ => op) cells (P.divide op) := by rw [hz]
    have hgr : z.goal root = op := by rw [hgoal, aim_other hrc]
    have hup : ∀ b, z.up b = root := by intro b; rw [hz]
    have hzr : z.root = root := by rw [hz]
    have hpar := hS.parts hc'
    have hstr : ∀ w, z.stream w = if w = G.n then seeds 0 0 cells ++ [.new (.comb 0 cells) root] else [] := by
      intro w
      unfold S.stream
      rw [hz]
      dsimp only
      by_cases e : w = G.n
      · subst e; rw [upd_self, if_pos rfl]; simp
      · rw [upd_ne _ e, if_neg e]; rfl
    have hmem : ∀ w u, u ∈ z.stream w ↔ w = G.n ∧ ((∃ j c, cells[j]? = some c ∧ u = .new (.dac 0 j) c) ∨ u = .new (.comb 0 cells) root) := by
      intro w u
      rw [hstr]
      split
      · rename_i e
        simp only [e, true_and, List.mem_append, List.mem_singleton, seeds_mem, Nat.zero_add]
      · rename_i e
        simp [e]
    have hplace : ∀ a, z.place a = .st G.n := by intro a; rw [hz]
    have hcore : z.s.c = Core.init := by rw [hz]; rfl
    refine ⟨⟨by rw [hzr]; exact hs.root0, ?_, ?_, ?_, ?_, ?_, ?_, ?_, ?_, ?_⟩, by rw [hcore]; exact tb_init, ?_, ?_⟩
    · intro a ha hd
      exfalso
      rcases (hlive a).1 ha with rfl | h
      · have := (hsd a _).2 (Or.inl ⟨rfl, rfl⟩); rw [hd] at this; cases this
      · obtain ⟨j, hj⟩ := List.mem_iff_getElem?.1 h
        have := (hsd a _).2 (Or.inr ⟨j, hj, rfl⟩); rw [hd] at this; cases this
    · intro a k h
      rcases (hsd a k).1 h with ⟨rfl, _⟩ | ⟨i, h1, _⟩
      · exact (hlive a).2 (Or.inl rfl)
      · exact (hlive a).2 (Or.inr (List.mem_of_getElem? h1))
    · intro a b i h
      rcases (hsd a _).1 h with ⟨_, q⟩ | ⟨j, h1, q⟩
      · cases q
      · cases q
        have ho : (P.divide op)[i]? = some (aim (fun _ => op) cells (P.divide op) a) := aim_get hs.nodup hs.len i a h1
        rw [hgoal]
        exact ⟨hpar _ (List.mem_of_getElem? ho), _, (hheap 0 _).2 ⟨rfl, rfl⟩, h1, ho⟩
    · intro a b cs h
      rcases (hsd a _).1 h with ⟨rfl, q⟩ | ⟨j, h1, q⟩
      · cases q
        refine ⟨hup 0, ?_, _, (hheap 0 _).2 ⟨rfl, rfl⟩, rfl⟩
        rw [hgr, hS.split hc']
        congr 1
        have : (fun c => sol (z.goal c)) = sol ∘ aim (fun _ => op) cells (P.divide op) := by rw [hgoal]; rfl
        rw [this, ← List.map_map, aim_map hs.nodup hs.len]
      · cases q
    · intro a ob v h
      rcases (hsd a _).1 h with ⟨_, q⟩ | ⟨j, h1, q⟩ <;> cases q
    · intro b blk h
      refine ⟨hnb b blk h, Or.inl ⟨cells, ?_⟩⟩
      obtain ⟨rfl, _⟩ := (hheap b blk).1 h
      rw [hup]
      exact (hsd root _).2 (Or.inl ⟨rfl, rfl⟩)
    · intro b blk h
      obtain ⟨_, rfl⟩ := (hheap b blk).1 h
      rw [hzr]
      exact ⟨hs.nodup, hs.ne⟩
    · intro b b' blk blk' c h1 h2 _ _
      rw [((hheap b blk).1 h1).1, ((hheap b' blk').1 h2).1]
    · intro b b' blk blk' h1 h2 h3
      rw [hup, ((hheap b' blk').1 h2).2] at h3
      exact absurd h3 hrc
    · constructor
      · intro w u k a hu hj
        obtain ⟨rfl, q⟩ := (hmem w u).1 hu
        rw [hplace]
        rcases q with ⟨j, c, q1, rfl⟩ | rfl
        · cases hj; exact ⟨(hsd a _).2 (Or.inr ⟨j, q1, rfl⟩), rfl⟩
        · cases hj; exact ⟨(hsd _ _).2 (Or.inl ⟨rfl, rfl⟩), rfl⟩
      · intro w a k hd hp
        rw [hplace] at hp; cases hp
        rcases (hsd a k).1 hd with ⟨rfl, rfl⟩ | ⟨i, h1, rfl⟩
        · exact ⟨_, (hmem _ _).2 ⟨rfl, Or.inr rfl⟩, rfl⟩
        · exact ⟨_, (hmem _ _).2 ⟨rfl, Or.inl ⟨i, a, h1, rfl⟩⟩, rfl⟩
      · intro w
        rw [hstr]
        split
        · rw [List.filterMap_append, seeds_tgt, List.nodup_append]
          refine ⟨hs.nodup, by simp [List.filterMap, Tok.tgt], ?_⟩
          rintro p hp q hq rfl
          have : p = root := by simpa [List.filterMap, Tok.tgt] using hq
          rw [this] at hp; exact hrc hp
        · exact List.nodup_nil
      · intro w
        have : (z.stream w).filterMap Tok.fin = [] := by
          rw [List.filterMap_eq_nil_iff]
          intro u hu
          obtain ⟨_, ⟨j, c, _, rfl⟩ | rfl⟩ := (hmem w u).1 hu <;> rfl
        rw [this]; exact List.nodup_nil
      · intro w w' t h1 h2
        rw [((hmem w _).1 h1).1, ((hmem w' _).1 h2).1]
      · intro w t h
        obtain ⟨_, ⟨j, c, _, q⟩ | q⟩ := (hmem w _).1 h <;> cases q
      · intro w k a h
        obtain ⟨_, ⟨j, c, _, q⟩ | q⟩ := (hmem w _).1 h
        · cases q; exact Or.inl ⟨_, _, rfl⟩
        · cases q; exact Or.inr ⟨_, _, rfl⟩
      · intro t r h; rw [hcore] at h; cases h
      · intro t r k a h; rw [hcore] at h; cases h
      · intro t a k _ hp; rw [hplace] at hp; cases hp
      · intro a h; rw [hcore] at h; exact absurd h (nolk a)
      · intro a h; rw [hcore] at h; exact absurd h (nolk a)
      · intro i r p h; rw [hcore] at h; cases h
      · intro p r b cs a h; rw [hcore] at h; cases h
      · intro w b cs a h
        obtain ⟨_, ⟨j, c, _, q⟩ | q⟩ := (hmem w _).1 h <;> cases q
      · intro w b v a blk h
        obtain ⟨_, ⟨j, c, _, q⟩ | q⟩ := (hmem w _).1 h <;> cases q
      · intro w l1 b cs a l2 h c hc2
        right; right
        have hm : Tok.new (.comb b cs) a ∈ z.stream w := by rw [h]; simp
        obtain ⟨rfl, ⟨j, d, _, q⟩ | q⟩ := (hmem w _).1 hm
        · cases q
        · cases q
          rw [hstr, if_pos rfl] at h
          rcases split_mid h with ⟨m, _, m2⟩ | ⟨m1, _, _⟩ | ⟨m, m1, _⟩
          · simp at m2
          · rw [m1, seeds_tgt]; exact hc2
          · have : (Tok.new (.comb 0 cells) root : Tok R) ∈ seeds 0 0 cells := by rw [m1]; simp
            rw [seeds_mem] at this
            obtain ⟨_, _, _, q⟩ := this
            cases q
      · intro w b i a h
        rw [hcore]; exact nolk a
    · have hch : ∀ w u, u ∈ z.chan w → u ∈ z.stream w := by intro w u hu; unfold S.stream; simp [hu]
      have hcn : z.chan G.n ≠ [] := by
        rw [hz]; dsimp only; rw [upd_self]; simp
      have hcw : ∀ w, w ≠ G.n → z.chan w = [] := by
        intro w hw; rw [hz]; dsimp only; rw [upd_ne _ hw]
      have hzs : z.s = sched0 := by rw [hz]
      have hpg : ∀ w, z.prog w = [] := by intro w; rw [hz]
      have hbad : z.bad = false := by rw [hz]
      refine ⟨?_, ?_, ?_, ?_, ?_, ?_, ?_, ?_, ?_, ?_, ?_, ?_, ⟨by rw [hzs]; rfl, hbad⟩, by rw [hzr, hgr]⟩
      · rw [hzs]; exact qi_sched0 hn false
      · rw [hzs]; exact Or.inl rfl
      · rw [hzs]; exact hn
      · intro w
        have : (z.chan w).filterMap Tok.fin = [] := by
          rw [List.filterMap_eq_nil_iff]
          intro u hu
          obtain ⟨_, ⟨j, c, _, rfl⟩ | rfl⟩ := (hmem w u).1 (hch w u hu) <;> rfl
        rw [this, hzs]; rfl
      · intro w; rw [hzs]; exact Or.inl ⟨rfl, hpg w⟩
      · intro w k a h
        obtain ⟨_, ⟨j, c, _, q⟩ | q⟩ := (hmem w _).1 (hch w _ h) <;> cases q
      · intro w hw; exact hcw w (by omega)
      · intro w hw _; exact Or.inl (hcw w (by omega))
      · rw [hzs]; rfl
      · rw [hzs]; intro h; cases h
      · intro _; exact Or.inl hcn
      · rw [hzs]; rfl

/-! ## The end -/

/-- when the scheduler ends, nothing is left to do -/
theorem I.final {x : S Op R} (h : I P D sol G op x) (ho : x.s.over = true) :
    x.mem x.root = sol op ∧ (∀ b, x.heap b = none) ∧ (∀ w, x.chan w = [] ∧ x.prog w = []) ∧ ∀ i, x.s.c.tk i = none := by
  obtain ⟨h1, h2⟩ := h.a.over ho
  have hz : size x.s.c = 0 := by have := h.a.num; omega
  have htk := size_zero h.t hz
  have nodone : ∀ w t, Tok.done t ∉ x.stream w := by
    intro w t hm
    obtain ⟨r, hr, _⟩ := h.l.run w t hm
    rw [htk] at hr; cases hr
  have hpg : ∀ w, x.prog w = [] := by
    intro w
    rcases h.a.cur w with q | ⟨t, l, _, q, _⟩
    · exact q.2
    · exact absurd (by unfold S.stream; rw [q]; simp) (nodone w t)
  have hch : ∀ w, x.chan w = [] := by
    intro w
    rcases Nat.lt_trichotomy w G.n with q | q | q
    · rcases h.a.lst w q (hpg w) with z | ⟨l, t, z⟩
      · exact z
      · exact absurd (by unfold S.stream; rw [z]; simp) (nodone w t)
    · subst q; exact h2
    · exact h.a.far w q
  have hstr : ∀ w, x.stream w = [] := by intro w; unfold S.stream; rw [hpg, hch]; rfl
  have hduty : ∀ a, x.duty a = none := by
    intro a
    cases hd : x.duty a with
    | none => rfl
    | some k =>
      exfalso
      cases hp : x.place a with
      | st w =>
        obtain ⟨u, hu, _⟩ := h.l.str w a k hd hp
        rw [hstr] at hu; cases hu
      | tk t =>
        obtain ⟨⟨r, hr⟩, _⟩ := h.l.own t a k hd hp
        rw [htk] at hr; cases hr
  refine ⟨?_, ?_, fun w => ⟨hch w, hpg w⟩, htk⟩
  · rw [h.m.val x.root ((h.m.live _).2 (Or.inl rfl)) (hduty _), h.a.goal]
  · intro b
    cases hb : x.heap b with
    | none => rfl
    | some blk =>
      obtain ⟨_, ⟨_, q⟩ | ⟨_, q⟩⟩ := h.m.blk b blk hb
      · rw [hduty] at q; cases q
      · rw [hduty] at q; cases q

/-! ## Progress -/

theorem live_bound {x : S Op R} : ∃ m, ∀ a, x.live a = true → a ≤ m := by
  have : ∀ n, ∃ m, ∀ b, b < n → ∀ blk, x.heap b = some blk → ∀ a ∈ blk.cells, a ≤ m := by
    intro n
    induction n with
    | zero => exact ⟨0, fun b hb => by omega⟩
    | succ n ih =>
      obtain ⟨m, hm⟩ := ih
      have hl : ∀ l : List Nat, ∃ m, ∀ a ∈ l, a ≤ m := by
        intro l
        induction l with
        | nil => exact ⟨0, fun a ha => by cases ha⟩
        | cons c l ih =>
          obtain ⟨m, hm⟩ := ih
          refine ⟨m + c, fun a ha => ?_⟩
          rw [List.mem_cons] at ha
          rcases ha with rfl | ha
          · omega
          · have := hm a ha; omega
      cases hx : x.heap n with
      | none =>
        refine ⟨m, fun b hb blk hblk a ha => ?_⟩
        by_cases e : b = n
        · subst e; rw [hx] at hblk; cases hblk
        · exact hm b (by omega) blk hblk a ha
      | some q =>
        obtain ⟨m', hm'⟩ := hl q.cells
        refine ⟨m + m', fun b hb blk hblk a ha => ?_⟩
        by_cases e : b = n
        · subst e; rw [hx] at hblk; cases hblk
          have := hm' a ha; omega
        · have := hm b (by omega) blk hblk a ha; omega
  obtain ⟨m, hm⟩ := this x.nb
  refine ⟨m + x.root, fun a ha => ?_⟩
  unfold S.live at ha
  rw [Bool.or_eq_true, beq_iff_eq, List.any_eq_true] at ha
  rcases ha with rfl | ⟨b, hb, h2⟩
  · omega
  · rw [Option.any_eq_true] at h2
    obtain ⟨blk, h3, h4⟩ := h2
    have := hm b (List.mem_range.1 hb) blk h3 a (by simpa using h4)
    omega

theorem fresh_exists (x : S Op R) (n : Nat) : ∃ cells, x.fresh n cells = true := by
  obtain ⟨m, hm⟩ := live_bound (x := x)
  refine ⟨List.range' (m + 1) n, ?_⟩
  unfold S.fresh
  simp only [Bool.and_eq_true, beq_iff_eq, decide_eq_true_eq, List.all_eq_true, bne_iff_ne, Bool.not_eq_eq_eq_not, Bool.not_true]
  refine ⟨⟨by simp, List.nodup_range'⟩, fun a ha => ?_⟩
  rw [List.mem_range'_1] at ha
  refine ⟨by omega, ?_⟩
  cases hl : x.live a with
  | false => rfl
  | true => have := hm a hl; omega

/-- a table in which no task is ready and none is running is empty -/
theorem I.someReady {x : S Op R} (h : I P D sol G op x) (hno : ∀ w t, Tok.done t ∉ x.stream w) {i : Nat} {r : Rec}
    (hi : x.s.c.tk i = some r) : ∃ j, Rdy x.s.c j := by
  by_contra hcon
  have hnr : ∀ j q, x.s.c.tk j = some q → ∃ p rp, x.s.c.tk p = some rp ∧ j ∈ rp.ubl := by
    intro j q hj
    have h1 : q.st ≠ .ready := fun e => hcon ⟨j, q, hj, e⟩
    have h2 := (h.t.row j q hj).2.2.2
    have h3 : q.rdep ≠ 0 := fun e => h1 (h2.2 e)
    rw [h.t.dep j q hj] at h3
    by_contra hc2
    apply h3
    have : dep x.s.c j = 0 := by
      unfold dep
      apply Parfor.sumN_zero
      intro p _
      cases hp : x.s.c.tk p with
      | none => exact cnt_none hp j
      | some rp =>
        rw [cnt_some hp, List.count_eq_zero]
        intro hm; exact hc2 ⟨p, rp, hp, hm⟩
    rw [this]; rfl
  have key : ∀ j q, x.s.c.tk j = some q → ∃ b cs a, x.task j = some (.comb b cs, a) := by
    intro j q hj
    obtain ⟨p, rp, h1, h2⟩ := hnr j q hj
    obtain ⟨b, cs, ay, _, _, h3, _⟩ := h.l.l2 p rp j h1 h2
    exact ⟨b, cs, ay, h3⟩
  have chain : ∀ m j q b cs a, x.s.c.tk j = some q → x.task j = some (.comb b cs, a) → x.nb - b ≤ m → False := by
    intro m
    induction m with
    | zero =>
      intro j q b cs a hj ht hb
      obtain ⟨z1, _⟩ := h.l.idl j q _ a hj ht (fun w => hno w j)
      obtain ⟨_, _, blk, z2, _⟩ := h.m.comb a b cs z1
      have := (h.m.blk b blk z2).1
      omega
    | succ m ih =>
      intro j q b cs a hj ht hb
      obtain ⟨z1, _⟩ := h.l.idl j q _ a hj ht (fun w => hno w j)
      obtain ⟨_, _, blk, z2, z3⟩ := h.m.comb a b cs z1
      obtain ⟨p, rp, h1, h2⟩ := hnr j q hj
      obtain ⟨b', cs', ay, kx, ax, h3, h4, h5⟩ := h.l.l2 p rp j h1 h2
      rw [ht] at h3; cases h3
      obtain ⟨bp, cp, ap, h6⟩ := key p rp h1
      rw [h4] at h6; cases h6
      rcases h5 with ⟨h5, _⟩ | ⟨_, _, _, _, h5⟩
      · obtain ⟨y1, _⟩ := h.l.idl p rp _ ax h1 h4 (fun w => hno w p)
        obtain ⟨y2, _, blk', y3, _⟩ := h.m.comb ax bp cp y1
        have hlt := h.m.tre bp b blk' blk y3 z2 (by rw [y2, z3]; exact h5)
        have := (h.m.blk bp blk' y3).1
        exact ih p rp bp cp ax h1 h4 (by omega)
      · cases h5
  obtain ⟨b, cs, a, ht⟩ := key i r hi
  exact chain _ i r b cs a hi ht (Nat.le_refl _)

/-- while the scheduler has not ended, some thread can do something -/
theorem I.progress (hcap : 1 ≤ G.cap) {x : S Op R} (h : I P D sol G op x) (ho : x.s.over = false) :
    ∃ act y, Dc.step P G x act = some y := by
  have recv : ∀ w, w ≤ G.n → (w = G.n ∨ x.chan G.n = []) → x.chan w ≠ [] → ∃ act y, Dc.step P G x act = some y := by
    intro w hw hf hne
    refine ⟨.recv w (fun _ => 0) 0, ?_⟩
    simp only [Dc.step]
    rw [if_pos ⟨ho, hw, hf⟩]
    cases hc : x.chan w with
    | nil => exact absurd hc hne
    | cons u rest =>
      cases u with
      | new k a => exact ⟨_, rfl⟩
      | done t => exact ⟨_, rfl⟩
      | act k a => exact absurd (by rw [hc]; simp) (h.a.noact w k a)
  by_cases h1 : x.chan G.n = []
  · by_cases h2 : ∃ w, w < G.n ∧ x.chan w ≠ []
    · obtain ⟨w, hw, hne⟩ := h2
      exact recv w (by omega) (Or.inr h1) hne
    · have h2' : ∀ w, w < G.n → x.chan w = [] := by
        intro w hw
        by_contra hne
        exact h2 ⟨w, hw, hne⟩
      by_cases h3 : ∃ w, x.prog w ≠ []
      · obtain ⟨w, hne⟩ := h3
        have hw : w < G.n := by
          by_contra hw
          exact hne (h.a.progFar (by omega))
        have hc : (x.chan w).length < G.cap := by rw [h2' w hw]; exact hcap
        cases hp : x.prog w with
        | nil => exact absurd hp hne
        | cons u rest =>
          cases u with
          | new k a =>
            refine ⟨.send w, ?_⟩
            simp only [Dc.step]
            rw [if_pos ⟨hw, hc⟩, hp]
            exact ⟨_, rfl⟩
          | done t =>
            refine ⟨.send w, ?_⟩
            simp only [Dc.step]
            rw [if_pos ⟨hw, hc⟩, hp]
            exact ⟨_, rfl⟩
          | act k a =>
            have hw' : ∃ cells y, x.work P w cells = some y := by
              unfold S.work
              rw [hp]
              cases k with
              | dac b i =>
                dsimp only
                cases ((x.heap b).bind fun blk => blk.ops[i]?) with
                | none => exact ⟨[], _, rfl⟩
                | some o =>
                  dsimp only
                  obtain ⟨cells, hf⟩ := fresh_exists x (P.divide o).length
                  refine ⟨cells, ?_⟩
                  split
                  · exact ⟨_, rfl⟩
                  · split
                    · exact ⟨_, rfl⟩
                    · exact ⟨_, rfl⟩
              | comb b cs =>
                dsimp only
                refine ⟨[], ?_⟩
                cases x.heap b with
                | none => exact ⟨_, rfl⟩
                | some blk => exact ⟨_, rfl⟩
              | put ob v =>
                refine ⟨[], ?_⟩
                cases ob with
                | none =>
                  dsimp only
                  split
                  · exact ⟨_, rfl⟩
                  · exact ⟨_, rfl⟩
                | some b =>
                  dsimp only
                  split
                  · exact ⟨_, rfl⟩
                  · exact ⟨_, rfl⟩
            obtain ⟨cells, y, hy⟩ := hw'
            refine ⟨.work w cells, y, ?_⟩
            simp only [Dc.step]
            rw [if_pos hw]; exact hy
      · have h3' : ∀ w, x.prog w = [] := by
          intro w
          by_contra hne
          exact h3 ⟨w, hne⟩
        have hch : ∀ w, x.chan w = [] := by
          intro w
          rcases Nat.lt_trichotomy w G.n with q | q | q
          · exact h2' w q
          · subst q; exact h1
          · exact h.a.far w q
        have hno : ∀ w t, Tok.done t ∉ x.stream w := by
          intro w t; unfold S.stream; rw [hch, h3']; simp
        have hcur : ∀ w, x.s.cur w = none := by
          intro w
          rcases h.a.cur w with q | ⟨t, l, _, q, _⟩
          · exact q.1
          · rw [h3'] at q; simp at q
        have hback : ∀ w, x.s.back w = [] := by intro w; rw [h.a.back, hch]; rfl
        have hnum : x.s.numb ≠ x.s.compl := (h.a.more ho).resolve_left (fun q => q h1)
        have hex : ∃ i r, x.s.c.tk i = some r := by
          by_contra hcon
          apply hnum
          have : size x.s.c = 0 := by
            unfold size
            apply Parfor.sumN_zero
            intro i _
            cases hx : x.s.c.tk i with
            | none => rfl
            | some r => exact absurd ⟨i, r, hx⟩ hcon
          have := h.a.num
          omega
        obtain ⟨i, r, hi⟩ := hex
        obtain ⟨j, q, hj, hst⟩ := h.someReady hno hi
        obtain ⟨k, a, hk, _⟩ := h.l.tsk j q hj
        have hloc := (h.a.qi.rdy j).1 ⟨q, hj, hst⟩
        have start : ∀ w, w < G.n → x.s.q w ≠ [] → ∃ act y, Dc.step P G x act = some y := by
          intro w hw hq
          refine ⟨.start w, ?_⟩
          simp only [Dc.step]
          rw [if_pos hw, hcur]
          cases hqw : x.s.q w with
          | nil => exact absurd hqw hq
          | cons t rest =>
            dsimp only
            cases x.task t with
            | none => exact ⟨_, rfl⟩
            | some p => exact ⟨_, rfl⟩
        cases hl : x.s.loc j with
        | no => exact absurd hl hloc
        | rq w =>
          have hm := (h.a.qi.lrq w j).2 hl
          have hw : w < G.n := by
            by_contra hw
            rw [(h.a.qi.far w (by omega)).1] at hm; cases hm
          have hnrd : x.s.nrd ≠ 0 := by
            have h4 := h.a.qi.nrd
            have h5 := Parfor.sumN_ge (f := fun w => (x.s.rq w).length) hw
            have h6 := List.length_pos_of_mem hm
            omega
          have hns := (h.a.sat.resolve_left hnrd) w hw
          have := h.a.qi.nsch w
          rw [hcur, hback] at this
          simp only [Option.toList_none, List.length_nil] at this
          refine start w hw ?_
          intro hq
          rw [hq] at this
          simp at this; omega
        | q w =>
          have hm := (h.a.qi.lq w j).2 hl
          have hw : w < G.n := by
            by_contra hw
            rw [(h.a.qi.far w (by omega)).2.1] at hm; cases hm
          exact start w hw (List.ne_nil_of_mem hm)
        | cur w =>
          have hm := (h.a.qi.lcur w j).2 hl
          rw [hcur] at hm; cases hm
        | back w =>
          have hm := (h.a.qi.lback w j).2 hl
          rw [hback] at hm; cases hm
  · exact recv G.n (Nat.le_refl _) (Or.inl rfl) h1

end FF.Dc
