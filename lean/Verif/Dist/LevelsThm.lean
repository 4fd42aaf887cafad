/-
C65: in a group taken from the two upper layers of a pipeline every local channel leads to the next level.
-/
import Verif.Dist.Levels

namespace FF.Dist

/-- The direct parts of a building block, with the letter and number they add to its label. -/
inductive Kid : Net → Net → Kind → Nat → Prop
  | stage {i w ss j p} : ss[j]? = some p → Kid (.pipe i w ss) p .P j
  | left {i w fs ss j p} : fs[j]? = some p → Kid (.a2a i w fs ss) p .S j
  | right {i w fs ss j p} : ss[j]? = some p → Kid (.a2a i w fs ss) p .D j
  | emitter {i em ws co e} : e ∈ Option.toList em → Kid (.farm i em ws co) (.seq e false false) .P 0
  | worker {i em ws co p} : p ∈ ws → Kid (.farm i em ws co) p .P 1
  | collector {i em ws co c} : c ∈ Coll.node co → Kid (.farm i em ws co) (.seq c false false) .P 2

theorem parts_self {t : Net} {l : Lab} {p : Net} (h : (p, l) ∈ parts l t) : p = t := by
  cases t with
  | seq => simpa [parts] using h
  | comb => simpa [parts] using h
  | pipe i w ss =>
    simp only [parts, List.mem_cons, Prod.mk.injEq] at h
    rcases h with h | h
    · exact h.1
    · obtain ⟨i, r, h1, -⟩ := partsI_pre ss l .P 0 p l h
      simp at h1
  | a2a i w fs ss =>
    simp only [parts, List.mem_cons, Prod.mk.injEq, List.mem_append] at h
    rcases h with h | h | h
    · exact h.1
    · obtain ⟨i, r, h1, -⟩ := partsI_pre fs l .S 0 p l h
      simp at h1
    · obtain ⟨i, r, h1, -⟩ := partsI_pre ss l .D 0 p l h
      simp at h1
  | farm i em ws co =>
    simp only [parts, List.mem_cons, Prod.mk.injEq, List.mem_append, List.mem_map] at h
    rcases h with h | ⟨_, _, h⟩ | h | ⟨_, _, h⟩
    · exact h.1
    · simp at h
    · obtain ⟨r, h1⟩ := partsW_pre ws _ p l h
      simp at h1
    · simp at h

theorem parts_kid {t : Net} {l : Lab} {p : Net} {k : Kind} {j : Nat} (h : (p, l ++ [(k, j)]) ∈ parts l t) :
    Kid t p k j := by
  have num : ∀ {ts : List Net} {k' : Kind}, (p, l ++ [(k, j)]) ∈ partsI l k' 0 ts → k = k' ∧ ts[j]? = some p := by
    intro ts k' h
    obtain ⟨i, r, h1, t, h2, h3⟩ := partsI_pre ts l k' 0 p _ h
    simp only [Nat.zero_add, List.append_cancel_left_eq, List.cons.injEq, Prod.mk.injEq] at h1
    obtain ⟨⟨rfl, rfl⟩, -⟩ := h1
    rw [Nat.zero_add] at h3
    rw [parts_self h3]
    exact ⟨rfl, h2⟩
  cases t with
  | seq => simp [parts] at h
  | comb => simp [parts] at h
  | pipe i w ss =>
    simp only [parts, List.mem_cons, Prod.mk.injEq] at h
    rcases h with h | h
    · simp at h
    · obtain ⟨rfl, h'⟩ := num h
      exact .stage h'
  | a2a i w fs ss =>
    simp only [parts, List.mem_cons, Prod.mk.injEq, List.mem_append] at h
    rcases h with h | h | h
    · simp at h
    · obtain ⟨rfl, h'⟩ := num h
      exact .left h'
    · obtain ⟨rfl, h'⟩ := num h
      exact .right h'
  | farm i em ws co =>
    simp only [parts, List.mem_cons, Prod.mk.injEq, List.mem_append, List.mem_map] at h
    rcases h with h | ⟨e, he, h1, h2⟩ | h | ⟨e, he, h1, h2⟩
    · simp at h
    · simp only [List.append_cancel_left_eq, List.cons.injEq, Prod.mk.injEq, and_true] at h2
      obtain ⟨rfl, rfl⟩ := h2
      subst h1
      exact .emitter he
    · obtain ⟨m, t, h2, h3⟩ := partsW_mem ws _ p _ h
      obtain ⟨r, e⟩ := parts_pre t _ p _ h3
      rw [List.append_assoc] at e
      simp only [List.cons_append, List.nil_append, List.append_cancel_left_eq, List.cons.injEq, Prod.mk.injEq] at e
      obtain ⟨⟨rfl, rfl⟩, -⟩ := e
      rw [parts_self h3]
      exact .worker (List.mem_of_getElem? h2)
    · simp only [List.append_cancel_left_eq, List.cons.injEq, Prod.mk.injEq, and_true] at h2
      obtain ⟨rfl, rfl⟩ := h2
      subst h1
      exact .collector he

/-- The letter and number of a part of a stage as a number: an all-to-all has two sub-levels. -/
def sub : Kind × Nat → Nat
  | (.P, j) => j
  | (.S, _) => 0
  | (.D, _) => 1

/-- The rank of a part of the two upper layers. -/
def rank : Lab → ℕ ×ₗ ℕ
  | [] => toLex (0, 0)
  | [(_, i)] => toLex (i, 0)
  | (_, i) :: b :: _ => toLex (i, sub b)

/-- A part of the two upper layers of the pipeline with stages `ss`: a stage, or a direct part of a stage. -/
inductive Upper (ss : List Net) : Net × Lab → Prop
  | stage {i s} : ss[i]? = some s → Upper ss (s, [(.P, i)])
  | inner {i s p k j} : ss[i]? = some s → Kid s p k j → Upper ss (p, [(.P, i), (k, j)])

theorem upper_of {i : Nat} {w : Bool} {ss : List Net} {p : Net} {l : Lab} (h : (p, l) ∈ parts [] (.pipe i w ss))
    (h0 : l ≠ []) (h2 : l.length ≤ 2) : Upper ss (p, l) := by
  simp only [parts, List.mem_cons, Prod.mk.injEq] at h
  rcases h with h | h
  · exact absurd h.2 h0
  · obtain ⟨a, r, e, t, g, m⟩ := partsI_pre ss [] .P 0 p l h
    simp only [Nat.zero_add, List.nil_append] at e m
    subst e
    cases r with
    | nil =>
      rw [parts_self m]
      exact .stage g
    | cons b r =>
      cases r with
      | nil => exact .inner g (parts_kid (l := [(Kind.P, a)]) m)
      | cons => simp at h2

theorem kid_sub {t p : Net} {k : Kind} {j : Nat} (h : Kid t p k j) : ∀ x ∈ ids p, x ∈ ids t := by
  intro x hx
  cases h with
  | stage h => simp [ids, get_idsL h hx]
  | left h => simp [ids, get_idsL h hx]
  | right h => simp [ids, get_idsL h hx]
  | emitter h =>
    simp only [ids, List.mem_singleton] at hx; subst hx
    simp only [ids, List.mem_cons, List.mem_append]; exact .inr (.inl h)
  | worker h =>
    obtain ⟨m, hm, rfl⟩ := List.mem_iff_getElem.1 h
    simp [ids, get_idsL (List.getElem?_eq_getElem hm) hx]
  | collector h =>
    simp only [ids, List.mem_singleton] at hx; subst hx
    simp [ids, h]

/-- Two direct parts of one block compare as their sub-levels. -/
theorem kid_cmp {t p q : Net} {k k' : Kind} {j j' : Nat} (h : Kid t p k j) (h' : Kid t q k' j') :
    (0 < cmp [(k, j)] [(k', j')] ↔ sub (k', j') < sub (k, j)) ∧ (cmp [(k, j)] [(k', j')] = 0 ↔ sub (k, j) = sub (k', j')) := by
  have pp : ∀ a b : Nat, (0 < cmp [(Kind.P, a)] [(Kind.P, b)] ↔ b < a) ∧ (cmp [(Kind.P, a)] [(Kind.P, b)] = 0 ↔ a = b) := by
    intro a b
    by_cases hab : a = b
    · subst hab; simp [cmp]
    · have e : cmp [(Kind.P, a)] [(Kind.P, b)] = (a : Int) - b := by rw [cmp, if_pos ⟨rfl, rfl, hab⟩]
      rw [e]; omega
  cases h <;> cases h' <;> first | exact pp _ _ | simp [cmp, sub]

theorem cmp_P_ne {i i' : Nat} (h : i ≠ i') (r r' : Lab) : cmp ((.P, i) :: r) ((.P, i') :: r') = (i : Int) - i' := by
  rw [cmp, if_pos ⟨rfl, rfl, h⟩]

theorem cmp_P_eq (i : Nat) (r r' : Lab) : cmp ((.P, i) :: r) ((.P, i) :: r') = cmp r r' := by
  rw [cmp, if_neg (by simp), if_neg (by simp), if_neg (by simp)]

/-- The parts of a group do not overlap. -/
def Disjoints (arr : List (Net × Lab)) : Prop := arr.Pairwise fun a b => ∀ z ∈ ids a.1, z ∉ ids b.1

theorem disj_eq : ∀ {arr : List (Net × Lab)} {a b : Net × Lab}, Disjoints arr → a ∈ arr → b ∈ arr →
    ∀ {z}, z ∈ ids a.1 → z ∈ ids b.1 → a = b
  | c :: arr, a, b, hd, ha, hb, z, h1, h2 => by
    rw [Disjoints, List.pairwise_cons] at hd
    rcases List.mem_cons.1 ha with ha' | ha' <;> rcases List.mem_cons.1 hb with hb' | hb'
    · exact ha'.trans hb'.symm
    · subst ha'; exact absurd h2 (hd.1 b hb' z h1)
    · subst hb'; exact absurd h1 (hd.1 a ha' z h2)
    · exact disj_eq hd.2 ha' hb' h1 h2

/-- The index of the stage of a part. -/
theorem upper_ranked {ss : List Net} {arr : List (Net × Lab)} (hu : ∀ a ∈ arr, Upper ss a) (hd : Disjoints arr) :
    Ranked (fun a b : Net × Lab => cmp a.2 b.2) (fun a => rank a.2) arr := by
  intro a ha b hb
  have same : ∀ {x : Net × Lab}, x = b → a = x → (0 < cmp a.2 b.2 ↔ rank b.2 < rank a.2) ∧ (cmp a.2 b.2 = 0 ↔ rank a.2 = rank b.2) := by
    rintro x rfl rfl
    have e : cmp a.2 a.2 = 0 := by have := cmp_append a.2 [] []; simpa [cmp] using this
    simp [e]
  have lexlt : ∀ {i i' r r' : Nat}, toLex (i, r) < toLex (i', r') ↔ i < i' ∨ i = i' ∧ r < r' := by
    intro i i' r r'; rw [Prod.Lex.toLex_lt_toLex]
  have lexeq : ∀ {i i' r r' : Nat}, toLex (i, r) = toLex (i', r') ↔ i = i' ∧ r = r' := by
    intro i i' r r'; rw [EmbeddingLike.apply_eq_iff_eq, Prod.mk.injEq]
  have ua := hu a ha
  have ub := hu b hb
  have diff : ∀ {i i' r r' : Nat} {la lb : Lab}, i ≠ i' →
      (0 < cmp ((.P, i) :: la) ((.P, i') :: lb) ↔ toLex (i', r') < toLex (i, r)) ∧
      (cmp ((.P, i) :: la) ((.P, i') :: lb) = 0 ↔ toLex (i, r) = toLex (i', r')) := by
    intro i i' r r' la lb hne
    rw [cmp_P_ne hne, lexlt, lexeq]
    omega
  cases ua with
  | @stage i s g =>
    cases ub with
    | @stage i' s' g' =>
      by_cases h : i = i'
      · subst h
        rw [g] at g'
        exact same rfl (disj_eq hd ha hb (id_mem s) (Option.some.inj g' ▸ id_mem s))
      · exact diff h
    | @inner i' s' p k j g' hk =>
      by_cases h : i = i'
      · subst h
        rw [g] at g'
        obtain rfl := Option.some.inj g'
        exact same rfl (disj_eq hd ha hb (kid_sub hk _ (id_mem p)) (id_mem p))
      · exact diff h
  | @inner i s p k j g hk =>
    cases ub with
    | @stage i' s' g' =>
      by_cases h : i = i'
      · subst h
        rw [g] at g'
        obtain rfl := Option.some.inj g'
        exact same rfl (disj_eq hd ha hb (id_mem p) (kid_sub hk _ (id_mem p)))
      · exact diff h
    | @inner i' s' p' k' j' g' hk' =>
      by_cases h : i = i'
      · subst h
        rw [g] at g'
        obtain rfl := Option.some.inj g'
        have := kid_cmp hk hk'
        show (0 < cmp [(.P, i), (k, j)] [(.P, i), (k', j')] ↔ _) ∧ (cmp [(.P, i), (k, j)] [(.P, i), (k', j')] = 0 ↔ _)
        rw [cmp_P_eq, this.1, this.2]
        simp only [rank]
        rw [lexlt, lexeq]
        simp
      · exact diff h

/-- A node of a block through which messages leave lies in the last sub-level. -/
theorem kid_out {t p q : Net} {k k' : Kind} {j j' : Nat} (hn : (ids t).Nodup) (h : Kid t p k j) (h' : Kid t q k' j')
    {x : Nat} (hx : x ∈ ids p) (ho : x ∈ outs t) : sub (k', j') ≤ sub (k, j) := by
  cases h with
  | @stage i w ss j p g =>
    cases h' with
    | stage g' =>
      rw [ids, List.nodup_cons] at hn
      rw [outs] at ho
      obtain ⟨m, u, h1, h2, h3⟩ : ∃ (m : Nat) (u : Net), ss[m]? = some u ∧ m + 1 = ss.length ∧ x ∈ outs u := by
        clear hn g g'
        induction ss with
        | nil => simp [outsLast] at ho
        | cons s ss ih =>
          cases ss with
          | nil => exact ⟨0, s, by simp, by simp, by simpa [outsLast] using ho⟩
          | cons s' ss =>
            rw [outsLast] at ho
            obtain ⟨m, u, h1, h2, h3⟩ := ih ho
            exact ⟨m + 1, u, by simpa using h1, by simp at h2 ⊢; omega, h3⟩
      have := get_inj hn.2 g h1 hx (outs_sub _ _ h3)
      have := (List.getElem?_eq_some_iff.1 g').1
      simp only [sub]; omega
  | @left i w fs ss j p g =>
    rw [ids, List.nodup_cons, List.nodup_append] at hn
    rw [outs] at ho
    exact absurd rfl (hn.2.2.2 x (get_idsL g hx) x (outsL_sub _ _ ho))
  | right => cases h' <;> simp [sub]
  | @emitter i em ws co e he =>
    simp only [ids, List.mem_singleton] at hx; subst hx
    have ho' := outs_sub _ _ ho
    rw [ids, List.nodup_cons, List.nodup_append] at hn
    have : ∀ z ∈ outs (.farm i em ws co), z = i ∨ z ∈ idsL ws ++ co.node := by
      intro z hz
      cases co with
      | none => right; rw [outs] at hz; simp [outsL_sub _ _ hz]
      | dflt => left; simpa [outs] using hz
      | user c => right; rw [outs] at hz; simp only [List.mem_singleton] at hz; simp [Coll.node, hz]
    rcases this _ ho with rfl | h
    · exact absurd (List.mem_append_left _ he) hn.1
    · exact absurd rfl (hn.2.2.2 _ he _ h)
  | @worker i em ws co p hw =>
    have hxw : x ∈ idsL ws := by
      obtain ⟨m, hm, rfl⟩ := List.mem_iff_getElem.1 hw
      exact get_idsL (List.getElem?_eq_getElem hm) hx
    rw [ids, List.nodup_cons, List.nodup_append, List.nodup_append] at hn
    cases co with
    | none => cases h' <;> simp_all [sub, Coll.node]
    | dflt =>
      simp only [outs, List.mem_singleton] at ho
      subst ho
      exact absurd (by simp [hxw]) hn.1
    | user c =>
      simp only [outs, List.mem_singleton] at ho
      subst ho
      exact absurd rfl (hn.2.2.1.2.2 _ hxw _ (by simp [Coll.node]))
  | collector => cases h' <;> simp [sub]

/-- A node of a block through which messages enter lies in the first sub-level. -/
theorem kid_in {t p q : Net} {k k' : Kind} {j j' : Nat} (hn : (ids t).Nodup) (h : Kid t p k j) (h' : Kid t q k' j')
    {x : Nat} (hx : x ∈ ids p) (hi : x ∈ ins t) : sub (k, j) ≤ sub (k', j') := by
  cases h with
  | @stage i w ss j p g =>
    rw [ids, List.nodup_cons] at hn
    cases ss with
    | nil => simp [ins, insHd] at hi
    | cons s ss =>
      rw [ins, insHd] at hi
      have := get_inj (j := 0) hn.2 g rfl hx (ins_sub _ _ hi)
      subst this
      exact Nat.zero_le _
  | left => exact Nat.zero_le _
  | @right i w fs ss j p g =>
    rw [ids, List.nodup_cons, List.nodup_append] at hn
    rw [ins] at hi
    exact absurd rfl (hn.2.2.2 x (insL_sub _ _ hi) x (get_idsL g hx))
  | emitter => exact Nat.zero_le _
  | @worker i em ws co p hw =>
    simp only [ins, List.mem_singleton] at hi
    subst hi
    rw [ids, List.nodup_cons] at hn
    have hxw : x ∈ idsL ws := by
      obtain ⟨m, hm, rfl⟩ := List.mem_iff_getElem.1 hw
      exact get_idsL (List.getElem?_eq_getElem hm) hx
    exact absurd (by simp [hxw]) hn.1
  | @collector i em ws co e he =>
    simp only [ins, List.mem_singleton] at hi
    subst hi
    simp only [ids, List.mem_singleton] at hx; subst hx
    rw [ids, List.nodup_cons] at hn
    exact absurd (by simp [he]) hn.1

/-- A channel between two direct parts of a block leads to the next sub-level. -/
theorem kid_chan {t p q : Net} {k k' : Kind} {j j' : Nat} (hn : (ids t).Nodup) (h : Kid t p k j) (h' : Kid t q k' j')
    (hd : ∀ z ∈ ids p, z ∉ ids q) {x y : Nat} (hx : x ∈ ids p) (hy : y ∈ ids q) (hc : (x, y) ∈ fwd t) :
    sub (k', j') ≤ sub (k, j) + 1 := by
  cases h with
  | @stage i w ss j p g =>
    cases h' with
    | stage g' =>
      rw [ids, List.nodup_cons] at hn
      rw [fwd, List.mem_append] at hc
      rcases hc with hc | hc
      · obtain ⟨c, u, h1, h2⟩ := fwdL_get hc
        have hu := fwd_mem u h2
        have e1 := get_inj hn.2 g h1 hx hu.1
        have e2 := get_inj hn.2 g' h1 hy hu.2
        simp only [sub]; omega
      · obtain ⟨c, s, u, h1, h2, h3⟩ := links_get hc
        have hl := link_mem h3
        have e1 := get_inj hn.2 g h1 hx (outs_sub _ _ hl.1)
        have e2 := get_inj hn.2 g' h2 hy (ins_sub _ _ hl.2)
        simp only [sub]; omega
  | left => cases h' <;> simp [sub]
  | right => cases h' <;> simp [sub]
  | @emitter i em ws co e he =>
    cases h' with
    | emitter => simp [sub]
    | worker => simp [sub]
    | collector hc' =>
      exfalso
      simp only [ids, List.mem_singleton] at hx hy; subst hx; subst hy
      rw [ids, List.nodup_cons, List.nodup_append, List.nodup_append] at hn
      simp only [fwd, List.mem_append, pairs, List.mem_flatMap, List.mem_map, Prod.mk.injEq] at hc
      rcases hc with h | ⟨_, _, _, h2, rfl, rfl⟩ | ⟨_, h1, _, _, rfl, rfl⟩
      · exact hn.2.2.2 _ he _ (by simp [(fwdL_mem _ h).1]) rfl
      · exact hn.2.2.1.2.2 _ (insL_sub _ _ h2) _ hc' rfl
      · exact hn.2.2.2 _ he _ (by simp [outsL_sub _ _ h1]) rfl
  | worker => cases h' <;> simp [sub]
  | collector => cases h' <;> simp [sub]

/-- **C65.** Take a pipeline, and a group of parts that do not overlap, each a stage or a direct part of a stage, in
any order.  The group can be arranged in levels; the levels contain exactly its parts; and every local channel leads
from a level to the next one. -/
theorem C65_levels_partial {i : Nat} {w : Bool} {ss : List Net} {arr : List (Net × Lab)}
    (hn : (ids (.pipe i w ss)).Nodup) (hne : arr ≠ []) (hp : ∀ a ∈ arr, a ∈ parts [] (.pipe i w ss))
    (h1 : ∀ a ∈ arr, a.2 ≠ [] ∧ a.2.length ≤ 2) (hd : Disjoints arr) :
    ∃ bs, levels (fun a b : Net × Lab => cmp a.2 b.2) arr = some bs ∧ bs.flatten.Perm arr ∧
      ∀ a ∈ arr, ∀ b ∈ arr, a ≠ b → ∀ x ∈ ids a.1, ∀ y ∈ ids b.1, (x, y) ∈ fwd (.pipe i w ss) →
        ∃ (k : Nat) (la lb : List (Net × Lab)), bs[k]? = some la ∧ bs[k + 1]? = some lb ∧ a ∈ la ∧ b ∈ lb := by
  have hu : ∀ a ∈ arr, Upper ss a := fun a ha => upper_of (hp a ha) (h1 a ha).1 (h1 a ha).2
  have hr := upper_ranked hu hd
  obtain ⟨bs, e, hperm, hlay⟩ := levels_spec hne hr
  refine ⟨bs, e, hperm, fun a ha b hb hab x hx y hy hc => ?_⟩
  have hdis : ∀ z ∈ ids a.1, z ∉ ids b.1 := fun z h1 h2 => hab (disj_eq hd ha hb h1 h2)
  have hlt : rank a.2 < rank b.2 := by
    have h0 : cmp a.2 b.2 < 0 := C65_order hn (hp a ha) (hp b hb) hdis hx hy hc
    have hh := hr a ha b hb
    rcases lt_trichotomy (rank a.2) (rank b.2) with h | h | h
    · exact h
    · have := hh.2.2 h; simp only at this; omega
    · have := hh.1.2 h; simp only at this; omega
  refine layered_get hlay (hperm.symm.subset ha) (hperm.symm.subset hb) hlt ?_
  intro z hz hbt
  replace hz := hperm.subset hz
  have hza : ∀ v ∈ ids z.1, v ∈ ids a.1 → False := fun v h1 h2 => by
    have := disj_eq hd hz ha h1 h2; subst this; exact lt_irrefl _ hbt.1
  have hzb : ∀ v ∈ ids z.1, v ∈ ids b.1 → False := fun v h1 h2 => by
    have := disj_eq hd hz hb h1 h2; subst this; exact lt_irrefl _ hbt.2
  rw [ids, List.nodup_cons] at hn
  have lexlt : ∀ {i i' r r' : Nat}, toLex (i, r) < toLex (i', r') ↔ i < i' ∨ i = i' ∧ r < r' := by
    intro i i' r r'; rw [Prod.Lex.toLex_lt_toLex]
  -- the stage of a part, its sub-level
  have info : ∀ {v : Net × Lab}, Upper ss v → ∃ (m : Nat) (s : Net) (r : Nat), ss[m]? = some s ∧ rank v.2 = toLex (m, r) ∧
      (∀ g ∈ ids v.1, g ∈ ids s) ∧ (v.1 = s ∨ ∃ k j, Kid s v.1 k j ∧ r = sub (k, j)) := by
    intro v hv
    cases hv with
    | @stage m s g => exact ⟨m, s, 0, g, rfl, fun _ h => h, .inl rfl⟩
    | @inner m s p k j g hk => exact ⟨m, s, sub (k, j), g, rfl, kid_sub hk, .inr ⟨k, j, hk, rfl⟩⟩
  obtain ⟨ma, sa, ra, ga, ea, ina, ka⟩ := info (hu a ha)
  obtain ⟨mb, sb, rb, gb, eb, inb, kb⟩ := info (hu b hb)
  obtain ⟨mz, sz, rz, gz, ez, inz, kz⟩ := info (hu z hz)
  rw [ea, ez, eb, lexlt, lexlt] at hbt
  -- a and z in one stage are both direct parts of it
  have split : ∀ {u v : Net} {s : Net} {m : Nat}, (∀ g ∈ ids u, g ∈ ids v → False) → (∀ g ∈ ids u, g ∈ ids s) → v = s → False := by
    intro u v s m h1 h2 h3
    subst h3
    exact h1 _ (id_mem u) (h2 _ (id_mem u))
  rw [fwd, List.mem_append] at hc
  rcases hc with hc | hc
  · -- inside one stage
    obtain ⟨c, u, g1, g2⟩ := fwdL_get hc
    have hu' := fwd_mem u g2
    obtain rfl := get_inj hn.2 ga g1 (ina x hx) hu'.1
    obtain rfl := get_inj hn.2 gb g1 (inb y hy) hu'.2
    rw [ga] at g1 gb
    obtain rfl := Option.some.inj g1
    obtain rfl := Option.some.inj gb
    rcases ka with ka | ⟨k, j, ka, rfl⟩
    · exact split (m := mb) (fun g h1 h2 => hdis g h2 h1) inb ka
    rcases kb with kb | ⟨k', j', kb, rfl⟩
    · exact split (m := mb) hdis ina kb
    have := kid_chan (idsL_nodup_get hn.2 ga) ka kb hdis hx hy g2
    omega
  · obtain ⟨c, s, u, g1, g2, g3⟩ := links_get hc
    have hl := link_mem g3
    obtain rfl := get_inj hn.2 ga g1 (ina x hx) (outs_sub _ _ hl.1)
    obtain rfl := get_inj hn.2 gb g2 (inb y hy) (ins_sub _ _ hl.2)
    rw [ga] at g1; obtain rfl := Option.some.inj g1
    rw [gb] at g2; obtain rfl := Option.some.inj g2
    rcases hbt with ⟨h3, h4⟩
    by_cases hzm : mz = ma
    · subst hzm
      rw [ga] at gz; obtain rfl := Option.some.inj gz
      rcases ka with ka | ⟨k, j, ka, rfl⟩
      · exact split (m := mz) (fun g h1 h2 => hza g h1 h2) inz ka
      rcases kz with kz | ⟨k', j', kz, rfl⟩
      · exact split (m := mz) (fun g h1 h2 => hza g h2 h1) ina kz
      have := kid_out (idsL_nodup_get hn.2 ga) ka kz hx hl.1
      omega
    · have : mz = ma + 1 := by omega
      subst this
      rw [gb] at gz; obtain rfl := Option.some.inj gz
      rcases kb with kb | ⟨k, j, kb, rfl⟩
      · exact split (m := ma) (fun g h1 h2 => hzb g h1 h2) inz kb
      rcases kz with kz | ⟨k', j', kz, rfl⟩
      · exact split (m := ma) (fun g h1 h2 => hzb g h2 h1) inb kz
      have := kid_in (idsL_nodup_get hn.2 gb) kb kz hy hl.2
      omega

end FF.Dist
