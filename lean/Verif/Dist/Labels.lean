/-
How the nodes of a distributed group are arranged in levels (C65): the labels of `setIDs` (ff_dutils.hpp 297-343),
their comparison (352-368), the sort (374-380) and the levels (382-396).
-/
import Verif.Dist.Lemmas

namespace FF.Dist

/-- The letters in a label. -/
inductive Kind
  | P
  | S
  | D
  deriving DecidableEq, Repr

/-- A label `"P1S0"` as the list of its letters and numbers.  Simplified: `parseNumericValue` (345-350) reads the
number back from the string. -/
abbrev Lab := List (Kind × Nat)

mutual
/-- `setIDs` (ff_dutils.hpp 297-343): every part of a network with its label.  The components of a combination have
the label of the combination and are no parts of their own. -/
def parts (l : Lab) : Net → List (Net × Lab)
  | .seq i a b => [(.seq i a b, l)]
  | .comb i a b => [(.comb i a b, l)]
  | .pipe i w ss => (.pipe i w ss, l) :: partsI l .P 0 ss
  | .a2a i w fs ss => (.a2a i w fs ss, l) :: (partsI l .S 0 fs ++ partsI l .D 0 ss)
  | .farm i em ws co =>
    (.farm i em ws co, l) :: (em.toList.map (fun e => (.seq e false false, l ++ [(.P, 0)])) ++
      (partsW (l ++ [(.P, 1)]) ws ++ co.node.map (fun c => (.seq c false false, l ++ [(.P, 2)]))))
/-- The stages of a pipeline or the members of a set, numbered from `n`. -/
def partsI (l : Lab) (k : Kind) (n : Nat) : List Net → List (Net × Lab)
  | [] => []
  | t :: ts => parts (l ++ [(k, n)]) t ++ partsI l k (n + 1) ts
/-- The workers of a farm, all with the same label (338-339). -/
def partsW (l : Lab) : List Net → List (Net × Lab)
  | [] => []
  | t :: ts => parts l t ++ partsW l ts
end

/-- `compareLabels` (ff_dutils.hpp 352-368). -/
def cmp : Lab → Lab → Int
  | (k, v) :: a, (k', v') :: b =>
    if k = k' ∧ k = .P ∧ v ≠ v' then (v : Int) - v'
    else if k = .S ∧ k' = .D then -1
    else if k = .D ∧ k' = .S then 1
    else cmp a b
  | _, _ => 0

/-! ### The order of the labels follows the channels -/

theorem cmp_append : ∀ (l a b : Lab), cmp (l ++ a) (l ++ b) = cmp a b
  | [], _, _ => rfl
  | (k, v) :: l, a, b => by
    rw [List.cons_append, List.cons_append, cmp, if_neg (by simp), if_neg (by rintro ⟨h1, h2⟩; rw [h1] at h2; simp at h2),
      if_neg (by rintro ⟨h1, h2⟩; rw [h1] at h2; simp at h2), cmp_append l a b]

mutual
theorem parts_pre : ∀ (t : Net) (l : Lab) (p : Net) (l' : Lab), (p, l') ∈ parts l t → ∃ r, l' = l ++ r
  | .seq _ _ _, l, p, l', h => by
    simp only [parts, List.mem_singleton, Prod.mk.injEq] at h; exact ⟨[], by simp [h.2]⟩
  | .comb _ _ _, l, p, l', h => by
    simp only [parts, List.mem_singleton, Prod.mk.injEq] at h; exact ⟨[], by simp [h.2]⟩
  | .pipe _ _ ss, l, p, l', h => by
    simp only [parts, List.mem_cons, Prod.mk.injEq] at h
    rcases h with h | h
    · exact ⟨[], by simp [h.2]⟩
    · obtain ⟨i, r, h1, -⟩ := partsI_pre ss l .P 0 p l' h
      exact ⟨_, h1⟩
  | .a2a _ _ fs ss, l, p, l', h => by
    simp only [parts, List.mem_cons, Prod.mk.injEq, List.mem_append] at h
    rcases h with h | h | h
    · exact ⟨[], by simp [h.2]⟩
    · obtain ⟨i, r, h1, -⟩ := partsI_pre fs l .S 0 p l' h
      exact ⟨_, h1⟩
    · obtain ⟨i, r, h1, -⟩ := partsI_pre ss l .D 0 p l' h
      exact ⟨_, h1⟩
  | .farm _ em ws co, l, p, l', h => by
    simp only [parts, List.mem_cons, Prod.mk.injEq, List.mem_append, List.mem_map] at h
    rcases h with h | ⟨_, _, h⟩ | h | ⟨_, _, h⟩
    · exact ⟨[], by simp [h.2]⟩
    · exact ⟨_, h.2.symm⟩
    · obtain ⟨r, h1⟩ := partsW_pre ws _ p l' h
      exact ⟨_, by rw [h1, List.append_assoc]⟩
    · exact ⟨_, h.2.symm⟩
theorem partsI_pre : ∀ (ts : List Net) (l : Lab) (k : Kind) (n : Nat) (p : Net) (l' : Lab), (p, l') ∈ partsI l k n ts →
    ∃ i r, l' = l ++ (k, n + i) :: r ∧ ∃ t, ts[i]? = some t ∧ (p, l') ∈ parts (l ++ [(k, n + i)]) t
  | [], _, _, _, _, _, h => by simp [partsI] at h
  | t :: ts, l, k, n, p, l', h => by
    rw [partsI, List.mem_append] at h
    rcases h with h | h
    · obtain ⟨r, h1⟩ := parts_pre t _ p l' h
      exact ⟨0, r, by simp [h1], t, by simp, by simpa using h⟩
    · obtain ⟨i, r, h1, u, h2, h3⟩ := partsI_pre ts l k (n + 1) p l' h
      refine ⟨i + 1, r, by rw [h1, show n + 1 + i = n + (i + 1) by omega], u, by simpa using h2, ?_⟩
      rw [show n + (i + 1) = n + 1 + i by omega]; exact h3
theorem partsW_pre : ∀ (ts : List Net) (l : Lab) (p : Net) (l' : Lab), (p, l') ∈ partsW l ts → ∃ r, l' = l ++ r
  | [], _, _, _, h => by simp [partsW] at h
  | t :: ts, l, p, l', h => by
    rw [partsW, List.mem_append] at h
    rcases h with h | h
    · exact parts_pre t _ p l' h
    · exact partsW_pre ts _ p l' h
end

theorem partsW_mem : ∀ (ts : List Net) (l : Lab) (p : Net) (l' : Lab), (p, l') ∈ partsW l ts →
    ∃ (i : Nat) (t : Net), ts[i]? = some t ∧ (p, l') ∈ parts l t
  | [], _, _, _, h => by simp [partsW] at h
  | t :: ts, l, p, l', h => by
    rw [partsW, List.mem_append] at h
    rcases h with h | h
    · exact ⟨0, t, by simp, h⟩
    · obtain ⟨i, u, h1, h2⟩ := partsW_mem ts l p l' h
      exact ⟨i + 1, u, by simpa using h1, h2⟩

theorem get_idsL : ∀ {ts : List Net} {i : Nat} {t : Net} {x : Nat}, ts[i]? = some t → x ∈ ids t → x ∈ idsL ts
  | [], _, _, _, h, _ => by simp at h
  | s :: ts, 0, t, x, h, hx => by
    simp only [List.getElem?_cons_zero, Option.some.injEq] at h; subst h
    simp [idsL, hx]
  | s :: ts, i + 1, t, x, h, hx => by
    have := get_idsL (ts := ts) (by simpa using h) hx
    simp [idsL, this]

/-- In a list of networks without repeated addresses an address determines the member. -/
theorem get_inj : ∀ {ts : List Net} {i j : Nat} {t u : Net} {x : Nat}, (idsL ts).Nodup → ts[i]? = some t →
    ts[j]? = some u → x ∈ ids t → x ∈ ids u → i = j
  | [], _, _, _, _, _, _, h, _, _, _ => by simp at h
  | s :: ts, 0, 0, _, _, _, _, _, _, _, _ => rfl
  | s :: ts, 0, j + 1, t, u, x, hn, h1, h2, hx, hy => by
    simp only [List.getElem?_cons_zero, Option.some.injEq] at h1; subst h1
    rw [idsL, List.nodup_append] at hn
    exact absurd rfl (hn.2.2 x hx x (get_idsL (by simpa using h2) hy))
  | s :: ts, i + 1, 0, t, u, x, hn, h1, h2, hx, hy => by
    simp only [List.getElem?_cons_zero, Option.some.injEq] at h2; subst h2
    rw [idsL, List.nodup_append] at hn
    exact absurd rfl (hn.2.2 x hy x (get_idsL (by simpa using h1) hx))
  | s :: ts, i + 1, j + 1, t, u, x, hn, h1, h2, hx, hy => by
    rw [idsL, List.nodup_append] at hn
    have := get_inj (i := i) (j := j) hn.2.1 (by simpa using h1) (by simpa using h2) hx hy
    omega

theorem fwdL_get : ∀ {ts : List Net} {x y : Nat}, (x, y) ∈ fwdL ts → ∃ (i : Nat) (t : Net), ts[i]? = some t ∧ (x, y) ∈ fwd t
  | [], _, _, h => by simp [fwdL] at h
  | t :: ts, x, y, h => by
    rw [fwdL, List.mem_append] at h
    rcases h with h | h
    · exact ⟨0, t, by simp, h⟩
    · obtain ⟨i, u, h1, h2⟩ := fwdL_get h
      exact ⟨i + 1, u, by simpa using h1, h2⟩

theorem links_get : ∀ {ts : List Net} {x y : Nat}, (x, y) ∈ links ts →
    ∃ (i : Nat) (s t : Net), ts[i]? = some s ∧ ts[i + 1]? = some t ∧ (x, y) ∈ link s t
  | [], _, _, h => by simp [links] at h
  | [_], _, _, h => by simp [links] at h
  | s :: t :: ts, x, y, h => by
    rw [links, List.mem_append] at h
    rcases h with h | h
    · exact ⟨0, s, t, by simp, by simp, h⟩
    · obtain ⟨i, a, b, h1, h2, h3⟩ := links_get h
      exact ⟨i + 1, a, b, by simpa using h1, by simpa using h2, h3⟩

mutual
theorem parts_sub : ∀ (t : Net) (l : Lab) (p : Net) (l' : Lab), (p, l') ∈ parts l t → ∀ x ∈ ids p, x ∈ ids t
  | .seq _ _ _, l, p, l', h, x, hx => by
    simp only [parts, List.mem_singleton, Prod.mk.injEq] at h; rw [← h.1]; exact hx
  | .comb _ _ _, l, p, l', h, x, hx => by
    simp only [parts, List.mem_singleton, Prod.mk.injEq] at h; rw [← h.1]; exact hx
  | .pipe _ _ ss, l, p, l', h, x, hx => by
    simp only [parts, List.mem_cons, Prod.mk.injEq] at h
    rcases h with h | h
    · rw [← h.1]; exact hx
    · simp [ids, partsI_sub ss l .P 0 p l' h x hx]
  | .a2a _ _ fs ss, l, p, l', h, x, hx => by
    simp only [parts, List.mem_cons, Prod.mk.injEq, List.mem_append] at h
    rcases h with h | h | h
    · rw [← h.1]; exact hx
    · simp [ids, partsI_sub fs l .S 0 p l' h x hx]
    · simp [ids, partsI_sub ss l .D 0 p l' h x hx]
  | .farm _ em ws co, l, p, l', h, x, hx => by
    simp only [parts, List.mem_cons, Prod.mk.injEq, List.mem_append, List.mem_map] at h
    rcases h with h | ⟨e, h0, h⟩ | h | ⟨e, h0, h⟩
    · rw [← h.1]; exact hx
    · rw [← h.1] at hx
      simp only [ids, List.mem_singleton] at hx; subst hx
      simp only [ids, List.mem_cons, List.mem_append]; exact .inr (.inl h0)
    · simp [ids, partsW_sub ws _ p l' h x hx]
    · rw [← h.1] at hx
      simp only [ids, List.mem_singleton] at hx; subst hx
      simp [ids, h0]
theorem partsI_sub : ∀ (ts : List Net) (l : Lab) (k : Kind) (n : Nat) (p : Net) (l' : Lab), (p, l') ∈ partsI l k n ts →
    ∀ x ∈ ids p, x ∈ idsL ts
  | [], _, _, _, _, _, h, _, _ => by simp [partsI] at h
  | t :: ts, l, k, n, p, l', h, x, hx => by
    rw [partsI, List.mem_append] at h
    rcases h with h | h
    · simp [idsL, parts_sub t _ p l' h x hx]
    · simp [idsL, partsI_sub ts l k _ p l' h x hx]
theorem partsW_sub : ∀ (ts : List Net) (l : Lab) (p : Net) (l' : Lab), (p, l') ∈ partsW l ts →
    ∀ x ∈ ids p, x ∈ idsL ts
  | [], _, _, _, h, _, _ => by simp [partsW] at h
  | t :: ts, l, p, l', h, x, hx => by
    rw [partsW, List.mem_append] at h
    rcases h with h | h
    · simp [idsL, parts_sub t _ p l' h x hx]
    · simp [idsL, partsW_sub ts l p l' h x hx]
end

/-- Channels between disjoint parts go from the smaller to the larger label. -/
def Ordered (t : Net) : Prop :=
  ∀ l p l1 q l2 x y, (ids t).Nodup → (p, l1) ∈ parts l t → (q, l2) ∈ parts l t → (∀ z ∈ ids p, z ∉ ids q) →
    x ∈ ids p → y ∈ ids q → (x, y) ∈ fwd t → cmp l1 l2 < 0

theorem idsL_nodup_get : ∀ {ts : List Net} {i : Nat} {t : Net}, (idsL ts).Nodup → ts[i]? = some t → (ids t).Nodup
  | [], _, _, _, h => by simp at h
  | s :: ts, 0, t, hn, h => by
    simp only [List.getElem?_cons_zero, Option.some.injEq] at h; subst h
    rw [idsL, List.nodup_append] at hn; exact hn.1
  | s :: ts, i + 1, t, hn, h => by
    rw [idsL, List.nodup_append] at hn
    exact idsL_nodup_get hn.2.1 (by simpa using h)

theorem ordered_numbered {ts : List Net} {l : Lab} {k : Kind} {p q : Net} {l1 l2 : Lab} {x y : Nat}
    (ih : ∀ (i : Nat) (t : Net), ts[i]? = some t → Ordered t) (hn : (idsL ts).Nodup) (hp : (p, l1) ∈ partsI l k 0 ts)
    (hq : (q, l2) ∈ partsI l k 0 ts) (hd : ∀ z ∈ ids p, z ∉ ids q) (hx : x ∈ ids p) (hy : y ∈ ids q)
    (h : (x, y) ∈ fwdL ts) : cmp l1 l2 < 0 := by
  obtain ⟨c, u, h1, h2⟩ := fwdL_get h
  obtain ⟨a, r, e1, t1, g1, m1⟩ := partsI_pre ts l k 0 p l1 hp
  obtain ⟨b, r', e2, t2, g2, m2⟩ := partsI_pre ts l k 0 q l2 hq
  have hu := fwd_mem u h2
  obtain rfl := get_inj hn g1 h1 (parts_sub t1 _ p l1 m1 x hx) hu.1
  obtain rfl := get_inj hn g2 h1 (parts_sub t2 _ q l2 m2 y hy) hu.2
  rw [g1] at h1; obtain rfl := Option.some.inj h1
  rw [g1] at g2; obtain rfl := Option.some.inj g2
  exact ih b t1 g1 _ p l1 q l2 x y (idsL_nodup_get hn g1) m1 m2 hd hx hy h2

mutual
theorem order_all : ∀ t, Ordered t
  | .seq _ _ _ => by intro l p l1 q l2 x y _ _ _ _ _ _ h; simp [fwd] at h
  | .comb _ _ _ => by intro l p l1 q l2 x y _ _ _ _ _ _ h; simp [fwd] at h
  | .pipe i w ss => by
    intro l p l1 q l2 x y hn hp hq hd hx hy h
    have hxt := parts_sub _ _ _ _ hp
    have hyt := parts_sub _ _ _ _ hq
    rw [parts, List.mem_cons, Prod.mk.injEq] at hp hq
    rcases hp with hp | hp
    · exact absurd hy (hd y (hp.1 ▸ hyt y hy))
    rcases hq with hq | hq
    · exact absurd (hq.1 ▸ hxt x hx) (hd x hx)
    rw [ids, List.nodup_cons] at hn
    rw [fwd, List.mem_append] at h
    rcases h with h | h
    · exact ordered_numbered (order_allL ss) hn.2 hp hq hd hx hy h
    · obtain ⟨c, s, t, h1, h2, h3⟩ := links_get h
      obtain ⟨a, r, e1, t1, g1, m1⟩ := partsI_pre ss l .P 0 p l1 hp
      obtain ⟨b, r', e2, t2, g2, m2⟩ := partsI_pre ss l .P 0 q l2 hq
      have hl := link_mem h3
      obtain rfl := get_inj hn.2 g1 h1 (parts_sub t1 _ p l1 m1 x hx) (outs_sub _ _ hl.1)
      obtain rfl := get_inj hn.2 g2 h2 (parts_sub t2 _ q l2 m2 y hy) (ins_sub _ _ hl.2)
      rw [e1, e2, cmp_append, cmp, if_pos ⟨rfl, rfl, by omega⟩]
      omega
  | .a2a i w fs ss => by
    intro l p l1 q l2 x y hn hp hq hd hx hy h
    have hxt := parts_sub _ _ _ _ hp
    have hyt := parts_sub _ _ _ _ hq
    rw [parts, List.mem_cons, Prod.mk.injEq, List.mem_append] at hp hq
    rcases hp with hp | hp
    · exact absurd hy (hd y (hp.1 ▸ hyt y hy))
    rcases hq with hq | hq
    · exact absurd (hq.1 ▸ hxt x hx) (hd x hx)
    rw [ids, List.nodup_cons, List.nodup_append] at hn
    obtain ⟨-, hn1, hn2, hn3⟩ := hn
    have side : ∀ z, z ∈ idsL fs → z ∈ idsL ss → False := fun z h1 h2 => hn3 z h1 z h2 rfl
    rw [fwd, List.mem_append, List.mem_append] at h
    rcases hp with hp | hp <;> rcases hq with hq | hq
    · have px := partsI_sub _ _ _ _ _ _ hp x hx
      have py := partsI_sub _ _ _ _ _ _ hq y hy
      rcases h with h | h | h
      · exact ordered_numbered (order_allL fs) hn1 hp hq hd hx hy h
      · exact (side x px (fwdL_mem _ h).1).elim
      · simp only [pairs, List.mem_flatMap, List.mem_map, Prod.mk.injEq] at h
        obtain ⟨_, h1, _, h2, rfl, rfl⟩ := h
        exact (side _ py (insL_sub _ _ h2)).elim
    · obtain ⟨a, r, e1, -⟩ := partsI_pre fs l .S 0 p l1 hp
      obtain ⟨b, r', e2, -⟩ := partsI_pre ss l .D 0 q l2 hq
      rw [e1, e2, cmp_append, cmp, if_neg (by simp), if_pos ⟨rfl, rfl⟩]
      omega
    · have px := partsI_sub _ _ _ _ _ _ hp x hx
      have py := partsI_sub _ _ _ _ _ _ hq y hy
      rcases h with h | h | h
      · exact (side x (fwdL_mem _ h).1 px).elim
      · exact (side y py (fwdL_mem _ h).2).elim
      · simp only [pairs, List.mem_flatMap, List.mem_map, Prod.mk.injEq] at h
        obtain ⟨_, h1, _, h2, rfl, rfl⟩ := h
        exact (side _ py (insL_sub _ _ h2)).elim
    · have px := partsI_sub _ _ _ _ _ _ hp x hx
      have py := partsI_sub _ _ _ _ _ _ hq y hy
      rcases h with h | h | h
      · exact (side x (fwdL_mem _ h).1 px).elim
      · exact ordered_numbered (order_allL ss) hn2 hp hq hd hx hy h
      · simp only [pairs, List.mem_flatMap, List.mem_map, Prod.mk.injEq] at h
        obtain ⟨_, h1, _, h2, rfl, rfl⟩ := h
        exact (side _ (outsL_sub _ _ h1) px).elim
  | .farm i em ws co => by
    intro l p l1 q l2 x y hn hp hq hd hx hy h
    have hxt := parts_sub _ _ _ _ hp
    have hyt := parts_sub _ _ _ _ hq
    rw [parts, List.mem_cons, Prod.mk.injEq, List.mem_append, List.mem_append] at hp hq
    rcases hp with hp | hp
    · exact absurd hy (hd y (hp.1 ▸ hyt y hy))
    rcases hq with hq | hq
    · exact absurd (hq.1 ▸ hxt x hx) (hd x hx)
    simp only [List.mem_map, Prod.mk.injEq] at hp hq
    rw [ids, List.nodup_cons, List.nodup_append, List.nodup_append] at hn
    obtain ⟨-, -, ⟨hn1, -, hn2⟩, hn3⟩ := hn
    have ew : ∀ z, z ∈ em.toList → z ∈ idsL ws → False := fun z h1 h2 => hn3 z h1 z (by simp [h2]) rfl
    have ec : ∀ z, z ∈ em.toList → z ∈ co.node → False := fun z h1 h2 => hn3 z h1 z (by simp [h2]) rfl
    have wc : ∀ z, z ∈ idsL ws → z ∈ co.node → False := fun z h1 h2 => hn2 z h1 z h2 rfl
    have lab : ∀ {a b : Nat} {r r' : Lab}, a < b → cmp (l ++ (Kind.P, a) :: r) (l ++ (Kind.P, b) :: r') < 0 := by
      intro a b r r' hab
      rw [cmp_append, cmp, if_pos ⟨rfl, rfl, by omega⟩]; omega
    simp only [fwd, List.mem_append, pairs, List.mem_flatMap, List.mem_map, Prod.mk.injEq] at h
    rcases hp with ⟨e, he, hp⟩ | hp | ⟨e, he, hp⟩
    · -- the emitter sends
      rw [← hp.1] at hx
      simp only [ids, List.mem_singleton] at hx; subst hx
      rcases h with h | ⟨_, _, _, h2, rfl, rfl⟩ | ⟨_, h1, _, _, rfl, rfl⟩
      · exact (ew _ he (fwdL_mem _ h).1).elim
      · have hyw := insL_sub _ _ h2
        rcases hq with ⟨c, hc, hq⟩ | hq | ⟨c, hc, hq⟩
        · rw [← hq.1] at hy
          simp only [ids, List.mem_singleton] at hy; subst hy
          exact (ew _ hc hyw).elim
        · obtain ⟨r, e2⟩ := partsW_pre _ _ _ _ hq
          rw [← hp.2, e2, List.append_assoc]
          exact lab (by omega)
        · rw [← hq.1] at hy
          simp only [ids, List.mem_singleton] at hy; subst hy
          exact (wc _ hyw hc).elim
      · exact (ew _ he (outsL_sub _ _ h1)).elim
    · have px := partsW_sub _ _ _ _ hp x hx
      rcases h with h | ⟨_, h1, _, h2, rfl, rfl⟩ | ⟨_, h1, _, h2, rfl, rfl⟩
      · have hyw := (fwdL_mem _ h).2
        rcases hq with ⟨c, hc, hq⟩ | hq | ⟨c, hc, hq⟩
        · rw [← hq.1] at hy
          simp only [ids, List.mem_singleton] at hy; subst hy
          exact (ew _ hc hyw).elim
        · obtain ⟨c, u, h1, h2⟩ := fwdL_get h
          obtain ⟨a, t1, g1, m1⟩ := partsW_mem _ _ _ _ hp
          obtain ⟨b, t2, g2, m2⟩ := partsW_mem _ _ _ _ hq
          have hu := fwd_mem u h2
          obtain rfl := get_inj hn1 g1 h1 (parts_sub t1 _ p l1 m1 x hx) hu.1
          obtain rfl := get_inj hn1 g2 h1 (parts_sub t2 _ q l2 m2 y hy) hu.2
          rw [g1] at h1; obtain rfl := Option.some.inj h1
          rw [g1] at g2; obtain rfl := Option.some.inj g2
          exact order_allL ws b t1 g1 _ p l1 q l2 x y (idsL_nodup_get hn1 g1) m1 m2 hd hx hy h2
        · rw [← hq.1] at hy
          simp only [ids, List.mem_singleton] at hy; subst hy
          exact (wc _ hyw hc).elim
      · exact (ew _ h1 px).elim
      · rcases hq with ⟨c, hc, hq⟩ | hq | ⟨c, hc, hq⟩
        · rw [← hq.1] at hy
          simp only [ids, List.mem_singleton] at hy; subst hy
          exact (ec _ hc h2).elim
        · exact (wc _ (partsW_sub _ _ _ _ hq _ hy) h2).elim
        · obtain ⟨r, e1⟩ := partsW_pre _ _ _ _ hp
          rw [← hq.2, e1, List.append_assoc]
          exact lab (by omega)
    · rw [← hp.1] at hx
      simp only [ids, List.mem_singleton] at hx; subst hx
      rcases h with h | ⟨_, h1, _, h2, rfl, rfl⟩ | ⟨_, h1, _, h2, rfl, rfl⟩
      · exact (wc _ (fwdL_mem _ h).1 he).elim
      · exact (ec _ h1 he).elim
      · exact (wc _ (outsL_sub _ _ h1) he).elim
theorem order_allL : ∀ (ts : List Net) (i : Nat) (t : Net), ts[i]? = some t → Ordered t
  | [], _, _, h => by simp at h
  | t :: _, 0, u, h => by
    simp only [List.getElem?_cons_zero, Option.some.injEq] at h
    exact h ▸ order_all t
  | _ :: ts, i + 1, u, h => order_allL ts i u (by simpa using h)
end

/-- **C65.** Take two parts of a network that do not overlap.  If a node of the first has a channel to a node of the
second, the label of the first is the smaller one. -/
theorem C65_order {root p q : Net} {l1 l2 : Lab} (hn : (ids root).Nodup) (hp : (p, l1) ∈ parts [] root)
    (hq : (q, l2) ∈ parts [] root) (hd : ∀ z ∈ ids p, z ∉ ids q) {x y : Nat} (hx : x ∈ ids p) (hy : y ∈ ids q)
    (h : (x, y) ∈ fwd root) : cmp l1 l2 < 0 :=
  order_all root [] p l1 q l2 x y hn hp hq hd hx hy h

end FF.Dist
