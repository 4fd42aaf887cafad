/-
C65: the sort and the levels of a group.
-/
import Verif.Dist.Labels
import Mathlib.Data.Prod.Lex
import Mathlib.Data.List.Sort
import Mathlib.Data.Int.Order.Basic

namespace FF.Dist

section SortLevels
variable {α : Type} (c : α → α → Int)

/-- The inner loop of `sortBasedOnLabel` (ff_dutils.hpp 377-379): `k` comparisons of neighbours. -/
def pass : Nat → List α → List α
  | k + 1, a :: b :: r => if c a b > 0 then b :: pass k (a :: r) else a :: pass k (b :: r)
  | _, l => l

/-- The outer loop (375): passes of `k`, `k-1`, ..., 1 comparisons. -/
def sortN : Nat → List α → List α
  | 0, l => l
  | k + 1, l => sortN k (pass c (k + 1) l)

/-- `sortBasedOnLabel` (374-380).  For an empty group `arr.size()-1` wraps around and the loop reads past the end of
the vector: `none` stands for undefined behaviour. -/
def sortC : List α → Option (List α)
  | [] => none
  | l => some (sortN c (l.length - 1) l)

/-- The loop of `build_A2A_structure` (388-393): `cur` is the current level, `last` its last element. -/
def buildGo (cur : List α) (last : α) : List α → List (List α)
  | [] => [cur]
  | w :: r => if c last w = 0 then buildGo (cur ++ [w]) w r else cur :: buildGo [w] w r

/-- `build_A2A_structure` (382-396). -/
def build : List α → List (List α)
  | [] => []
  | v :: r => buildGo c [v] v r

/-- The levels of a group (ff_dgroups.hpp 421-422). -/
def levels (arr : List α) : Option (List (List α)) := (sortC c arr).map (build c)

/-! ### When the comparison comes from a rank -/

variable {β : Type} [LinearOrder β] (rk : α → β)

/-- The comparison agrees with a rank on a list. -/
def Ranked (l : List α) : Prop :=
  ∀ a ∈ l, ∀ b ∈ l, (0 < c a b ↔ rk b < rk a) ∧ (c a b = 0 ↔ rk a = rk b)

variable {c rk}

theorem Ranked.sub {l l' : List α} (h : Ranked c rk l) (hs : ∀ a ∈ l', a ∈ l) : Ranked c rk l' :=
  fun a ha b hb => h a (hs a ha) b (hs b hb)

theorem pass_perm : ∀ (k : Nat) (l : List α), (pass c k l).Perm l
  | 0, l => by simp [pass]
  | k + 1, [] => by simp [pass]
  | k + 1, [a] => by simp [pass]
  | k + 1, a :: b :: r => by
    rw [pass]; split
    · exact ((pass_perm k (a :: r)).cons b).trans (List.Perm.swap a b r)
    · exact (pass_perm k (b :: r)).cons a

theorem pass_append : ∀ (k : Nat) (pre suf : List α), pre.length = k + 1 → pass c k (pre ++ suf) = pass c k pre ++ suf
  | 0, pre, suf, _ => by simp [pass]
  | k + 1, [], suf, h => by simp at h
  | k + 1, [a], suf, h => by simp at h
  | k + 1, a :: b :: r, suf, h => by
    simp only [List.length_cons] at h
    rw [List.cons_append, List.cons_append, pass, pass]
    split
    · have := pass_append k (a :: r) suf (by simp only [List.length_cons]; omega)
      rw [List.cons_append] at this
      rw [this, List.cons_append]
    · have := pass_append k (b :: r) suf (by simp only [List.length_cons]; omega)
      rw [List.cons_append] at this
      rw [this, List.cons_append]

/-- After a pass the largest element is last. -/
theorem pass_max : ∀ (k : Nat) (l : List α), l.length = k + 1 → Ranked c rk l →
    ∃ q m, pass c k l = q ++ [m] ∧ ∀ z ∈ l, rk z ≤ rk m
  | 0, [a], _, _ => ⟨[], a, by simp [pass]⟩
  | k + 1, [], h, _ => by simp at h
  | k + 1, [a], h, _ => by simp at h
  | k + 1, a :: b :: r, h, hr => by
    simp only [List.length_cons] at h
    have hab := hr a (by simp) b (by simp)
    rw [pass]; split
    · rename_i hc
      obtain ⟨q, m, h1, h2⟩ := pass_max k (a :: r) (by simp only [List.length_cons]; omega)
        (hr.sub (by intro z hz; simp only [List.mem_cons] at hz ⊢; tauto))
      refine ⟨b :: q, m, by rw [h1]; rfl, fun z hz => ?_⟩
      have ha := h2 a (by simp)
      have := (hab.1.1 hc).le
      simp only [List.mem_cons] at hz
      rcases hz with rfl | rfl | hz
      · exact ha
      · exact this.trans ha
      · exact h2 z (by simp [hz])
    · rename_i hc
      obtain ⟨q, m, h1, h2⟩ := pass_max k (b :: r) (by simp only [List.length_cons]; omega)
        (hr.sub (by intro z hz; simp only [List.mem_cons] at hz ⊢; tauto))
      refine ⟨a :: q, m, by rw [h1]; rfl, fun z hz => ?_⟩
      have hb := h2 b (by simp)
      have : rk a ≤ rk b := not_lt.1 fun h => hc (hab.1.2 h)
      simp only [List.mem_cons] at hz
      rcases hz with rfl | rfl | hz
      · exact this.trans hb
      · exact hb
      · exact h2 z (by simp [hz])

theorem sortN_perm : ∀ (k : Nat) (l : List α), (sortN c k l).Perm l
  | 0, _ => .refl _
  | k + 1, l => (sortN_perm k _).trans (pass_perm _ _)

theorem sortN_sorted : ∀ (k : Nat) (pre suf : List α), pre.length = k + 1 → Ranked c rk pre →
    suf.Pairwise (fun a b => rk a ≤ rk b) → (∀ a ∈ pre, ∀ b ∈ suf, rk a ≤ rk b) →
    (sortN c k (pre ++ suf)).Pairwise (fun a b => rk a ≤ rk b)
  | 0, pre, suf, hl, _, hs, hps => by
    obtain ⟨a, rfl⟩ := List.length_eq_one_iff.1 hl
    simp only [sortN, List.cons_append, List.nil_append, List.pairwise_cons]
    exact ⟨fun b hb => hps a (by simp) b hb, hs⟩
  | k + 1, pre, suf, hl, hr, hs, hps => by
    obtain ⟨q, m, h1, h2⟩ := pass_max (k + 1) pre hl hr
    have hp := pass_perm (c := c) (k + 1) pre
    rw [h1] at hp
    have hmem : ∀ z ∈ q, z ∈ pre := fun z hz => hp.subset (by simp [hz])
    rw [sortN, pass_append _ _ _ hl, h1, List.append_assoc]
    refine sortN_sorted k q ([m] ++ suf) ?_ (hr.sub hmem) ?_ ?_
    · have := hp.length_eq; simp only [List.length_append, List.length_cons, List.length_nil] at this; omega
    · simp only [List.cons_append, List.nil_append, List.pairwise_cons]
      exact ⟨fun b hb => hps m (hp.subset (by simp)) b hb, hs⟩
    · intro a ha b hb
      simp only [List.cons_append, List.nil_append, List.mem_cons] at hb
      rcases hb with rfl | hb
      · exact h2 a (hmem a ha)
      · exact hps a (hmem a ha) b hb

theorem sortC_spec {arr : List α} (hne : arr ≠ []) (hr : Ranked c rk arr) :
    ∃ l, sortC c arr = some l ∧ l.Perm arr ∧ l.Pairwise (fun a b => rk a ≤ rk b) := by
  cases arr with
  | nil => exact absurd rfl hne
  | cons a r =>
    refine ⟨_, rfl, sortN_perm _ _, ?_⟩
    have := sortN_sorted (c := c) (rk := rk) r.length (a :: r) [] (by simp) hr List.Pairwise.nil (by simp)
    simpa using this

/-- The levels: together the sorted list; each with one rank; the ranks increase. -/
def Layered (rk : α → β) (bs : List (List α)) : Prop :=
  (∀ b ∈ bs, b ≠ [] ∧ ∀ x ∈ b, ∀ y ∈ b, rk x = rk y) ∧ bs.Pairwise (fun a b => ∀ x ∈ a, ∀ y ∈ b, rk x < rk y)

theorem buildGo_spec : ∀ (r : List α) (cur : List α) (last : α), last ∈ cur → (∀ x ∈ cur, rk x = rk last) →
    Ranked c rk (last :: r) → (last :: r).Pairwise (fun a b => rk a ≤ rk b) →
    (buildGo c cur last r).flatten = cur ++ r ∧ Layered rk (buildGo c cur last r)
  | [], cur, last, hm, he, _, _ => by
    refine ⟨by simp [buildGo], ?_, by simp [buildGo]⟩
    intro b hb
    simp only [buildGo, List.mem_singleton] at hb; subst hb
    exact ⟨by rintro rfl; simp at hm, fun x hx y hy => (he x hx).trans (he y hy).symm⟩
  | w :: r, cur, last, hm, he, hr, hs => by
    have hlw := hr last (by simp) w (by simp)
    rw [List.pairwise_cons] at hs
    have hr' : Ranked c rk (w :: r) := hr.sub (by intro a ha; simp [List.mem_cons.1 ha])
    rw [buildGo]; split
    · rename_i hc
      have e := hlw.2.1 hc
      obtain ⟨h1, h2⟩ := buildGo_spec r (cur ++ [w]) w (by simp) (by
        intro x hx
        rcases List.mem_append.1 hx with hx | hx
        · rw [he x hx, e]
        · rw [List.mem_singleton.1 hx]) hr' hs.2
      exact ⟨by rw [h1]; simp, h2⟩
    · rename_i hc
      obtain ⟨h1, h2, h3⟩ := buildGo_spec r [w] w (by simp) (by simp) hr' hs.2
      have hlt : rk last < rk w := lt_of_le_of_ne (hs.1 w (by simp)) fun e => hc (hlw.2.2 e)
      refine ⟨by simp [h1], ?_, ?_⟩
      · intro b hb
        rcases List.mem_cons.1 hb with rfl | hb
        · exact ⟨by rintro rfl; simp at hm, fun x hx y hy => (he x hx).trans (he y hy).symm⟩
        · exact h2 b hb
      · rw [List.pairwise_cons]
        refine ⟨fun b hb x hx y hy => ?_, h3⟩
        have hy' : y ∈ w :: r := by
          have : y ∈ (buildGo c [w] w r).flatten := List.mem_flatten.2 ⟨b, hb, hy⟩
          rw [h1] at this; simpa using this
        rw [he x hx]
        rcases List.mem_cons.1 hy' with rfl | hy'
        · exact hlt
        · exact lt_of_lt_of_le hlt ((List.pairwise_cons.1 hs.2).1 y hy')

theorem levels_spec {arr : List α} (hne : arr ≠ []) (hr : Ranked c rk arr) :
    ∃ bs, levels c arr = some bs ∧ bs.flatten.Perm arr ∧ Layered rk bs := by
  obtain ⟨l, h1, h2, h3⟩ := sortC_spec hne hr
  cases l with
  | nil => exact absurd h2.symm.eq_nil hne
  | cons v r =>
    have hr' : Ranked c rk (v :: r) := hr.sub fun a ha => h2.subset ha
    obtain ⟨h4, h5⟩ := buildGo_spec r [v] v (by simp) (by simp) hr' h3
    refine ⟨buildGo c [v] v r, by simp [levels, h1, build], ?_, h5⟩
    rw [h4]; exact h2

theorem layered_get {bs : List (List α)} (h : Layered rk bs) {p q : α} (hp : p ∈ bs.flatten) (hq : q ∈ bs.flatten)
    (hlt : rk p < rk q) (hno : ∀ z ∈ bs.flatten, ¬ (rk p < rk z ∧ rk z < rk q)) :
    ∃ (k : Nat) (a b : List α), bs[k]? = some a ∧ bs[k + 1]? = some b ∧ p ∈ a ∧ q ∈ b := by
  obtain ⟨a, ha, hpa⟩ := List.mem_flatten.1 hp
  obtain ⟨b, hb, hqb⟩ := List.mem_flatten.1 hq
  obtain ⟨i, hi, rfl⟩ := List.mem_iff_getElem.1 ha
  obtain ⟨j, hj, rfl⟩ := List.mem_iff_getElem.1 hb
  have hpw := List.pairwise_iff_getElem.1 h.2
  have hij : i < j := by
    rcases Nat.lt_trichotomy i j with h' | h' | h'
    · exact h'
    · subst h'
      exact absurd ((h.1 _ ha).2 p hpa q hqb) (ne_of_lt hlt)
    · exact absurd (hpw j i hj hi h' q hqb p hpa) (not_lt_of_gt hlt)
  by_cases hj' : j = i + 1
  · subst hj'
    exact ⟨i, _, _, List.getElem?_eq_getElem hi, List.getElem?_eq_getElem hj, hpa, hqb⟩
  · exfalso
    have hk : i + 1 < bs.length := by omega
    obtain ⟨hne, -⟩ := h.1 _ (List.getElem_mem hk)
    obtain ⟨z, hz⟩ := List.exists_mem_of_ne_nil _ hne
    exact hno z (List.mem_flatten.2 ⟨_, List.getElem_mem hk, hz⟩)
      ⟨hpw i (i + 1) hi hk (by omega) p hpa z hz, hpw (i + 1) j hk hj (by omega) z hz q hqb⟩

end SortLevels

end FF.Dist
