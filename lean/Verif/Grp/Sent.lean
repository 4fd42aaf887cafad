import Verif.Grp.Route
/-!
# C67: what the wrappers put out is what the nodes send
-/
namespace FF.Grp
variable {D : Type} {N : Net D}

/-- at most one end mark from each source -/
def Once (l : List (M D)) : Prop := l.Pairwise fun a b => a.body = none → b.body = none → a.src ≠ b.src

theorem once_of {l : List (M D)}
    (h : ∀ a ∈ l, ∃ b, Str a.src (l.filter (·.src == a.src)) b) : Once l := by
  refine List.pairwise_iff_forall_sublist.2 ?_
  intro a b hab ha hb e
  obtain ⟨p, hs⟩ := h a (hab.subset (by simp))
  have h1 : [a, b].filter (·.src == a.src) = [a, b] := by simp [e]
  have h2 := hab.filter (·.src == a.src)
  rw [h1] at h2
  by_cases hp : p
  · obtain ⟨ds, hd, e2⟩ := hs.1 hp
    rw [e2, List.sublist_append_iff] at h2
    obtain ⟨l1, l2, e3, h3, h4⟩ := h2
    cases l1 with
    | nil =>
      have := h4.length_le
      simp only [List.nil_append] at e3
      rw [← e3] at this
      simp at this
    | cons c l1 =>
      simp only [List.cons_append, List.cons.injEq] at e3
      exact hd a (by rw [e3.1]; exact h3.subset List.mem_cons_self) ha
  · exact hs.2 hp a (h2.subset (by simp)) ha

def res (N : Net D) (x : Nat) (p : Option Nat × D) : Option Nat × D :=
  (p.1.map fun i => (N.eg x).getD i 0, p.2)

theorem od_ser {x : Nat} (h : N.eg x ≠ []) (outs : List (Option Nat × D)) :
    od (ser N x outs) = outs.map (res N x) := by
  rw [ser, if_neg h, od, List.filterMap_map, ← List.filterMap_eq_map]
  congr 1

theorem od_serRet {x : Nat} (h : N.eg x ≠ []) (r : Ret D) :
    od (serRet N x r) = (ret r).map (res N x) := by
  cases r <;> simp [serRet, h, od, ret, res]

theorem od_run {x : Nat} (he : N.eg x ≠ []) (l : List (M D)) (w : W (N.node x)) (acc : List (O D))
    (hs : ∀ m ∈ l, m.body = none → m.src ∉ w.seen) (ho : Once l) :
    od (l.foldl (fun a m => ((wstep N x a.1 m).1, a.2 ++ (wstep N x a.1 m).2)) (w, acc)).2 =
      od acc ++ (respond (N.node x) w.st (l.map fun m => ((N.ing x).idxOf m.src, m.body))).map (res N x) := by
  induction l generalizing w acc with
  | nil => simp [respond]
  | cons m l ih =>
    have ho' := List.pairwise_cons.1 ho
    rw [List.foldl_cons]
    cases hb : m.body with
    | some d =>
      rw [ih _ _ (fun m' hm' h => ?_) ho'.2]
      · simp only [wstep, hb, List.map_cons, respond, od_append, od_ser he, od_serRet he, List.map_append,
          List.append_assoc, chan]
      · simp only [wstep, hb]
        exact hs m' (List.mem_cons_of_mem _ hm') h
    | none =>
      have hns := hs m List.mem_cons_self hb
      have hns' : ∀ m' ∈ l, m'.body = none → m'.src ∉ m.src :: w.seen := by
        intro m' hm' h
        rw [List.mem_cons, not_or]
        exact ⟨fun e => ho'.1 m' hm' hb h e.symm, hs m' (List.mem_cons_of_mem _ hm') h⟩
      by_cases hl : (N.ing x).length ≤ (m.src :: w.seen).length
      · rw [ih _ _ (fun m' hm' h => ?_) ho'.2]
        · simp only [wstep, hb, hns, hl, if_true, if_false, he, List.map_cons, respond, od_append, od_ser he,
            List.map_append, List.append_assoc, chan]
          simp [od]
        · simp only [wstep, hb, hns, hl, if_true, if_false]
          exact hns' m' hm' h
      · rw [ih _ _ (fun m' hm' h => ?_) ho'.2]
        · simp only [wstep, hb, hns, hl, if_false, List.map_cons, respond, od_append, od_ser he,
            List.map_append, List.append_assoc, chan]
        · simp only [wstep, hb, hns, hl, if_false]
          exact hns' m' hm' h

theorem od_produced {x : Nat} (he : N.eg x ≠ []) {l : List (M D)} (ho : Once l) :
    od (produced N x l) = sent N x l := by
  by_cases hs : N.ing x = []
  · simp only [produced, sent, hs, if_true, srcOut, od_append, od_ser he, od_serRet he, List.map_append]
    exact List.append_nil _
  · rw [produced, if_neg hs, wrun, od_run he l _ _ (by simp) ho, sent, if_neg hs]
    simp [od, res]

end FF.Grp
