/-
C76, the network that `combine_ofarm_farm` (`/repo/ff/combine.hpp` 1175-1269) builds, on the networks of
`Verif.Opt.Spec`.  That the first farm and the wrapper behind it hand over the results in the order of the tasks is
the subject of `Verif.Farm.Cofarm` (with its conditions); here the two together are represented as an
ordered farm without a collector of the user, and the wrapper, in the emitter of the second farm, as a node that passes
everything on.  Not modelled here: who deletes the nodes; the memory sizes; workers that are no standard nodes (`prepare`
refuses them in an ordered farm, but not in the farm built here, which is not marked as ordered).
-/
import Verif.Opt.FarmsC

namespace FF.Opt

variable {α : Type}

/-- `OrderedCollectorWrapper` (ordering_policies.hpp 187-222) seen from behind: a standard node.  Simplification: the
reordering is accounted to the first farm. -/
def wrapNode : Node α := { out := fun _ x => [(none, x)] }

/-- The emitter given to the second farm (combine.hpp 1232-1265). -/
def ofarmEmit (h1 h2 : Hdr α) : Res (Hdr α) :=
  match h1.getColl, h2.emitter with
  | none, none => h2.changeEmit (some wrapNode)
  | none, some e => h2.changeEmit (some (combNode wrapNode e))
  | some c, none => h2.changeEmit (some (combNode wrapNode c))
  | some c, some e => h2.changeEmit (some (combNode wrapNode (combNode c e)))

/-- The new first farm (combine.hpp 1194-1230): scheduling and emitter of the given one. -/
def ofarmHdr (h1 : Hdr α) : Res (Hdr α) :=
  let h0 : Hdr α := { emitter := none, coll := .dflt, ordered := true }
  let h0' := if h1.ondemand = 0 then h0 else h0.setOndemand h1.ondemand
  match h1.emitter with
  | none => .ok h0'
  | some e => h0'.addEmit e

/-- `combine_ofarm_farm` (combine.hpp 1175-1269): `none` is the empty pipeline returned after an error. -/
def combineOfarm (h1 : Hdr α) (ws1 : List (Sk α)) (h2 : Hdr α) (ws2 : List (Sk α)) :
    Res (Option (List (Sk α))) :=
  if !h1.ordered then .ok none
  else if h2.ordered && ws1.length == ws2.length then .ok none
  else (ofarmHdr h1).bind fun h => (ofarmEmit h1 h2).bind fun h2' =>
    .ok (some [.farm h ws1, .farm h2' ws2])

theorem wrap_run (h xs : List α) : (wrapNode : Node α).run h xs = free xs := by
  induction xs generalizing h with
  | nil => rfl
  | cons x xs ih => rw [Node.run, ih]; rfl

theorem wrap_beh (xs : List α) : vals ((wrapNode : Node α).beh xs) = xs := by
  rw [Node.beh, wrap_run, vals_free]

theorem ofarmHdr_ok {h1 h : Hdr α} (hh : ofarmHdr h1 = .ok h) :
    h.emitter = h1.emitter ∧ h.coll = .dflt ∧ h.ordered = true := by
  unfold ofarmHdr at hh
  simp only at hh
  split at hh
  · rename_i he
    cases hh
    split <;> simp [he, Hdr.setOndemand]
  · rename_i e he
    have := addEmit_ok hh
    subst this
    split <;> simp [he, Hdr.setOndemand]

theorem collOut_getColl (h : Hdr α) (vs : List α) :
    collOut h.coll vs = match h.getColl with | none => vs | some c => vals (c.beh vs) := by
  cases hcc : h.coll <;> simp [Hdr.getColl, collOut, hcc]

/-- the emitter of the second farm does what the collector and the old emitter do one after the other -/
theorem ofarmEmit_ok {h1 h2 h2' : Hdr α} (hd : h1.getColl = none ∨ h2.emitter.isSome)
    (hh : ofarmEmit h1 h2 = .ok h2') :
    h2'.coll = h2.coll ∧ h2'.ordered = h2.ordered ∧
      ∀ vs, emitOut h2'.emitter vs = emitOut h2.emitter (collOut h1.coll vs) := by
  unfold ofarmEmit at hh
  simp only [collOut_getColl h1]
  cases hg : h1.getColl with
  | none =>
    cases he : h2.emitter with
    | none =>
      rw [hg, he] at hh
      have := changeEmit_ok hh
      subst this
      refine ⟨rfl, rfl, fun vs => ?_⟩
      have : (wrapNode : Node α).emits vs = free (vals ((wrapNode : Node α).beh vs)) := rfl
      simp only [emitOut, this, wrap_beh]
    | some e =>
      rw [hg, he] at hh
      have := changeEmit_ok hh
      subst this
      exact ⟨rfl, rfl, fun vs => by simp only [emitOut, emits_comb, wrap_beh]⟩
  | some c =>
    cases he : h2.emitter with
    | none => rw [hg, he] at hd; simp at hd
    | some e =>
      rw [hg, he] at hh
      have := changeEmit_ok hh
      subst this
      exact ⟨rfl, rfl, fun vs => by simp only [emitOut, emits_comb, wrap_beh]⟩

/-- the first farm and the wrapper, seen as the ordered farm without its collector -/
theorem ofarm_first {h1 h : Hdr α} (ho : h1.ordered = true) (hc : h1.coll.gathers = true)
    (hh : ofarmHdr h1 = .ok h) (ws : List (Sk α)) (xs ys : List α) :
    sem (.farm h1 ws) xs ys ↔ ∃ vs, sem (.farm h ws) xs vs ∧ ys = collOut h1.coll vs := by
  obtain ⟨e1, e2, e3⟩ := ofarmHdr_ok hh
  have hg : (Coll.dflt : Coll α).gathers = true := rfl
  simp only [sem, e1, e2, e3, ho, hc, hg, collOut]
  constructor
  · rintro ⟨h0, vs, rfl, h⟩
    exact ⟨vs, ⟨h0, vs, rfl, by simpa using h⟩, rfl⟩
  · rintro ⟨vs, ⟨h0, _, rfl, h⟩, rfl⟩
    exact ⟨h0, vs, rfl, by simpa using h⟩

theorem combineOfarm_ok {h1 h2 : Hdr α} {ws1 ws2 ss : List (Sk α)}
    (hh : combineOfarm h1 ws1 h2 ws2 = .ok (some ss)) :
    h1.ordered = true ∧ ∃ h h2', ofarmHdr h1 = .ok h ∧ ofarmEmit h1 h2 = .ok h2' ∧
      ss = [.farm h ws1, .farm h2' ws2] := by
  unfold combineOfarm at hh
  split at hh
  · cases hh
  · rename_i ho
    split at hh
    · cases hh
    · cases h3 : ofarmHdr h1 with
      | ok h =>
        cases h4 : ofarmEmit h1 h2 with
        | ok h2' =>
          rw [h3, h4, ok_bind, ok_bind] at hh
          cases hh
          exact ⟨by simpa using ho, h, h2', rfl, rfl, rfl⟩
        | _ => rw [h3, h4, ok_bind] at hh; cases hh
      | _ => rw [h3] at hh; cases hh

/-- **C76, the network**: if `combine_ofarm_farm` returns a pipeline for two farms of which the first is ordered and gathers its
results, then the pipeline computes exactly what the two farms one after the other compute: for every
input stream the same output streams are possible.  The case of a collector without an emitter behind it is
in the next theorem. -/
theorem C76_network_partial {h1 h2 : Hdr α} {ws1 ws2 ss : List (Sk α)} (hc : h1.coll.gathers = true)
    (hd : h1.getColl = none ∨ h2.emitter.isSome)
    (hh : combineOfarm h1 ws1 h2 ws2 = .ok (some ss)) :
    Same (.pipe ss) (.pipe [.farm h1 ws1, .farm h2 ws2]) := by
  obtain ⟨ho, h, h2', e1, e2, rfl⟩ := combineOfarm_ok hh
  obtain ⟨a, b, c⟩ := ofarmEmit_ok hd e2
  intro xs ys
  rw [pipe2, pipe2]
  constructor
  · rintro ⟨vs, k1, k2⟩
    refine ⟨collOut h1.coll vs, (ofarm_first ho hc e1 ws1 xs _).2 ⟨vs, k1, rfl⟩, ?_⟩
    exact (sem_emit a b (c vs) ws2 ys).1 k2
  · rintro ⟨zs, k1, k2⟩
    obtain ⟨vs, k3, rfl⟩ := (ofarm_first ho hc e1 ws1 xs _).1 k1
    exact ⟨vs, k3, (sem_emit a b (c vs) ws2 ys).2 k2⟩

/-- **C76, the network never does more**: in all cases every output stream of the returned pipeline is one of the two farms
one after the other.  (A collector that becomes the emitter may name workers of the second farm, which fixes choices
that were free.) -/
theorem C76_network_refines_partial {h1 h2 : Hdr α} {ws1 ws2 ss : List (Sk α)}
    (hc : h1.coll.gathers = true) (hh : combineOfarm h1 ws1 h2 ws2 = .ok (some ss)) :
    Refines (.pipe ss) (.pipe [.farm h1 ws1, .farm h2 ws2]) := by
  by_cases hd : h1.getColl = none ∨ h2.emitter.isSome
  · intro xs ys h; exact (C76_network_partial hc hd hh xs ys).1 h
  · obtain ⟨ho, h, h2', e1, e2, rfl⟩ := combineOfarm_ok hh
    simp only [not_or] at hd
    obtain ⟨hd1, hd2⟩ := hd
    cases hg : h1.getColl with
    | none => exact absurd hg hd1
    | some c =>
      cases he : h2.emitter with
      | some e => rw [he] at hd2; simp at hd2
      | none =>
        unfold ofarmEmit at e2
        rw [hg, he] at e2
        have := changeEmit_ok e2
        subst this
        intro xs ys
        rw [pipe2, pipe2]
        rintro ⟨vs, k1, k2⟩
        refine ⟨collOut h1.coll vs, (ofarm_first ho hc e1 ws1 xs _).2 ⟨vs, k1, rfl⟩, ?_⟩
        have k3 := emit_forget k2
        have hbeh : vals ((combNode wrapNode c).beh vs) = collOut h1.coll vs := by
          rw [beh_comb, wrap_beh, collOut_getColl, hg]
        rw [hbeh] at k3
        have : ({ h2 with emitter := none } : Hdr α) = h2 := by cases h2; simp_all
        rwa [this] at k3

/-- **C76 through `combine_farms`**: the same for the call `combine_farms(farm1, nullptr, farm2, nullptr, true)` with an ordered
first farm, and for `combine_nodes_in_pipeline` on the two farms. -/
theorem C76_combine_farms_partial {h1 h2 : Hdr α} {ws1 ws2 ss : List (Sk α)} (ho : h1.ordered = true)
    (hc : h1.coll.gathers = true)
    (hh : combineFarms combineOfarm h1 ws1 none h2 ws2 none true = .ok (some ss) ∨
      combineNodes combineOfarm (.farm h1 ws1) (.farm h2 ws2) = .ok (some ss)) :
    Refines (.pipe ss) (.pipe [.farm h1 ws1, .farm h2 ws2]) := by
  refine C76_network_refines_partial hc ?_
  rcases hh with hh | hh
  · simp only [combineFarms, ho, Bool.true_or, if_true, Option.isSome_none, Bool.or_self, Bool.false_eq_true,
      if_false] at hh
    split at hh
    · cases hh
    · exact hh
  · simpa only [combineNodes, ho, if_true] using hh

/-- **C76, what is accepted**: for a first farm that is ordered and could be built, and farms that do not have the same number of
workers if both are ordered, a pipeline is returned exactly if the last node put before the second farm is a
multi-output node, or there is none; otherwise the program is aborted. -/
theorem C76_accepts {h1 h2 : Hdr α} {ws1 ws2 : List (Sk α)} (ho : h1.ordered = true)
    (hf : ∀ e, h1.emitter = some e → e.comp = true → e.mo = true)
    (hw : h2.ordered = true → ws1.length ≠ ws2.length) :
    (∃ ss, combineOfarm h1 ws1 h2 ws2 = .ok (some ss)) ∧
        (∀ e, (h2.emitter <|> h1.getColl) = some e → e.mo = true) ∨
      combineOfarm h1 ws1 h2 ws2 = .abort ∧ ∃ e, (h2.emitter <|> h1.getColl) = some e ∧ e.mo = false := by
  have hh : ∃ h, ofarmHdr h1 = .ok h := by
    unfold ofarmHdr
    simp only
    cases he : h1.emitter with
    | none => exact ⟨_, rfl⟩
    | some e =>
      have := hf e he
      simp only [Hdr.addEmit]
      cases hcomp : e.comp with
      | false => exact ⟨_, by simp; rfl⟩
      | true => exact ⟨_, by simp [this hcomp]; rfl⟩
  obtain ⟨h, hh⟩ := hh
  have hb : (h2.ordered && ws1.length == ws2.length) = false := by
    cases ho2 : h2.ordered with
    | false => rfl
    | true => simpa using hw ho2
  have key : combineOfarm h1 ws1 h2 ws2 = (ofarmEmit h1 h2).bind fun h2' =>
      .ok (some [.farm h ws1, .farm h2' ws2]) := by
    unfold combineOfarm
    rw [hh, ok_bind, hb, ho]
    rfl
  rw [key]
  have hce : ∀ (a b : Node α), (combNode a b).comp = true ∧ (combNode a b).mo = b.mo := fun _ _ => ⟨rfl, rfl⟩
  unfold ofarmEmit
  cases hg : h1.getColl with
  | none =>
    cases he : h2.emitter with
    | none => exact Or.inl ⟨⟨_, rfl⟩, by simp⟩
    | some e =>
      cases hm : e.mo with
      | true => exact Or.inl ⟨⟨_, by simp [Hdr.changeEmit, Hdr.addEmit, hce, hm]; rfl⟩, by simp [hm]⟩
      | false => exact Or.inr ⟨by simp [Hdr.changeEmit, Hdr.addEmit, hce, hm]; rfl, e, by simp, hm⟩
  | some c =>
    cases he : h2.emitter with
    | none =>
      cases hm : c.mo with
      | true => exact Or.inl ⟨⟨_, by simp [Hdr.changeEmit, Hdr.addEmit, hce, hm]; rfl⟩, by simp [hm]⟩
      | false => exact Or.inr ⟨by simp [Hdr.changeEmit, Hdr.addEmit, hce, hm]; rfl, c, by simp, hm⟩
    | some e =>
      cases hm : e.mo with
      | true => exact Or.inl ⟨⟨_, by simp [Hdr.changeEmit, Hdr.addEmit, hce, hm]; rfl⟩, by simp [hm]⟩
      | false => exact Or.inr ⟨by simp [Hdr.changeEmit, Hdr.addEmit, hce, hm]; rfl, e, by simp, hm⟩

/-- **C76, what is refused**: a first farm that is not ordered, and two ordered farms with the same number of workers. -/
theorem C76_refused {h1 h2 : Hdr α} {ws1 ws2 : List (Sk α)}
    (h : h1.ordered = false ∨ h2.ordered = true ∧ ws1.length = ws2.length) :
    combineOfarm h1 ws1 h2 ws2 = .ok none := by
  unfold combineOfarm
  rcases h with h | ⟨h, hl⟩
  · simp [h]
  · rw [h, hl]; cases h1.ordered <;> simp

/-- **C76, standard emitters**: an ordered farm and a farm whose emitter is a standard node can be put one after the other in a
pipeline, and do something on every stream; `combine_ofarm_farm` aborts the program. -/
theorem C76_abort_counterexample :
    combineOfarm { ordered := true } [.leaf idN, .leaf idN] { emitter := some idN } [.leaf incN] = .abort ∧
      Runs (.pipe [.farm { ordered := true } [.leaf idN, .leaf idN], .farm { emitter := some idN } [.leaf incN]]) := by
  have hrun : ∀ (xs h : List Nat), OrdRun [idN, idN] [h, []] (free xs) xs := by
    intro xs
    induction xs with
    | nil => intro h; exact OrdRun.nil
    | cons x xs ih =>
      intro h
      exact OrdRun.cons (i := 0) (n := idN) (h := h) (ys := xs) rfl rfl (Or.inl rfl) (ih (h ++ [x]))
  refine ⟨rfl, pipe2_runs (fun xs => ⟨xs, ?_⟩) (farm_runs rfl ?_ (ns := [incN]) (by simp))⟩
  · simp only [sem]
    exact ⟨by simp, xs, rfl, Or.inl ⟨[idN, idN], by trivial, rfl, rfl, hrun xs []⟩⟩
  · intro n hn
    cases hn
    intro h x p hp
    simp [idN] at hp
    rw [hp]

/-- the hypotheses of the theorems are met by an ordered farm with a collector and a farm with a multi-output emitter -/
example : ∃ ss, combineOfarm { ordered := true, coll := .node incN } [.leaf idN, .leaf idN]
    { emitter := some toZero } [.leaf incN] = .ok (some ss) := ⟨_, rfl⟩

end FF.Opt
