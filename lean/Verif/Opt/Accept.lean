/-
Does `prepare` still accept an optimised pipeline (C60)?  Connections between the stages of a pipeline,
`/repo/ff/pipeline.hpp` 427-745, and the checks of a farm, `/repo/ff/farm.hpp` 217-247.
-/
import Verif.Opt.Level1
import Mathlib.Data.List.Chain

namespace FF.Opt

variable {α : Type}

/-! ### The checks -/

mutual
/-- `get_out_nodes` (farm.hpp 1728-1744, all2all.hpp 671-682, node.hpp 1079): the `isMultiOutput` flags of the
nodes the next stage reads from. -/
def outs : Sk α → List Bool
  | .leaf n => [n.mo]
  | .pipe ss => outsLast ss
  | .farm h ws =>
    match h.coll with
    | .none => outsAll ws
    | .dflt => [false]
    | .node n => [n.mo]
  | .a2a _ r => outsAll r
/-- Of the last stage of a pipeline. -/
def outsLast : List (Sk α) → List Bool
  | [] => []
  | [s] => outs s
  | _ :: ss => outsLast ss
/-- Of all workers. -/
def outsAll : List (Sk α) → List Bool
  | [] => []
  | s :: ss => outs s ++ outsAll ss
end

/-- `prev_multi_standard || prev_multi_multioutput` (pipeline.hpp 454-479): an unordered farm without
collector, or an all-to-all. -/
def Sk.multi : Sk α → Bool
  | .farm h _ => !h.ordered && !h.coll.gathers
  | .a2a _ _ => true
  | _ => false

/-- `prev_multi_multioutput` (pipeline.hpp 467-479): only the first node is looked at. -/
def Sk.multiMO : Sk α → Bool
  | .farm h ws => !h.ordered && !h.coll.gathers && (outsAll ws).headD false
  | .a2a _ r => (r.map Sk.isMO).headD false
  | _ => false

/-- May the stage `cur` follow the stage `prev` (pipeline.hpp 427-745)?  The pipeline is flat, so `cur` is not a
pipeline.  A first-set worker that is not sequential counts as multi-input when it
`isMultiInput` itself. -/
def connects (prev cur : Sk α) : Bool :=
  match cur with
  | .leaf n => n.mi || !prev.isMO || !prev.multi || decide ((outs prev).length ≤ 1)
  | .farm _ _ => true
  | .a2a l _ =>
    if !prev.isMO then decide (l.length ≤ 1)
    else if prev.multi then
      (l.any Sk.isMI && prev.multiMO) || decide ((outs prev).length = l.length)
    else true
  | .pipe _ => false

/-- A stage on its own: a farm has workers (farm.hpp 217-220); the first worker of an ordered farm is a standard node
(farm.hpp 243-247). -/
def stageOk : Sk α → Bool
  | .farm h ws =>
    match ws with
    | [] => false
    | .leaf n :: _ => !h.ordered || !(n.mi || n.mo || n.comp)
    | _ :: _ => !h.ordered
  | .leaf _ => true
  | .a2a l r => !l.isEmpty && !r.isEmpty
  | .pipe _ => true

/-- Consecutive stages can be connected. -/
def chain : List (Sk α) → Bool
  | a :: b :: ss => connects a b && chain (b :: ss)
  | _ => true

/-- `prepare` of a flat pipeline returns no error. -/
def accepts (ss : List (Sk α)) : Bool := chain ss && ss.all stageOk

/-- A sequential node. -/
def Sk.isLeaf : Sk α → Bool
  | .leaf _ => true
  | _ => false

/-- Nothing parallel inside the stage's workers. -/
def shallow : Sk α → Bool
  | .leaf _ => true
  | .farm _ ws => ws.all Sk.isLeaf
  | .a2a l r => l.all Sk.isLeaf && r.all Sk.isLeaf
  | .pipe _ => false

/-- Not a multi-output (and not multi-input) node right after an unordered farm with the default collector. -/
def safe (prev cur : Sk α) : Bool :=
  match prev, cur with
  | .farm h _, .leaf m => h.getColl.isSome || h.ordered || m.mi || !m.mo
  | _, _ => true

/-- The same for consecutive stages. -/
def safeChain : List (Sk α) → Bool
  | a :: b :: ss => safe a b && safeChain (b :: ss)
  | _ => true

/-! ### Preservation -/

/-- Both conditions. -/
def Rel (a b : Sk α) : Prop := connects a b = true ∧ safe a b = true

theorem chain_iff (ss : List (Sk α)) :
    (chain ss = true ∧ safeChain ss = true) ↔ List.IsChain Rel ss := by
  induction ss with
  | nil => simp [chain, safeChain]
  | cons a ss ih =>
    cases ss with
    | nil => simp [chain, safeChain]
    | cons b ss =>
      rw [List.isChain_cons_cons, ← ih]
      simp only [chain, safeChain, Bool.and_eq_true, Rel]
      constructor
      · rintro ⟨⟨h1, h2⟩, h3, h4⟩; exact ⟨⟨h1, h3⟩, h2, h4⟩
      · rintro ⟨⟨h1, h3⟩, h2, h4⟩; exact ⟨⟨h1, h2⟩, h3, h4⟩

theorem rel_farm (p : Sk α) (h : Hdr α) (ws : List (Sk α)) : Rel p (.farm h ws) := by
  refine ⟨rfl, ?_⟩
  cases p <;> rfl

/-- Replacing the rest of a chain that starts with a farm. -/
theorem chain_replace {a t t' : List (Sk α)} {h h' : Hdr α} {ws : List (Sk α)}
    (hc : List.IsChain Rel (a ++ .farm h ws :: t)) (ht : List.IsChain Rel (.farm h' ws :: t')) :
    List.IsChain Rel (a ++ .farm h' ws :: t') := by
  rw [List.isChain_append] at hc ⊢
  refine ⟨hc.1, ht, ?_⟩
  intro x _ y hy
  simp only [List.head?_cons, Option.mem_def, Option.some.injEq] at hy
  rw [← hy]
  exact rel_farm _ _ _

theorem chain_tail {a t : List (Sk α)} (hc : List.IsChain Rel (a ++ t)) : List.IsChain Rel t := by
  rw [List.isChain_append] at hc; exact hc.2.1

theorem rmRound_chain {ss ss' : List (Sk α)} {f : Nat} (h : rmRound ss f = .ok ss')
    (hn : ∃ s, ss[f]? = some s ∧ s.nullColl = true) (hc : List.IsChain Rel ss)
    (hk : ss.all stageOk = true) : List.IsChain Rel ss' ∧ ss'.all stageOk = true := by
  obtain ⟨s, hf, hn⟩ := hn
  unfold rmRound at h
  cases s with
  | leaf n => cases hn
  | pipe _ => cases hn
  | a2a _ _ => cases hn
  | farm hd ws =>
    have hgc := Sk.nullColl_farm hn
    rw [hf] at h
    simp only at h
    have hro : hd.removeColl.ordered = hd.ordered := by
      unfold Hdr.removeColl; split <;> rfl
    cases hx : ss[f + 1]? with
    | none =>
      rw [hx] at h
      simp only at h
      split at h
      · cases h
        have e := split1 hf
        have hd0 : ss.drop (f + 1) = [] := by
          rw [List.getElem?_eq_none_iff] at hx
          exact List.drop_eq_nil_of_le hx
        rw [hd0] at e ⊢
        constructor
        · rw [e] at hc
          exact chain_replace (t' := []) hc (by simp)
        · rw [e] at hk
          simp only [List.all_append, List.all_cons, Bool.and_eq_true, stageOk, hro] at hk ⊢
          exact hk
      · cases h; exact ⟨hc, hk⟩
    | some nx =>
      rw [hx] at h
      simp only at h
      have e := split2 hf hx
      split at h
      · split at h
        · rename_i ho
          cases nx with
          | leaf m =>
            cases h
            rw [e] at hc hk
            constructor
            · refine chain_replace hc ?_
              have h1 := chain_tail hc
              generalize ss.drop (f + 2) = t at h1
              cases t with
              | nil => simp
              | cons c t =>
                rw [List.isChain_cons_cons, List.isChain_cons_cons] at h1
                rw [List.isChain_cons_cons]
                refine ⟨⟨?_, ?_⟩, h1.2.2⟩
                · have h2 := h1.2.1.1
                  cases c with
                  | leaf k =>
                    simp only [connects, Sk.isMO, Sk.multi, Hdr.isMO, Hdr.addColl, ho] at h2 ⊢
                    simpa using h2
                  | farm _ _ => rfl
                  | a2a l r =>
                    simp only [connects, Sk.isMO, Sk.multi, Hdr.isMO, Hdr.addColl, ho] at h2 ⊢
                    simpa using h2
                  | pipe _ => exact h2
                · cases c <;> simp [safe, Hdr.addColl, Hdr.getColl]
            · simp only [List.all_append, List.all_cons, Bool.and_eq_true, stageOk,
                Hdr.addColl] at hk ⊢
              exact ⟨hk.1, hk.2.1, hk.2.2.2⟩
          | pipe _ => cases h
          | farm _ _ => cases h; exact ⟨hc, hk⟩
          | a2a _ _ => cases h; exact ⟨hc, hk⟩
        · rename_i ho
          have ho : hd.ordered = false := by simpa using ho
          cases nx with
          | leaf m =>
            cases h
            rw [e] at hc hk
            constructor
            · refine chain_replace hc ?_
              have h1 := chain_tail hc
              rw [List.isChain_cons_cons] at h1
              have hmi : (if m.mi then m else miNode m).mi = true := by
                split
                · assumption
                · rfl
              have hsafe := h1.1.2
              simp only [safe, hgc, ho, Option.isSome_none, Bool.false_or, Bool.or_eq_true,
                Bool.not_eq_true'] at hsafe
              have hmo : (if m.mi then m else miNode m).mo = m.mo := by
                split
                · rfl
                · rename_i hh
                  rcases hsafe with h' | h'
                  · exact absurd h' hh
                  · rw [h']; rfl
              rw [List.isChain_cons_cons]
              refine ⟨⟨by simp [connects, hmi], by simp [safe, hmi]⟩, ?_⟩
              generalize ss.drop (f + 2) = t at h1
              cases t with
              | nil => simp
              | cons c t =>
                rw [List.isChain_cons_cons] at h1 ⊢
                refine ⟨⟨?_, ?_⟩, h1.2.2⟩
                · have h2 := h1.2.1.1
                  cases c with
                  | leaf k =>
                    simp only [connects, Sk.isMO, Sk.multi, hmo] at h2 ⊢
                    simpa [outs] using h2
                  | farm _ _ => rfl
                  | a2a l r =>
                    simp only [connects, Sk.isMO, Sk.multi, hmo] at h2 ⊢
                    simpa using h2
                  | pipe _ => exact h2
                · cases c <;> rfl
            · simp only [List.all_append, List.all_cons, Bool.and_eq_true, stageOk, hro] at hk ⊢
              exact hk
          | pipe _ => cases h
          | farm h2 w2 =>
            cases h
            have e1 := split1 hf
            constructor
            · rw [e1] at hc
              refine chain_replace hc ?_
              have h1 := chain_tail hc
              have hd1 : ss.drop (f + 1) = .farm h2 w2 :: ss.drop (f + 2) := by
                have hlt := get_lt hx
                rw [List.drop_eq_getElem_cons hlt]
                rw [List.getElem?_eq_getElem hlt] at hx
                rw [Option.some.inj hx]
              rw [hd1, List.isChain_cons_cons] at h1 ⊢
              exact ⟨rel_farm _ _ _, h1.2⟩
            · rw [e1] at hk
              simp only [List.all_append, List.all_cons, Bool.and_eq_true, stageOk, hro] at hk ⊢
              exact hk
          | a2a _ _ => cases h; exact ⟨hc, hk⟩
      · cases h; exact ⟨hc, hk⟩

theorem rmLoop_chain {n : Nat} {ss ss' : List (Sk α)} {next : Nat}
    (h : rmLoop n ss next = .ok ss') (hc : List.IsChain Rel ss)
    (hk : ss.all stageOk = true) : List.IsChain Rel ss' ∧ ss'.all stageOk = true := by
  induction n generalizing ss next with
  | zero => cases h
  | succ n ih =>
    unfold rmLoop at h
    cases hf : findFrom Sk.nullColl ss next with
    | none => rw [hf] at h; cases h; exact ⟨hc, hk⟩
    | some f =>
      rw [hf] at h
      obtain ⟨s1, h1, h2⟩ := bind_ok h
      obtain ⟨hc', hk'⟩ := rmRound_chain h1 (findFrom_some hf).2 hc hk
      exact ih h2 hc' hk'

/-! ### Shallow pipelines -/

theorem mapR_id {β : Type} {f : β → Res β} {xs ys : List β} (h : mapR f xs = .ok ys)
    (hf : ∀ x ∈ xs, ∀ y, f x = .ok y → y = x) : ys = xs := by
  induction xs generalizing ys with
  | nil => cases h; rfl
  | cons x xs ih =>
    obtain ⟨y, h1, h2⟩ := bind_ok h
    obtain ⟨ys', h3, h4⟩ := bind_ok h2
    cases h4
    rw [hf x (by simp) y h1, ih h3 fun z hz => hf z (by simp [hz])]

theorem onPipe_leaf {f : List (Sk α) → Res (List (Sk α))} {ws ws' : List (Sk α)}
    (hl : ws.all Sk.isLeaf = true) (h : mapR (onPipe f) ws = .ok ws') : ws' = ws := by
  refine mapR_id h fun x hx y hy => ?_
  have := List.all_eq_true.1 hl x hx
  cases x with
  | leaf n => cases hy; rfl
  | pipe _ => cases this
  | farm _ _ => cases this
  | a2a _ _ => cases this

theorem optFarm_leaf {n : Nat} {ws ws' : List (Sk α)}
    (hl : ws.all Sk.isLeaf = true) (h : optFarm n level1 ws = .ok ws') : ws' = ws := by
  cases n with
  | zero => simp [optFarm] at h
  | succ n =>
    simp only [optFarm] at h
    obtain ⟨w1, h1, h2⟩ := bind_ok h
    have e := onPipe_leaf hl h1
    subst e
    simp only [level1, if_true] at h2
    refine mapR_id h2 fun x hx y hy => ?_
    have := List.all_eq_true.1 hl x hx
    cases x with
    | leaf n => cases hy; rfl
    | pipe _ => cases this
    | farm _ _ => cases this
    | a2a _ _ => cases this

theorem flat_shallow {ss : List (Sk α)} (h : ss.all shallow = true) : flat ss = ss := by
  induction ss with
  | nil => simp [flat]
  | cons s ss ih =>
    simp only [List.all_cons, Bool.and_eq_true] at h
    simp only [flat, ih h.2]
    cases s with
    | leaf _ => simp [flat1]
    | farm _ _ => simp [flat1]
    | a2a _ _ => simp [flat1]
    | pipe _ => simp [shallow] at h

/-- On a shallow pipeline `OptLevel1` only runs the collector loop. -/
theorem opt1_shallow {n : Nat} {ss ss' : List (Sk α)} (hs : ss.all shallow = true)
    (h : optPipe n level1 ss = .ok ss') : ∃ m, rmLoop m ss 0 = .ok ss' := by
  cases n with
  | zero => simp [optPipe] at h
  | succ n =>
    simp only [optPipe, flat_shallow hs] at h
    obtain ⟨s1, h1, hh⟩ := bind_ok h
    have e1 : s1 = ss := by
      refine mapR_id h1 fun x hx y hy => ?_
      have hx := List.all_eq_true.1 hs x hx
      cases x with
      | leaf n => cases hy; rfl
      | pipe _ => cases hx
      | farm hd ws =>
        obtain ⟨w', k1, k2⟩ := bind_ok hy
        cases k2
        rw [onPipe_leaf hx k1]
      | a2a l r =>
        obtain ⟨l', k1, k2⟩ := bind_ok hy
        obtain ⟨r', k3, k4⟩ := bind_ok k2
        cases k4
        simp only [shallow, Bool.and_eq_true] at hx
        rw [onPipe_leaf hx.1 k1, onPipe_leaf hx.2 k3]
    subst e1
    obtain ⟨s2, h2, g2⟩ := bind_ok hh
    cases h2
    obtain ⟨s3, h3, g3⟩ := bind_ok g2
    cases h3
    obtain ⟨s5, h5, g5⟩ := bind_ok g3
    cases g5
    obtain ⟨s4, h4, h6⟩ := bind_ok h5
    have e4 : s4 = s1 := by
      refine mapR_id h4 fun x hx y hy => ?_
      have hx := List.all_eq_true.1 hs x hx
      cases x with
      | leaf n => cases hy; rfl
      | pipe _ => cases hx
      | farm hd ws =>
        obtain ⟨w', k1, k2⟩ := bind_ok hy
        cases k2
        rw [optFarm_leaf hx k1]
      | a2a l r => cases hy; rfl
    subst e4
    exact ⟨n, h6⟩

/-- **C60, acceptance.**  A pipeline of sequential nodes, farms and all-to-alls with sequential workers that `prepare`
accepts is still accepted after `optimize_static` with `OptLevel1`, provided that no multi-output node that is not
multi-input comes right after an unordered farm without user collector.  (Missing from the full property:
nested parallel workers and that node, see the counterexamples.) -/
theorem C60_level1_accepted_partial (n : Nat) (ss ss' : List (Sk α)) (hs : ss.all shallow = true)
    (hm : safeChain ss = true) (ha : accepts ss = true) (h : optPipe n level1 ss = .ok ss') :
    accepts ss' = true := by
  obtain ⟨m, hr⟩ := opt1_shallow hs h
  simp only [accepts, Bool.and_eq_true] at ha ⊢
  obtain ⟨h1, h2⟩ := rmLoop_chain hr ((chain_iff ss).1 ⟨ha.1, hm⟩) ha.2
  exact ⟨((chain_iff ss').2 h1).1, h2⟩

end FF.Opt
