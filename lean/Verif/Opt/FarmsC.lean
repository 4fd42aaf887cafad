/-
C75: theorems and counterexamples for the functions that combine two blocks into a pipeline
(`/repo/ff/combine.hpp` 879-1593).  Statements use `sem`, `Refines` (`Verif.Opt.Spec`), `Same`, `Pure` and
`asked` (the pipeline the caller asked for).
-/
import Verif.Opt.FarmsThm

namespace FF.Opt

variable {α : Type}

/-! ### Networks that produce an output for every input -/

/-- The node names no destination. -/
def Node.Free (n : Node α) : Prop := ∀ h x, ∀ p ∈ n.out h x, p.1 = none

/-- The network has a run for every input. -/
def Runs (s : Sk α) : Prop := ∀ xs, ∃ ys, sem s xs ys

/-- A stream that names no destination. -/
def NoDest (zs : List (Option Nat × α)) : Prop := ∀ p ∈ zs, p.1 = none

theorem noDest_free (xs : List α) : NoDest (free xs) := by
  intro p hp
  simp only [free, List.mem_map] at hp
  obtain ⟨x, _, rfl⟩ := hp
  rfl

theorem run_free {n : Node α} (h : n.Free) (hs xs : List α) : NoDest (n.run hs xs) := by
  induction xs generalizing hs with
  | nil => intro p hp; cases hp
  | cons x xs ih =>
    intro p hp
    simp only [Node.run, List.mem_append] at hp
    rcases hp with hp | hp
    · exact h _ _ p hp
    · exact ih _ p hp

theorem emits_free {n : Node α} (h : n.Free) (xs : List α) : NoDest (n.emits xs) := by
  unfold Node.emits
  split
  · exact run_free h [] xs
  · exact noDest_free _

theorem emitOut_free {e : Option (Node α)} (h : ∀ n, e = some n → n.Free) (xs : List α) :
    NoDest (emitOut e xs) := by
  cases e with
  | none => exact noDest_free _
  | some n => exact emits_free (h n rfl) xs

theorem split_first {zs : List (Option Nat × α)} (h : NoDest zs) (k : Nat) :
    Split zs (vals zs :: List.replicate k []) := by
  induction zs with
  | nil => exact Split.nil (k + 1)
  | cons p zs ih =>
    obtain ⟨r, x⟩ := p
    have h1 : r = none := h (r, x) (by simp)
    subst h1
    have := Split.cons (r := none) (x := x) (i := 0) (ih fun p hp => h p (by simp [hp])) rfl
      (Or.inl rfl)
    simpa [vals] using this

theorem semEach_leaf (ns : List (Node α)) {zss : List (List α)} (hl : zss.length = ns.length) :
    semEach (ns.map Sk.leaf) zss (List.zipWith (fun n z => vals (n.beh z)) ns zss) := by
  induction ns generalizing zss with
  | nil => cases zss <;> simp_all [semEach]
  | cons n ns ih =>
    cases zss with
    | nil => simp at hl
    | cons z zss =>
      simp only [List.map_cons, List.zipWith_cons_cons, semEach, sem, true_and]
      exact ih (by simpa using hl)

theorem semRouted_leaf (ns : List (Node α)) {zss : List (List α)} (hl : zss.length = ns.length) :
    semRouted (ns.map Sk.leaf) zss (List.zipWith (fun n z => n.emits z) ns zss) := by
  induction ns generalizing zss with
  | nil => cases zss <;> simp_all [semRouted]
  | cons n ns ih =>
    cases zss with
    | nil => simp at hl
    | cons z zss =>
      simp only [List.map_cons, List.zipWith_cons_cons, semRouted, true_and]
      exact ih (by simpa using hl)

theorem workers_run {ns : List (Node α)} (hn : ns ≠ []) {zs : List (Option Nat × α)}
    (hz : NoDest zs) : ∃ ys, semWorkers (ns.map Sk.leaf) zs ys := by
  obtain ⟨n, ns, rfl⟩ := List.exists_cons_of_ne_nil hn
  have hs := semEach_leaf (n :: ns) (zss := vals zs :: List.replicate ns.length []) (by simp)
  refine ⟨(List.zipWith (fun (n : Node α) z => vals (n.beh z)) (n :: ns)
    (vals zs :: List.replicate ns.length [])).flatten, ?_⟩
  rw [semWorkers_gen (leaves_ne_a2a _)]
  exact ⟨_, _, split_first hz ns.length, hs, shuffle_flatten _⟩

theorem splitEach_first (k : Nat) {os : List (List (Option Nat × α))} (h : ∀ o ∈ os, NoDest o) :
    SplitEach (k + 1) os (os.map fun o => vals o :: List.replicate k []) := by
  induction os with
  | nil => simp [SplitEach]
  | cons o os ih =>
    simp only [List.map_cons, SplitEach]
    exact ⟨⟨split_first (h o (by simp)) k, by simp⟩, ih fun o ho => h o (by simp [ho])⟩

theorem a2a_run {ls rs : List (Node α)} (hl : ls ≠ []) (hr : rs ≠ []) (hf : ∀ n ∈ ls, n.Free)
    {zs : List (Option Nat × α)} (hz : NoDest zs) :
    ∃ ys, semWorkers [.a2a (ls.map Sk.leaf) (rs.map Sk.leaf)] zs ys := by
  obtain ⟨l, ls, rfl⟩ := List.exists_cons_of_ne_nil hl
  obtain ⟨r, rs, rfl⟩ := List.exists_cons_of_ne_nil hr
  simp only [semWorkers]
  let zss := vals zs :: List.replicate ls.length []
  let os := List.zipWith (fun (n : Node α) z => n.emits z) (l :: ls) zss
  let rows := os.map fun o => vals o :: List.replicate rs.length []
  let cs := (List.range (rs.length + 1)).map fun j => (rows.map fun row => row.getD j []).flatten
  have ho : ∀ o ∈ os, NoDest o := by
    intro o h
    obtain ⟨i, hi, rfl⟩ := List.mem_iff_getElem.1 h
    simp only [os, List.getElem_zipWith]
    exact emits_free (hf _ (List.getElem_mem _)) _
  refine ⟨_, zss, os, rows, cs, _, split_first hz _, semRouted_leaf _ (by simp [zss]), ?_, ?_, ?_,
    semEach_leaf (r :: rs) (by simp [cs]), shuffle_flatten _⟩
  · simpa using splitEach_first rs.length ho
  · simp [cs]
  · intro j c hc
    simp only [cs, List.getElem?_map] at hc
    obtain ⟨j', hj, rfl⟩ := Option.map_eq_some_iff.1 hc
    have : j' = j := by
      rw [List.getElem?_range] at hj
      · exact (Option.some.inj hj).symm
      · by_contra hx
        rw [List.getElem?_eq_none (by simpa using hx)] at hj
        cases hj
    subst this
    exact shuffle_flatten _

theorem farm_runs {h : Hdr α} (ho : h.ordered = false) (he : ∀ n, h.emitter = some n → n.Free)
    {ns : List (Node α)} (hn : ns ≠ []) : Runs (.farm h (ns.map Sk.leaf)) := by
  intro xs
  obtain ⟨ys, hy⟩ := workers_run hn (emitOut_free he xs)
  exact ⟨_, (sem_unord ho _ _ _).2 ⟨by simpa using hn, ys, rfl, hy⟩⟩

theorem farmA2A_runs {h : Hdr α} (ho : h.ordered = false) (he : ∀ n, h.emitter = some n → n.Free)
    {ls rs : List (Node α)} (hl : ls ≠ []) (hr : rs ≠ []) (hf : ∀ n ∈ ls, n.Free) :
    Runs (.farm h [.a2a (ls.map Sk.leaf) (rs.map Sk.leaf)]) := by
  intro xs
  obtain ⟨ys, hy⟩ := a2a_run hl hr hf (emitOut_free he xs)
  exact ⟨_, (sem_unord ho _ _ _).2 ⟨by simp, ys, rfl, hy⟩⟩

theorem pipe2_runs {a b : Sk α} (ha : Runs a) (hb : Runs b) : Runs (.pipe [a, b]) := by
  intro xs
  obtain ⟨zs, h1⟩ := ha xs
  obtain ⟨ys, h2⟩ := hb zs
  exact ⟨ys, (pipe2 _ _ _ _).2 ⟨zs, h1, h2⟩⟩

theorem pipe1_runs {a : Sk α} (ha : Runs a) : Runs (.pipe [a]) := by
  intro xs
  obtain ⟨zs, h1⟩ := ha xs
  exact ⟨zs, (pipe1 _ _ _).2 h1⟩

theorem comb_free {a b : Node α} (hb : b.Free) : (combNode a b).Free := by
  intro h x p hp
  exact run_free hb _ _ p hp

theorem moNode_free (n : Node α) : (moNode n).Free := by
  intro h x p hp
  exact noDest_free _ p hp

theorem afterEach_leaf {n : Node α} (as : List (Node α)) :
    afterEach n (as.map Sk.leaf) =
      .ok ((as.map fun a => combNode a (if n.mo then n else moNode n)).map Sk.leaf) := by
  induction as with
  | nil => rfl
  | cons a as ih =>
    unfold afterEach at ih ⊢
    simp only [List.map_cons, mapR]
    rw [ih]; rfl

theorem beforeEach_leaf {n : Node α} (bs : List (Node α)) :
    beforeEach n (bs.map Sk.leaf) =
      .ok ((bs.map fun b => combNode (if n.mi then n else miNode n) b).map Sk.leaf) := by
  induction bs with
  | nil => rfl
  | cons a as ih =>
    unfold beforeEach at ih ⊢
    simp only [List.map_cons, mapR]
    rw [ih]; rfl

theorem combRow_leaves {as bs : List (Node α)} (h : as.length = bs.length) :
    combRow (as.map Sk.leaf) (bs.map Sk.leaf) = .ok ((List.zipWith combNode as bs).map Sk.leaf) := by
  induction as generalizing bs with
  | nil => cases bs <;> simp_all [combRow]
  | cons a as ih =>
    cases bs with
    | nil => simp at h
    | cons b bs =>
      simp only [List.map_cons, combRow, combSk, ok_bind, List.zipWith_cons_cons,
        ih (by simpa using h)]

/-- An emitter that `add_emitter` accepts. -/
def Hdr.EmitFine (h : Hdr α) : Prop := ∀ e, h.emitter = some e → e.comp = true → e.mo = true

theorem newHdr_fine {h1 : Hdr α} (h : h1.EmitFine) (h2 : Hdr α) : ∃ h', newHdr h1 h2 = .ok h' := by
  unfold newHdr
  cases he : h1.emitter with
  | none => exact ⟨_, rfl⟩
  | some e =>
    have : (e.comp && !e.mo) = false := by
      have := h e he
      cases hc : e.comp <;> simp_all
    simp only [Hdr.addEmit, this, Bool.false_eq_true, if_false]
    exact ⟨_, rfl⟩

theorem changeEmit_fine (h : Hdr α) {e : Node α} (he : e.comp = true → e.mo = true) :
    h.changeEmit (some e) = .ok { h with emitter := some e } := by
  have : (e.comp && !e.mo) = false := by
    cases hc : e.comp <;> simp_all
  simp [Hdr.changeEmit, Hdr.addEmit, this]

/-- What `combine_farms` asks of the nodes. -/
def Accepts (as bs : List (Node α)) (n1 n2 : Option (Node α)) (m : Bool) : Prop :=
  match m, n1, n2 with
  | true, none, none => as.length = bs.length →
      (∀ a ∈ as, a.mo = false) ∧ (∀ b ∈ bs, b.mi = false)
  | true, some _, some b => b.mo = true ∨ (b.comp = false ∧ b.mi = false)
  | true, some a, none => a.mi = false → a.comp = true → a.mo = true
  | true, none, some _ => True
  | false, some a, some b => a.mi = false ∧ b.mo = false
  | false, _, _ => True

theorem combineFarms_runs
    (ofarm : Hdr α → List (Sk α) → Hdr α → List (Sk α) → Res (Option (List (Sk α))))
    {h1 h2 : Hdr α} (ho1 : h1.ordered = false) (ho2 : h2.ordered = false) (hf : h1.EmitFine)
    {as bs : List (Node α)} (ha : as ≠ []) (hb : bs ≠ []) {n1 n2 : Option (Node α)} {m : Bool}
    (hacc : Accepts as bs n1 n2 m) (he : ∀ n, h1.emitter = some n → n.Free)
    (hn1 : ∀ n, n1 = some n → n.Free) (hn2 : ∀ n, n2 = some n → n.Free) (hfa : ∀ n ∈ as, n.Free) :
    ∃ ss, combineFarms ofarm h1 (as.map Sk.leaf) n1 h2 (bs.map Sk.leaf) n2 m = .ok (some ss) ∧
      Runs (.pipe ss) := by
  have r1 : Runs (.farm h1.removeColl (as.map Sk.leaf)) :=
    farm_runs (by rw [removeColl_ordered]; exact ho1) (by rw [removeColl_emitter]; exact he) ha
  have r2 : ∀ e : Option (Node α), (∀ n, e = some n → n.Free) →
      Runs (.farm { h2 with emitter := e } (bs.map Sk.leaf)) := fun e hx =>
    farm_runs (h := { h2 with emitter := e }) ho2 hx hb
  have a2a : ∃ s, farmsA2A h1.removeColl (as.map Sk.leaf) { h2 with emitter := none }
      (bs.map Sk.leaf) = .ok s ∧ Runs s := by
    have hc : h1.removeColl.getColl = none := by simp [Hdr.getColl, removeColl_coll ho1]
    have hf' : h1.removeColl.EmitFine := by unfold Hdr.EmitFine; rw [removeColl_emitter]; exact hf
    obtain ⟨h', e1⟩ := newHdr_fine hf' { h2 with emitter := none }
    obtain ⟨g1, g2, -⟩ := newHdr_ok e1
    refine ⟨.farm h' [.a2a (as.map Sk.leaf) (bs.map Sk.leaf)], ?_, ?_⟩
    · simp [farmsA2A, hc, e1, ok_bind]
    · exact farmA2A_runs g2 (by rw [g1, removeColl_emitter]; exact he) ha hb hfa
  obtain ⟨hN, eN⟩ := newHdr_fine hf h2
  obtain ⟨gN1, gN2, -⟩ := newHdr_ok eN
  have after : ∀ n : Node α, n.Free → ∀ x ∈ as.map (fun a => combNode a (if n.mo then n else moNode n)),
      x.Free := by
    intro n hn x hx
    obtain ⟨a, _, rfl⟩ := List.mem_map.1 hx
    apply comb_free
    split
    · exact hn
    · exact moNode_free n
  have farmN : ∀ (ls rs : List (Node α)), ls ≠ [] → rs ≠ [] → (∀ n ∈ ls, n.Free) →
      Runs (.farm hN [.a2a (ls.map Sk.leaf) (rs.map Sk.leaf)]) := fun ls rs hl hr hfl =>
    farmA2A_runs gN2 (by rw [gN1]; exact he) hl hr hfl
  unfold combineFarms
  simp only [ho1, ho2, Bool.or_self, Bool.false_eq_true, if_false]
  cases m with
  | true =>
    simp only [if_true]
    cases n1 with
    | none =>
      cases n2 with
      | none =>
        simp only
        by_cases hl : as.length = bs.length
        · have hl' : (as.map (Sk.leaf : Node α → Sk α)).length = (bs.map (Sk.leaf : Node α → Sk α)).length := by
            simpa using hl
          rw [if_pos hl']
          obtain ⟨c1, c2⟩ := (show _ → _ from hacc) hl
          obtain ⟨a, as, rfl⟩ := List.exists_cons_of_ne_nil ha
          obtain ⟨b, bs, rfl⟩ := List.exists_cons_of_ne_nil hb
          have hNF : farmsNF h1 ((a :: as).map Sk.leaf) h2 ((b :: bs).map Sk.leaf) =
              .ok (.farm { hN with ordered := h1.ordered }
                ((List.zipWith combNode (a :: as) (b :: bs)).map Sk.leaf)) := by
            unfold farmsNF
            rw [if_neg (by simpa using hl), ho1, ho2]
            simp only [bne_self_eq_false, Bool.false_eq_true, if_false, Bool.and_self, Bool.false_and]
            simp only [List.map_cons, Sk.isMO, Sk.isMI, c1 a (by simp), c2 b (by simp), Bool.or_self,
              Bool.false_eq_true, if_false, Sk.kind, eN, ok_bind]
            have := combRow_leaves hl
            simp only [List.map_cons] at this
            simp [this, ok_bind]
          rw [hNF]
          refine ⟨_, rfl, pipe1_runs ?_⟩
          exact farm_runs (h := { hN with ordered := h1.ordered }) ho1
            (by intro n hn; exact he n (by rw [← gN1]; exact hn)) (by simp)
        · have hl' : ¬ (as.map (Sk.leaf : Node α → Sk α)).length = (bs.map (Sk.leaf : Node α → Sk α)).length := by
            simpa using hl
          rw [if_neg hl']
          obtain ⟨s, e1, e2⟩ := a2a
          simp only [Hdr.changeEmit, ok_bind, e1]
          exact ⟨_, rfl, pipe1_runs e2⟩
      | some b =>
        simp only [Hdr.changeEmit, ok_bind]
        exact ⟨_, rfl, pipe2_runs r1 (r2 none (by simp))⟩
    | some a =>
      cases n2 with
      | none =>
        simp only
        have hk : (if a.mi then combNode a passNode else a).comp = true →
            (if a.mi then combNode a passNode else a).mo = true := by
          split
          · intro _; rfl
          · rename_i hm; exact hacc (by simpa using hm)
        rw [changeEmit_fine h2 hk]
        simp only [ok_bind]
        refine ⟨_, rfl, pipe2_runs r1 (r2 _ ?_)⟩
        intro n hn
        cases hn
        split
        · apply comb_free
          intro h x p hp
          simp only [passNode, List.mem_singleton] at hp
          rw [hp]
        · exact hn1 a rfl
      | some b =>
        simp only
        have hb1 : (b.comp && !b.mo) = false := by
          rcases hacc with hx | ⟨hx, _⟩ <;> simp [hx]
        have hb2 : (!b.mo && b.mi) = false := by
          rcases hacc with hx | ⟨_, hx⟩ <;> simp [hx]
        simp only [hb1, hb2, Bool.false_eq_true, if_false]
        rw [changeEmit_fine h2 (by
          intro _
          simp only [combNode]
          split
          · assumption
          · rfl)]
        simp only [ok_bind]
        refine ⟨_, rfl, pipe2_runs r1 (r2 _ ?_)⟩
        intro n hn
        cases hn
        apply comb_free
        split
        · exact hn2 b rfl
        · exact moNode_free b
  | false =>
    simp only [Bool.false_eq_true, if_false]
    cases n1 with
    | none =>
      cases n2 with
      | none =>
        obtain ⟨s, e1, e2⟩ := a2a
        simp only [Hdr.changeEmit, ok_bind, e1]
        exact ⟨_, rfl, pipe1_runs e2⟩
      | some b =>
        simp only [farmsA2ANode, eN, ok_bind, afterEach_leaf]
        exact ⟨_, rfl, pipe1_runs (farmN _ _ (by simpa using ha) hb (after b (hn2 b rfl)))⟩
    | some a =>
      cases n2 with
      | none =>
        simp only [eN, ok_bind, afterEach_leaf]
        exact ⟨_, rfl, pipe1_runs (farmN _ _ (by simpa using ha) hb (after a (hn1 a rfl)))⟩
      | some b =>
        obtain ⟨q1, q2⟩ := (show _ ∧ _ from hacc)
        simp only [q1, q2, Bool.false_eq_true, if_false, eN, ok_bind, afterEach_leaf, beforeEach_leaf]
        exact ⟨_, rfl, pipe1_runs (farmN _ _ (by simpa using ha) (by simpa using hb)
          (after a (hn1 a rfl)))⟩

/-! ### `combine_nodes_in_pipeline` -/

/-- The pipeline returned by `combine_nodes_in_pipeline` does exactly what the two blocks do one after the other, for
any nodes (with state or not). -/
theorem C75_nodes_partial
    (ofarm : Hdr α → List (Sk α) → Hdr α → List (Sk α) → Res (Option (List (Sk α))))
    {s1 s2 : Sk α} {ss : List (Sk α)} (hf : Fits s1 s2) (hn : ¬ Names s1 s2)
    (h : combineNodes ofarm s1 s2 = .ok (some ss)) : Same (.pipe ss) (.pipe [s1, s2]) :=
  combineNodes_same hf hn h

/-- A multi-output node put before a farm without emitter names the workers: nothing new can happen. -/
theorem C75_nodes_names_partial
    (ofarm : Hdr α → List (Sk α) → Hdr α → List (Sk α) → Res (Option (List (Sk α))))
    {s1 s2 : Sk α} {ss : List (Sk α)} (hn : Names s1 s2)
    (h : combineNodes ofarm s1 s2 = .ok (some ss)) : Refines (.pipe ss) (.pipe [s1, s2]) := by
  obtain ⟨n, h2, ws, rfl, rfl, hm, he⟩ := hn
  simp only [combineNodes] at h
  obtain ⟨h', e1, e2⟩ := bind_ok h
  cases e2
  simp only [seqFarm, he] at e1
  have := addEmit_ok e1
  subst this
  intro xs ys hs
  rw [pipe1] at hs
  rw [pipe2]
  refine ⟨vals (n.beh xs), by simp only [sem], ?_⟩
  have h2e : h2 = { h2 with emitter := none } := by rw [← he]
  rw [h2e]
  exact emit_forget hs

/-- When `combine_nodes_in_pipeline` returns a pipeline: no all-to-all; a composition put before a farm without emitter
ends with a multi-output node; a farm with a collector of the user is followed by a farm with a multi-output emitter. -/
theorem C75_nodes_returns
    (ofarm : Hdr α → List (Sk α) → Hdr α → List (Sk α) → Res (Option (List (Sk α))))
    {s1 s2 : Sk α} (hf : Fits s1 s2) (k1 : s1.kind ≠ 3) (k2 : s2.kind ≠ 3)
    (c1 : ∀ n h ws, s1 = .leaf n → s2 = .farm h ws → h.emitter = none → n.comp = true → n.mo = true)
    (c2 : ∀ h1 ws1 h2 ws2 c, s1 = .farm h1 ws1 → s2 = .farm h2 ws2 → h1.getColl = some c →
      ∃ e, h2.emitter = some e ∧ e.mo = true) :
    ∃ ss, combineNodes ofarm s1 s2 = .ok (some ss) := by
  obtain ⟨f1, f2, f3⟩ := hf
  match s1, s2 with
  | .a2a _ _, _ => exact absurd rfl k1
  | .leaf _, .a2a _ _ => exact absurd rfl k2
  | .pipe _, .a2a _ _ => exact absurd rfl k2
  | .farm _ _, .a2a _ _ => exact absurd rfl k2
  | .leaf a, .leaf b => exact ⟨_, rfl⟩
  | .leaf a, .pipe b => exact ⟨_, rfl⟩
  | .pipe a, .leaf b => exact ⟨_, rfl⟩
  | .pipe a, .pipe b => exact ⟨_, rfl⟩
  | .pipe a, .farm h2 ws2 => exact absurd rfl (f1 rfl)
  | .farm h1 ws1, .pipe b => exact absurd rfl (f2 rfl)
  | .leaf n, .farm h2 ws2 =>
    simp only [combineNodes, seqFarm]
    cases he : h2.emitter with
    | none =>
      have := c1 n h2 ws2 rfl rfl he
      have hx : (n.comp && !n.mo) = false := by cases hc : n.comp <;> simp_all
      simp only [Hdr.addEmit, hx, Bool.false_eq_true, if_false, ok_bind]
      exact ⟨_, rfl⟩
    | some e =>
      simp only
      rw [changeEmit_fine h2 (by
        intro _
        simp only [combNode]
        split
        · assumption
        · split <;> rfl)]
      exact ⟨_, rfl⟩
  | .farm h1 ws1, .leaf n =>
    simp only [combineNodes, f3 h1 ws1 rfl, Bool.false_eq_true, if_false]
    cases h1.getColl <;> exact ⟨_, rfl⟩
  | .farm h1 ws1, .farm h2 ws2 =>
    simp only [combineNodes, f3 h1 ws1 rfl, Bool.false_eq_true, if_false]
    cases hc : h1.getColl with
    | none => exact ⟨_, rfl⟩
    | some c =>
      obtain ⟨e, he, hm⟩ := c2 h1 ws1 h2 ws2 c rfl rfl hc
      simp only [he]
      rw [changeEmit_fine h2 (e := combNode c e) (fun _ => hm)]
      exact ⟨_, rfl⟩

/-- All-to-alls are refused. -/
theorem C75_nodes_a2a_refused
    (ofarm : Hdr α → List (Sk α) → Hdr α → List (Sk α) → Res (Option (List (Sk α))))
    {s1 s2 : Sk α} (h : s1.kind = 3 ∨ s2.kind = 3) : combineNodes ofarm s1 s2 = .ok none := by
  rcases h with h | h
  · obtain ⟨l, r, rfl⟩ := kind_a2a h
    cases s2 <;> rfl
  · obtain ⟨l, r, rfl⟩ := kind_a2a h
    cases s1 <;> rfl

/-! ### `combine_farms` -/

/-- With `mergeCE`, and the first node given (or none given and farms of the same size), everything the result does is
something that the pipeline asked for may do, for any nodes (with state or not). -/
theorem C75_merge_partial
    (ofarm : Hdr α → List (Sk α) → Hdr α → List (Sk α) → Res (Option (List (Sk α))))
    {h1 h2 : Hdr α} {ws1 ws2 : List (Sk α)} {n1 n2 : Option (Node α)} {ss : List (Sk α)}
    (ho1 : h1.ordered = false) (ho2 : h2.ordered = false)
    (hx : n1 ≠ none ∨ (n2 = none ∧ ws1.length = ws2.length))
    (h : combineFarms ofarm h1 ws1 n1 h2 ws2 n2 true = .ok (some ss)) :
    Refines (.pipe ss) (asked h1 ws1 n1 h2 ws2 n2) := by
  unfold combineFarms at h
  simp only [ho1, ho2, Bool.or_self, Bool.false_eq_true, if_false, if_true] at h
  cases n1 with
  | none =>
    rcases hx with hx | ⟨rfl, hl⟩
    · exact absurd rfl hx
    · simp only [hl, if_true] at h
      obtain ⟨s, e1, e2⟩ := bind_ok h
      cases e2
      intro xs ys hs
      rw [pipe1] at hs
      exact farmsNF_refines ho1 ho2 e1 xs ys hs
  | some a =>
    cases n2 with
    | none =>
      simp only at h
      obtain ⟨h2', e1, e2⟩ := bind_ok h
      cases e2
      have := changeEmit_ok e1
      subst this
      intro xs ys hs
      rw [pipe2] at hs
      rw [asked_sem ho1]
      obtain ⟨vs, g1, g2⟩ := hs
      refine ⟨vs, g1, ?_⟩
      split at g2
      · rw [show collOut (collOf (some a)) vs = vals ((combNode a passNode).beh vs) by
          have := emitOut_pass a vs
          have h3 := congrArg vals this
          rw [vals_emits, vals_free] at h3
          rw [h3]; rfl]
        exact emit_forget g2
      · exact emit_forget g2
    | some b =>
      simp only at h
      split at h
      · cases h
      · split at h
        · cases h
        · obtain ⟨h2', e1, e2⟩ := bind_ok h
          cases e2
          have := changeEmit_ok e1
          subst this
          intro xs ys hs
          exact (merged_same ho1 (combEmitter a b) ws1 ws2 xs ys).1 hs

/-- With `mergeCE` and both nodes given, the result does exactly what the pipeline asked for does, for any nodes
(with state or not). -/
theorem C75_merge_both
    (ofarm : Hdr α → List (Sk α) → Hdr α → List (Sk α) → Res (Option (List (Sk α))))
    {h1 h2 : Hdr α} {ws1 ws2 : List (Sk α)} {n1 n2 : Node α} (ho1 : h1.ordered = false)
    (ho2 : h2.ordered = false) (hacc : n2.mo = true ∨ (n2.comp = false ∧ n2.mi = false)) :
    ∃ ss, combineFarms ofarm h1 ws1 (some n1) h2 ws2 (some n2) true = .ok (some ss) ∧
      Same (.pipe ss) (asked h1 ws1 (some n1) h2 ws2 (some n2)) := by
  unfold combineFarms
  have hb1 : (n2.comp && !n2.mo) = false := by
    rcases hacc with hx | ⟨hx, _⟩ <;> simp [hx]
  have hb2 : (!n2.mo && n2.mi) = false := by
    rcases hacc with hx | ⟨_, hx⟩ <;> simp [hx]
  simp only [ho1, ho2, Bool.or_self, Bool.false_eq_true, if_false, if_true, hb1, hb2]
  rw [changeEmit_fine h2 (by
    intro _
    simp only [combNode]
    split
    · assumption
    · rfl)]
  exact ⟨_, rfl, merged_same ho1 (combEmitter n1 n2) ws1 ws2⟩

/-- With `mergeCE` and only the first node given, the result does exactly what the pipeline asked for does if the node
is not multi-output (or is made so after a multi-input one). -/
theorem C75_merge_first
    (ofarm : Hdr α → List (Sk α) → Hdr α → List (Sk α) → Res (Option (List (Sk α))))
    {h1 h2 : Hdr α} {ws1 ws2 : List (Sk α)} {n1 : Node α} (ho1 : h1.ordered = false)
    (ho2 : h2.ordered = false) (hacc : n1.mi = true ∨ (n1.comp = false ∧ n1.mo = false)) :
    ∃ ss, combineFarms ofarm h1 ws1 (some n1) h2 ws2 none true = .ok (some ss) ∧
      Same (.pipe ss) (asked h1 ws1 (some n1) h2 ws2 none) := by
  unfold combineFarms
  simp only [ho1, ho2, Bool.or_self, Bool.false_eq_true, if_false, if_true]
  rcases hacc with hm | ⟨hc, hm⟩
  · simp only [hm, if_true]
    rw [changeEmit_fine h2 (fun _ => rfl)]
    exact ⟨_, rfl, merged_same ho1 (e := some (combNode n1 passNode)) (n2 := none)
      (fun xs => emitOut_pass n1 xs) ws1 ws2⟩
  · have hk : (if n1.mi then combNode n1 passNode else n1).comp = true →
        (if n1.mi then combNode n1 passNode else n1).mo = true := by
      split
      · intro _; rfl
      · intro hx; rw [hc] at hx; cases hx
    rw [changeEmit_fine h2 hk]
    refine ⟨_, rfl, merged_same ho1 (fun xs => ?_) ws1 ws2⟩
    split
    · exact emitOut_pass n1 xs
    · exact emitOut_std hm xs

/-- If only the second farm is ordered, and the sizes differ, only the collector of the first farm goes. -/
theorem C75_ordered_second
    (ofarm : Hdr α → List (Sk α) → Hdr α → List (Sk α) → Res (Option (List (Sk α))))
    {h1 h2 : Hdr α} {ws1 ws2 : List (Sk α)} (ho1 : h1.ordered = false) (ho2 : h2.ordered = true)
    (hl : ws1.length ≠ ws2.length) :
    ∃ ss, combineFarms ofarm h1 ws1 none h2 ws2 none true = .ok (some ss) ∧
      Same (.pipe ss) (asked h1 ws1 none h2 ws2 h2.emitter) := by
  refine ⟨[.farm h1.removeColl ws1, .farm h2 ws2], by simp [combineFarms, ho1, ho2, hl], ?_⟩
  intro xs ys
  rw [asked_sem ho1, pipe2]
  rfl

/-- Ordered farms are refused if nodes are given, if `mergeCE` is not set, or if the sizes are the same. -/
theorem C75_ordered_refused
    (ofarm : Hdr α → List (Sk α) → Hdr α → List (Sk α) → Res (Option (List (Sk α))))
    {h1 h2 : Hdr α} {ws1 ws2 : List (Sk α)} {n1 n2 : Option (Node α)} {m : Bool}
    (ho : h1.ordered = true ∨ h2.ordered = true)
    (h : m = false ∨ n1 ≠ none ∨ n2 ≠ none ∨ ws1.length = ws2.length) :
    combineFarms ofarm h1 ws1 n1 h2 ws2 n2 m = .ok none := by
  have hoo : (h1.ordered || h2.ordered) = true := by rcases ho with h | h <;> simp [h]
  unfold combineFarms
  cases m with
  | false => simp [hoo]
  | true =>
    simp only [if_true, hoo]
    rcases h with h | h | h | h
    · cases h
    · cases n1 <;> simp_all
    · cases n2 <;> simp_all
    · simp [h]

/-- For nodes without state, every output of the result and every output of the pipeline asked for are the outputs of
the same sequential loop over the items, up to their order.  Not when `mergeCE` is set and only the second node is
given, see `C75_node2_dropped_counterexample`. -/
theorem C75_stateless_partial
    (ofarm : Hdr α → List (Sk α) → Hdr α → List (Sk α) → Res (Option (List (Sk α))))
    {h1 h2 : Hdr α} {ws1 ws2 : List (Sk α)} {n1 n2 : Option (Node α)} {m : Bool} {ss : List (Sk α)}
    (ho1 : h1.ordered = false) (ho2 : h2.ordered = false)
    (hx : m = true → n1 = none → n2 = none)
    (h : combineFarms ofarm h1 ws1 n1 h2 ws2 n2 m = .ok (some ss)) {F : α → List α}
    (hp : Pure (asked h1 ws1 n1 h2 ws2 n2) F) (xs ys zs : List α) (hy : sem (.pipe ss) xs ys)
    (hz : sem (asked h1 ws1 n1 h2 ws2 n2) xs zs) :
    ys.Perm (xs.flatMap F) ∧ zs.Perm (xs.flatMap F) :=
  ⟨sem_pure (.pipe ss) F xs ys (by simp only [Pure]; exact combineFarms_pure ho1 ho2 hx h hp) hy,
    sem_pure _ F xs zs hp hz⟩

/-- `combine_farms_a2a(farm1, farm2)`, called by the user: for nodes without state, whatever the farms have between their workers, every output of the
result and every output of the pipeline of the two farms are the outputs of the same sequential loop over the items, up to their order.  (A farm that is
not accepted gives an empty farm, which has no run.) -/
theorem C75_a2a_stateless {h1 h2 : Hdr α} {ws1 ws2 : List (Sk α)} {s : Sk α}
    (h : farmsA2A h1 ws1 h2 ws2 = .ok s) {F : α → List α}
    (hp : Pure (.pipe [.farm h1 ws1, .farm h2 ws2]) F) (xs ys zs : List α) (hy : sem s xs ys)
    (hz : sem (.pipe [.farm h1 ws1, .farm h2 ws2]) xs zs) :
    ys.Perm (xs.flatMap F) ∧ zs.Perm (xs.flatMap F) := by
  refine ⟨?_, sem_pure _ F xs zs hp hz⟩
  have key : PurePipe [s] F := by
    unfold farmsA2A at h
    split at h
    · cases h; exact empty_pure _
    · rename_i hc
      obtain ⟨h', e1, e2⟩ := bind_ok h
      cases e2
      simp only [Bool.or_eq_true, not_or, Bool.not_eq_true, Option.isSome_eq_false_iff, Option.isNone_iff_eq_none] at hc
      simp only [Pure, PurePipe] at hp
      obtain ⟨_, _, ⟨e, f, c1, p1, p2, p3, rfl⟩, ⟨_, _, ⟨e2, g, c, p4, p5, p6, rfl⟩, rfl, rfl⟩, rfl⟩ := hp
      have hc1 : c1 = ret := by
        have := hc.1
        unfold Hdr.getColl at this
        split at this
        · simp at this
        · cases hcc : h1.coll with
          | node n => simp_all
          | none => rw [hcc] at p3; exact p3
          | dflt => rw [hcc] at p3; exact p3
      have hc2 : e2 = ret := by rw [hc.2] at p4; exact p4
      subst hc1
      subst hc2
      have := a2aFarm_pure e1 p1 p2 p5 p6
      simpa only [kc_assoc, kc_ret, ret_kc] using this
  rw [purePipe_single] at key
  exact sem_pure s F xs ys key hy

/-- When `combine_farms` returns a pipeline that has a run for every input: sequential workers, nodes that name no
destination and that the function accepts (`Accepts`). -/
theorem C75_returns
    (ofarm : Hdr α → List (Sk α) → Hdr α → List (Sk α) → Res (Option (List (Sk α))))
    {h1 h2 : Hdr α} (ho1 : h1.ordered = false) (ho2 : h2.ordered = false) (hf : h1.EmitFine)
    {as bs : List (Node α)} (ha : as ≠ []) (hb : bs ≠ []) {n1 n2 : Option (Node α)} {m : Bool}
    (hacc : Accepts as bs n1 n2 m) (he : ∀ n, h1.emitter = some n → n.Free)
    (hn1 : ∀ n, n1 = some n → n.Free) (hn2 : ∀ n, n2 = some n → n.Free) (hfa : ∀ n ∈ as, n.Free) :
    ∃ ss, combineFarms ofarm h1 (as.map Sk.leaf) n1 h2 (bs.map Sk.leaf) n2 m = .ok (some ss) ∧
      Runs (.pipe ss) :=
  combineFarms_runs ofarm ho1 ho2 hf ha hb hacc he hn1 hn2 hfa

/-! ### Cases that meet the hypotheses -/

example : Fits (farmOf 2 idN { coll := .node incN }) (farmOf 3 idN { emitter := some toZero }) := by
  refine ⟨by simp [farmOf, Sk.kind], by simp [farmOf, Sk.kind], ?_⟩
  intro h ws e
  simp only [farmOf, Sk.farm.injEq] at e
  rw [← e.1]

example : Accepts [idN, idN] [incN] (some incN) (some countN) false := ⟨rfl, rfl⟩

example : Pure (asked {} [.leaf idN, .leaf idN] (some incN) {} [.leaf incN] (some incN))
    (fun x => [x + 3]) := by
  simp only [asked, Pure, PurePipe, PureAll, collOf, emitPure, collPure]
  exact ⟨fun x => [x + 1], fun x => [x + 2], ⟨ret, ret, fun x => [x + 1], rfl,
    ⟨fun _ _ => rfl, fun _ _ => rfl, trivial⟩, fun _ _ => rfl, rfl⟩, ⟨fun x => [x + 2], ret,
    ⟨fun x => [x + 1], fun x => [x + 1], ret, fun _ _ => rfl, ⟨fun _ _ => rfl, trivial⟩, rfl, rfl⟩,
    rfl, rfl⟩, rfl⟩

-- a farm whose collector was removed is accepted, one with a collector is not
example : (∃ h, farmsA2A { coll := .none } [.leaf idN, .leaf idN] {} [.leaf incN] = .ok (.farm h [.a2a [.leaf idN, .leaf idN] [.leaf incN]])) ∧
    farmsA2A { coll := .node incN } [.leaf idN] {} [.leaf incN] = .ok emptyFarm := ⟨⟨_, rfl⟩, rfl⟩

/-! ### Counterexamples -/

theorem split_one {β : Type} {zs : List (Option Nat × β)} {W : List (List β)} (h : Split zs W) :
    ∀ z, W = [z] → z = zs.map Prod.snd := by
  induction h with
  | nil k =>
    intro z hz
    match k, hz with
    | 1, hz => simpa using hz.symm
    | 0, hz => simp at hz
    | k + 2, hz => simp [List.replicate] at hz
  | @cons r x zs W i l _ hi _ ih =>
    intro z hz
    match W, i, hi with
    | [w], 0, hi =>
      simp only [List.getElem?_cons_zero, Option.some.injEq] at hi
      subst hi
      simp only [List.set_cons_zero, List.cons.injEq, and_true] at hz
      rw [← hz, ih w rfl]
      rfl
    | [w], i + 1, hi => simp at hi
    | [], i, hi => simp at hi
    | a :: b :: W, i, _ =>
      have := congrArg List.length hz
      simp at this

theorem one_worker (n : Node α) (xs ys : List α) :
    semWorkers [.leaf n] (free xs) ys ↔ ys = vals (n.beh xs) := by
  rw [semWorkers_gen (by simp)]
  constructor
  · rintro ⟨zss, wss, h1, h2, h3⟩
    obtain ⟨l1, l2⟩ := semEach_length h2
    match zss, wss, h2 with
    | [z], [w], h2 =>
      simp only [semEach, sem, and_true] at h2
      have e1 := split_one h1 z rfl
      have e2 := split_one h3 w rfl
      simp [free, Function.comp_def] at e1 e2
      rw [← e2, h2, e1]
  · rintro rfl
    refine ⟨[xs], [vals (n.beh xs)], ?_, by simp [semEach, sem], ?_⟩
    · have := split_first (noDest_free xs) 0
      simpa using this
    · have := split_first (noDest_free (vals (n.beh xs))) 0
      simpa [Shuffle] using this

theorem one_farm {h : Hdr Nat} (ho : h.ordered = false) (he : h.emitter = none) (n : Node Nat)
    (xs ys : List Nat) : sem (farmOf 1 n h) xs ys ↔ ys = collOut h.coll (vals (n.beh xs)) := by
  rw [farmOf, sem_unord ho, he]
  simp only [List.replicate, emitOut]
  constructor
  · rintro ⟨_, vs, h1, h2⟩
    rw [one_worker] at h2
    rw [h1, h2]
  · intro hy
    exact ⟨by simp, _, hy, (one_worker n xs _).2 rfl⟩

/-- **Counterexample.**  With `mergeCE` and only the second node given, the node is forgotten: the second farm gets no
emitter (combine.hpp 1390-1398, documented as "the second farm has as emitter the node2"). -/
theorem C75_node2_dropped_counterexample
    (ofarm : Hdr Nat → List (Sk Nat) → Hdr Nat → List (Sk Nat) → Res (Option (List (Sk Nat)))) :
    ∃ ss, combineFarms ofarm {} [.leaf idN] none {} [.leaf idN] (some incN) true = .ok (some ss) ∧
      sem (.pipe ss) [5] [5] ∧ ¬ sem (asked {} [.leaf idN] none {} [.leaf idN] (some incN)) [5] [5] := by
  refine ⟨[farmOf 1 idN { coll := .none }, farmOf 1 idN], rfl, ?_, ?_⟩
  · rw [pipe2]
    exact ⟨[5], (one_farm rfl rfl idN _ _).2 rfl, (one_farm rfl rfl idN _ _).2 rfl⟩
  · rw [asked, pipe2]
    rintro ⟨zs, h1, h2⟩
    have h1 := (one_farm (h := {}) rfl rfl idN _ _).1 h1
    have : zs = [5] := h1
    subst this
    rw [sem_unord rfl] at h2
    obtain ⟨-, vs, h3, h4⟩ := h2
    have h4 := (one_worker idN [6] vs).1 h4
    rw [h4] at h3
    cases h3

/-- **Counterexample.**  `combine_farms_nf` forgets the collector of the first farm (and the emitter of the second). -/
theorem C75_nf_drops_counterexample :
    ∃ s, farmsNF { coll := .node incN } [.leaf idN] {} [.leaf idN] = .ok s ∧ sem s [5] [5] ∧
      ¬ sem (.pipe [farmOf 1 idN { coll := .node incN }, farmOf 1 idN]) [5] [5] := by
  refine ⟨farmOf 1 (combNode idN idN), rfl, (one_farm rfl rfl _ _ _).2 rfl, ?_⟩
  rw [pipe2]
  rintro ⟨zs, h1, h2⟩
  rw [one_farm rfl rfl] at h1
  have : zs = [6] := h1
  subst this
  rw [one_farm rfl rfl] at h2
  cases h2

/-- **Counterexample.**  The normal form of two ordered farms has compositions as workers, which `prepare` refuses in an
ordered farm (farm.hpp 243-247): it has no run, although the pipeline has. -/
theorem C75_nf_ordered_counterexample :
    ∃ s, farmsNF { ordered := true } [.leaf idN] { ordered := true } [.leaf idN] = .ok s ∧
      (∀ xs ys, ¬ sem s xs ys) ∧
      sem (.pipe [farmOf 1 idN { ordered := true }, farmOf 1 idN { ordered := true }]) [5] [5] := by
  refine ⟨farmOf 1 (combNode idN idN) { ordered := true }, rfl, ?_, ?_⟩
  · intro xs ys
    simp [farmOf, sem, stdNodes, combNode, Coll.gathers, List.replicate]
  · have : sem (farmOf 1 idN { ordered := true }) [5] [5] := by
      simp only [farmOf, sem]
      refine ⟨by simp, [5], rfl, Or.inl ⟨[idN], by trivial, rfl, rfl, ?_⟩⟩
      exact OrdRun.cons (i := 0) (n := idN) (h := []) (ys := []) rfl rfl (Or.inl rfl) OrdRun.nil
    rw [pipe2]
    exact ⟨_, this, this⟩

/-- **Counterexample.**  `combine_nodes_in_pipeline` on a farm with a collector and a farm without emitter combines the
collector with a null pointer; on a farm with a standard emitter it ends the program.  Both pipelines can run. -/
theorem C75_nodes_farms_counterexample
    (ofarm : Hdr Nat → List (Sk Nat) → Hdr Nat → List (Sk Nat) → Res (Option (List (Sk Nat)))) :
    combineNodes ofarm (farmOf 1 idN { coll := .node incN }) (farmOf 1 idN) = .ub ∧
    combineNodes ofarm (farmOf 1 idN { coll := .node incN }) (farmOf 1 idN { emitter := some incN }) =
      .abort ∧
    sem (.pipe [farmOf 1 idN { coll := .node incN }, farmOf 1 idN]) [5] [6] := by
  refine ⟨rfl, rfl, ?_⟩
  rw [pipe2]
  exact ⟨[6], (one_farm rfl rfl idN _ _).2 rfl, (one_farm rfl rfl idN _ _).2 rfl⟩

/-- **Counterexample.**  A pipeline given before a farm without emitter, or after a farm without a collector of the user,
is forgotten: the code that refuses it is not looked at. -/
theorem C75_nodes_pipeline_dropped_counterexample
    (ofarm : Hdr Nat → List (Sk Nat) → Hdr Nat → List (Sk Nat) → Res (Option (List (Sk Nat)))) :
    combineNodes ofarm (.pipe [.leaf incN, .leaf incN]) (farmOf 1 idN) = .ok (some [farmOf 1 idN]) ∧
    combineNodes ofarm (farmOf 1 idN) (.pipe [.leaf incN, .leaf incN]) = .ok (some [farmOf 1 idN]) ∧
    sem (.pipe [farmOf 1 idN]) [5] [5] ∧
    ¬ sem (.pipe [.pipe [.leaf incN, .leaf incN], farmOf 1 idN]) [5] [5] ∧
    ¬ sem (.pipe [farmOf 1 idN, .pipe [.leaf incN, .leaf incN]]) [5] [5] := by
  have hp : ∀ xs ys, sem (.pipe [.leaf incN, .leaf incN]) xs ys →
      ys = vals (incN.beh (vals (incN.beh xs))) := by
    intro xs ys
    rw [pipe2]
    simp only [sem]
    rintro ⟨zs, rfl, h⟩
    exact h
  refine ⟨rfl, rfl, ?_, ?_, ?_⟩
  · rw [pipe1]; exact (one_farm rfl rfl idN _ _).2 rfl
  · rw [pipe2]
    rintro ⟨zs, h1, h2⟩
    rw [hp _ _ h1, one_farm rfl rfl] at h2
    cases h2
  · rw [pipe2]
    rintro ⟨zs, h1, h2⟩
    rw [one_farm rfl rfl] at h1
    rw [h1] at h2
    cases hp _ _ h2

/-- **Counterexample.**  With `mergeCE`, a composition of standard nodes as the first node ends the program, although it
may be a collector. -/
theorem C75_node1_comp_counterexample
    (ofarm : Hdr Nat → List (Sk Nat) → Hdr Nat → List (Sk Nat) → Res (Option (List (Sk Nat)))) :
    combineFarms ofarm {} [.leaf idN] (some (combNode incN incN)) {} [.leaf idN] none true = .abort ∧
    sem (asked {} [.leaf idN] (some (combNode incN incN)) {} [.leaf idN] none) [5] [7] := by
  refine ⟨rfl, ?_⟩
  rw [asked, pipe2]
  exact ⟨[7], (one_farm (h := { coll := .node (combNode incN incN) }) rfl rfl idN [5] _).2 rfl,
    (one_farm rfl rfl idN [7] _).2 rfl⟩

/-- The network that the documentation of `combine_farms` gives for the second node without `mergeCE`: the node is
composed with the workers of the second set (combine.hpp 1288-1290). -/
def docCase21 : Sk Nat :=
  .farm {} [.a2a [.leaf idN, .leaf idN] [.leaf (combNode countN idN)]]

theorem count_beh (xs : List Nat) (h : List Nat) :
    vals ((combNode countN idN).run h xs) = (List.range xs.length).map (· + (h.length + 1)) := by
  have hi : ∀ (g l : List Nat), vals (idN.run g l) = l := by
    intro g l
    induction l generalizing g with
    | nil => rfl
    | cons x l ih =>
      have : idN.run g (x :: l) = (none, x) :: idN.run (g ++ [x]) l := rfl
      rw [this]
      simp only [vals, List.map_cons, List.cons.injEq, true_and]
      exact ih _
  induction xs generalizing h with
  | nil => rfl
  | cons x xs ih =>
    rw [Node.run, vals_append, ih]
    simp only [combNode, hi]
    simp only [countN, vals, List.map_cons, List.map_nil, List.length_append, List.length_cons,
      List.length_nil, List.range_succ_eq_map, List.map_map, List.singleton_append, Nat.zero_add]
    congr 1
    apply List.map_congr_left
    intro a _
    simp only [Function.comp_apply]
    omega

/-- **Counterexample.**  The second node without `mergeCE` is copied in front of the exits of the first set, not of the
workers of the second set as documented: a node that numbers the items gives number 1 twice, which neither the documented
network nor the pipeline asked for does. -/
theorem C75_first_set_counterexample
    (ofarm : Hdr Nat → List (Sk Nat) → Hdr Nat → List (Sk Nat) → Res (Option (List (Sk Nat)))) :
    ∃ ss, combineFarms ofarm {} [.leaf idN, .leaf idN] none {} [.leaf idN] (some countN) false =
        .ok (some ss) ∧ sem (.pipe ss) [5, 6] [1, 1] ∧ ¬ sem docCase21 [5, 6] [1, 1] ∧
      ¬ sem (asked {} [.leaf idN, .leaf idN] none {} [.leaf idN] (some countN)) [5, 6] [1, 1] := by
  refine ⟨[.farm {} [.a2a [.leaf (combNode idN (moNode countN)), .leaf (combNode idN (moNode countN))]
    [.leaf idN]]], rfl, ?_, ?_, ?_⟩
  · rw [pipe1, sem_unord rfl]
    refine ⟨by simp, [1, 1], rfl, ?_⟩
    simp only [semWorkers]
    refine ⟨[[5], [6]], [[(none, 1)], [(none, 1)]], [[[1]], [[1]]], [[1, 1]], [[1, 1]], ?_, ?_, ?_,
      rfl, ?_, ?_, ?_⟩
    · exact Split.cons (i := 0) (l := []) (zss := [[], [6]])
        (Split.cons (i := 1) (zss := [[], []]) (Split.nil 2) rfl (Or.inl rfl)) rfl (Or.inl rfl)
    · simp only [semRouted, and_true]
      exact ⟨rfl, rfl⟩
    · simp only [SplitEach, and_true]
      exact ⟨⟨Split.cons (i := 0) (Split.nil 1) rfl (Or.inl rfl), rfl⟩,
        ⟨Split.cons (i := 0) (Split.nil 1) rfl (Or.inl rfl), rfl⟩⟩
    · intro j c hc
      match j, hc with
      | 0, hc =>
        simp only [List.getElem?_cons_zero, Option.some.injEq] at hc
        subst hc
        exact Split.cons (i := 0) (l := []) (zss := [[], [1]])
          (Split.cons (i := 1) (zss := [[], []]) (Split.nil 2) rfl (Or.inl rfl)) rfl (Or.inl rfl)
      | j + 1, hc => simp at hc
    · simp only [semEach, sem, and_true]
      rfl
    · exact Split.cons (i := 0) (l := [1]) (zss := [[1]])
        (Split.cons (i := 0) (zss := [[]]) (Split.nil 1) rfl (Or.inl rfl)) rfl (Or.inl rfl)
  · rw [docCase21, sem_unord rfl]
    rintro ⟨-, vs, rfl', h⟩
    simp only [collOut] at rfl'
    subst rfl'
    simp only [semWorkers] at h
    obtain ⟨zss, os, rows, cs, wss, -, -, -, h4, -, h6, h7⟩ := h
    obtain ⟨c, rfl⟩ := List.length_eq_one_iff.1 h4
    have hw : wss.length = 1 := (semEach_length h6).2
    obtain ⟨w, rfl⟩ := List.length_eq_one_iff.1 hw
    simp only [semEach, sem, and_true, Node.beh, count_beh] at h6
    have e := split_one h7 w rfl
    simp [free] at e
    rw [e] at h6
    match c, h6 with
    | [], h6 => simp at h6
    | [_], h6 => simp at h6
    | _ :: _ :: _, h6 => simp [List.range_succ_eq_map] at h6
  · rw [asked, pipe2]
    rintro ⟨zs, -, h2⟩
    rw [sem_unord rfl] at h2
    obtain ⟨-, vs, h3, h4⟩ := h2
    have he : emitOut (some countN) zs = free (vals (countN.beh zs)) := rfl
    rw [show ({ emitter := some countN } : Hdr Nat).emitter = some countN from rfl, he] at h4
    have h4 := (one_worker idN _ vs).1 h4
    have h5 : [1, 1] = vals ((combNode countN idN).beh zs) := by
      rw [beh_comb]
      simp only [collOut] at h3
      rw [h3]
      exact h4
    rw [Node.beh, count_beh] at h5
    match zs, h5 with
    | [], h5 => simp at h5
    | [_], h5 => simp at h5
    | _ :: _ :: _, h5 => simp [List.range_succ_eq_map] at h5

end FF.Opt
