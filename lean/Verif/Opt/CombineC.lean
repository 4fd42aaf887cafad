/-
C74: theorems and counterexamples for the functions that combine a node with an end of a network
(`/repo/ff/optimize.hpp` 110-328).  Statements use `sem`, `Refines` (`Verif.Opt.Spec`) and `Same` only.
-/
import Verif.Opt.CombineThm
import Verif.Opt.Counter

namespace FF.Opt

variable {α : Type}

/-! ### Farms -/

/-- `combine_with_emitter` gives a farm that does exactly what the pipeline of the node and the farm does, for any
node (with state or not). -/
theorem C74_emitter {h : Hdr α} {node : Node α} (hok : EmitOk node h) (ws : List (Sk α)) :
    ∃ h', combEmit h node = .ok h' ∧ Same (.farm h' ws) (.pipe [.leaf node, .farm h ws]) := by
  obtain ⟨h', e, _⟩ := combEmit_ok hok
  exact ⟨h', e, combEmit_same hok e ws⟩

example : EmitOk incN ({ emitter := some idN } : Hdr Nat) := Or.inl rfl

theorem Split.forget {zs : List (Option Nat × α)} {zss : List (List α)} (h : Split zs zss) :
    Split (free (vals zs)) zss := by
  induction h with
  | nil k => exact Split.nil k
  | cons _ hi _ ih => exact Split.cons ih hi (Or.inl rfl)

theorem OrdRun.forget {ns : List (Node α)} {hs : List (List α)} {zs : List (Option Nat × α)}
    {ys : List α} (h : OrdRun ns hs zs ys) : OrdRun ns hs (free (vals zs)) ys := by
  induction h with
  | nil => exact OrdRun.nil
  | cons h1 h2 _ _ ih => exact OrdRun.cons h1 h2 (Or.inl rfl) ih

theorem semWorkers_forget {ws : List (Sk α)} {zs : List (Option Nat × α)} {ys : List α}
    (h : semWorkers ws zs ys) : semWorkers ws (free (vals zs)) ys := by
  by_cases hw : ∃ l r, ws = [.a2a l r]
  · obtain ⟨l, r, rfl⟩ := hw
    simp only [semWorkers] at h ⊢
    obtain ⟨zss, os, rows, cs, wss, h1, h2⟩ := h
    exact ⟨zss, os, rows, cs, wss, h1.forget, h2⟩
  · have hw' : ∀ l r, ws ≠ [.a2a l r] := fun l r he => hw ⟨l, r, he⟩
    rw [semWorkers_gen hw'] at h ⊢
    obtain ⟨zss, wss, h1, h2⟩ := h
    exact ⟨zss, wss, h1.forget, h2⟩

/-- A multi-output node that becomes the emitter names the workers, which the pipeline does not: nothing new can
happen, but not everything that the pipeline allows. -/
theorem C74_emitter_mo_partial {h h' : Hdr α} {node : Node α} (hn : h.emitter = none)
    (hh : combEmit h node = .ok h') (ws : List (Sk α)) :
    Refines (.farm h' ws) (.pipe [.leaf node, .farm h ws]) := by
  rw [combEmit, hn] at hh
  have := addEmit_ok hh
  subst this
  intro xs ys hs
  simp only [sem, semPipe, emitOut, hn] at hs ⊢
  refine ⟨_, rfl, ys, ?_, rfl⟩
  obtain ⟨h0, vs, h1, h2⟩ := hs
  refine ⟨h0, vs, h1, ?_⟩
  rw [← vals_emits]
  rcases h2 with ⟨ns, e1, e2, e3, e4⟩ | ⟨e1, e2⟩
  · exact Or.inl ⟨ns, e1, e2, e3, e4.forget⟩
  · exact Or.inr ⟨e1, semWorkers_forget e2⟩

/-- `combine_with_collector` gives a farm that does exactly what the pipeline of the farm and the node does, for any
node, if the farm has a collector of the user. -/
theorem C74_collector {h : Hdr α} {c : Node α} (hc : h.getColl = some c) (node : Node α)
    (ws : List (Sk α)) : ∃ h', combColl h node = (true, h') ∧
      Same (.farm h' ws) (.pipe [.farm h ws, .leaf node]) :=
  ⟨(combColl h node).2, by rw [← combColl_true hc node], combColl_same (combColl_true hc node) ws⟩

example : ({ coll := .node pairN } : Hdr Nat).getColl = some pairN := rfl

/-- Without a collector of the user the call fails and leaves the farm as it is. -/
theorem C74_collector_refused {h : Hdr α} (hc : h.getColl = none) (node : Node α) :
    combColl h node = (false, h) := by simp [combColl, hc]

/-! ### Ends of a network -/

/-- If the network ends with one sequential node, `combine_with_laststage` returns 0 and the result does exactly
what the pipeline of the network and the node does.  The node may have state. -/
theorem C74_last_one {node : Node α} {s : Sk α} (hs : OneEnd s) :
    ∃ N, ∀ n, N ≤ n → ∃ s', combRight n node s = .ok (true, s') ∧
      Same s' (.pipe [s, .leaf node]) := combRight_one hs

example : OneEnd (.pipe [.leaf incN, .pipe [farmOf 3 idN { coll := .node pairN }]]) :=
  .pipe (a := [.leaf incN]) (last := farmOf 3 idN { coll := .node pairN }) rfl (.coll _ rfl)

/-- If the network starts with one sequential node, so does `combine_with_firststage`. -/
theorem C74_first_one {node : Node α} {s : Sk α} (hs : OneStart node s) :
    ∃ N, ∀ n, N ≤ n → ∃ s', combLeft n node s = .ok (true, s') ∧
      Same s' (.pipe [.leaf node, s]) := combLeft_one hs

example : OneStart pairN (.pipe [.pipe [farmOf 3 idN], .leaf incN]) :=
  .pipe (first := farmOf 3 idN) (rest := [.leaf incN]) rfl (.farm _ (Or.inr ⟨rfl, rfl⟩))

/-- Whatever the ends of the network are (workers of farms, second sets, pipelines inside them), a node that is a map
or a filter can be put there: the call returns 0 and the result does exactly what the pipeline does, although
the node has been copied. -/
theorem C74_last_partial {node : Node α} {f : α → Option α} (hf : node.Maps f) {s : Sk α}
    (hs : CanRight s) : ∃ N, ∀ n, N ≤ n → ∃ s', combRight n node s = .ok (true, s') ∧
      Same s' (.pipe [s, .leaf node]) := by
  obtain ⟨N, h⟩ := combRight_ok hf hs
  refine ⟨N, fun n hn => ?_⟩
  obtain ⟨s', e1, e2⟩ := h n hn
  refine ⟨s', e1, ?_⟩
  intro xs ys
  rw [e2.post xs ys]
  simp only [sem, semPipe]
  constructor
  · rintro ⟨z, h1, h2⟩; exact ⟨z, h1, _, by rw [hf.beh]; exact h2, rfl⟩
  · rintro ⟨z, h1, _, h2, rfl⟩; exact ⟨z, h1, by rw [h2, hf.beh]⟩

/-- The same at the beginning, for nodes without state: nothing new happens; with a map or a filter the result does
exactly what the pipeline does. -/
theorem C74_first_partial {node : Node α} {F : α → List α} (hf : node.Stateless F) {s : Sk α}
    (hs : CanLeft node s) : ∃ N, ∀ n, N ≤ n → ∃ s', combLeft n node s = .ok (true, s') ∧
      Refines s' (.pipe [.leaf node, s]) ∧
      ∀ f, node.Maps f → Same s' (.pipe [.leaf node, s]) := by
  obtain ⟨N, h⟩ := combLeft_ok hf hs
  refine ⟨N, fun n hn => ?_⟩
  obtain ⟨s', e1, e2⟩ := h n hn
  have hb : ∀ xs, vals (node.beh xs) = xs.flatMap F := fun xs => beh_pure hf xs
  have hsub : Refines s' (.pipe [.leaf node, s]) := by
    intro xs ys hs'
    simp only [sem, semPipe, hb]
    exact ⟨_, rfl, _, e2.sub _ _ hs', rfl⟩
  refine ⟨s', e1, hsub, ?_⟩
  intro f hm xs ys
  refine ⟨hsub xs ys, ?_⟩
  simp only [sem, semPipe, hb]
  rintro ⟨_, rfl, _, h1, rfl⟩
  refine e2.back f ?_ _ _ h1
  funext x
  rw [← hf [] x, ← hm [] x]

theorem incN_maps : incN.Maps (fun x => some (x + 1)) := fun _ _ => rfl

example : CanRight (.pipe [.leaf idN, .farm { coll := .none }
    [.pipe [.a2a [.leaf idN] [.leaf idN, .leaf pairN]], .pipe [.leaf idN, .leaf incN]]]) := by
  refine .pipe (a := [.leaf idN]) rfl (.workers rfl (by simp [Sk.kind]) ?_)
  intro w hw
  simp only [List.mem_cons, List.not_mem_nil, or_false] at hw
  rcases hw with rfl | rfl
  · refine .pipe (a := []) rfl (.a2a (by simp) (Or.inl (by simp [Sk.kind])) ?_)
    intro w hw
    simp only [List.mem_cons, List.not_mem_nil, or_false] at hw
    rcases hw with rfl | rfl
    · exact .leaf _
    · exact .leaf _
  · exact .pipe (a := [.leaf idN]) (last := .leaf incN) rfl (.leaf _)

example : CanLeft incN (.pipe [.a2a [.pipe [.leaf idN], .pipe [farmOf 2 idN]] [.leaf pairN]]) := by
  refine .pipe (first := .a2a [.pipe [.leaf idN], .pipe [farmOf 2 idN]] [.leaf pairN]) (rest := []) rfl
    (.a2a (by simp) (Or.inr (by simp [Sk.kind])) ?_)
  intro w hw
  simp only [List.mem_cons, List.not_mem_nil, or_false] at hw
  rcases hw with rfl | rfl
  · exact .pipe (first := .leaf idN) (rest := []) rfl (.leaf _)
  · exact .pipe (first := farmOf 2 idN) (rest := []) rfl (.farm _ (Or.inr ⟨rfl, rfl⟩))

/-- A call that returns -1 has changed nothing. -/
theorem C74_refused {n : Nat} {node : Node α} {s s' : Sk α} :
    (combRight n node s = .ok (false, s') → Same s' s) ∧
    (combLeft n node s = .ok (false, s') → Same s' s) :=
  ⟨fun h => (combRight_false h).same, fun h => (combLeft_false h).same⟩

/-! ### What the documentation promises and the code does not do -/

/-- **Counterexample.**  A farm with the default collector (the default of `ff_farm`) has a collector, but
`getCollector` is null: `combine_with_laststage` on a pipeline that ends with such a farm returns -1. -/
theorem C74_default_collector_counterexample (node : Node Nat) (n : Nat) :
    combRight (n + 2) node (.pipe [.leaf idN, farmOf 3 idN]) =
      .ok (false, .pipe [.leaf idN, farmOf 3 idN]) := rfl

/-- **Counterexample.**  A composition of standard nodes put before a farm without emitter ends the program, although
it may be a stage before the farm. -/
theorem C74_first_abort_counterexample (n : Nat) :
    combLeft (n + 2) (combNode incN incN) (.pipe [farmOf 2 idN]) = .abort ∧
    sem (.pipe [.leaf (combNode incN incN), farmOf 2 idN]) [5] [7] := by
  refine ⟨rfl, ?_⟩
  simp only [sem, semPipe, farmOf]
  refine ⟨[7], rfl, [7], ?_, rfl⟩
  refine ⟨by simp, [7], rfl, Or.inr ⟨Or.inl (by trivial), ?_⟩⟩
  rw [semWorkers_gen (by simp [List.replicate])]
  refine ⟨[[7], []], [[7], []], ?_, ?_, ?_⟩
  · exact Split.cons (i := 0) (Split.nil 2) rfl (Or.inl rfl)
  · simp [List.replicate, semEach, sem, Node.beh, Node.run, idN, vals]
  · exact Split.cons (i := 0) (Split.nil 2) rfl (Or.inl rfl)

/-- A node with state: it numbers the items it receives. -/
def countN : Node Nat := { out := fun h _ => [(none, h.length + 1)] }

/-- **Counterexample.**  A node with state combined with a second set is copied: two items both get number 1, which
the pipeline of the all-to-all and the node cannot do. -/
theorem C74_state_counterexample (n : Nat) :
    ∃ s', combRight (n + 2) countN (.pipe [.a2a [.leaf idN] [.leaf idN, .leaf idN]]) =
        .ok (true, s') ∧ sem s' [5, 6] [1, 1] ∧
      ¬ sem (.pipe [.pipe [.a2a [.leaf idN] [.leaf idN, .leaf idN]], .leaf countN]) [5, 6] [1, 1] := by
  refine ⟨.pipe [.a2a [.leaf idN] [.leaf (combNode idN countN), .leaf (combNode idN countN)]], rfl,
    ?_, ?_⟩
  · simp only [sem, semPipe]
    refine ⟨[1, 1], ⟨[[5, 6]], [free [5, 6]], [[[5], [6]]], [[5], [6]], [[1], [1]], ?_, ?_, ?_, rfl, ?_, ?_, ?_⟩,
      rfl⟩
    · exact Split.cons (i := 0) (l := [6]) (Split.cons (i := 0) (Split.nil 1) rfl (Or.inl rfl)) rfl
        (Or.inl rfl)
    · simp [semRouted, Node.emits, Node.beh, Node.run, idN, vals]
    · simp only [SplitEach, List.length_cons, List.length_nil, and_true]
      exact Split.cons (i := 0) (l := []) (zss := [[], [6]])
        (Split.cons (i := 1) (zss := [[], []]) (Split.nil 2) rfl (Or.inl rfl)) rfl (Or.inl rfl)
    · intro j c hc
      match j, hc with
      | 0, hc =>
        simp only [List.getElem?_cons_zero, Option.some.injEq] at hc
        subst hc
        exact Split.cons (i := 0) (Split.nil 1) rfl (Or.inl rfl)
      | 1, hc =>
        simp only [List.getElem?_cons_succ, List.getElem?_cons_zero, Option.some.injEq] at hc
        subst hc
        exact Split.cons (i := 0) (Split.nil 1) rfl (Or.inl rfl)
      | j + 2, hc => simp at hc
    · simp [semEach, sem, Node.beh, Node.run, idN, countN, combNode, vals]
    · exact Split.cons (i := 0) (l := []) (zss := [[], [1]])
        (Split.cons (i := 1) (zss := [[], []]) (Split.nil 2) rfl (Or.inl rfl)) rfl (Or.inl rfl)
  · simp only [sem, semPipe]
    rintro ⟨zs, -, _, h, rfl⟩
    match zs, h with
    | [], h => simp [Node.beh, Node.run, vals] at h
    | [_], h => simp [Node.beh, Node.run, vals, countN] at h
    | _ :: _ :: _, h => simp [Node.beh, Node.run, vals, countN] at h

/-- A node without state that sends two items for one. -/
def twoN : Node Nat := { out := fun _ x => [(none, x), (none, x + 10)] }

/-- **Counterexample.**  A node without state that sends two items for one, combined with the workers of a farm: what is sent
for different items is interleaved, which the pipeline of the farm and the node cannot do. -/
theorem C74_two_items_counterexample (n : Nat) :
    ∃ s', combRight (n + 3) twoN (.pipe [farmOf 2 idN { coll := .none }]) = .ok (true, s') ∧
      sem s' [1, 2] [1, 2, 11, 12] ∧
      ¬ sem (.pipe [.pipe [farmOf 2 idN { coll := .none }], .leaf twoN]) [1, 2] [1, 2, 11, 12] := by
  refine ⟨.pipe [farmOf 2 (combNode idN twoN) { coll := .none }], rfl, ?_, ?_⟩
  · simp only [sem, semPipe, farmOf]
    refine ⟨_, ⟨by simp, _, rfl, Or.inr ⟨Or.inl (by trivial), ?_⟩⟩, rfl⟩
    rw [semWorkers_gen (by simp [List.replicate])]
    refine ⟨[[1], [2]], [[1, 11], [2, 12]], ?_, ?_, ?_⟩
    · exact Split.cons (i := 0) (l := []) (zss := [[], [2]])
        (Split.cons (i := 1) (zss := [[], []]) (Split.nil 2) rfl (Or.inl rfl)) rfl (Or.inl rfl)
    · simp [List.replicate, semEach, sem, Node.beh, Node.run, idN, twoN, combNode, vals]
    · exact Split.cons (i := 0) (l := [11]) (zss := [[11], [2, 12]])
        (Split.cons (i := 1) (l := [12]) (zss := [[11], [12]])
          (Split.cons (i := 0) (l := []) (zss := [[], [12]])
            (Split.cons (i := 1) (l := []) (zss := [[], []]) (Split.nil 2) rfl (Or.inl rfl)) rfl
            (Or.inl rfl)) rfl (Or.inl rfl)) rfl (Or.inl rfl)
  · simp only [sem, semPipe]
    rintro ⟨zs, -, _, h, rfl⟩
    match zs, h with
    | [], h => simp [Node.beh, Node.run, vals] at h
    | x :: zs, h =>
      simp only [Node.beh, Node.run, vals, twoN, List.map_append, List.map_cons, List.map_nil,
        List.cons_append, List.nil_append, List.cons.injEq] at h
      omega

/-- **Counterexample.**  Two workers that are farms, only the first with a collector of the user: the call on
the second fails, its code is added to `r`, and `r>0?-1:0` is 0.  The call returns 0 and the node has been put after
one of the workers only: items leave without having met it. -/
theorem C74_lost_error_counterexample (n : Nat) :
    ∃ s', combRight (n + 3) incN (.farm { coll := .none }
        [farmOf 1 idN { coll := .node idN }, farmOf 1 idN]) = .ok (true, s') ∧
      sem s' [5] [5] ∧
      ¬ sem (.pipe [.farm { coll := .none } [farmOf 1 idN { coll := .node idN }, farmOf 1 idN],
        .leaf incN]) [5] [5] := by
  refine ⟨.farm { coll := .none }
    [farmOf 1 idN { coll := .node (combNode idN incN) }, farmOf 1 idN], rfl, ?_, ?_⟩
  · have inner : ∀ xs, xs = [] ∨ xs = [5] → sem (farmOf 1 idN) xs xs := by
      intro xs hx
      simp only [sem, farmOf]
      refine ⟨by simp, xs, rfl, Or.inr ⟨Or.inl (by trivial), ?_⟩⟩
      rw [semWorkers_gen (by simp [List.replicate])]
      rcases hx with rfl | rfl
      · refine ⟨[[]], [[]], Split.nil 1, ?_, Split.nil 1⟩
        simp [List.replicate, semEach, sem, Node.beh, Node.run, vals]
      · refine ⟨[[5]], [[5]], Split.cons (i := 0) (Split.nil 1) rfl (Or.inl rfl), ?_,
          Split.cons (i := 0) (Split.nil 1) rfl (Or.inl rfl)⟩
        simp [List.replicate, semEach, sem, Node.beh, Node.run, idN, vals]
    simp only [sem]
    refine ⟨by simp, [5], rfl, Or.inr ⟨Or.inl (by trivial), ?_⟩⟩
    rw [semWorkers_gen (by simp)]
    refine ⟨[[], [5]], [[], [5]], Split.cons (i := 1) (zss := [[], []]) (Split.nil 2) rfl (Or.inl rfl), ?_,
      Split.cons (i := 1) (zss := [[], []]) (Split.nil 2) rfl (Or.inl rfl)⟩
    simp only [semEach, and_true]
    refine ⟨?_, inner _ (Or.inr rfl)⟩
    simp only [sem, farmOf]
    refine ⟨by simp, [], rfl, Or.inr ⟨Or.inl (by trivial), ?_⟩⟩
    rw [semWorkers_gen (by simp [List.replicate])]
    refine ⟨[[]], [[]], Split.nil 1, ?_, Split.nil 1⟩
    simp [List.replicate, semEach, sem, Node.beh, Node.run, vals]
  · intro h
    have hp : Pure (.pipe [.farm { coll := .none } [farmOf 1 idN { coll := .node idN }, farmOf 1 idN],
        .leaf incN]) (fun x => [x + 1]) := by
      have hid : idN.Pure ret := fun _ _ => rfl
      have h1 : Pure (farmOf 1 idN { coll := .node idN }) ret :=
        ⟨ret, ret, ret, rfl, ⟨hid, trivial⟩, hid, by simp [kc_ret]⟩
      have h2 : Pure (farmOf 1 idN) ret :=
        ⟨ret, ret, ret, rfl, ⟨hid, trivial⟩, rfl, by simp [kc_ret]⟩
      refine ⟨ret, fun x => [x + 1], ⟨ret, ret, ret, rfl, ⟨h1, h2, trivial⟩, rfl, by simp [kc_ret]⟩,
        ⟨fun x => [x + 1], ret, fun _ _ => rfl, rfl, by rw [kc_ret]⟩, by rw [ret_kc]⟩
    have := sem_pure _ _ _ _ hp h
    simp at this

/-- A multi-output node that sends everything to worker 0. -/
def toZero : Node Nat := { out := fun _ x => [(some 0, x)], mo := true }

/-- **Counterexample.**  A multi-output node that becomes the emitter decides which worker gets an item; in the pipeline
of the node and the farm the other worker may get it. -/
theorem C74_emitter_mo_counterexample (n : Nat) :
    ∃ s', combLeft (n + 2) toZero (.pipe [.farm { coll := .none } [.leaf idN, .leaf incN]]) =
        .ok (true, s') ∧ ¬ sem s' [5] [6] ∧
      sem (.pipe [.leaf toZero, .pipe [.farm { coll := .none } [.leaf idN, .leaf incN]]]) [5] [6] := by
  refine ⟨.pipe [.farm { emitter := some toZero, coll := .none } [.leaf idN, .leaf incN]], rfl, ?_, ?_⟩
  · simp only [sem, semPipe]
    rintro ⟨_, ⟨-, vs, h1, h2⟩, rfl⟩
    simp only [collOut] at h1
    subst h1
    rcases h2 with ⟨_, h, _⟩ | ⟨-, h⟩
    · cases h
    · rw [semWorkers_gen (by simp)] at h
      obtain ⟨zss, wss, e1, e2, e3⟩ := h
      have hl := semEach_length e2
      have hm := Split.mem_splits e1
      rw [hl.1] at hm
      have : zss = [[5], []] := by
        simp [emitOut, Node.emits, Node.beh, Node.run, toZero, splits, List.range_succ] at hm
        exact hm
      subst this
      match wss, e2 with
      | [a, b], e2 =>
        simp [semEach, sem, Node.beh, Node.run, idN, incN, vals] at e2
        obtain ⟨rfl, rfl⟩ := e2
        have := Shuffle.perm e3
        simp at this
  · simp only [sem, semPipe]
    refine ⟨[5], rfl, [6], ⟨[6], ⟨by simp, [6], rfl, Or.inr ⟨Or.inl (by trivial), ?_⟩⟩, rfl⟩, rfl⟩
    rw [semWorkers_gen (by simp)]
    refine ⟨[[], [5]], [[], [6]], Split.cons (i := 1) (zss := [[], []]) (Split.nil 2) rfl (Or.inl rfl), ?_,
      Split.cons (i := 1) (zss := [[], []]) (Split.nil 2) rfl (Or.inl rfl)⟩
    simp [semEach, sem, Node.beh, Node.run, idN, incN, vals]

end FF.Opt
