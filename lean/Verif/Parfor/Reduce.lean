import Verif.Parfor.For
/-!
# parallel_reduce (C32)

Models `FF_PARFORREDUCE_START` (ff/parallel_for_internals.hpp 337-344), `FF_PARFORREDUCE_F_STOP`
(386-400), `forallreduce_W::setF` and `getres` (896-899): each worker starts from the identity and
accumulates in its own variable, the caller combines the variables of the workers in their order.
-/
namespace FF.Parfor

variable {α : Type}

/-- The value of the reduction variable of worker `w` at the end of a loop with the calls `log`. -/
def partialRes (body : Int → α → α) (idt : α) (log : List (Nat × Int)) (w : Nat) : α :=
  ((log.filter fun e => e.1 = w).map Prod.snd).foldl (fun r i => body i r) idt

/-- 386-400: the value of `var` after `parallel_reduce`; `n` is the number of workers started. -/
def reduceVar (body : Int → α → α) (final : α → α → α) (idt var : α) (n : Nat) (log : List (Nat × Int)) : α :=
  if 1 < n then (List.range n).foldl (fun v w => final v (partialRes body idt log w)) var
  else (log.map Prod.snd).foldl (fun r i => body i r) var

/-- **Specification.** The sequential loop `for (i = first; i < last; i += step) var = op(var, g(i))`. -/
def seqReduce (op : α → α → α) (g : Int → α) (var : α) (l : List Int) : α :=
  l.foldl (fun r i => op r (g i)) var

theorem fold_out {op : α → α → α} {g : Int → α} {e : α} (ha : ∀ a b c, op (op a b) c = op a (op b c))
    (hr : ∀ a, op a e = a) (l : List Int) (v : α) : seqReduce op g v l = op v (seqReduce op g e l) := by
  have key : ∀ (l : List Int) (v u : α), seqReduce op g (op v u) l = op v (seqReduce op g u l) := by
    intro l
    induction l with
    | nil => intro v u; rfl
    | cons i l ih =>
      intro v u
      simp only [seqReduce, List.foldl_cons] at ih ⊢
      rw [ha, ih]
  have := key l v e
  rw [hr] at this
  exact this

theorem fold_parts {op : α → α → α} {g : Int → α} {e : α} (ha : ∀ a b c, op (op a b) c = op a (op b c))
    (hr : ∀ a, op a e = a) (f : Nat → List Int) (l : List Nat) (v : α) :
    l.foldl (fun v w => op v (seqReduce op g e (f w))) v = seqReduce op g v (l.flatMap f) := by
  induction l generalizing v with
  | nil => rfl
  | cons w l ih =>
    rw [List.foldl_cons, ih, List.flatMap_cons, ← fold_out ha hr]
    simp only [seqReduce, List.foldl_append]

/-- the combined partial results are the fold over the indices of worker 0, then those of worker 1, ... -/
theorem reduce_flat {op : α → α → α} {g : Int → α} {e var : α} {body : Int → α → α}
    (ha : ∀ a b c, op (op a b) c = op a (op b c)) (hr : ∀ a, op a e = a) (hb : ∀ i r, body i r = op r (g i))
    {n : Nat} {log : List (Nat × Int)} (hn : 1 < n) :
    reduceVar body op e var n log =
      seqReduce op g var ((List.range n).flatMap fun w => (log.filter fun e => e.1 = w).map Prod.snd) := by
  unfold reduceVar
  rw [if_pos hn, ← fold_parts ha hr]
  congr 1
  funext v w
  unfold partialRes seqReduce
  congr 2
  funext r i
  exact hb i r

theorem reduce_one {op : α → α → α} {g : Int → α} {e var : α} {body : Int → α → α}
    (hb : ∀ i r, body i r = op r (g i)) {n : Nat} {log : List (Nat × Int)} (hn : ¬ 1 < n) :
    reduceVar body op e var n log = seqReduce op g var (log.map Prod.snd) := by
  unfold reduceVar
  rw [if_neg hn]
  unfold seqReduce
  congr 1
  funext r i
  exact hb i r

/-- the order does not matter -/
theorem fold_perm {op : α → α → α} {g : Int → α} (ha : ∀ a b c, op (op a b) c = op a (op b c))
    (hc : ∀ a b, op a b = op b a) {l l' : List Int} (h : l.Perm l') (v : α) : seqReduce op g v l = seqReduce op g v l' := by
  induction h generalizing v with
  | nil => rfl
  | cons x _ ih => simp only [seqReduce, List.foldl_cons] at ih ⊢; exact ih _
  | swap x y l =>
    simp only [seqReduce, List.foldl_cons]
    rw [ha, ha, hc (g x) (g y)]
  | trans _ _ ih1 ih2 => rw [ih1, ih2]

/-- the reduction of a loop that executes each index exactly once -/
theorem reduce_perm {op : α → α → α} {g : Int → α} {e var : α} {body : Int → α → α}
    (ha : ∀ a b c, op (op a b) c = op a (op b c)) (hc : ∀ a b, op a b = op b a) (hr : ∀ a, op a e = a)
    (hb : ∀ i r, body i r = op r (g i)) {n : Nat} {log : List (Nat × Int)} {l : List Int}
    (hp : (log.map Prod.snd).Perm l) (hw : ∀ e ∈ log, e.1 < n) :
    reduceVar body op e var n log = seqReduce op g var l := by
  by_cases hn : 1 < n
  · rw [reduce_flat ha hr hb hn]
    exact fold_perm ha hc ((flat_count hw).trans hp) var
  · rw [reduce_one hb hn]
    exact fold_perm ha hc hp var

/-- **C32.** Dynamic scheduling: `parallel_reduce` with a grain returns the sequential fold, if the
operation is associative and commutative and has the given identity. -/
theorem C32_reduce_dynamic {op : α → α → α} {g : Int → α} {e var : α} {body : Int → α → α}
    {old d : Nat → Range} {first last st grain : Int} {nw : Nat} {L : Loop} {log : List (Nat × Int)}
    (ha : ∀ a b c, op (op a b) c = op a (op b c)) (hc : ∀ a b, op a b = op b a) (hr : ∀ a, op a e = a)
    (hb : ∀ i r, body i r = op r (g i)) (hT : Table old) (hs : 1 ≤ st) (hk : 1 ≤ grain) (hn : 1 ≤ nw)
    (hL : setloopDyn old first last st grain nw = some L) (hrun : RunFor first last st nw L log d) :
    reduceVar body op e var L.nw log = seqReduce op g var (indices first last st) := by
  have hg := setloopDyn_good hs hk hn (table_clean hT) hL
  obtain ⟨h1, h2, _⟩ := run_good hs hg hrun
  exact reduce_perm ha hc hr hb h1 h2

/-- **C32.** Default static scheduling: associativity and the identity are enough. -/
theorem C32_reduce_static {op : α → α → α} {g : Int → α} {e var : α} {body : Int → α → α}
    {old d : Nat → Range} {first last st : Int} {nw : Nat} {L : Loop} {log : List (Nat × Int)}
    (ha : ∀ a b c, op (op a b) c = op a (op b c)) (hr : ∀ a, op a e = a)
    (hb : ∀ i r, body i r = op r (g i)) (hT : Table old) (hs : 1 ≤ st) (hn : 1 ≤ nw) (hbd : last - first < 2 ^ 63)
    (hL : setloopStatic old first last st nw = some L) (hrun : RunFor first last st nw L log d) :
    reduceVar body op e var L.nw log = seqReduce op g var (indices first last st) := by
  obtain ⟨h1, h2, h3, _⟩ := run_static hs hn hbd (table_clean hT) hL hrun
  rw [h3]
  by_cases hn1 : 1 < nw
  · rw [reduce_flat ha hr hb hn1, h1]
  · rw [reduce_one hb hn1]
    have hnw : nw = 1 := by omega
    subst hnw
    simp only [List.range_succ, List.range_zero, List.nil_append, List.flatMap_cons, List.flatMap_nil, List.append_nil] at h1
    rw [List.filter_eq_self.2] at h1
    · rw [h1]
    · intro x hx
      have := h2 x hx
      simp only [decide_eq_true_eq]; omega

/-- **C32.** Static scheduling with a grain, where the loop executes each index exactly once (C31). -/
theorem C32_reduce_static_grain_partial {op : α → α → α} {g : Int → α} {e var : α} {body : Int → α → α}
    {old : Nat → Range} {first last st gr : Int} {nw : Nat} {L : Loop} {log : List (Nat × Int)}
    (ha : ∀ a b c, op (op a b) c = op a (op b c)) (hc : ∀ a b, op a b = op b a) (hr : ∀ a, op a e = a)
    (hb : ∀ i r, body i r = op r (g i)) (hs : 1 ≤ st) (hg : 1 ≤ gr)
    (hL : setloopGrain old first last st gr nw = some L) (hcc : (st = 1 ∧ 0 ≤ first) ∨ L.nw = 1)
    (hrun : RunGrain first last st gr nw L log) :
    reduceVar body op e var L.nw log = seqReduce op g var (indices first last st) := by
  have hp := C31_exactly_once_partial hs hg hL hcc hrun
  refine reduce_perm ha hc hr hb hp ?_
  cases hrun with
  | plain h =>
    intro e he
    rw [List.mem_map] at he
    obtain ⟨x, _, rfl⟩ := he
    simp only; omega
  | one h =>
    intro e he
    rw [List.mem_map] at he
    obtain ⟨x, _, rfl⟩ := he
    simp only; omega
  | par _ _ h => exact h

/-- An execution of `parallel_reduce(var, identity, 0, 9, 2, 1, body, final, 2)` in which worker 1 steals. -/
def demoR : A := (exec (step (demoL.par 2 2)) (A.start (demoL.par 2 2) demoL true)
  (List.replicate 5 (.go 0) ++ List.replicate 20 (.go 1) ++ [.pick 1 0] ++ List.replicate 8 (.go 1) ++
    [.pick 1 0, .go 1, .go 0, .go 0, .go 0, .pick 0 1, .go 0])).get (by decide +kernel)

/-- Associativity is not enough for dynamic scheduling: with the concatenation of lists the result is
not in the order of the indices. -/
theorem C32_dynamic_order_counterexample :
    setloopDyn (fun _ => ⟨0, 0, 0⟩) 0 9 2 1 2 = some demoL ∧ RunFor 0 9 2 2 demoL demoR.log demoR.d ∧
    reduceVar (fun i r => r ++ [i]) (· ++ ·) [] [] demoL.nw demoR.log = [0, 4, 6, 8, 2] ∧
    seqReduce (· ++ ·) (fun i => [i]) [] (indices 0 9 2) = [0, 2, 4, 6, 8] :=
  ⟨(Option.some_get _).symm, .noSched true demoR (by decide) (exec_get _)
    (all_two (p := fun w => demoR.pc w = .out) (by decide +kernel) (by decide +kernel)), by decide +kernel, by decide +kernel⟩

/-- Non-vacuity: the sum of the indices in an execution with three indices on worker 1. -/
example : reduceVar (fun i r => r + i) (· + ·) 0 100 2 [(1, 4), (1, 6), (1, 8), (0, 0), (0, 2)] =
    seqReduce (· + ·) (fun i => i) 100 (indices 0 9 2) := by decide

end FF.Parfor
