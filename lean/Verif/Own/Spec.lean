import Verif.Own.Model

/-!
# Who is responsible for what: the rules as a user reads them

`g x = some (b, r)` says: the block `b` has been made responsible for deleting `x`, in the role `r`;
`g x = none` says that the user is.  `Call s g op g'` says that the user may make the call `op`, and that
the responsibilities afterwards are `g'`.

The rules: an object is handed over by a `cleanup=true` argument (role `handed`; `unique` for a unique
pointer) or because the block is told to clean up all its stages, its workers, its emitter or its
collector (roles `stage`, `worker`, `emitter`, `collector`).  What is handed over by a flag comes back to
the user when the flag is cleared or the object is removed from the block; what is handed over by an
argument comes back when it is removed with `remove_from_cleanuplist`.  A copy takes over what its source
was responsible for.  The user hands an object over only if it is alive and theirs, and destroys only
what is theirs.

The additional premises that are marked "restriction" exclude calls after which the code does something
else; see the counterexamples in `Verif/Own/Thm.lean`.
-/

namespace FF.Own

/-- How an object was handed over. -/
inductive Role
  | handed | unique | stage | emitter | collector | worker
deriving DecidableEq, Repr

/-- The responsibilities. -/
abbrev G := Nat → Option (Nat × Role)

/-- `x` has not been deleted. -/
def Live (s : S) (x : Nat) : Prop := (s.heap x).isSome

/-- `x` is alive and the user is responsible for it. -/
def Mine (s : S) (g : G) (x : Nat) : Prop := Live s x ∧ g x = none

/-- The objects of `xs` are distinct, alive and the user's. -/
def AllMine (s : S) (g : G) (xs : List Nat) : Prop := xs.Nodup ∧ ∀ x ∈ xs, Mine s g x

/-- The objects `xs` are handed over to `b`. -/
def give (g : G) (xs : List Nat) (b : Nat) (r : Role) : G := fun y => if y ∈ xs then some (b, r) else g y

/-- Those of `xs` that `b` had in the role `r` come back to the user. -/
def back (g : G) (xs : List Nat) (b : Nat) (r : Role) : G :=
  fun y => if y ∈ xs ∧ g y = some (b, r) then none else g y

/-- All that `b` had in the role `r` comes back to the user. -/
def backAll (g : G) (b : Nat) (r : Role) : G := fun y => if g y = some (b, r) then none else g y

/-- `b` takes over everything from `a`. -/
def move (g : G) (a b : Nat) : G :=
  fun y => match g y with
    | some (o, r) => if o = a then some (b, r) else some (o, r)
    | none => none

/-- Deleted objects play no role any more. -/
def forget (s : S) (g : G) : G := fun y => if (s.heap y).isSome then g y else none

/-- `x` is `b`, or was handed over to `b`, or to something that was handed over to `b`, and so on. -/
inductive Under (g : G) : Nat → Nat → Prop
  | refl (x : Nat) : Under g x x
  | step {x o b : Nat} {r : Role} : g x = some (o, r) → Under g o b → Under g x b

/-- Objects that can be copied: restriction for an `ff_Pipe` made from unique pointers, for a farm whose
collector is to be deleted but was removed, and for nested combines. -/
def Copyable (s : S) (x : Nat) : Prop :=
  match s.heap x with
  | none => False
  | some (.pipe _ _ _ _ uniq) => uniq = []
  | some (.farm f) => f.removed = true → f.cc = true → f.coll = none
  | some (.comb l r _) => isComp (s.heap l) = false ∧ isComp (s.heap r) = false
  | _ => True

/-- The calls a user may make and what they do to the responsibilities. -/
inductive Call (s : S) (g : G) : Op → G → Prop
  | newNode : Call s g .newNode g
  | newPipe : Call s g .newPipe g
  | newFarm (wc max) : Call s g (.newFarm wc max) g
  | newA2a : Call s g .newA2a g
  /-- `ff_comb(l, r, cl, cr)` -/
  | newComb (l r cl cr) (h : AllMine s g ((if cl then [l] else []) ++ (if cr then [r] else []))) :
      Call s g (.newComb l r cl cr) (give g ((if cl then [l] else []) ++ (if cr then [r] else [])) s.next .handed)
  /-- `ff_Pipe(std::unique_ptr...)` -/
  | newPipeUnique (xs) (h : AllMine s g xs) : Call s g (.newPipeUnique xs) (give g xs s.next .unique)
  /-- `add_stage(x, true)` -/
  | addStageHand (p x st all sup dont uniq) (hp : s.heap p = some (.pipe st all sup dont uniq))
      (hx : Mine s g x) : Call s g (.addStage p x true) (give g [x] p .handed)
  /-- `add_stage(x)`, pipeline with `cleanup_nodes` (restriction: not for a stage exempted by `flatten`) -/
  | addStageFlag (p x st sup dont uniq) (hp : s.heap p = some (.pipe st true sup dont uniq))
      (hx : Mine s g x) (hd : x ∉ dont) : Call s g (.addStage p x false) (give g [x] p .stage)
  /-- `add_stage(x)` -/
  | addStage (p x st sup dont uniq) (hp : s.heap p = some (.pipe st false sup dont uniq)) :
      Call s g (.addStage p x false) g
  /-- `add_stage(const T&)` -/
  | addStageCopy (p x st all sup dont uniq) (hp : s.heap p = some (.pipe st all sup dont uniq))
      (hx : Copyable s x) : Call s g (.addStageCopy p x) (give (move g x s.next) [s.next] p .handed)
  /-- `insert_stage(pos, x, true)` -/
  | insertStageHand (p pos x st all sup dont uniq) (hp : s.heap p = some (.pipe st all sup dont uniq))
      (hpos : pos ≤ st.length) (hx : Mine s g x) :
      Call s g (.insertStage p pos x true) (give g [x] p .handed)
  /-- `insert_stage(pos, x)`, pipeline with `cleanup_nodes` (restriction as for `add_stage`) -/
  | insertStageFlag (p pos x st sup dont uniq) (hp : s.heap p = some (.pipe st true sup dont uniq))
      (hpos : pos ≤ st.length) (hx : Mine s g x) (hd : x ∉ dont) :
      Call s g (.insertStage p pos x false) (give g [x] p .stage)
  /-- `insert_stage(pos, x)` -/
  | insertStage (p pos x st sup dont uniq) (hp : s.heap p = some (.pipe st false sup dont uniq)) :
      Call s g (.insertStage p pos x false) g
  /-- `insert_stage` at an invalid position -/
  | insertStageErr (p pos x c st all sup dont uniq) (hp : s.heap p = some (.pipe st all sup dont uniq))
      (hpos : st.length < pos) : Call s g (.insertStage p pos x c) g
  /-- `remove_stage(pos)` -/
  | removeStage (p pos st all sup dont uniq x) (hp : s.heap p = some (.pipe st all sup dont uniq))
      (hx : st[pos]? = some x) (hn : st.Nodup) :
      Call s g (.removeStage p pos false) (back g [x] p .stage)
  /-- `remove_stage(pos, true)` -/
  | removeStageBack (p pos st all sup dont uniq x) (hp : s.heap p = some (.pipe st all sup dont uniq))
      (hx : st[pos]? = some x) (hn : st.Nodup) :
      Call s g (.removeStage p pos true) (back (back g [x] p .stage) [x] p .handed)
  /-- `change_node(old, x, true, rm)` -/
  | changeStageHand (p old x rm st all sup dont uniq) (hp : s.heap p = some (.pipe st all sup dont uniq))
      (ho : old ∈ st) (hn : st.Nodup) (hxs : x ∉ st) (hx : Mine s g x) :
      Call s g (.changeStage p old x true rm)
        (let g1 := back (give g [x] p .handed) [old] p .stage
         if rm then back g1 [old] p .handed else g1)
  /-- `change_node(old, x, false, rm)`, pipeline with `cleanup_nodes` (restriction as for `add_stage`) -/
  | changeStageFlag (p old x rm st sup dont uniq) (hp : s.heap p = some (.pipe st true sup dont uniq))
      (ho : old ∈ st) (hn : st.Nodup) (hxs : x ∉ st) (hx : Mine s g x) (hd : x ∉ dont) :
      Call s g (.changeStage p old x false rm)
        (let g1 := back (give g [x] p .stage) [old] p .stage
         if rm then back g1 [old] p .handed else g1)
  /-- `change_node(old, x, false, rm)` -/
  | changeStage (p old x rm st sup dont uniq) (hp : s.heap p = some (.pipe st false sup dont uniq))
      (ho : old ∈ st) (hn : st.Nodup) (hxs : x ∉ st) :
      Call s g (.changeStage p old x false rm) (if rm then back g [old] p .handed else g)
  /-- `cleanup_nodes()`: the stages must be the user's, or handed over to this pipeline already (and the
  stages exempted by `flatten` stay exempted) -/
  | cleanupNodes (p st all sup dont uniq) (hp : s.heap p = some (.pipe st all sup dont uniq))
      (hn : st.Nodup)
      (hx : ∀ x ∈ st, x ∉ dont → Mine s g x ∨ g x = some (p, .handed) ∨ g x = some (p, .stage)) :
      Call s g (.cleanupNodes p true)
        (give g (st.filter (fun x => !dont.contains x && (g x).isNone)) p .stage)
  /-- `cleanup_nodes(false)` -/
  | cleanupNodesOff (p st all sup dont uniq) (hp : s.heap p = some (.pipe st all sup dont uniq)) :
      Call s g (.cleanupNodes p false) (backAll g p .stage)
  /-- `flatten()`: the pipeline takes over what the inner pipelines had by their flag, in the way it cleans
  up its own stages; the inner pipelines it had by its flag it now has explicitly (restriction: an inner
  pipeline that cleans up its stages has all of them by its flag, and no stage is on the list of exempted
  stages) -/
  | flatten (p st all sup dont uniq) (hp : s.heap p = some (.pipe st all sup dont uniq)) (hps : p ∉ st)
      (hn : ((gather s.heap all st).map (·.1)).Nodup)
      (hq : ∀ q ∈ st, ∀ st' all' sup' dont' uniq', s.heap q = some (.pipe st' all' sup' dont' uniq') →
        q ∉ dont ∧ (∀ x ∈ st', isPipe (s.heap x) = false) ∧
        (all' = true → ∀ x ∈ st', g x = some (q, .stage) ∧ x ∉ dont)) :
      Call s g (.flatten p)
        (fun y => match g y with
          | some (q, .stage) =>
              if q ∈ st ∧ isPipe (s.heap q) then some (p, if all then .stage else .handed)
              else if q = p ∧ isPipe (s.heap y) then some (p, .handed) else some (q, .stage)
          | o => o)
  /-- `add_workers(ws)`, farm with `cleanup_workers` -/
  | addWorkersFlag (f fm ws) (hf : s.heap f = some (.farm fm)) (hw : fm.wc = true)
      (hs : fm.workers.length + ws.length ≤ fm.max ∧ ws ≠ []) (hx : AllMine s g ws) :
      Call s g (.addWorkers f ws) (give g ws f .worker)
  /-- `add_workers(ws)` -/
  | addWorkers (f fm ws) (hf : s.heap f = some (.farm fm)) (hw : fm.wc = false) :
      Call s g (.addWorkers f ws) g
  /-- `add_workers(ws)` that is refused -/
  | addWorkersErr (f fm ws) (hf : s.heap f = some (.farm fm))
      (hs : ¬ (fm.workers.length + ws.length ≤ fm.max ∧ ws ≠ [])) : Call s g (.addWorkers f ws) g
  /-- `change_workers(ws)`, farm with `cleanup_workers`: "no cleanup of previous workers will be done" -/
  | changeWorkersFlag (f fm ws) (hf : s.heap f = some (.farm fm)) (hw : fm.wc = true)
      (hs : ws.length ≤ fm.max ∧ ws ≠ []) (hx : AllMine s (backAll g f .worker) ws) :
      Call s g (.changeWorkers f ws) (give (backAll g f .worker) ws f .worker)
  /-- `change_workers(ws)` -/
  | changeWorkers (f fm ws) (hf : s.heap f = some (.farm fm)) (hw : fm.wc = false) :
      Call s g (.changeWorkers f ws) g
  /-- `change_workers(ws)` that is refused: the old workers are gone nevertheless -/
  | changeWorkersErr (f fm ws) (hf : s.heap f = some (.farm fm))
      (hs : ¬ (ws.length ≤ fm.max ∧ ws ≠ [])) : Call s g (.changeWorkers f ws) (backAll g f .worker)
  /-- `cleanup_workers()` -/
  | cleanupWorkers (f fm) (hf : s.heap f = some (.farm fm)) (hn : fm.workers.Nodup)
      (hx : ∀ x ∈ fm.workers, Mine s g x ∨ g x = some (f, .worker)) :
      Call s g (.cleanupWorkers f true) (give g fm.workers f .worker)
  /-- `cleanup_workers(false)` -/
  | cleanupWorkersOff (f fm) (hf : s.heap f = some (.farm fm)) :
      Call s g (.cleanupWorkers f false) (backAll g f .worker)
  /-- `add_emitter(e)`, farm with `cleanup_emitter` -/
  | addEmitterFlag (f fm e) (hf : s.heap f = some (.farm fm)) (he : fm.ec = true) (hn : fm.emitter = none)
      (hx : Mine s g e) (hk : parallel (s.heap e) = false) :
      Call s g (.addEmitter f e) (give g [e] f .emitter)
  /-- `add_emitter(e)` -/
  | addEmitter (f fm e) (hf : s.heap f = some (.farm fm)) (he : fm.ec = false) :
      Call s g (.addEmitter f e) g
  /-- `add_emitter(e)` that is refused -/
  | addEmitterErr (f fm e) (hf : s.heap f = some (.farm fm))
      (hk : parallel (s.heap e) = true ∨ fm.emitter ≠ none) : Call s g (.addEmitter f e) g
  /-- `add_emitter(const T&)` (restriction: not if the farm has an emitter) -/
  | addEmitterCopy (f fm x) (hf : s.heap f = some (.farm fm)) (hn : fm.emitter = none)
      (hx : Copyable s x) (hk : parallel (s.heap x) = false) :
      Call s g (.addEmitterCopy f x) (give (move g x s.next) [s.next] f .emitter)
  /-- `change_emitter(e, c)`, farm without emitter (restriction: `c` only if the flag is set already) -/
  | changeEmitterNew (f fm e c) (hf : s.heap f = some (.farm fm)) (hn : fm.emitter = none)
      (hc : c = true → fm.ec = true) (hx : fm.ec = true → Mine s g e) (hk : parallel (s.heap e) = false) :
      Call s g (.changeEmitter f e c) (if fm.ec then give g [e] f .emitter else g)
  /-- `change_emitter(e, c)`: the old emitter is deleted if the farm was responsible for it -/
  | changeEmitter (f fm e c o) (hf : s.heap f = some (.farm fm)) (hn : fm.emitter = some o)
      (hx : c = true → Mine s g e) (hk : parallel (s.heap e) = false)
      (hfo : fm.ec = true → ¬ Under g f o) :
      Call s g (.changeEmitter f e c)
        (let s1 := if fm.ec then del o s else s
         let g1 := forget s1 g
         if c then give g1 [e] f .emitter else g1)
  /-- `cleanup_emitter()` -/
  | cleanupEmitter (f fm) (hf : s.heap f = some (.farm fm))
      (hx : ∀ e, fm.emitter = some e → Mine s g e ∨ g e = some (f, .emitter)) :
      Call s g (.cleanupEmitter f true) (give g fm.emitter.toList f .emitter)
  /-- `cleanup_emitter(false)` -/
  | cleanupEmitterOff (f fm) (hf : s.heap f = some (.farm fm)) :
      Call s g (.cleanupEmitter f false) (backAll g f .emitter)
  /-- `add_collector(c, cl)` with `cl` or the flag set (restriction: not after the removal of a collector
  that the farm has to delete) -/
  | addCollectorHand (f fm c cl) (hf : s.heap f = some (.farm fm)) (hc : cl = true ∨ fm.cc = true)
      (hn : fm.coll = none ∨ (fm.removed = true ∧ fm.cc = false))
      (hx : Mine s g c) (hk : parallel (s.heap c) = false) :
      Call s g (.addCollector f c cl) (give g [c] f .collector)
  /-- `add_collector(c)` -/
  | addCollector (f fm c) (hf : s.heap f = some (.farm fm)) (hc : fm.cc = false) :
      Call s g (.addCollector f c false) g
  /-- `add_collector(c, cl)` that is refused -/
  | addCollectorErr (f fm c cl) (hf : s.heap f = some (.farm fm))
      (hk : parallel (s.heap c) = true ∨ (fm.coll ≠ none ∧ fm.removed = false)) :
      Call s g (.addCollector f c cl) g
  /-- `remove_collector()` -/
  | removeCollector (f fm) (hf : s.heap f = some (.farm fm)) : Call s g (.removeCollector f) g
  /-- `cleanup_collector()` -/
  | cleanupCollector (f fm) (hf : s.heap f = some (.farm fm))
      (hx : ∀ c, fm.coll = some c → Mine s g c ∨ g c = some (f, .collector)) :
      Call s g (.cleanupCollector f true) (give g fm.coll.toList f .collector)
  /-- `cleanup_collector(false)` -/
  | cleanupCollectorOff (f fm) (hf : s.heap f = some (.farm fm)) :
      Call s g (.cleanupCollector f false) (backAll g f .collector)
  /-- `change_node(old, x, c, rm)` on the emitter (restriction: no `rm` if the farm is responsible for it) -/
  | changeFarmEmitter (f fm old x c rm g') (hf : s.heap f = some (.farm fm)) (ho : fm.emitter = some old)
      (hr : rm = true → fm.ec = false) (h : Call s g (.changeEmitter f x c) g') :
      Call s g (.changeFarmNode f old x c rm) g'
  /-- `change_node(old, x, c, rm)` on the collector (same restriction) -/
  | changeFarmCollector (f fm old x c rm) (hf : s.heap f = some (.farm fm)) (hne : fm.emitter ≠ some old)
      (ho : fm.coll = some old) (hrm : fm.removed = false) (hr : rm = true → fm.cc = false)
      (hx : c = true → Mine s g x) (hk : parallel (s.heap x) = false)
      (hfo : fm.cc = true → ¬ Under g f old) :
      Call s g (.changeFarmNode f old x c rm)
        (let s1 := if fm.cc then del old s else s
         let g1 := forget s1 g
         if c then give g1 [x] f .collector else g1)
  /-- `change_node(old, x, c, rm)` on a worker, farm with `cleanup_workers` (restriction: no `rm`): the
  farm is responsible for both -/
  | changeFarmWorkerFlag (f fm old x c) (hf : s.heap f = some (.farm fm)) (hne : fm.emitter ≠ some old)
      (hnc : fm.coll = some old → fm.removed = true) (ho : old ∈ fm.workers) (hw : fm.wc = true)
      (hx : Mine s g x) :
      Call s g (.changeFarmNode f old x c false) (give (give g [old] f .handed) [x] f .worker)
  /-- `change_node(old, x, c, rm)` on a worker -/
  | changeFarmWorker (f fm old x c rm) (hf : s.heap f = some (.farm fm)) (hne : fm.emitter ≠ some old)
      (hnc : fm.coll = some old → fm.removed = true) (ho : old ∈ fm.workers) (hw : fm.wc = false)
      (hx : c = true → Mine s g x) :
      Call s g (.changeFarmNode f old x c rm)
        (let g1 := if rm then back g [old] f .handed else g
         if c then give g1 [x] f .handed else g1)
  /-- preparing an ordered farm: each worker the farm was responsible for now belongs to its wrapper, and
  the wrappers, made by the farm, belong to the farm -/
  | prepareOrdered (f fm) (hf : s.heap f = some (.farm fm))
      (hk : fm.workers.head?.map (fun w => parallel (s.heap w) || isComp (s.heap w)) = some false) :
      Call s g (.prepareOrdered f)
        (fun y => if s.next ≤ y ∧ y < s.next + fm.workers.length then some (f, .worker)
          else if g y = some (f, .worker) then some (s.next + fm.workers.idxOf y, .handed) else g y)
  /-- `add_firstset(ws, _, true)` -/
  | addFirstHand (a w2 sup ws) (ha : s.heap a = some (.a2a [] w2 sup)) (hw : ws ≠ [])
      (hx : AllMine s g ws) : Call s g (.addFirst a ws true) (give g ws a .handed)
  /-- `add_firstset(ws)` -/
  | addFirst (a w1 w2 sup ws) (ha : s.heap a = some (.a2a w1 w2 sup)) : Call s g (.addFirst a ws false) g
  /-- `add_firstset(ws, _, c)` that is refused -/
  | addFirstErr (a w1 w2 sup ws c) (ha : s.heap a = some (.a2a w1 w2 sup)) (hw : w1 ≠ [] ∨ ws = []) :
      Call s g (.addFirst a ws c) g
  /-- `add_secondset(ws, true)` -/
  | addSecondHand (a w1 sup ws) (ha : s.heap a = some (.a2a w1 [] sup)) (hw : ws ≠ [])
      (hx : AllMine s g ws) : Call s g (.addSecond a ws true) (give g ws a .handed)
  /-- `add_secondset(ws)` -/
  | addSecond (a w1 w2 sup ws) (ha : s.heap a = some (.a2a w1 w2 sup)) : Call s g (.addSecond a ws false) g
  /-- `add_secondset(ws, c)` that is refused -/
  | addSecondErr (a w1 w2 sup ws c) (ha : s.heap a = some (.a2a w1 w2 sup)) (hw : w2 ≠ [] ∨ ws = []) :
      Call s g (.addSecond a ws c) g
  /-- `change_firstset(ws, _, c, rm)` -/
  | changeFirst (a w1 w2 sup ws c rm) (ha : s.heap a = some (.a2a w1 w2 sup)) (hw : ws ≠ [])
      (hx : c = true → AllMine s (if rm then back g w1 a .handed else g) ws) :
      Call s g (.changeFirst a ws c rm)
        (let g1 := if rm then back g w1 a .handed else g
         if c then give g1 ws a .handed else g1)
  /-- `change_secondset(ws, c, rm)` -/
  | changeSecond (a w1 w2 sup ws c rm) (ha : s.heap a = some (.a2a w1 w2 sup)) (hw : ws ≠ [])
      (hx : c = true → AllMine s (if rm then back g w2 a .handed else g) ws) :
      Call s g (.changeSecond a ws c rm)
        (let g1 := if rm then back g w2 a .handed else g
         if c then give g1 ws a .handed else g1)
  /-- `change_node(old, x, c, rm)` of an all-to-all -/
  | changeA2aNode (a w1 w2 sup old x c rm) (ha : s.heap a = some (.a2a w1 w2 sup))
      (ho : old ∈ w1 ∨ old ∈ w2) (hx : c = true → Mine s g x) :
      Call s g (.changeA2aNode a old x c rm)
        (let g1 := if rm then back g [old] a .handed else g
         if c then give g1 [x] a .handed else g1)
  /-- `replace_first(x, c, rm)` -/
  | replaceFirst (k l r cl x c rm) (hk : s.heap k = some (.comb l r cl)) (hl : isComp (s.heap l) = false)
      (hx : c = true → Mine s g x) :
      Call s g (.replaceFirst k x c rm)
        (let g1 := if rm then back g [l] k .handed else g
         if c then give g1 [x] k .handed else g1)
  /-- `replace_last(x, c, rm)` -/
  | replaceLast (k l r cl x c rm) (hk : s.heap k = some (.comb l r cl)) (hl : isComp (s.heap r) = false)
      (hx : c = true → Mine s g x) :
      Call s g (.replaceLast k x c rm)
        (let g1 := if rm then back g [r] k .handed else g
         if c then give g1 [x] k .handed else g1)
  /-- `changeFirst(x, c)`: the replaced part is deleted if it was handed over -/
  | changeFirstComb (k l r cl x c) (hk : s.heap k = some (.comb l r cl)) (hl : isComp (s.heap l) = false)
      (hx : c = true → Mine s g x) :
      Call s g (.changeFirstComb k x c)
        (forget (changeFirstComb k x c s)
          (let g1 := back g [l] k .handed
           if c then give g1 [x] k .handed else g1))
  /-- `changeLast(x, c)` -/
  | changeLastComb (k l r cl x c) (hk : s.heap k = some (.comb l r cl)) (hl : isComp (s.heap r) = false)
      (hx : c = true → Mine s g x) :
      Call s g (.changeLastComb k x c)
        (forget (changeLastComb k x c s)
          (let g1 := back g [r] k .handed
           if c then give g1 [x] k .handed else g1))
  /-- `combine_with_emitter(f, x, c)`, farm without emitter -/
  | combEmitterNew (f fm x c mo) (hf : s.heap f = some (.farm fm)) (hn : fm.emitter = none)
      (hx : c = true → Mine s g x) (hk : parallel (s.heap x) = false) :
      Call s g (.combEmitter f x c mo) (if c then give g [x] f .emitter else g)
  /-- `combine_with_emitter(f, x, c)`: the combine belongs to the farm; `x`, if handed over, and the old
  emitter, if it belonged to the farm, belong to the combine -/
  | combEmitter (f fm e x c) (hf : s.heap f = some (.farm fm)) (he : fm.emitter = some e)
      (hx : c = true → Mine s g x) (hk : parallel (s.heap x) = false) :
      Call s g (.combEmitter f x c true)
        (let g1 := if fm.ec then give g [e] s.next .handed else g
         let g2 := if c then give g1 [x] s.next .handed else g1
         give g2 [s.next] f .emitter)
  /-- the same, with the old emitter in a wrapper that belongs to the combine -/
  | combEmitterWrap (f fm e x c) (hf : s.heap f = some (.farm fm)) (he : fm.emitter = some e)
      (hx : c = true → Mine s g x) (hk : parallel (s.heap x) = false) :
      Call s g (.combEmitter f x c false)
        (let g1 := if fm.ec then give g [e] s.next .handed else g
         let g2 := if c then give g1 [x] (s.next + 1) .handed else g1
         give (give g2 [s.next] (s.next + 1) .handed) [s.next + 1] f .emitter)
  /-- `combine_with_collector(f, x, c)` -/
  | combCollector (f fm k x c) (hf : s.heap f = some (.farm fm)) (he : fm.coll = some k)
      (hr : fm.removed = false) (hx : c = true → Mine s g x) (hk : parallel (s.heap x) = false) :
      Call s g (.combCollector f x c)
        (let g1 := if fm.cc then give g [k] s.next .handed else g
         let g2 := if c then give g1 [x] s.next .handed else g1
         give g2 [s.next] f .collector)
  /-- `combine_with_firststage(p, x, c)` (restriction: not if the first stage belongs to the pipeline by
  its flag): the combine belongs to the pipeline -/
  | combFirst (p n st all sup dont uniq x c) (hp : s.heap p = some (.pipe (n :: st) all sup dont uniq))
      (hn : (n :: st).Nodup) (hr : g n ≠ some (p, .stage)) (hx : c = true → Mine s g x) :
      Call s g (.combFirst p x c)
        (let g1 := if c then give g [x] s.next .handed else g
         give g1 [s.next] p .handed)
  /-- `combine_with_laststage(p, x, c)` (restriction: if the pipeline cleans up its stages, then the last
  one belongs to the pipeline by the flag): the combine takes over the last stage -/
  | combLast (p n st all sup dont uniq x c) (hp : s.heap p = some (.pipe (st ++ [n]) all sup dont uniq))
      (hn : (st ++ [n]).Nodup) (hr : all = true → g n = some (p, .stage)) (hx : c = true → Mine s g x) :
      Call s g (.combLast p x c)
        (let g1 := if all then give g [n] s.next .handed else g
         let g2 := if c then give g1 [x] s.next .handed else g1
         give g2 [s.next] p .handed)
  /-- a copy takes over what its source was responsible for -/
  | copy (x) (hx : Copyable s x) : Call s g (.copy x) (move g x s.next)
  /-- the end of the lifetime of an object of the user -/
  | destroy (x) (hx : Mine s g x) : Call s g (.destroy x) (forget (del x s) g)

/-- The states a program can reach by such calls. -/
inductive Legal : S → G → Prop
  | init : Legal init (fun _ => none)
  | call {s : S} {g g' : G} {op : Op} : Legal s g → Call s g op g' → Legal (apply op s) g'

end FF.Own
