import Verif.Common.Trans

/-!
# Who deletes what: the clean-up responsibilities of the building blocks

FastFlow's blocks hold their parts by raw pointer.  A part is deleted by a block's destructor only if it
was handed over: by a `cleanup=true` argument, by a block-wide flag (`cleanup_nodes`, `cleanup_workers`,
...), or because the block made the part itself (copies, combines, wrappers).  Copying a block and
rewriting a network move these responsibilities around.  This file models every function that touches
them.

The heap maps addresses to the fields of the object there that matter for deletion.  An address is never
reused.  `log` records the destructors that ran, `bad` that one ran on an object already deleted.

Simplifications: the load balancer and the gatherer of a farm are not objects of their own (their filter
is the emitter, respectively the collector); barriers and queues are not modelled; none of the blocks is
prepared when it is changed (the code refuses changes to prepared blocks), except by `prepareOrdered`.
-/

namespace FF.Own

/-- The fields of a farm that decide what its destructor deletes (`ff/farm.hpp` 86-118, 790-812):
`workers`, `emitter`, `collector` (`none` if there is none or it is the default one, the gatherer),
`collector_removed`, the flags `worker_cleanup`, `emitter_cleanup`, `collector_cleanup`, the list
`internalSupportNodes`, and `max_nworkers`. -/
structure Farm where
  workers : List Nat
  emitter : Option Nat
  coll : Option Nat
  removed : Bool
  wc : Bool
  ec : Bool
  cc : Bool
  sup : List Nat
  max : Nat
deriving DecidableEq, Repr

/-- An object on the heap.
* `node`: a sequential node written by the user.
* `wrap inner cleanup`: an `OrderedWorkerWrapper` (`ff/ordering_policies.hpp` 141-163) or an
  `internal_mo_transformer` (`ff/multinode.hpp` 1068-1096).
* `comb left right cl`: an `ff_comb` with `comp_nodes` and `cleanup_stages` (`ff/combine.hpp` 89-131); the
  null pointers that copying leaves in `cleanup_stages` are left out.
* `pipe st all sup dont uniq`: an `ff_pipeline` with `nodes_list`, `node_cleanup`,
  `internalSupportNodes`, `dontcleanup` (`ff/pipeline.hpp` 851-905); `uniq` is `cleanup_stages` of the
  derived `ff_Pipe` (`ff/pipeline.hpp` 1806), empty otherwise.
* `a2a w1 w2 sup`: an `ff_a2a` with `workers1`, `workers2`, `internalSupportNodes` (`ff/all2all.hpp`). -/
inductive Obj
  | node
  | wrap (inner : Nat) (cleanup : Bool)
  | comb (left right : Nat) (cl : List Nat)
  | pipe (st : List Nat) (all : Bool) (sup dont uniq : List Nat)
  | farm (f : Farm)
  | a2a (w1 w2 sup : List Nat)
deriving DecidableEq, Repr

/-- What the destructor of an object deletes, in order.
`~OrderedWorkerWrapper` (`ff/ordering_policies.hpp` 149-151), `~internal_mo_transformer`
(`ff/multinode.hpp` 1090-1095), `~ff_comb` (`ff/combine.hpp` 127-131), `~ff_Pipe` then `~ff_pipeline`
(`ff/pipeline.hpp` 1851-1853, 888-908: from the last stage to the first, those on neither list, then
`internalSupportNodes`), `~ff_farm` (`ff/farm.hpp` 905-926), `~ff_a2a` (`ff/all2all.hpp` 399-408). -/
def deletes : Obj → List Nat
  | .node => []
  | .wrap n c => if c then [n] else []
  | .comb _ _ cl => cl
  | .pipe st all sup dont uniq =>
      uniq ++ (if all then st.reverse.filter (fun n => !(sup.contains n || dont.contains n)) else [])
        ++ sup
  | .farm f =>
      (if f.ec then f.emitter.toList else []) ++ (if f.cc then f.coll.toList else [])
        ++ (if f.wc then f.workers else []) ++ f.sup
  | .a2a _ _ sup => sup

/-- The heap, the next fresh address, the destructors that ran, and whether one ran on a dead object. -/
structure S where
  heap : Nat → Option Obj
  next : Nat
  log : List Nat
  bad : Bool

/-- The empty heap. -/
def init : S := ⟨fun _ => none, 0, [], false⟩

/-- Writing one entry of a heap. -/
def upd (h : Nat → Option Obj) (i : Nat) (v : Option Obj) : Nat → Option Obj :=
  fun j => if j = i then v else h j

/-- Assigning to the fields of an object. -/
def S.set (s : S) (i : Nat) (o : Obj) : S := { s with heap := upd s.heap i (some o) }

/-- `new`: the object gets the address `s.next`. -/
def S.alloc (s : S) (o : Obj) : S := { s with heap := upd s.heap s.next (some o), next := s.next + 1 }

/-- Running `delete` on a list of pointers.  The destructor of an object deletes its own parts before the
next pointer of the list is deleted.  The first argument bounds the number of destructors; running out of
it, like deleting a dead object, sets `bad`. -/
def delLoop : Nat → List Nat → S → S
  | 0, [], s => s
  | 0, _ :: _, s => { s with bad := true }
  | _ + 1, [], s => s
  | k + 1, n :: ws, s =>
      match s.heap n with
      | none => delLoop k ws { s with bad := true }
      | some o => delLoop k (deletes o ++ ws) { s with heap := upd s.heap n none, log := s.log ++ [n] }

/-- `delete n` (there are at most `s.next` live objects). -/
def del (n : Nat) (s : S) : S := delLoop (s.next + 1) [n] s

/-- `isFarm() || isPipe() || isAll2All()`. -/
def parallel : Option Obj → Bool
  | some (.pipe ..) => true
  | some (.farm _) => true
  | some (.a2a ..) => true
  | _ => false

/-- `isPipe()`. -/
def isPipe : Option Obj → Bool
  | some (.pipe ..) => true
  | _ => false

/-- `isComp()`. -/
def isComp : Option Obj → Bool
  | some (.comb ..) => true
  | _ => false

/-! ## Copies -/

/-- `new T(x)` where the copy constructor of `T` takes over the responsibilities of the source:
`ff_pipeline(const ff_pipeline&)` (`ff/pipeline.hpp` 860-883; `ff_Pipe` has the implicit copy constructor,
which also copies `cleanup_stages`), `ff_farm(const ff_farm&)` (`ff/farm.hpp` 806-854: the collector is
added only if `hasCollector()`), `ff_a2a(const ff_a2a&)` (`ff/all2all.hpp` 374-397), `ff_comb(const
ff_comb&)` (`ff/combine.hpp` 108-125; simplification: for parts that are not combines themselves),
`internal_mo_transformer(const internal_mo_transformer&)` (`ff/multinode.hpp` 1080-1089). -/
def copyObj (x : Nat) (s : S) : S :=
  match s.heap x with
  | none => { s with bad := true }
  | some .node => s.alloc .node
  | some (.wrap n c) => (s.set x (.wrap n false)).alloc (.wrap n c)
  | some (.comb l r cl) => (s.set x (.comb l r [])).alloc (.comb l r cl)
  | some (.pipe st all sup dont uniq) =>
      (s.set x (.pipe st false [] [] uniq)).alloc (.pipe st all sup dont uniq)
  | some (.farm f) =>
      (s.set x (.farm { f with wc := false, ec := false, cc := false, sup := [] })).alloc
        (.farm { f with coll := if f.removed then none else f.coll })
  | some (.a2a w1 w2 sup) => (s.set x (.a2a w1 w2 [])).alloc (.a2a w1 w2 sup)

/-! ## Pipelines -/

/-- `add_stage(T *s, bool cleanup)` (`ff/pipeline.hpp` 935-940). -/
def addStage (p x : Nat) (c : Bool) (s : S) : S :=
  match s.heap p with
  | some (.pipe st all sup dont uniq) =>
      s.set p (.pipe (st ++ [x]) all (if c then sup ++ [x] else sup) dont uniq)
  | _ => s

/-- `add_stage(const T& s)` (`ff/pipeline.hpp` 941-949): the stage is a copy, added with `cleanup=true`. -/
def addStageCopy (p x : Nat) (s : S) : S := addStage p s.next true (copyObj x s)

/-- `ff_Pipe::add_stage(std::unique_ptr<ff_node>&&)` (`ff/pipeline.hpp` 1880-1883): the released pointer
is added by `add2pipe`, that is by `add_stage(node)`. -/
def addStageUnique (p x : Nat) (s : S) : S := addStage p x false s

/-- `insert_stage(pos, node, cleanup)` (`ff/pipeline.hpp` 979-994). -/
def insertStage (p pos x : Nat) (c : Bool) (s : S) : S :=
  match s.heap p with
  | some (.pipe st all sup dont uniq) =>
      if pos ≤ st.length then
        s.set p (.pipe (st.take pos ++ x :: st.drop pos) all (if c then sup ++ [x] else sup) dont uniq)
      else s
  | _ => s

/-- `remove_stage(pos, remove_from_cleanuplist)` (`ff/pipeline.hpp` 957-978; the position is valid, which
the code asserts). -/
def removeStage (p pos : Nat) (rm : Bool) (s : S) : S :=
  match s.heap p with
  | some (.pipe st all sup dont uniq) =>
      match st[pos]? with
      | some x => s.set p (.pipe (st.eraseIdx pos) all (if rm then sup.erase x else sup) dont uniq)
      | none => s
  | _ => s

/-- `change_node(old, n, cleanup, remove_from_cleanuplist)` of a pipeline (`ff/pipeline.hpp` 1005-1018). -/
def changeStage (p old x : Nat) (c rm : Bool) (s : S) : S :=
  match s.heap p with
  | some (.pipe st _ _ _ _) =>
      if old ∈ st then removeStage p (st.idxOf old) rm (insertStage p (st.idxOf old + 1) x c s) else s
  | _ => s

/-- `cleanup_nodes(onoff)` (`ff/pipeline.hpp` 1053). -/
def cleanupNodes (p : Nat) (b : Bool) (s : S) : S :=
  match s.heap p with
  | some (.pipe st _ sup dont uniq) => s.set p (.pipe st b sup dont uniq)
  | _ => s

/-- The stages of a pipeline, each with the flag of the pipeline it is directly in
(`get_and_remove_nodes`, `ff/pipeline.hpp` 1023-1042; simplification: one level of nesting). -/
def gather (h : Nat → Option Obj) (all : Bool) : List Nat → List (Nat × Bool)
  | [] => []
  | n :: ns =>
      match h n with
      | some (.pipe st all' _ _ _) => st.map (fun x => (x, all')) ++ gather h all ns
      | _ => (n, all) :: gather h all ns

/-- The inner pipelines lose their stages (`ff/pipeline.hpp` 1040). -/
def emptied (h : Nat → Option Obj) (st : List Nat) : Nat → Option Obj := fun i =>
  match h i with
  | some (.pipe st' all sup dont uniq) =>
      if i ∈ st then some (.pipe [] all sup dont uniq) else some (.pipe st' all sup dont uniq)
  | o => o

/-- `flatten` (`ff/pipeline.hpp` 1380-1392) with `get_and_remove_nodes` (1023-1042): the inner pipelines
are put on the support list if the pipeline cleans up its stages; their stages become stages of the
pipeline; those that were not (were) cleaned up by a flag are put on `dontcleanup` (on the support list)
if the flag of the pipeline is (is not) set. -/
def flatten (p : Nat) (s : S) : S :=
  match s.heap p with
  | some (.pipe st all sup dont uniq) =>
      let W := gather s.heap all st
      let inner := st.filter (fun n => isPipe (s.heap n))
      let sup1 := if all then sup ++ inner.filter (fun n => !sup.contains n) else sup
      let sup2 := if all then sup1 else sup1 ++ (W.filter (fun w => w.2)).map (·.1)
      let dont2 := if all then dont ++ (W.filter (fun w => !w.2)).map (·.1) else dont
      { s with heap := upd (emptied s.heap st) p (some (.pipe (W.map (·.1)) all sup2 dont2 uniq)) }
  | _ => s

/-! ## Farms -/

/-- `add_workers(w)` (`ff/farm.hpp` 1128-1142). -/
def addWorkers (f : Nat) (ws : List Nat) (s : S) : S :=
  match s.heap f with
  | some (.farm fm) =>
      if fm.workers.length + ws.length ≤ fm.max ∧ ws ≠ [] then
        s.set f (.farm { fm with workers := fm.workers ++ ws }) else s
  | _ => s

/-- `change_workers(w)` (`ff/farm.hpp` 1147-1150). -/
def changeWorkers (f : Nat) (ws : List Nat) (s : S) : S :=
  match s.heap f with
  | some (.farm fm) => addWorkers f ws (s.set f (.farm { fm with workers := [] }))
  | _ => s

/-- `add_emitter(T *e)` (`ff/farm.hpp` 970-1004): a parallel block or a second emitter is refused. -/
def addEmitter (f e : Nat) (s : S) : S :=
  match s.heap f with
  | some (.farm fm) =>
      if parallel (s.heap e) ∨ fm.emitter ≠ none then s
      else s.set f (.farm { fm with emitter := some e })
  | _ => s

/-- `cleanup_emitter(onoff)` (`ff/farm.hpp` 1297-1299). -/
def cleanupEmitter (f : Nat) (b : Bool) (s : S) : S :=
  match s.heap f with
  | some (.farm fm) => s.set f (.farm { fm with ec := b })
  | _ => s

/-- `cleanup_workers(onoff)` (`ff/farm.hpp` 1294-1296). -/
def cleanupWorkers (f : Nat) (b : Bool) (s : S) : S :=
  match s.heap f with
  | some (.farm fm) => s.set f (.farm { fm with wc := b })
  | _ => s

/-- `cleanup_collector(onoff)` (`ff/farm.hpp` 1300-1302). -/
def cleanupCollector (f : Nat) (b : Bool) (s : S) : S :=
  match s.heap f with
  | some (.farm fm) => s.set f (.farm { fm with cc := b })
  | _ => s

/-- `add_emitter(const T& e)` (`ff/farm.hpp` 1005-1013): a copy; the flag is set if it was accepted. -/
def addEmitterCopy (f x : Nat) (s : S) : S :=
  let s1 := copyObj x s
  match s1.heap f with
  | some (.farm fm) =>
      if parallel (s1.heap s.next) ∨ fm.emitter ≠ none then s1
      else s1.set f (.farm { fm with emitter := some s.next, ec := true })
  | _ => s1

/-- `change_emitter(T *e, bool cleanup)` (`ff/farm.hpp` 1015-1026). -/
def changeEmitter (f e : Nat) (c : Bool) (s : S) : S :=
  match s.heap f with
  | some (.farm fm) =>
      match fm.emitter with
      | none => addEmitter f e s
      | some o =>
          let s1 := if fm.ec then del o s else s
          addEmitter f e (s1.set f (.farm { fm with emitter := none, ec := c }))
  | _ => s

/-- `add_collector(c, cleanup)` for a user's collector (`ff/farm.hpp` 1165-1195): a parallel block, or a
second collector while the first is in place, is refused. -/
def addCollector (f c : Nat) (cl : Bool) (s : S) : S :=
  match s.heap f with
  | some (.farm fm) =>
      if parallel (s.heap c) ∨ (fm.coll ≠ none ∧ !fm.removed) then s
      else s.set f (.farm { fm with coll := some c, cc := fm.cc || cl, removed := false })
  | _ => s

/-- `remove_collector()` of a farm without ordering (`ff/farm.hpp` 1260-1267). -/
def removeCollector (f : Nat) (s : S) : S :=
  match s.heap f with
  | some (.farm fm) => s.set f (.farm { fm with removed := true })
  | _ => s

/-- `change_node(old, n, cleanup, remove_from_cleanuplist)` of a farm (`ff/farm.hpp` 1028-1064). -/
def changeFarmNode (f old x : Nat) (c rm : Bool) (s : S) : S :=
  match s.heap f with
  | some (.farm fm) =>
      if fm.emitter = some old then changeEmitter f x c s
      else if fm.coll = some old ∧ !fm.removed then
        let s1 := if fm.cc then del old s else s
        addCollector f x false (s1.set f (.farm { fm with coll := none, cc := c }))
      else if old ∈ fm.workers then
        let sup1 := if rm then fm.sup.erase old else fm.sup
        let sup2 := if fm.wc then sup1 ++ [old] else sup1
        let sup3 := if c && !fm.wc then sup2 ++ [x] else sup2
        s.set f (.farm { fm with workers := fm.workers.set (fm.workers.idxOf old) x, sup := sup3 })
      else s
  | _ => s

/-- `prepare()` of an ordered farm with on-demand scheduling (`ff/farm.hpp` 230-255): every worker is
replaced by an `OrderedWorkerWrapper` that takes over the flag, and the wrappers are cleaned up.  A farm
whose first worker is a parallel block or a combine is refused. -/
def prepareOrdered (f : Nat) (s : S) : S :=
  match s.heap f with
  | some (.farm fm) =>
      if (fm.workers.head?.map fun w => parallel (s.heap w) || isComp (s.heap w)) ≠ some false then s else
      let h : Nat → Option Obj := fun i =>
        if i < s.next then s.heap i else (fm.workers[i - s.next]?).map (fun w => .wrap w fm.wc)
      { s with
        heap := upd h f (some (.farm { fm with
          workers := (List.range fm.workers.length).map (s.next + ·), wc := true }))
        next := s.next + fm.workers.length }
  | _ => s

/-! ## All-to-all blocks -/

/-- `add_firstset(w, ondemand, cleanup)` (`ff/all2all.hpp` 415-437). -/
def addFirst (a : Nat) (ws : List Nat) (c : Bool) (s : S) : S :=
  match s.heap a with
  | some (.a2a w1 w2 sup) =>
      if w1 ≠ [] ∨ ws = [] then s else s.set a (.a2a ws w2 (if c then sup ++ ws else sup))
  | _ => s

/-- `add_secondset(w, cleanup)` (`ff/all2all.hpp` 455-474). -/
def addSecond (a : Nat) (ws : List Nat) (c : Bool) (s : S) : S :=
  match s.heap a with
  | some (.a2a w1 w2 sup) =>
      if w2 ≠ [] ∨ ws = [] then s else s.set a (.a2a w1 ws (if c then sup ++ ws else sup))
  | _ => s

/-- `change_firstset(w, ondemand, cleanup, remove_from_cleanuplist)` (`ff/all2all.hpp` 438-450). -/
def changeFirst (a : Nat) (ws : List Nat) (c rm : Bool) (s : S) : S :=
  match s.heap a with
  | some (.a2a w1 w2 sup) =>
      addFirst a ws c (s.set a (.a2a [] w2 (if rm then w1.foldl (fun l x => l.erase x) sup else sup)))
  | _ => s

/-- `change_secondset(w, cleanup, remove_from_cleanuplist)` (`ff/all2all.hpp` 475-487). -/
def changeSecond (a : Nat) (ws : List Nat) (c rm : Bool) (s : S) : S :=
  match s.heap a with
  | some (.a2a w1 w2 sup) =>
      addSecond a ws c (s.set a (.a2a w1 [] (if rm then w2.foldl (fun l x => l.erase x) sup else sup)))
  | _ => s

/-- `change_node(old, n, cleanup, remove_from_cleanuplist)` of an all-to-all (`ff/all2all.hpp` 489-523). -/
def changeA2aNode (a old x : Nat) (c rm : Bool) (s : S) : S :=
  match s.heap a with
  | some (.a2a w1 w2 sup) =>
      let sup1 := if rm then sup.erase old else sup
      let sup2 := if c then sup1 ++ [x] else sup1
      if old ∈ w1 then s.set a (.a2a (w1.set (w1.idxOf old) x) w2 sup2)
      else if old ∈ w2 then s.set a (.a2a w1 (w2.set (w2.idxOf old) x) sup2)
      else s
  | _ => s

/-! ## Combines -/

/-- `ff_comb(n1, n2, first_cleanup, second_cleanup)` (`ff/combine.hpp` 94-107; simplification: the parts
are not parallel blocks). -/
def newComb (l r : Nat) (cl cr : Bool) (s : S) : S :=
  s.alloc (.comb l r ((if cl then [l] else []) ++ (if cr then [r] else [])))

/-- `replace_first(n, cleanup, remove_from_cleanuplist)` (`ff/combine.hpp` 208-224). -/
def replaceFirst (k x : Nat) (c rm : Bool) (s : S) : S :=
  match s.heap k with
  | some (.comb l r cl) =>
      if isComp (s.heap l) then s
      else
        let cl1 := if rm then cl.erase l else cl
        s.set k (.comb x r (if c then cl1 ++ [x] else cl1))
  | _ => s

/-- `replace_last(n, cleanup, remove_from_cleanuplist)` (`ff/combine.hpp` 227-243). -/
def replaceLast (k x : Nat) (c rm : Bool) (s : S) : S :=
  match s.heap k with
  | some (.comb l r cl) =>
      if isComp (s.heap r) then s
      else
        let cl1 := if rm then cl.erase r else cl
        s.set k (.comb l x (if c then cl1 ++ [x] else cl1))
  | _ => s

/-- `changeFirst(n, cleanup)` of a combine whose first part is not a combine (`ff/combine.hpp` 255-270):
the replaced node is deleted if it was handed over. -/
def changeFirstComb (k x : Nat) (c : Bool) (s : S) : S :=
  match s.heap k with
  | some (.comb l r cl) =>
      let s1 := s.set k (.comb x r (if c then cl.erase l ++ [x] else cl.erase l))
      if l ∈ cl then del l s1 else s1
  | _ => s

/-- `changeLast(n, cleanup)` of a combine whose last part is not a combine (`ff/combine.hpp` 272-287). -/
def changeLastComb (k x : Nat) (c : Bool) (s : S) : S :=
  match s.heap k with
  | some (.comb l r cl) =>
      let s1 := s.set k (.comb l x (if c then cl.erase r ++ [x] else cl.erase r))
      if r ∈ cl then del r s1 else s1
  | _ => s

/-! ## Rewriting of networks -/

/-- `combine_with_emitter(farm, node, cleanup_node)` (`ff/optimize.hpp` 115-141); `mo` tells whether the
emitter is multi-output (otherwise it is wrapped by an `internal_mo_transformer`). -/
def combEmitter (f x : Nat) (c mo : Bool) (s : S) : S :=
  match s.heap f with
  | some (.farm fm) =>
      if parallel (s.heap x) then s
      else match fm.emitter with
        | none => cleanupEmitter f c (addEmitter f x s)
        | some e =>
            if mo then
              changeEmitter f s.next true (cleanupEmitter f false (newComb x e c fm.ec s))
            else
              changeEmitter f (s.next + 1) true
                (cleanupEmitter f false (newComb x s.next c true (s.alloc (.wrap e fm.ec))))
  | _ => s

/-- `combine_with_collector(farm, node, cleanup_node)` (`ff/optimize.hpp` 148-167). -/
def combCollector (f x : Nat) (c : Bool) (s : S) : S :=
  match s.heap f with
  | some (.farm fm) =>
      match (if fm.removed then none else fm.coll) with
      | none => s
      | some k =>
          if parallel (s.heap x) then s
          else
            addCollector f s.next true
              (removeCollector f (cleanupCollector f false (newComb k x fm.cc c s)))
  | _ => s

/-- `combine_with_firststage(pipe, node, cleanup_node)` when the first stage is a sequential node
(`ff/optimize.hpp` 173-196, last branch; no stage is a pipeline, so `flatten` changes nothing). -/
def combFirst (p x : Nat) (c : Bool) (s : S) : S :=
  match s.heap p with
  | some (.pipe (n :: _) _ _ _ _) =>
      insertStage p 0 s.next true (removeStage p 0 false (newComb x n c false s))
  | _ => s

/-- `combine_with_laststage(pipe, node, cleanup_node)` when the last stage is a sequential node
(`ff/optimize.hpp` 306-328, last branch; no stage is a pipeline, so `flatten` changes nothing). -/
def combLast (p x : Nat) (c : Bool) (s : S) : S :=
  match s.heap p with
  | some (.pipe st all _ _ _) =>
      match st.getLast? with
      | none => s
      | some n =>
          insertStage p (st.length - 1) s.next true
            (removeStage p (st.length - 1) false (newComb n x all c s))
  | _ => s

/-! ## Programs -/

/-- The calls of a program. -/
inductive Op
  | newNode
  | newComb (l r : Nat) (cl cr : Bool)
  | newPipe
  | newPipeUnique (xs : List Nat)
  | newFarm (wc : Bool) (max : Nat)
  | newA2a
  | addStage (p x : Nat) (c : Bool)
  | addStageCopy (p x : Nat)
  | addStageUnique (p x : Nat)
  | insertStage (p pos x : Nat) (c : Bool)
  | removeStage (p pos : Nat) (rm : Bool)
  | changeStage (p old x : Nat) (c rm : Bool)
  | cleanupNodes (p : Nat) (b : Bool)
  | flatten (p : Nat)
  | addWorkers (f : Nat) (ws : List Nat)
  | changeWorkers (f : Nat) (ws : List Nat)
  | addEmitter (f e : Nat)
  | addEmitterCopy (f x : Nat)
  | changeEmitter (f e : Nat) (c : Bool)
  | addCollector (f c : Nat) (cl : Bool)
  | removeCollector (f : Nat)
  | cleanupWorkers (f : Nat) (b : Bool)
  | cleanupEmitter (f : Nat) (b : Bool)
  | cleanupCollector (f : Nat) (b : Bool)
  | changeFarmNode (f old x : Nat) (c rm : Bool)
  | prepareOrdered (f : Nat)
  | addFirst (a : Nat) (ws : List Nat) (c : Bool)
  | addSecond (a : Nat) (ws : List Nat) (c : Bool)
  | changeFirst (a : Nat) (ws : List Nat) (c rm : Bool)
  | changeSecond (a : Nat) (ws : List Nat) (c rm : Bool)
  | changeA2aNode (a old x : Nat) (c rm : Bool)
  | replaceFirst (k x : Nat) (c rm : Bool)
  | replaceLast (k x : Nat) (c rm : Bool)
  | changeFirstComb (k x : Nat) (c : Bool)
  | changeLastComb (k x : Nat) (c : Bool)
  | combEmitter (f x : Nat) (c mo : Bool)
  | combCollector (f x : Nat) (c : Bool)
  | combFirst (p x : Nat) (c : Bool)
  | combLast (p x : Nat) (c : Bool)
  | copy (x : Nat)
  | destroy (x : Nat)
deriving DecidableEq, Repr

/-- The effect of a call.  `newPipeUnique xs` is the constructor of `ff_Pipe` from unique pointers
(`ff/pipeline.hpp` 1797-1804, 1825-1832); `destroy x` is the end of the lifetime of `x`. -/
def apply : Op → S → S
  | .newNode, s => s.alloc .node
  | .newComb l r cl cr, s => newComb l r cl cr s
  | .newPipe, s => s.alloc (.pipe [] false [] [] [])
  | .newPipeUnique xs, s => s.alloc (.pipe xs false [] [] xs)
  | .newFarm wc max, s => s.alloc (.farm ⟨[], none, none, false, wc, false, false, [], max⟩)
  | .newA2a, s => s.alloc (.a2a [] [] [])
  | .addStage p x c, s => addStage p x c s
  | .addStageCopy p x, s => addStageCopy p x s
  | .addStageUnique p x, s => addStageUnique p x s
  | .insertStage p pos x c, s => insertStage p pos x c s
  | .removeStage p pos rm, s => removeStage p pos rm s
  | .changeStage p old x c rm, s => changeStage p old x c rm s
  | .cleanupNodes p b, s => cleanupNodes p b s
  | .flatten p, s => flatten p s
  | .addWorkers f ws, s => addWorkers f ws s
  | .changeWorkers f ws, s => changeWorkers f ws s
  | .addEmitter f e, s => addEmitter f e s
  | .addEmitterCopy f x, s => addEmitterCopy f x s
  | .changeEmitter f e c, s => changeEmitter f e c s
  | .addCollector f c cl, s => addCollector f c cl s
  | .removeCollector f, s => removeCollector f s
  | .cleanupWorkers f b, s => cleanupWorkers f b s
  | .cleanupEmitter f b, s => cleanupEmitter f b s
  | .cleanupCollector f b, s => cleanupCollector f b s
  | .changeFarmNode f old x c rm, s => changeFarmNode f old x c rm s
  | .prepareOrdered f, s => prepareOrdered f s
  | .addFirst a ws c, s => addFirst a ws c s
  | .addSecond a ws c, s => addSecond a ws c s
  | .changeFirst a ws c rm, s => changeFirst a ws c rm s
  | .changeSecond a ws c rm, s => changeSecond a ws c rm s
  | .changeA2aNode a old x c rm, s => changeA2aNode a old x c rm s
  | .replaceFirst k x c rm, s => replaceFirst k x c rm s
  | .replaceLast k x c rm, s => replaceLast k x c rm s
  | .changeFirstComb k x c, s => changeFirstComb k x c s
  | .changeLastComb k x c, s => changeLastComb k x c s
  | .combEmitter f x c mo, s => combEmitter f x c mo s
  | .combCollector f x c, s => combCollector f x c s
  | .combFirst p x c, s => combFirst p x c s
  | .combLast p x c, s => combLast p x c s
  | .copy x, s => copyObj x s
  | .destroy x, s => del x s

/-- Running a program. -/
def run (ops : List Op) (s : S) : S := ops.foldl (fun s o => apply o s) s

end FF.Own
