/-
Model of `optimize_static` (`/repo/ff/optimize.hpp` 331-795) on networks (`Verif.Opt.Spec`).

A C++ call that never returns, calls `abort`, or has undefined behaviour is a separate
outcome.  Not modelled: the `prepared` checks (optimising after `prepare` returns -1), clean-up flags,
reports, blocking mode, thread mapping and initial barrier (they change no stream).
Loops and recursion take fuel; `loop` is returned when it runs out.
-/
import Verif.Opt.Spec

namespace FF.Opt

variable {α : Type}

/-- Outcome of a call. -/
inductive Res (β : Type) where
  | ok (b : β)
  | ub
  | abort
  | loop

/-- Sequencing. -/
def Res.bind {β γ : Type} : Res β → (β → Res γ) → Res γ
  | .ok b, f => f b
  | .ub, _ => .ub
  | .abort, _ => .abort
  | .loop, _ => .loop

/-- Apply a call to every element, left to right. -/
def mapR {β γ : Type} (f : β → Res γ) : List β → Res (List γ)
  | [] => .ok []
  | x :: xs => (f x).bind fun y => (mapR f xs).bind fun ys => .ok (y :: ys)

/-- The options of `optimize_static` that change the network (node.hpp 92-121). -/
structure Opts where
  mergeFarms : Bool := false
  introduceA2A : Bool := false
  removeColl : Bool := false
  mergeEmit : Bool := false

/-- `OptLevel1` (node.hpp 104-111). -/
def level1 : Opts := { removeColl := true }

/-- `OptLevel2` (node.hpp 112-121). -/
def level2 : Opts := { mergeFarms := true, removeColl := true, mergeEmit := true }

/-! ### Queries on building blocks -/

/-- `isFarm` (farm.hpp 1277). -/
def Sk.isFarm : Sk α → Bool
  | .farm _ _ => true
  | _ => false

/-- `isOFarm` (farm.hpp 1278). -/
def Sk.isOFarm : Sk α → Bool
  | .farm h _ => h.ordered
  | _ => false

/-- `isAll2All`. -/
def Sk.isA2A : Sk α → Bool
  | .a2a _ _ => true
  | _ => false

/-- `isPipe`. -/
def Sk.isPipe : Sk α → Bool
  | .pipe _ => true
  | _ => false

/-- `getCollector` (farm.hpp 1693-1696): null for the default or a removed collector. -/
def Hdr.getColl (h : Hdr α) : Option (Node α) :=
  match h.coll with
  | .node n => some n
  | _ => none

/-- `hasCollector` (farm.hpp 1281-1283). -/
def Hdr.hasColl (h : Hdr α) : Bool :=
  h.ordered || h.coll.gathers

/-- `remove_collector` (farm.hpp 1260-1267). -/
def Hdr.removeColl (h : Hdr α) : Hdr α :=
  if h.ordered then { h with coll := .dflt } else { h with coll := .none }

/-- `add_collector(c)` on a farm without user collector (farm.hpp 1168-1202). -/
def Hdr.addColl (h : Hdr α) (c : Option (Node α)) : Hdr α :=
  match c with
  | some n => { h with coll := .node n }
  | none => { h with coll := .dflt }

/-- `add_emitter(e)` on a farm without emitter (farm.hpp 955-990): a composition that does not end with a
multi-output node calls `abort`. -/
def Hdr.addEmit (h : Hdr α) (e : Node α) : Res (Hdr α) :=
  if e.comp && !e.mo then .abort else .ok { h with emitter := some e }

/-- `set_scheduling_ondemand` (farm.hpp 1083-1091). -/
def Hdr.setOndemand (h : Hdr α) (k : Nat) : Hdr α :=
  { h with ondemand := if k = 0 then 1 else k }

/-- `isMultiOutput` of a farm (farm.hpp 1271-1275). -/
def Hdr.isMO (h : Hdr α) : Bool :=
  match h.coll with
  | .none => true
  | .dflt => false
  | .node n => n.mo

/-- `isMultiInput` of a stage (node.hpp 1232, multinode.hpp 300, farm.hpp 1269, all2all.hpp 799,
pipeline.hpp 1370-1373). -/
def Sk.isMI : Sk α → Bool
  | .leaf n => n.mi
  | .farm _ _ => true
  | .a2a _ _ => true
  | .pipe [] => false
  | .pipe (s :: _) => s.isMI

/-- `isMultiOutput` of a stage that is not a pipeline (all2all.hpp 800). -/
def Sk.isMO : Sk α → Bool
  | .leaf n => n.mo
  | .farm h _ => h.isMO
  | .a2a _ _ => true
  | .pipe _ => false

/-- A farm with default or no collector: the test of `find_farm_with_null_collector`
(optimize.hpp 508-517). -/
def Sk.nullColl : Sk α → Bool
  | .farm h _ => h.getColl.isNone
  | _ => false

/-- The test of `find_farm_with_null_emitter` (optimize.hpp 518-527). -/
def Sk.nullEmit : Sk α → Bool
  | .farm h _ => h.emitter.isNone
  | _ => false

/-- Both searches: the first position from `start` whose stage passes the test. -/
def findFrom (p : Sk α → Bool) (ss : List (Sk α)) (start : Nat) : Option Nat :=
  ((ss.drop start).findIdx? p).map (· + start)

/-! ### Combination of nodes -/

/-- `ff_comb(n1, n2)` (combine.hpp 80-110, 339-357, 545-558): what the first node sends is given at
once to the second one. -/
def combNode (a b : Node α) : Node α where
  out h x := b.run (vals (a.run [] h)) (vals (a.out h x))
  mi := a.mi
  mo := b.mo
  comp := true

/-- The constructor on arbitrary building blocks.  `check` (combine.hpp 330-337) only reports parallel
blocks and leaves the composition empty; using it later reads outside a vector. -/
def combSk : Sk α → Sk α → Res (Sk α)
  | .leaf a, .leaf b => .ok (.leaf (combNode a b))
  | _, _ => .ub

/-- One row of `combine_farm_sequence` (optimize.hpp 581-596). -/
def combRow : List (Sk α) → List (Sk α) → Res (List (Sk α))
  | [], _ => .ok []
  | a :: as, b :: bs => (combSk a b).bind fun c => (combRow as bs).bind fun cs => .ok (c :: cs)
  | _ :: _, [] => .ub

/-- All rows: worker `j` of the first farm is combined with worker `j` of the others. -/
def combRows (ws : List (Sk α)) : List (List (Sk α)) → Res (List (Sk α))
  | [] => .ok ws
  | r :: rs => (combRow ws r).bind fun ws' => combRows ws' rs

/-- `getWorkers` through `reinterpret_cast<ff_farm*>`. -/
def Sk.workers : Sk α → Res (List (Sk α))
  | .farm _ ws => .ok ws
  | _ => .ub

/-- `hasCollector`/`getCollector` of the last farm of the sequence, and the effect of
`newfarm->add_collector` (optimize.hpp 606-607). -/
def newColl (h : Hdr α) (last : Sk α) : Res (Hdr α) :=
  match last with
  | .farm hl _ => .ok (if hl.hasColl then h.addColl hl.getColl else { h with coll := .none })
  | _ => .ub

/-- `combine_farm_sequence` (optimize.hpp 569-613) on the stages `first_farm .. last_farm`. -/
def combineSeq : List (Sk α) → Res (Sk α)
  | .farm h ws :: rest =>
    (mapR Sk.workers rest).bind fun rows =>
    (combRows ws rows).bind fun ws' =>
    let h0 : Hdr α := { emitter := none, coll := .none, ordered := h.ordered }
    (match h.emitter with
      | none => Res.ok h0
      | some e => h0.addEmit e).bind fun h1 =>
    (newColl h1 (rest.getLastD (.farm h ws))).bind fun h2 =>
    .ok (.farm (h2.setOndemand h.ondemand) ws')
  | _ => .ub

/-! ### `merge_farms` -/

/-- The conditions of `farm_sequence` on one stage, evaluated left to right (optimize.hpp 541-545);
the casts are not preceded by an `isFarm` test. -/
def seqTest (ofarm : Bool) (nw : Nat) (s : Sk α) : Res Bool :=
  if s.isOFarm = ofarm then
    match s with
    | .farm h ws => .ok (ws.length == nw && h.getColl.isNone && h.emitter.isNone)
    | _ => .ub
  else .ok false

/-- The inner loop (optimize.hpp 540-548). -/
def seqTests (ofarm : Bool) (nw : Nat) : List (Sk α) → Res Bool
  | [] => .ok true
  | s :: ss => (seqTest ofarm nw s).bind fun b => if b then seqTests ofarm nw ss else .ok false

/-- `farm_sequence` (optimize.hpp 529-567): the last farm of the sequence, if any.  (When a test fails and no
sequence was found the code looks for another starting farm but then leaves the loop.) -/
def farmSeq (ofarm : Bool) (nw : Nat) (ss : List (Sk α)) :
    Nat → Nat → Option Nat → Res (Option Nat)
  | 0, _, _ => .loop
  | n + 1, sp, last =>
    if sp < ss.length then
      match findFrom Sk.nullEmit ss sp with
      | none => .ok last
      | some next =>
        (seqTests ofarm nw ((ss.drop sp).take (next + 1 - sp))).bind fun b =>
        if b then farmSeq ofarm nw ss n (next + 1) (some next) else .ok last
    else .ok last

/-- One round of the `do` loop of `merge_farms` (optimize.hpp 620-631). -/
def mergeRound (n : Nat) (ss : List (Sk α)) (f : Nat) : Res (List (Sk α)) :=
  match ss[f]? with
  | some (.farm h ws) =>
    (farmSeq h.ordered ws.length ss n (f + 1) none).bind fun last =>
    match last with
    | none => .ok ss
    | some l =>
      if f < l then
        (combineSeq ((ss.drop f).take (l + 1 - f))).bind fun nf =>
        .ok (ss.take f ++ nf :: ss.drop (l + 1))
      else .ok ss
  | _ => .ub

/-- The `do` loop (optimize.hpp 620-632). -/
def mergeLoop : Nat → List (Sk α) → Nat → Res (List (Sk α))
  | 0, _, _ => .loop
  | n + 1, ss, f =>
    (mergeRound n ss f).bind fun ss' =>
    match findFrom Sk.nullColl ss' (f + 1) with
    | none => .ok ss'
    | some f' => mergeLoop n ss' f'

/-- `merge_farms` (optimize.hpp 616-634). -/
def mergeFarms (n : Nat) (ss : List (Sk α)) : Res (List (Sk α)) :=
  match findFrom Sk.nullColl ss 0 with
  | none => .ok ss
  | some f => mergeLoop n ss f

/-! ### `introduce_a2a` -/

/-- `combine_farms_a2a(farm1, farm2)` (combine.hpp 975-1024). -/
def combineA2A (h1 : Hdr α) (w1 : List (Sk α)) (h2 : Hdr α) (w2 : List (Sk α)) : Res (Sk α) :=
  let h0 : Hdr α := { emitter := none, coll := .none }
  (match h1.emitter with
    | none => Res.ok h0
    | some e => h0.addEmit e).bind fun h' =>
  let h'' := if h2.hasColl then h'.addColl h2.getColl else h'
  let h3 := if h1.ondemand = 0 then h'' else h''.setOndemand h1.ondemand
  .ok (.farm h3 [.a2a w1 w2])

/-- The `while` loop of `introduce_a2a` (optimize.hpp 637-664). -/
def a2aLoop : Nat → List (Sk α) → Option Nat → Res (List (Sk α))
  | 0, _, _ => .loop
  | _ + 1, ss, none => .ok ss
  | n + 1, ss, some f =>
    if f < ss.length - 1 then
      match ss[f]?, ss[f + 1]? with
      | some (.farm h1 w1), some s2 =>
        if h1.ordered then a2aLoop n ss (findFrom Sk.nullColl ss (f + 1))
        else
          match s2 with
          | .farm h2 w2 =>
            if h2.ordered then a2aLoop n ss (findFrom Sk.nullColl ss (f + 2))
            else if h2.emitter.isNone then
              (combineA2A h1 w1 h2 w2).bind fun nf =>
              let ss' := ss.take f ++ nf :: ss.drop (f + 2)
              a2aLoop n ss' (findFrom Sk.nullColl ss' (f + 1))
            else a2aLoop n ss (some f)
          | _ => a2aLoop n ss (findFrom Sk.nullColl ss (f + 2))
      | _, _ => .ub
    else .ok ss

/-- `introduce_a2a` (optimize.hpp 635-665). -/
def introduceA2A (n : Nat) (ss : List (Sk α)) : Res (List (Sk α)) :=
  a2aLoop n ss (findFrom Sk.nullColl ss 0)

/-! ### `remove_collector` -/

/-- `internal_mi_transformer(n)` (multinode.hpp 1163-1290): a multi-input node that calls `n`.  It does not
override `isMultiOutput` or `isComp`. -/
def miNode (n : Node α) : Node α :=
  { out := n.out, mi := true, mo := false, comp := false, once := true }

/-- One round (optimize.hpp 684-723) at the farm of position `f`.  The pipeline has been flattened, so a
stage is never a pipeline (`ub` there is not reached). -/
def rmRound (ss : List (Sk α)) (f : Nat) : Res (List (Sk α)) :=
  match ss[f]? with
  | some (.farm h ws) =>
    match ss[f + 1]? with
    | some nx =>
      if h.hasColl then
        if h.ordered then
          match nx with
          | .leaf m => .ok (ss.take f ++ .farm (h.addColl (some m)) ws :: ss.drop (f + 2))
          | .pipe _ => .ub
          | _ => .ok ss
        else
          match nx with
          | .a2a _ _ => .ok ss
          | .leaf m =>
            .ok (ss.take f ++ .farm h.removeColl ws ::
              .leaf (if m.mi then m else miNode m) :: ss.drop (f + 2))
          | .farm _ _ => .ok (ss.take f ++ .farm h.removeColl ws :: ss.drop (f + 1))
          | .pipe _ => .ub
      else .ok ss
    | none =>
      if !h.ordered && h.hasColl then .ok (ss.take f ++ .farm h.removeColl ws :: ss.drop (f + 1))
      else .ok ss
  | _ => .ub

/-- The `while` loop (optimize.hpp 682-725). -/
def rmLoop : Nat → List (Sk α) → Nat → Res (List (Sk α))
  | 0, _, _ => .loop
  | n + 1, ss, next =>
    match findFrom Sk.nullColl ss next with
    | none => .ok ss
    | some f => (rmRound ss f).bind fun ss' => rmLoop n ss' (f + 1)

/-! ### `merge_with_emitter` -/

/-- `merge_with_emitter` (optimize.hpp 727-767). -/
def mergeEmit (ss : List (Sk α)) : Res (List (Sk α)) :=
  match findFrom Sk.nullEmit ss 0 with
  | none => .ok ss
  | some 0 => .ok ss
  | some (f + 1) =>
    match ss[f]?, ss[f + 1]? with
    | some prev, some (.farm h ws) =>
      if prev.isMO then .ok ss
      else
        match prev with
        | .farm hp wp =>
          if hp.hasColl then
            match hp.getColl with
            | none => .ub
            | some c =>
              if c.mi && !c.comp then .abort
              else
                (h.addEmit c).bind fun h' =>
                .ok (ss.take f ++ .farm hp.removeColl wp :: .farm h' ws :: ss.drop (f + 2))
          else .ok ss
        | .leaf m =>
          if m.mi && !m.comp then .abort
          else
            (h.addEmit m).bind fun h' =>
            .ok (ss.take f ++ .farm h' ws :: ss.drop (f + 2))
        | _ => .ub
    | _, _ => .ub

/-! ### The recursion -/

mutual
/-- `flatten` (pipeline.hpp 1019-1038, 1382-1393): stages that are pipelines are replaced by their
stages. -/
def flat : List (Sk α) → List (Sk α)
  | [] => []
  | s :: ss => flat1 s ++ flat ss
/-- One stage. -/
def flat1 : Sk α → List (Sk α)
  | .pipe ss => flat ss
  | .leaf n => [.leaf n]
  | .farm h ws => [.farm h ws]
  | .a2a l r => [.a2a l r]
end

/-- Apply a call to the workers that are pipelines. -/
def onPipe (f : List (Sk α) → Res (List (Sk α))) : Sk α → Res (Sk α)
  | .pipe ss => (f ss).bind fun ss' => .ok (.pipe ss')
  | s => .ok s

/-- The workers of a stage that are pipelines are optimised first (optimize.hpp 478-505). -/
def onInner (f : List (Sk α) → Res (List (Sk α))) : Sk α → Res (Sk α)
  | .farm h ws => (mapR (onPipe f) ws).bind fun ws' => .ok (.farm h ws')
  | .a2a l r =>
    (mapR (onPipe f) l).bind fun l' => (mapR (onPipe f) r).bind fun r' => .ok (.a2a l' r')
  | s => .ok s

/-- Farms among the stages are optimised before their collectors are removed
(optimize.hpp 668-680). -/
def onFarm (g : List (Sk α) → Res (List (Sk α))) : Sk α → Res (Sk α)
  | .farm h ws => (g ws).bind fun ws' => .ok (.farm h ws')
  | s => .ok s

/-- The workers of a farm when collectors are removed (optimize.hpp 371-424): `f` optimises pipelines,
`g` the workers of inner farms. -/
def onWorker (f g : List (Sk α) → Res (List (Sk α))) : Sk α → Res (Sk α)
  | .farm h ws =>
    if h.ordered then .ok (.farm h ws)
    else (g ws).bind fun ws' =>
      .ok (.farm (if h.getColl.isNone then h.removeColl else h) ws')
  | .pipe ss => (f ss).bind fun ss' => .ok (.pipe ss')
  | .a2a l r =>
    (mapR (onPipe f) l).bind fun l' => (mapR (onPipe f) r).bind fun r' => .ok (.a2a l' r')
  | .leaf n => .ok (.leaf n)

mutual
/-- `optimize_static(ff_pipeline&, opt)` (optimize.hpp 460-795). -/
def optPipe : Nat → Opts → List (Sk α) → Res (List (Sk α))
  | 0, _, _ => .loop
  | n + 1, o, ss =>
    (mapR (onInner (optPipe n o)) (flat ss)).bind fun s1 =>
    (if o.mergeFarms then mergeFarms n s1 else .ok s1).bind fun s2 =>
    (if o.introduceA2A then introduceA2A n s2 else .ok s2).bind fun s3 =>
    (if o.removeColl then
      (mapR (onFarm (optFarm n level1)) s3).bind fun s4 => rmLoop n s4 0
     else .ok s3).bind fun s5 =>
    if o.mergeEmit then mergeEmit s5 else .ok s5
/-- `optimize_static(ff_farm&, opt)` (optimize.hpp 336-455) on the workers of the farm. -/
def optFarm : Nat → Opts → List (Sk α) → Res (List (Sk α))
  | 0, _, _ => .loop
  | n + 1, o, ws =>
    (mapR (onPipe (optPipe n o)) ws).bind fun w1 =>
    if o.removeColl then mapR (onWorker (optPipe n level1) (optFarm n level1)) w1 else .ok w1
end

end FF.Opt
