import Verif.Own.RewriteC
import Verif.Own.Flatten

/-!
# Every block deletes exactly what it was made responsible for, once

Property C73.  The rules are in `Verif/Own/Spec.lean`, the code in `Verif/Own/Model.lean`.
-/

namespace FF.Own

variable {s : S} {g g' : G} {op : Op}

/-- Every legal call keeps the invariant. -/
theorem Call.inv (hc : Call s g op g') (hi : Inv s g) : Inv (apply op s) g' := by
  induction hc with
  | newNode => exact hi.allocEmpty (by intro r; cases r <;> rfl)
  | newPipe => exact hi.allocEmpty (by intro r; cases r <;> rfl)
  | newFarm wc max => exact hi.allocEmpty (by intro r; cases r <;> cases wc <;> rfl)
  | newA2a => exact hi.allocEmpty (by intro r; cases r <;> rfl)
  | newComb l r cl cr h => exact hi.newComb h
  | newPipeUnique xs h => exact hi.newPipeUnique h
  | addStageHand p x st all sup dont uniq hp hx => exact hi.addStageHand hp hx
  | addStageFlag p x st sup dont uniq hp hx hd => exact hi.addStageFlag hp hx hd
  | addStage p x st sup dont uniq hp => exact hi.addStagePlain hp
  | addStageCopy p x st all sup dont uniq hp hx => exact hi.addStageCopy hp hx
  | insertStageHand p pos x st all sup dont uniq hp hpos hx =>
      exact hi.insert hp hpos (hi.addStageHand hp hx)
  | insertStageFlag p pos x st sup dont uniq hp hpos hx hd =>
      exact hi.insert hp hpos (hi.addStageFlag hp hx hd)
  | insertStage p pos x st sup dont uniq hp =>
      by_cases hpos : pos ≤ st.length
      · exact hi.insert hp hpos (hi.addStagePlain hp)
      · exact hi.insertErr hp (Nat.lt_of_not_le hpos)
  | insertStageErr p pos x c st all sup dont uniq hp hpos => exact hi.insertErr hp hpos
  | removeStage p pos st all sup dont uniq x hp hx hn =>
      have := hi.remove (rm := false) hp hx hn
      simpa only [Bool.false_eq_true, if_false, apply] using this
  | removeStageBack p pos st all sup dont uniq x hp hx hn =>
      have := hi.remove (rm := true) hp hx hn
      simpa only [if_true, apply] using this
  | changeStageHand p old x rm st all sup dont uniq hp ho hn hxs hx =>
      exact hi.change hp ho hn hxs (hi.addStageHand hp hx)
  | changeStageFlag p old x rm st sup dont uniq hp ho hn hxs hx hd =>
      exact hi.change hp ho hn hxs (hi.addStageFlag hp hx hd)
  | changeStage p old x rm st sup dont uniq hp ho hn hxs =>
      have h := hi.change (rm := rm) hp ho hn hxs (hi.addStagePlain hp)
      have h2 : back g [old] p .stage = g := by
        apply back_self
        intro y _ hc
        exact absurd (((hi.pipe_stage hp).2 y).2 hc).1 (by simp)
      rwa [h2] at h
  | cleanupNodes p st all sup dont uniq hp hn hx => exact hi.cleanupNodesOn hp hn hx
  | cleanupNodesOff p st all sup dont uniq hp => exact hi.cleanupNodesOff hp
  | flatten p st all sup dont uniq hp hps hn hq => exact hi.flatten hp hps hn hq
  | addWorkersFlag f fm ws hf hw hs hx => exact hi.addWorkersFlag hf hw hs hx
  | addWorkers f fm ws hf hw => exact hi.addWorkersPlain hf hw
  | addWorkersErr f fm ws hf hs => exact hi.addWorkersErr hf hs
  | changeWorkersFlag f fm ws hf hw hs hx => exact hi.changeWorkersFlag hf hw hs hx
  | changeWorkers f fm ws hf hw => exact hi.changeWorkersPlain hf hw
  | changeWorkersErr f fm ws hf hs => exact hi.changeWorkersErr hf hs
  | cleanupWorkers f fm hf hn hx => exact hi.cleanupWorkersOn hf hn hx
  | cleanupWorkersOff f fm hf => exact hi.cleanupWorkersOff hf
  | addEmitterFlag f fm e hf he hn hx hk => exact hi.addEmitterFlag hf he hn hx hk
  | addEmitter f fm e hf he => exact hi.addEmitterPlain hf he
  | addEmitterErr f fm e hf hk => exact hi.addEmitterErr hf hk
  | addEmitterCopy f fm x hf hn hx hk => exact hi.addEmitterCopy hf hn hx hk
  | changeEmitterNew f fm e c hf hn hc hx hk => exact hi.changeEmitterNew hf hn hx hk
  | changeEmitter f fm e c o hf hn hx hk hfo => exact hi.changeEmitter hf hn hx hk hfo
  | cleanupEmitter f fm hf hx => exact hi.cleanupEmitterOn hf hx
  | cleanupEmitterOff f fm hf => exact hi.cleanupEmitterOff hf
  | addCollectorHand f fm c cl hf hc hn hx hk => exact hi.addCollectorHand hf hc hn hx hk
  | addCollector f fm c hf hc => exact hi.addCollectorPlain hf hc
  | addCollectorErr f fm c cl hf hk => exact hi.addCollectorErr hf hk
  | removeCollector f fm hf => exact hi.removeColl hf
  | cleanupCollector f fm hf hx => exact hi.cleanupCollectorOn hf hx
  | cleanupCollectorOff f fm hf => exact hi.cleanupCollectorOff hf
  | changeFarmEmitter f fm old x c rm g' hf ho hr h ih =>
      have e : apply (.changeFarmNode f old x c rm) s = apply (.changeEmitter f x c) s := by
        simp only [apply, Own.changeFarmNode, hf, ho, if_true]
      rw [e]; exact ih
  | changeFarmCollector f fm old x c rm hf hne ho hrm hr hx hk hfo =>
      exact hi.changeFarmCollector hf hne ho hrm hx hk hfo
  | changeFarmWorkerFlag f fm old x c hf hne hnc ho hw hx =>
      exact hi.changeFarmWorkerFlag hf hne hnc ho hw hx
  | changeFarmWorker f fm old x c rm hf hne hnc ho hw hx =>
      exact hi.changeFarmWorker hf hne hnc ho hw hx
  | prepareOrdered f fm hf hk => exact hi.prepareOrdered hf hk
  | addFirstHand a w2 sup ws ha hw hx => exact hi.addFirstHand ha hw hx
  | addFirst a w1 w2 sup ws ha => exact hi.addFirstPlain ha
  | addFirstErr a w1 w2 sup ws c ha hw => exact hi.addFirstErr ha hw
  | addSecondHand a w1 sup ws ha hw hx => exact hi.addSecondHand ha hw hx
  | addSecond a w1 w2 sup ws ha => exact hi.addSecondPlain ha
  | addSecondErr a w1 w2 sup ws c ha hw => exact hi.addSecondErr ha hw
  | changeFirst a w1 w2 sup ws c rm ha hw hx => exact hi.changeFirst ha hw hx
  | changeSecond a w1 w2 sup ws c rm ha hw hx => exact hi.changeSecond ha hw hx
  | changeA2aNode a w1 w2 sup old x c rm ha ho hx => exact hi.changeA2aNode ha ho hx
  | replaceFirst k l r cl x c rm hk hl hx => exact hi.replaceFirst hk hl hx
  | replaceLast k l r cl x c rm hk hl hx => exact hi.replaceLast hk hl hx
  | changeFirstComb k l r cl x c hk hl hx => exact hi.changeFirstComb hk hx
  | changeLastComb k l r cl x c hk hl hx => exact hi.changeLastComb hk hx
  | combEmitterNew f fm x c mo hf hn hx hk => exact hi.combEmitterNew hf hn hx hk
  | combEmitter f fm e x c hf he hx hk => exact hi.combEmitter hf he hx hk
  | combEmitterWrap f fm e x c hf he hx hk => exact hi.combEmitterWrap hf he hx hk
  | combCollector f fm k x c hf he hr hx hk => exact hi.combCollector hf he hr hx hk
  | combFirst p n st all sup dont uniq x c hp hn hr hx => exact hi.combFirst hp hn hr hx
  | combLast p n st all sup dont uniq x c hp hn hr hx => exact hi.combLast hp hn hr hx
  | copy x hx => exact hi.copy hx
  | destroy x hx =>
      obtain ⟨ds, _, _, _, _, _, _, h⟩ := del_spec hi hx.1 hx.2
      exact h

theorem Legal.inv (h : Legal s g) : Inv s g := by
  induction h with
  | init => exact Inv.init
  | call _ hc ih => exact hc.inv ih

/-! ## The theorems -/

/-- **C73** (safety).  Whatever legal calls a program makes: no object is deleted twice or after its
deletion, and an object is alive exactly as long as its destructor has not run. -/
theorem C73_safe_partial (h : Legal s g) :
    s.bad = false ∧ s.log.Nodup ∧ (∀ x ∈ s.log, s.heap x = none) ∧
      ∀ x < s.next, x ∉ s.log → Live s x := by
  have hi := h.inv
  refine ⟨hi.ok, hi.lognd, ?_, fun x hx hl => (hi.log x hx).2 hl⟩
  intro x hx
  cases hh : s.heap x with
  | none => rfl
  | some o => exact absurd hx ((hi.log x (hi.loglt x hx)).1 (by simp [Live, hh]))

/-- **C73** (exactly what was handed over).  When the lifetime of an object `x` of the user ends, the
objects deleted are exactly `x`, what was handed over to it, what was handed over to that, and so on;
each of them once; no other object changes. -/
theorem C73_destroy_partial (h : Legal s g) {x : Nat} (hx : Mine s g x) :
    ∃ ds : List Nat, (apply (.destroy x) s).log = s.log ++ ds ∧ ds.Nodup ∧
      (∀ y, y ∈ ds ↔ Under g y x) ∧
      (∀ y, (apply (.destroy x) s).heap y = if y ∈ ds then none else s.heap y) ∧
      (apply (.destroy x) s).bad = false := by
  obtain ⟨ds, h1, h2, h3, h4, _, _, h7⟩ := del_spec h.inv hx.1 hx.2
  exact ⟨ds, h1, h2, h3, h4, h7.ok⟩

/-- The calls that delete: ending a lifetime, and replacing an emitter, a collector or a part of a
combine. -/
def Op.mayDelete : Op → Bool
  | .destroy _ => true
  | .changeEmitter .. => true
  | .changeFarmNode .. => true
  | .changeFirstComb .. => true
  | .changeLastComb .. => true
  | .combEmitter .. => true
  | _ => false

theorem copyObj_log (x : Nat) (s : S) : (copyObj x s).log = s.log := by
  unfold copyObj
  split <;> rfl

theorem addStage_log (p x : Nat) (c : Bool) (s : S) : (addStage p x c s).log = s.log := by
  unfold addStage
  split <;> rfl

theorem insertStage_log (p pos x : Nat) (c : Bool) (s : S) : (insertStage p pos x c s).log = s.log := by
  unfold insertStage
  split
  · split <;> rfl
  · rfl

theorem removeStage_log (p pos : Nat) (c : Bool) (s : S) : (removeStage p pos c s).log = s.log := by
  unfold removeStage
  split
  · split <;> rfl
  · rfl

theorem addWorkers_log (f : Nat) (ws : List Nat) (s : S) : (addWorkers f ws s).log = s.log := by
  unfold addWorkers
  split
  · split <;> rfl
  · rfl

theorem addFirst_log (f : Nat) (ws : List Nat) (c : Bool) (s : S) : (addFirst f ws c s).log = s.log := by
  unfold addFirst
  split
  · split <;> rfl
  · rfl

theorem addSecond_log (f : Nat) (ws : List Nat) (c : Bool) (s : S) : (addSecond f ws c s).log = s.log := by
  unfold addSecond
  split
  · split <;> rfl
  · rfl

theorem addEmitter_log (f e : Nat) (s : S) : (addEmitter f e s).log = s.log := by
  unfold addEmitter
  split
  · split <;> rfl
  · rfl

theorem addCollector_log (f e : Nat) (c : Bool) (s : S) : (addCollector f e c s).log = s.log := by
  unfold addCollector
  split
  · split <;> rfl
  · rfl

theorem removeCollector_log (f : Nat) (s : S) : (removeCollector f s).log = s.log := by
  unfold removeCollector
  split <;> rfl

theorem cleanupCollector_log (f : Nat) (c : Bool) (s : S) : (cleanupCollector f c s).log = s.log := by
  unfold cleanupCollector
  split <;> rfl

theorem cleanupEmitter_log (f : Nat) (c : Bool) (s : S) : (cleanupEmitter f c s).log = s.log := by
  unfold cleanupEmitter
  split <;> rfl

/-- **C73** (nothing is deleted early).  Adding, removing, inserting, replacing stages and workers,
setting the flags, copying, flattening and preparing delete nothing, whether the call is legal or not. -/
theorem C73_kept (op : Op) (h : op.mayDelete = false) (s : S) : (apply op s).log = s.log := by
  cases op <;> simp only [Op.mayDelete, Bool.true_eq_false, reduceCtorEq] at h <;>
    simp only [apply, Own.newComb, addStageCopy, addStageUnique, addStage_log, copyObj_log, insertStage_log,
      removeStage_log, addWorkers_log, addFirst_log, addSecond_log, addEmitter_log, addCollector_log,
      removeCollector_log, cleanupCollector_log, cleanupEmitter_log] <;> try rfl
  · unfold changeStage; split
    · split
      · rw [removeStage_log, insertStage_log]
      · rfl
    · rfl
  · unfold Own.cleanupNodes; split <;> rfl
  · unfold Own.flatten; split <;> rfl
  · unfold Own.changeWorkers; split
    · rw [addWorkers_log]; rfl
    · rfl
  · unfold addEmitterCopy
    dsimp only
    split
    · split
      · exact copyObj_log _ _
      · exact copyObj_log _ _
    · exact copyObj_log _ _
  · unfold Own.cleanupWorkers; split <;> rfl
  · unfold Own.prepareOrdered; split
    · split <;> rfl
    · rfl
  · unfold Own.changeFirst; split
    · rw [addFirst_log]; rfl
    · rfl
  · unfold Own.changeSecond; split
    · rw [addSecond_log]; rfl
    · rfl
  · unfold Own.changeA2aNode; split
    · dsimp only; split
      · rfl
      · split <;> rfl
    · rfl
  · unfold Own.replaceFirst; split
    · split <;> rfl
    · rfl
  · unfold Own.replaceLast; split
    · split <;> rfl
    · rfl
  · unfold Own.combCollector; split
    · split
      · rfl
      · split
        · rfl
        · rw [addCollector_log, removeCollector_log, cleanupCollector_log]; rfl
    · rfl
  · unfold Own.combFirst; split
    · rw [insertStage_log, removeStage_log]; rfl
    · rfl
  · unfold Own.combLast; split
    · split
      · rfl
      · rw [insertStage_log, removeStage_log]; rfl
    · rfl

/-- Combining with an emitter deletes nothing either. -/
theorem C73_kept_emitter (f x : Nat) (c mo : Bool) {fm : Farm} (hf : s.heap f = some (.farm fm))
    (hfr : f < s.next) : (apply (.combEmitter f x c mo) s).log = s.log := by
  have h1 : f ≠ s.next := by omega
  have h2 : f ≠ s.next + 1 := by omega
  simp only [apply, Own.combEmitter, hf]
  split
  · rfl
  · cases he : fm.emitter with
    | none => dsimp only; rw [cleanupEmitter_log, addEmitter_log]
    | some e =>
      dsimp only
      cases mo
      · have e1 : (Own.newComb x s.next c true (s.alloc (.wrap e fm.ec))).heap f = some (.farm fm) := by
          simp only [Own.newComb]
          rw [alloc_get (by simp only [S.alloc]; exact h2), alloc_get h1, hf]
        simp only [Bool.false_eq_true, if_false, Own.cleanupEmitter, e1, Own.changeEmitter, set_get, he,
          addEmitter_log]
        rfl
      · have e1 : (Own.newComb x e c fm.ec s).heap f = some (.farm fm) := by
          simp only [Own.newComb]; rw [alloc_get h1, hf]
        simp only [if_true, Own.cleanupEmitter, e1, Own.changeEmitter, set_get, he, addEmitter_log,
          Bool.false_eq_true, if_false]
        rfl

/-- Objects that survive the end of a lifetime keep their place under the others. -/
theorem under_forget {n : Nat} (hn : ∀ y, Live (del n s) y ↔ Live s y ∧ ¬ Under g y n)
    (hO : ∀ y o r, g y = some (o, r) → Live s o) {x r : Nat} (hx : Live (del n s) x) :
    Under (forget (del n s) g) x r ↔ Under g x r := by
  constructor
  · intro h
    induction h with
    | refl => exact Under.refl _
    | @step y o b r' h1 h2 ih =>
      have h3 : g y = some (o, r') := by
        unfold forget at h1; rwa [if_pos (show ((del n s).heap y).isSome = true from hx)] at h1
      refine Under.step h3 (ih ?_)
      exact (hn o).2 ⟨hO _ _ _ h3, fun hc => ((hn y).1 hx).2 (Under.step h3 hc)⟩
  · intro h
    induction h with
    | refl => exact Under.refl _
    | @step y o b r' h1 h2 ih =>
      refine Under.step (r := r') ?_ (ih ((hn o).2 ⟨hO _ _ _ h1, fun hc =>
        ((hn y).1 hx).2 (Under.step h1 hc)⟩))
      unfold forget; rw [if_pos (show ((del n s).heap y).isSome = true from hx)]; exact h1

/-- Ending the lifetimes of several objects of the user, in any order. -/
theorem C73_destroyAll_partial : ∀ (rs : List Nat) {s : S} {g : G}, Legal s g → rs.Nodup →
    (∀ r ∈ rs, Mine s g r) →
    let s' := run (rs.map Op.destroy) s
    s'.bad = false ∧ s'.log.Nodup ∧ ∀ x, Live s' x ↔ Live s x ∧ ∀ r ∈ rs, ¬ Under g x r
  | [], s, g, h, _, _ => ⟨h.inv.ok, h.inv.lognd, by simp [run]⟩
  | n :: rs, s, g, h, hn, hm => by
      have hnm := hm n (by simp)
      obtain ⟨ds, h1, h2, h3, h4, _, _, h7⟩ := del_spec h.inv hnm.1 hnm.2
      have hlv : ∀ y, Live (del n s) y ↔ Live s y ∧ ¬ Under g y n := by
        intro y
        rw [← h3]
        simp only [Live, h4]
        split <;> simp_all
      have hl : Legal (del n s) (forget (del n s) g) := Legal.call h (.destroy n hnm)
      have hne : ∀ r ∈ rs, ¬ Under g r n := by
        intro r hr hu
        have hrm := hm r (by simp [hr])
        cases hu with
        | refl => exact (List.nodup_cons.1 hn).1 hr
        | step h5 _ => rw [hrm.2] at h5; cases h5
      have := C73_destroyAll_partial rs hl (List.nodup_cons.1 hn).2 (by
        intro r hr
        have hrm := hm r (by simp [hr])
        refine ⟨(hlv r).2 ⟨hrm.1, hne r hr⟩, ?_⟩
        simp only [forget, hrm.2, ite_self])
      obtain ⟨t1, t2, t3⟩ := this
      refine ⟨t1, t2, fun x => ?_⟩
      change Live (run (rs.map Op.destroy) (del n s)) x ↔ _
      rw [t3]
      constructor
      · rintro ⟨h5, h6⟩
        refine ⟨((hlv x).1 h5).1, ?_⟩
        intro r hr
        rcases List.mem_cons.1 hr with rfl | hr
        · exact ((hlv x).1 h5).2
        · intro hc; exact h6 r hr ((under_forget hlv h.inv.liveO h5).2 hc)
      · rintro ⟨h5, h6⟩
        have h5' : Live (del n s) x := (hlv x).2 ⟨h5, h6 n (by simp)⟩
        refine ⟨h5', ?_⟩
        intro r hr hc
        exact h6 r (by simp [hr]) ((under_forget hlv h.inv.liveO h5').1 hc)

/-- **C73** (no leak).  If every object is the user's or was handed over, directly or not, to an object
of the user, then ending the lifetimes of the user's objects, in any order, deletes every object that was
ever made, each exactly once. -/
theorem C73_no_leak_partial (h : Legal s g) (rs : List Nat) (hn : rs.Nodup) (hm : ∀ r, r ∈ rs ↔ Mine s g r)
    (hc : ∀ x, Live s x → ∃ r, Mine s g r ∧ Under g x r) :
    let s' := run (rs.map Op.destroy) s
    s'.bad = false ∧ s'.log.Nodup ∧ (∀ x, s'.heap x = none) ∧ ∀ x, x < s.next → x ∈ s'.log := by
  obtain ⟨h1, h2, h3⟩ := C73_destroyAll_partial rs h hn (fun r hr => (hm r).1 hr)
  have hd : ∀ x, (run (rs.map Op.destroy) s).heap x = none := by
    intro x
    cases hx : (run (rs.map Op.destroy) s).heap x with
    | none => rfl
    | some o =>
      obtain ⟨h4, h5⟩ := (h3 x).1 (by simp [Live, hx])
      obtain ⟨r, h6, h7⟩ := hc x h4
      exact absurd h7 (h5 r ((hm r).2 h6))
  refine ⟨h1, h2, hd, ?_⟩
  intro x hx
  have hlog : ∀ (rs : List Nat) (s : S) (g : G), Legal s g → rs.Nodup → (∀ r ∈ rs, Mine s g r) →
      ∃ g', Legal (run (rs.map Op.destroy) s) g' ∧ (run (rs.map Op.destroy) s).next = s.next := by
    intro rs
    induction rs with
    | nil => intro s g h _ _; exact ⟨g, h, rfl⟩
    | cons n rs ih =>
      intro s g h hn hm
      have hnm := hm n (by simp)
      obtain ⟨ds, _, _, h3, h4, _, h6, _⟩ := del_spec h.inv hnm.1 hnm.2
      obtain ⟨g', t1, t2⟩ := ih (del n s) (forget (del n s) g) (Legal.call h (.destroy n hnm))
        (List.nodup_cons.1 hn).2 (by
          intro r hr
          have hrm := hm r (by simp [hr])
          refine ⟨?_, by simp only [forget, hrm.2, ite_self]⟩
          have : r ∉ ds := by
            rw [h3]; intro hu
            cases hu with
            | refl => exact (List.nodup_cons.1 hn).1 hr
            | step h5 _ => rw [hrm.2] at h5; cases h5
          simp only [Live, h4, this, if_false]; exact hrm.1)
      exact ⟨g', t1, t2.trans h6⟩
  obtain ⟨g', t1, t2⟩ := hlog rs s g h hn (fun r hr => (hm r).1 hr)
  by_contra hcn
  have := (t1.inv.log x (by rw [t2]; exact hx)).2 hcn
  simp [Live, hd] at this

theorem under_leaf {y b : Nat} (h : Under g y b) (hb : ∀ z r, g z ≠ some (b, r)) : y = b := by
  induction h with
  | refl => rfl
  | step h1 _ ih => have := ih hb; subst this; exact absurd h1 (hb _ _)

/-- **C73** (copies).  A copy takes over what its source was responsible for: the source, destroyed first,
deletes only itself. -/
theorem C73_copy_partial (h : Legal s g) {x : Nat} (hx : Copyable s x) (hm : g x = none) :
    ∃ g', Legal (apply (.copy x) s) g' ∧ g' x = none ∧ g' s.next = none ∧
      (∀ y, Under g' y x ↔ y = x) ∧
      (∀ y o r, g y = some (o, r) → g' y = some (if o = x then s.next else o, r)) ∧
      (apply (.destroy x) (apply (.copy x) s)).log = s.log ++ [x] := by
  have hl := Legal.call h (.copy x hx)
  have hxl : Live s x := by
    simp only [Copyable] at hx
    cases hh : s.heap x with
    | none => rw [hh] at hx; exact hx.elim
    | some o => simp [Live, hh]
  have hxn : x ≠ s.next := Nat.ne_of_lt (h.inv.lt x hxl)
  have g1 : (move g x s.next) x = none := by simp [move, hm]
  have g2 : (move g x s.next) s.next = none := by simp [move, h.inv.gdead (Nat.le_refl _)]
  have hno : ∀ y r, move g x s.next y ≠ some (x, r) := by
    intro y r hc
    simp only [move] at hc
    split at hc
    · split at hc
      · cases hc; exact hxn rfl
      · cases hc; contradiction
    · cases hc
  have hu : ∀ y, Under (move g x s.next) y x ↔ y = x := by
    intro y
    constructor
    · intro hu; exact under_leaf hu hno
    · rintro rfl; exact Under.refl _
  have hlx : Live (apply (.copy x) s) x := by
    have hlt := h.inv.lt x hxl
    have := (hl.inv.log x (by
      have : s.next ≤ (apply (.copy x) s).next := by
        simp only [apply, copyObj]; split <;> simp [S.alloc, S.set]
      omega)).2
    apply this
    rw [C73_kept _ rfl]
    exact (h.inv.log x hlt).1 hxl
  refine ⟨_, hl, g1, g2, hu, ?_, ?_⟩
  · intro y o r hy
    simp only [move, hy]
    split
    · rfl
    · rfl
  · obtain ⟨ds, h1, h2, h3, _⟩ := C73_destroy_partial hl (x := x) ⟨hlx, g1⟩
    rw [h1, C73_kept _ rfl]
    have : ds = [x] := by
      have h4 : ∀ y, y ∈ ds ↔ y = x := fun y => (h3 y).trans (hu y)
      cases ds with
      | nil => exact absurd ((h4 x).2 rfl) (by simp)
      | cons a t =>
        have ha := (h4 a).1 (by simp)
        cases t with
        | nil => rw [ha]
        | cons b t =>
          have hb := (h4 b).1 (by simp)
          simp [ha, hb] at h2
    rw [this]

theorem live_addEmitter {f e y : Nat} {s : S} : Live (addEmitter f e s) y ↔ Live s y := by
  unfold addEmitter
  split
  · rename_i fm hf
    split
    · rfl
    · exact live_set (by simp [Live, hf])
  · rfl

theorem live_addCollector {f e y : Nat} {c : Bool} {s : S} : Live (addCollector f e c s) y ↔ Live s y := by
  unfold addCollector
  split
  · rename_i fm hf
    split
    · rfl
    · exact live_set (by simp [Live, hf])
  · rfl

/-- **C73** (replacing an emitter).  `change_emitter` deletes the old emitter, what was handed over to it,
and so on, if the farm was responsible for the old emitter, and nothing else; otherwise it deletes
nothing. -/
theorem C73_change_emitter_partial (h : Legal s g) {f fm e c o} (hf : s.heap f = some (.farm fm))
    (hn : fm.emitter = some o) (hfo : g o = some (f, .emitter) → ¬ Under g f o) (y : Nat) :
    Live (apply (.changeEmitter f e c) s) y ↔
      Live s y ∧ ¬ (g o = some (f, .emitter) ∧ Under g y o) := by
  have hi := h.inv
  obtain ⟨a1, a2, a3, a4, a5, a6, a7⟩ := hi.farm_facts hf
  simp only [apply, Own.changeEmitter, hf, hn, live_addEmitter]
  by_cases hec : fm.ec = true
  · have hg : g o = some (f, .emitter) := (a5 o).1 ⟨hec, hn⟩
    have hone : ∀ x, g x = some (f, .emitter) → x = o := by
      intro x hx'
      have := ((a5 x).2 hx').2
      rw [hn] at this; exact (Option.some.inj this).symm
    obtain ⟨k1, k2, k3, k4⟩ := del_part hi hf (hi.noEmitter (c := c) hf) hg (hfo hg) hone
    rw [if_pos hec, live_set (by simp [Live, k1]), k3]
    simp [hg]
  · rw [if_neg hec, live_set (by simp [Live, hf])]
    have : g o ≠ some (f, .emitter) := fun hc => hec ((a5 o).2 hc).1
    simp [this]

/-- **C73** (replacing a collector by `change_node`). -/
theorem C73_change_collector_partial (h : Legal s g) {f fm x c rm o} (hf : s.heap f = some (.farm fm))
    (hne : fm.emitter ≠ some o) (hn : fm.coll = some o) (hrm : fm.removed = false)
    (hfo : g o = some (f, .collector) → ¬ Under g f o) (y : Nat) :
    Live (apply (.changeFarmNode f o x c rm) s) y ↔
      Live s y ∧ ¬ (g o = some (f, .collector) ∧ Under g y o) := by
  have hi := h.inv
  obtain ⟨a1, a2, a3, a4, a5, a6, a7⟩ := hi.farm_facts hf
  simp only [apply, Own.changeFarmNode, hf, hne, if_false]
  rw [if_pos ⟨hn, by simp [hrm]⟩, live_addCollector]
  by_cases hec : fm.cc = true
  · have hg : g o = some (f, .collector) := (a6 o).1 ⟨hec, hn⟩
    have hone : ∀ x, g x = some (f, .collector) → x = o := by
      intro x hx'
      have := ((a6 x).2 hx').2
      rw [hn] at this; exact (Option.some.inj this).symm
    obtain ⟨k1, k2, k3, k4⟩ := del_part hi hf (hi.noColl (c := c) hf) hg (hfo hg) hone
    rw [if_pos hec, live_set (by simp [Live, k1]), k3]
    simp [hg]
  · rw [if_neg hec, live_set (by simp [Live, hf])]
    have : g o ≠ some (f, .collector) := fun hc => hec ((a6 o).2 hc).1
    simp [this]

/-! ## Where the code does something else -/

/-- A node given to an `ff_Pipe` by `add_stage(std::unique_ptr&&)` is never deleted. -/
theorem C73_unique_counterexample :
    let s := run [.newNode, .newPipe, .addStageUnique 1 0, .destroy 1] init
    s.log = [1] ∧ s.heap 0 = some .node := by decide

/-- An `ff_Pipe` made from unique pointers and its copy both delete the stages. -/
theorem C73_copy_unique_counterexample :
    (run [.newNode, .newPipeUnique [0], .copy 1, .destroy 1, .destroy 2] init).bad = true := by decide

/-- A stage that an inner pipeline had both explicitly and by its flag is deleted twice after `flatten`. -/
theorem C73_flatten_counterexample :
    (run [.newNode, .newPipe, .addStage 1 0 true, .cleanupNodes 1 true, .newPipe, .addStage 2 1 false,
      .flatten 2, .destroy 2, .destroy 1] init).bad = true := by decide

/-- `change_emitter(e, true)` of a farm without emitter: `e` is never deleted. -/
theorem C73_change_emitter_counterexample :
    let s := run [.newNode, .newFarm false 4, .changeEmitter 1 0 true, .destroy 1] init
    s.log = [1] ∧ s.heap 0 = some .node := by decide

/-- `change_node` of a farm on its emitter with `remove_from_cleanuplist` deletes the emitter all the
same; so the user, to whom it should have come back, deletes it again. -/
theorem C73_change_node_emitter_counterexample :
    let ops : List Op := [.newNode, .newNode, .newFarm false 4, .cleanupEmitter 2 true, .addEmitter 2 0,
      .changeFarmNode 2 0 1 false true]
    (run ops init).log = [0] ∧ (run (ops ++ [.destroy 0]) init).bad = true := by decide

/-- `change_node` of a farm with `cleanup_workers` on a worker with `remove_from_cleanuplist`: the farm
keeps the worker on its list. -/
theorem C73_change_node_worker_counterexample :
    (run [.newNode, .newNode, .newFarm true 4, .addWorkers 2 [0], .changeFarmNode 2 0 1 false true,
      .destroy 2, .destroy 0] init).bad = true := by decide

/-- `change_node` of a farm on a worker with `cleanup`, then `cleanup_workers`: the new worker is deleted
twice. -/
theorem C73_change_node_cleanup_counterexample :
    (run [.newNode, .newNode, .newFarm false 4, .addWorkers 2 [0], .changeFarmNode 2 0 1 true false,
      .cleanupWorkers 2 true, .destroy 2] init).bad = true := by decide

/-- A collector added with `cleanup`, removed and replaced by a collector added without: the first is
never deleted, the second is. -/
theorem C73_collector_counterexample :
    let s := run [.newNode, .newNode, .newFarm false 4, .addCollector 2 0 true, .removeCollector 2,
      .addCollector 2 1 false, .destroy 2] init
    s.log = [2, 1] ∧ s.heap 0 = some .node := by decide

/-- A collector added with `cleanup` and removed is not deleted by the copy of the farm, nor by the farm. -/
theorem C73_copy_collector_counterexample :
    let s := run [.newNode, .newFarm false 4, .addCollector 1 0 true, .removeCollector 1, .copy 1,
      .destroy 1, .destroy 2] init
    s.log = [1, 2] ∧ s.heap 0 = some .node := by decide

/-- `add_emitter(const T&)` that is refused, because there is an emitter already, never deletes the copy
it made. -/
theorem C73_emitter_copy_counterexample :
    let s := run [.newNode, .newNode, .newFarm false 4, .addEmitter 2 0, .addEmitterCopy 2 1, .destroy 2,
      .destroy 1, .destroy 0] init
    s.log = [2, 1, 0] ∧ s.heap 3 = some .node := by decide

/-- `combine_with_firststage` on a pipeline that cleans up its stages: the old first stage is never
deleted. -/
theorem C73_firststage_counterexample :
    let s := run [.newNode, .newNode, .newPipe, .addStage 2 0 false, .cleanupNodes 2 true,
      .combFirst 2 1 true, .destroy 2] init
    s.log = [2, 3, 1] ∧ s.heap 0 = some .node := by decide

/-- `combine_with_laststage` on a pipeline that cleans up its stages, with the last stage also added with
`cleanup`: the stage is deleted twice. -/
theorem C73_laststage_counterexample :
    (run [.newNode, .newNode, .newPipe, .addStage 2 0 true, .cleanupNodes 2 true, .combLast 2 1 true,
      .destroy 2] init).bad = true := by decide

/-! ## Examples -/

/-- A pipeline with an explicit stage and one it has by its flag; flattened into an outer pipeline. -/
example : ∃ s g, Legal s g ∧ g 0 = some (2, .stage) ∧ g 1 = some (2, .stage) ∧ g 2 = some (3, .handed) ∧
    Mine s g 3 := by
  have h0 := Legal.init
  have h1 := Legal.call h0 .newNode
  have h2 := Legal.call h1 .newNode
  have h3 := Legal.call h2 .newPipe
  have h4 := Legal.call h3 .newPipe
  have h5 := Legal.call h4 (.addStage 2 0 [] [] [] [] rfl)
  have h6 := Legal.call h5 (.addStage 2 1 [0] [] [] [] rfl)
  have h7 := Legal.call h6 (.cleanupNodes 2 [0, 1] false [] [] [] rfl (by decide)
    (by intro x hx _; simp only [List.mem_cons, List.not_mem_nil, or_false] at hx
        rcases hx with rfl | rfl <;> exact Or.inl ⟨rfl, rfl⟩))
  have h8 := Legal.call h7 (.addStageHand 3 2 [] false [] [] [] rfl ⟨rfl, by decide⟩)
  exact ⟨_, _, h8, by decide, by decide, by decide, ⟨rfl, by decide⟩⟩

/-- The hypotheses of `C73_no_leak_partial`, `C73_copy_partial` and `C73_change_emitter_partial` are met by
a farm with an emitter it has by its flag. -/
example : ∃ s g, Legal s g ∧ (∀ r, r ∈ [1] ↔ Mine s g r) ∧ (∀ x, Live s x → ∃ r, Mine s g r ∧ Under g x r) ∧
    Copyable s 1 ∧ g 1 = none ∧ g 0 = some (1, .emitter) ∧ ¬ Under g 1 0 := by
  have h1 := Legal.call Legal.init .newNode
  have h2 := Legal.call h1 (.newFarm false 4)
  have h3 := Legal.call h2 (.cleanupEmitter 1 ⟨[], none, none, false, false, false, false, [], 4⟩ rfl
    (by intro e he; cases he))
  have h4 := Legal.call h3 (.addEmitterFlag 1 ⟨[], none, none, false, false, true, false, [], 4⟩ 0 rfl rfl rfl
    ⟨rfl, by decide⟩ rfl)
  refine ⟨_, _, h4, ?_, ?_, by simp [Copyable, apply, addEmitter, Own.cleanupEmitter, S.alloc, S.set, upd,
    init, parallel], by decide, by decide, ?_⟩
  · intro r
    match r with
    | 0 => exact ⟨by simp, fun h => absurd h.2 (by decide)⟩
    | 1 => exact ⟨fun _ => ⟨rfl, by decide⟩, by simp⟩
    | r + 2 => exact ⟨by simp, fun h => absurd (h4.inv.lt _ h.1) (by change ¬ (r + 2 < 2); omega)⟩
  · intro x hx
    refine ⟨1, ⟨rfl, by decide⟩, ?_⟩
    match x with
    | 0 => exact Under.step (o := 1) (r := .emitter) (by decide) (Under.refl _)
    | 1 => exact Under.refl _
    | x + 2 => exact absurd (h4.inv.lt _ hx) (by change ¬ (x + 2 < 2); omega)
  · intro h
    cases h with
    | step h _ => simp [give] at h

/-- What the theorems say of such a program: everything is deleted once. -/
example : (run [.newNode, .newNode, .newPipe, .newPipe, .addStage 2 0 false, .addStage 2 1 false,
    .cleanupNodes 2 true, .addStage 3 2 true, .flatten 3, .destroy 3] init).log = [3, 2, 0, 1] := by decide

/-- A farm with everything handed over, copied and rewritten; the copy deletes all of it. -/
example :
    let s := run [.newNode, .newNode, .newNode, .newNode, .newFarm true 4, .addWorkers 4 [0, 1],
      .cleanupEmitter 4 true, .addEmitter 4 2, .combEmitter 4 3 true false, .copy 4, .prepareOrdered 7,
      .destroy 4, .destroy 7] init
    s.bad = false ∧ s.log = [4, 7, 6, 3, 5, 2, 8, 0, 9, 1] := by decide

end FF.Own
