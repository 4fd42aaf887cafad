import Verif.Own.Pipe

/-!
# Calls on farms keep the invariant
-/

namespace FF.Own

variable {s : S} {g : G}

/-- Deleting does not touch, and does not look at, an object that survives. -/
theorem delLoop_set {f : Nat} {ob : Obj} : ∀ (k : Nat) (ws : List Nat) (s : S),
    ((delLoop k ws s).heap f).isSome → delLoop k ws (s.set f ob) = (delLoop k ws s).set f ob := by
  have dead : ∀ (k : Nat) (ws : List Nat) (s : S), s.heap f = none → (delLoop k ws s).heap f = none := by
    intro k
    induction k with
    | zero => intro ws s h; cases ws <;> simp [delLoop, h]
    | succ k ih =>
      intro ws s h
      cases ws with
      | nil => simp [delLoop, h]
      | cons n ws =>
        simp only [delLoop]
        split
        · exact ih _ _ h
        · apply ih; simp only [upd]; split <;> simp [h]
  intro k
  induction k with
  | zero => intro ws s h; cases ws <;> rfl
  | succ k ih =>
    intro ws s h
    cases ws with
    | nil => rfl
    | cons n ws =>
      by_cases hn : n = f
      · exfalso
        subst hn
        simp only [delLoop] at h
        split at h
        · rename_i h'; rw [dead _ _ { s with bad := true } h'] at h; cases h
        · rw [dead _ _ _ (by simp [upd])] at h; cases h
      · have hg : (s.set f ob).heap n = s.heap n := by simp [S.set, upd, hn]
        simp only [delLoop, hg] at h ⊢
        split
        · rename_i h'
          simp only [h'] at h
          exact ih _ _ h
        · rename_i o h'
          simp only [h'] at h
          rw [← ih _ _ h]
          congr 1
          simp only [S.set, S.mk.injEq, and_self, and_true]
          funext j; simp only [upd]; grind

theorem del_set {f n : Nat} {ob : Obj} {s : S} (h : ((del n s).heap f).isSome) :
    del n (s.set f ob) = (del n s).set f ob := delLoop_set _ _ _ h

theorem live_set {s : S} {f x : Nat} {ob : Obj} (hf : Live s f) : Live (s.set f ob) x ↔ Live s x := by
  simp only [Live, S.set, upd] at *
  split
  · subst_vars; simp [hf]
  · rfl

macro "farm_tac" : tactic => `(tactic| grind [give_eq, back_eq, backAll_eq, Mine, AllMine,
  List.nodup_append, List.nodup_cons])

theorem Inv.addWorkersFlag (hi : Inv s g) {f fm ws} (hf : s.heap f = some (.farm fm)) (hw : fm.wc = true)
    (hs : fm.workers.length + ws.length ≤ fm.max ∧ ws ≠ []) (hx : AllMine s g ws) :
    Inv (Own.addWorkers f ws s) (give g ws f .worker) := by
  obtain ⟨a1, a2, a3, a4, a5, a6, a7⟩ := hi.farm_facts hf
  have hl := hi.liveX
  simp only [Own.addWorkers, hf]
  rw [if_pos hs]
  refine hi.farm hf a1 ?_ ?_ ?_ ?_ ?_ ?_ ?_ ?_ <;> (try dsimp only) <;> farm_tac

theorem Inv.addWorkersPlain (hi : Inv s g) {f fm ws} (hf : s.heap f = some (.farm fm))
    (hw : fm.wc = false) : Inv (Own.addWorkers f ws s) g := by
  obtain ⟨a1, a2, a3, a4, a5, a6, a7⟩ := hi.farm_facts hf
  have hl := hi.liveX
  simp only [Own.addWorkers, hf]
  split
  · refine hi.farm hf a1 ?_ ?_ ?_ ?_ ?_ ?_ ?_ ?_ <;> (try dsimp only) <;> farm_tac
  · exact hi

theorem Inv.addWorkersErr (hi : Inv s g) {f fm ws} (hf : s.heap f = some (.farm fm))
    (hs : ¬ (fm.workers.length + ws.length ≤ fm.max ∧ ws ≠ [])) : Inv (Own.addWorkers f ws s) g := by
  simp only [Own.addWorkers, hf]
  rw [if_neg hs]; exact hi

/-- Dropping the workers. -/
theorem Inv.noWorkers (hi : Inv s g) {f fm} (hf : s.heap f = some (.farm fm)) :
    Inv (s.set f (.farm { fm with workers := [] })) (backAll g f .worker) := by
  obtain ⟨a1, a2, a3, a4, a5, a6, a7⟩ := hi.farm_facts hf
  have hl := hi.liveX
  refine hi.farm hf a1 ?_ ?_ ?_ ?_ ?_ ?_ ?_ ?_ <;> (try dsimp only) <;> farm_tac

theorem backAll_self {g : G} {f : Nat} {r : Role} (h : ∀ x, g x ≠ some (f, r)) : backAll g f r = g := by
  funext y; unfold backAll; rw [if_neg (h y)]

theorem Inv.changeWorkersFlag (hi : Inv s g) {f fm ws} (hf : s.heap f = some (.farm fm))
    (hw : fm.wc = true) (hs : ws.length ≤ fm.max ∧ ws ≠ []) (hx : AllMine s (backAll g f .worker) ws) :
    Inv (Own.changeWorkers f ws s) (give (backAll g f .worker) ws f .worker) := by
  simp only [Own.changeWorkers, hf]
  refine (hi.noWorkers hf).addWorkersFlag (set_get _ _ _) hw (by simpa using hs) ?_
  refine ⟨hx.1, fun x h => ⟨(live_set (by simp [Live, hf])).2 (hx.2 x h).1, (hx.2 x h).2⟩⟩

theorem Inv.changeWorkersPlain (hi : Inv s g) {f fm ws} (hf : s.heap f = some (.farm fm))
    (hw : fm.wc = false) : Inv (Own.changeWorkers f ws s) g := by
  simp only [Own.changeWorkers, hf]
  have h := (hi.noWorkers hf).addWorkersPlain (ws := ws) (set_get _ _ _) hw
  obtain ⟨a1, a2, a3, a4, a5, a6, a7⟩ := hi.farm_facts hf
  rwa [backAll_self (by intro x hx; have := (a4 x).2 hx; simp_all)] at h

theorem Inv.changeWorkersErr (hi : Inv s g) {f fm ws} (hf : s.heap f = some (.farm fm))
    (hs : ¬ (ws.length ≤ fm.max ∧ ws ≠ [])) : Inv (Own.changeWorkers f ws s) (backAll g f .worker) := by
  simp only [Own.changeWorkers, hf]
  exact (hi.noWorkers hf).addWorkersErr (set_get _ _ _) (by simpa using hs)

theorem Inv.cleanupWorkersOn (hi : Inv s g) {f fm} (hf : s.heap f = some (.farm fm))
    (hn : fm.workers.Nodup) (hx : ∀ x ∈ fm.workers, Mine s g x ∨ g x = some (f, .worker)) :
    Inv (Own.cleanupWorkers f true s) (give g fm.workers f .worker) := by
  obtain ⟨a1, a2, a3, a4, a5, a6, a7⟩ := hi.farm_facts hf
  have hl := hi.liveX
  simp only [Own.cleanupWorkers, hf]
  refine hi.farm hf a1 ?_ ?_ ?_ ?_ ?_ ?_ ?_ ?_ <;> (try dsimp only) <;> farm_tac

theorem Inv.cleanupWorkersOff (hi : Inv s g) {f fm} (hf : s.heap f = some (.farm fm)) :
    Inv (Own.cleanupWorkers f false s) (backAll g f .worker) := by
  obtain ⟨a1, a2, a3, a4, a5, a6, a7⟩ := hi.farm_facts hf
  have hl := hi.liveX
  simp only [Own.cleanupWorkers, hf]
  refine hi.farm hf a1 ?_ ?_ ?_ ?_ ?_ ?_ ?_ ?_ <;> (try dsimp only) <;> farm_tac

theorem Inv.cleanupEmitterOn (hi : Inv s g) {f fm} (hf : s.heap f = some (.farm fm))
    (hx : ∀ e, fm.emitter = some e → Mine s g e ∨ g e = some (f, .emitter)) :
    Inv (Own.cleanupEmitter f true s) (give g fm.emitter.toList f .emitter) := by
  obtain ⟨a1, a2, a3, a4, a5, a6, a7⟩ := hi.farm_facts hf
  have hl := hi.liveX
  simp only [Own.cleanupEmitter, hf]
  have hm : ∀ y, y ∈ fm.emitter.toList ↔ fm.emitter = some y := by intro y; simp
  generalize fm.emitter.toList = l at hm
  refine hi.farm hf a1 ?_ ?_ ?_ ?_ ?_ ?_ ?_ ?_ <;> (try dsimp only) <;> farm_tac

theorem Inv.cleanupEmitterOff (hi : Inv s g) {f fm} (hf : s.heap f = some (.farm fm)) :
    Inv (Own.cleanupEmitter f false s) (backAll g f .emitter) := by
  obtain ⟨a1, a2, a3, a4, a5, a6, a7⟩ := hi.farm_facts hf
  have hl := hi.liveX
  simp only [Own.cleanupEmitter, hf]
  refine hi.farm hf a1 ?_ ?_ ?_ ?_ ?_ ?_ ?_ ?_ <;> (try dsimp only) <;> farm_tac

theorem Inv.cleanupCollectorOn (hi : Inv s g) {f fm} (hf : s.heap f = some (.farm fm))
    (hx : ∀ c, fm.coll = some c → Mine s g c ∨ g c = some (f, .collector)) :
    Inv (Own.cleanupCollector f true s) (give g fm.coll.toList f .collector) := by
  obtain ⟨a1, a2, a3, a4, a5, a6, a7⟩ := hi.farm_facts hf
  have hl := hi.liveX
  simp only [Own.cleanupCollector, hf]
  have hm : ∀ y, y ∈ fm.coll.toList ↔ fm.coll = some y := by intro y; simp
  generalize fm.coll.toList = l at hm
  refine hi.farm hf a1 ?_ ?_ ?_ ?_ ?_ ?_ ?_ ?_ <;> (try dsimp only) <;> farm_tac

theorem Inv.cleanupCollectorOff (hi : Inv s g) {f fm} (hf : s.heap f = some (.farm fm)) :
    Inv (Own.cleanupCollector f false s) (backAll g f .collector) := by
  obtain ⟨a1, a2, a3, a4, a5, a6, a7⟩ := hi.farm_facts hf
  have hl := hi.liveX
  simp only [Own.cleanupCollector, hf]
  refine hi.farm hf a1 ?_ ?_ ?_ ?_ ?_ ?_ ?_ ?_ <;> (try dsimp only) <;> farm_tac

theorem Inv.removeColl (hi : Inv s g) {f fm} (hf : s.heap f = some (.farm fm)) :
    Inv (Own.removeCollector f s) g := by
  obtain ⟨a1, a2, a3, a4, a5, a6, a7⟩ := hi.farm_facts hf
  have hl := hi.liveX
  simp only [Own.removeCollector, hf]
  refine hi.farm hf a1 ?_ ?_ ?_ ?_ ?_ ?_ ?_ ?_ <;> (try dsimp only) <;> farm_tac

theorem Inv.addEmitterFlag (hi : Inv s g) {f fm e} (hf : s.heap f = some (.farm fm)) (he : fm.ec = true)
    (hn : fm.emitter = none) (hx : Mine s g e) (hk : parallel (s.heap e) = false) :
    Inv (Own.addEmitter f e s) (give g [e] f .emitter) := by
  obtain ⟨a1, a2, a3, a4, a5, a6, a7⟩ := hi.farm_facts hf
  have hl := hi.liveX
  simp only [Own.addEmitter, hf, hk, hn]
  simp only [Bool.false_eq_true, ne_eq, not_true_eq_false, or_self, if_false]
  refine hi.farm hf a1 ?_ ?_ ?_ ?_ ?_ ?_ ?_ ?_ <;> (try dsimp only) <;> farm_tac

theorem Inv.addEmitterPlain (hi : Inv s g) {f fm e} (hf : s.heap f = some (.farm fm))
    (he : fm.ec = false) : Inv (Own.addEmitter f e s) g := by
  obtain ⟨a1, a2, a3, a4, a5, a6, a7⟩ := hi.farm_facts hf
  have hl := hi.liveX
  simp only [Own.addEmitter, hf]
  split
  · exact hi
  · refine hi.farm hf a1 ?_ ?_ ?_ ?_ ?_ ?_ ?_ ?_ <;> (try dsimp only) <;> farm_tac

theorem Inv.addEmitterErr (hi : Inv s g) {f fm e} (hf : s.heap f = some (.farm fm))
    (hk : parallel (s.heap e) = true ∨ fm.emitter ≠ none) : Inv (Own.addEmitter f e s) g := by
  simp only [Own.addEmitter, hf]
  rw [if_pos hk]; exact hi

theorem Inv.addCollectorHand (hi : Inv s g) {f fm c cl} (hf : s.heap f = some (.farm fm))
    (hc : cl = true ∨ fm.cc = true) (hn : fm.coll = none ∨ (fm.removed = true ∧ fm.cc = false))
    (hx : Mine s g c) (hk : parallel (s.heap c) = false) :
    Inv (Own.addCollector f c cl s) (give g [c] f .collector) := by
  obtain ⟨a1, a2, a3, a4, a5, a6, a7⟩ := hi.farm_facts hf
  have hl := hi.liveX
  simp only [Own.addCollector, hf, hk]
  rw [if_neg (by rcases hn with h | h <;> simp [h])]
  refine hi.farm hf a1 ?_ ?_ ?_ ?_ ?_ ?_ ?_ ?_ <;> (try dsimp only) <;> farm_tac

theorem Inv.addCollectorPlain (hi : Inv s g) {f fm c} (hf : s.heap f = some (.farm fm))
    (hc : fm.cc = false) : Inv (Own.addCollector f c false s) g := by
  obtain ⟨a1, a2, a3, a4, a5, a6, a7⟩ := hi.farm_facts hf
  have hl := hi.liveX
  simp only [Own.addCollector, hf]
  split
  · exact hi
  · refine hi.farm hf a1 ?_ ?_ ?_ ?_ ?_ ?_ ?_ ?_ <;> (try dsimp only) <;> farm_tac

theorem Inv.addCollectorErr (hi : Inv s g) {f fm c cl} (hf : s.heap f = some (.farm fm))
    (hk : parallel (s.heap c) = true ∨ (fm.coll ≠ none ∧ fm.removed = false)) :
    Inv (Own.addCollector f c cl s) g := by
  simp only [Own.addCollector, hf]
  rw [if_pos (by simpa using hk)]; exact hi

/-- Taking the emitter away; if the farm was responsible for it, it comes back to the user. -/
theorem Inv.noEmitter (hi : Inv s g) {f fm c} (hf : s.heap f = some (.farm fm)) :
    Inv (s.set f (.farm { fm with emitter := none, ec := c })) (backAll g f .emitter) := by
  obtain ⟨a1, a2, a3, a4, a5, a6, a7⟩ := hi.farm_facts hf
  have hl := hi.liveX
  refine hi.farm hf a1 ?_ ?_ ?_ ?_ ?_ ?_ ?_ ?_ <;> (try dsimp only) <;> farm_tac

theorem Inv.noColl (hi : Inv s g) {f fm c} (hf : s.heap f = some (.farm fm)) :
    Inv (s.set f (.farm { fm with coll := none, cc := c })) (backAll g f .collector) := by
  obtain ⟨a1, a2, a3, a4, a5, a6, a7⟩ := hi.farm_facts hf
  have hl := hi.liveX
  refine hi.farm hf a1 ?_ ?_ ?_ ?_ ?_ ?_ ?_ ?_ <;> (try dsimp only) <;> farm_tac

/-- Deleting one of the parts of a block, the block not being under it. -/
theorem del_part (hi : Inv s g) {f : Nat} {ob ob' : Obj} {r : Role} {o : Nat} (hf : s.heap f = some ob)
    (hi' : Inv (s.set f ob') (backAll g f r)) (hg : g o = some (f, r)) (hfo : ¬ Under g f o)
    (hone : ∀ x, g x = some (f, r) → x = o) :
    ((del o s).heap f) = some ob ∧
    Inv ((del o s).set f ob') (forget (del o s) g) ∧
    (∀ x, Live (del o s) x ↔ Live s x ∧ ¬ Under g x o) ∧
    (∀ x, Live (del o s) x → (del o s).heap x = s.heap x) := by
  have hfl : Live s f := by simp [Live, hf]
  have hb : backAll g f r o = none := by simp [backAll, hg]
  have hlo : Live (s.set f ob') o := (live_set hfl).2 (hi.liveX _ _ _ hg)
  obtain ⟨ds, h1, h2, h3, h4, h5, h6, h7⟩ := del_spec hi' hlo hb
  -- chains to `o` do not use the link from `o` to `f`
  have hU : ∀ x, Under (backAll g f r) x o ↔ Under g x o := by
    intro x
    constructor
    · intro h
      generalize ho' : o = o' at h
      induction h with
      | refl => exact .refl _
      | step h _ ih => exact .step (backAll_eq.1 h).1 (ih ho')
    · intro h
      generalize ho' : o = o' at h
      induction h with
      | refl => exact .refl _
      | step h h' ih =>
        rename_i x o1 b r1
        by_cases hx : x = o
        · subst hx; subst ho'; exact .refl _
        · refine .step (backAll_eq.2 ⟨h, ?_⟩) (ih ho')
          rintro ⟨rfl, rfl⟩
          exact hx (hone x h)
  have hnf : f ∉ ds := by rw [h3, hU]; exact hfo
  have hgen : ∀ (k : Nat) (ws : List Nat) (s : S), delLoop k ws ((s.set f ob').set f ob) = delLoop k ws (s.set f ob) := by
    intro k ws s; rw [set_set]
  have hself : s.set f ob = s := by
    cases s
    simp only [S.set, S.mk.injEq, and_self, and_true]
    funext j; simp only [upd]; split
    · subst_vars; exact hf.symm
    · rfl
  have hsurv : ((del o (s.set f ob')).heap f).isSome := by
    rw [h4 f, if_neg hnf, set_get]; rfl
  have hds : del o s = (del o (s.set f ob')).set f ob := by
    rw [← del_set hsurv, set_set, hself]
  have hds' : (del o s).set f ob' = del o (s.set f ob') := by
    have : ((del o s).heap f).isSome := by rw [hds, set_get]; rfl
    rw [del_set this]
  have hfo2 : (del o s).heap f = some ob := by rw [hds, set_get]
  have hheap : ∀ x, (del o s).heap x = if x ∈ ds then none else s.heap x := by
    intro x
    rw [hds]
    simp only [S.set, upd]
    by_cases hx : x = f
    · subst hx; simp [hnf, hf]
    · simp only [hx, if_false]
      have := h4 x
      simp only [S.set, upd, hx, if_false] at this
      exact this
  have hlive : ∀ x, Live (del o s) x ↔ Live s x ∧ ¬ Under g x o := by
    intro x
    rw [← hU x, ← h3 x]
    simp only [Live, hheap x]
    by_cases hx : x ∈ ds <;> simp [hx]
  refine ⟨hfo2, ?_, hlive, ?_⟩
  · rw [hds']
    have : forget (del o s) g = forget (del o (s.set f ob')) (backAll g f r) := by
      funext y
      have e : Live (del o s) y ↔ Live (del o (s.set f ob')) y := by
        rw [← hds', live_set (by simp [Live, hfo2])]
      simp only [forget]
      by_cases hy : (((del o s).heap y).isSome) = true
      · have hy2 : (((del o (s.set f ob')).heap y).isSome) = true := e.1 hy
        rw [if_pos hy, if_pos hy2]
        unfold backAll
        split
        · rename_i hgy
          exfalso
          have := hone y hgy
          subst this
          exact ((hlive y).1 hy).2 (.refl _)
        · rfl
      · have hy2 : ¬ (((del o (s.set f ob')).heap y).isSome) = true := fun hc => hy (e.2 hc)
        rw [if_neg hy, if_neg hy2]
    rw [this]; exact h7
  · intro x hx
    have : x ∉ ds := by rw [h3, hU]; exact ((hlive x).1 hx).2
    rw [hheap x, if_neg this]

theorem Inv.changeEmitter (hi : Inv s g) {f fm e c o} (hf : s.heap f = some (.farm fm))
    (hn : fm.emitter = some o) (hx : c = true → Mine s g e) (hk : parallel (s.heap e) = false)
    (hfo : fm.ec = true → ¬ Under g f o) :
    Inv (Own.changeEmitter f e c s)
      (let s1 := if fm.ec then del o s else s
       let g1 := forget s1 g
       if c then give g1 [e] f .emitter else g1) := by
  obtain ⟨a1, a2, a3, a4, a5, a6, a7⟩ := hi.farm_facts hf
  simp only [Own.changeEmitter, hf, hn]
  -- the state after the old emitter has gone
  have key : ∃ s1, s1 = (if fm.ec then del o s else s) ∧ Live s1 f ∧
      Inv (s1.set f (.farm { fm with emitter := none, ec := c })) (forget s1 g) ∧
      (∀ x, g x = none → Live s x → (x = o → fm.ec = false) → s1.heap x = s.heap x) ∧
      (parallel (s1.heap e) = false) := by
    by_cases hec : fm.ec = true
    · have hg : g o = some (f, .emitter) := (a5 o).1 ⟨hec, hn⟩
      have hone : ∀ x, g x = some (f, .emitter) → x = o := by
        intro x hx'
        have := ((a5 x).2 hx').2
        rw [hn] at this; exact (Option.some.inj this).symm
      obtain ⟨k1, k2, k3, k4⟩ := del_part hi hf (hi.noEmitter (c := c) hf) hg (hfo hec) hone
      refine ⟨_, rfl, ?_, ?_, ?_, ?_⟩
      · simp [hec, Live, k1]
      · simp only [hec, if_true]; exact k2
      · intro x hgx hlx hxo
        simp only [hec, if_true]
        apply k4
        rw [k3]
        refine ⟨hlx, ?_⟩
        intro hu
        cases hu with
        | refl => have := hxo rfl; rw [hec] at this; cases this
        | step h _ => rw [hgx] at h; cases h
      · simp only [hec, if_true]
        by_cases hl : Live (del o s) e
        · rw [k4 e hl]; exact hk
        · have : (del o s).heap e = none := by
            cases h : (del o s).heap e with
            | none => rfl
            | some v => exact absurd (by simp [Live, h]) hl
          rw [this]; rfl
    · have hec' : fm.ec = false := by simpa using hec
      refine ⟨s, by simp [hec'], by simp [Live, hf], ?_, fun _ _ _ _ => rfl, hk⟩
      rw [hi.forget_eq]
      have := hi.noEmitter (c := c) hf
      rwa [backAll_self (by intro x hx; have := (a5 x).2 hx; simp_all)] at this
  obtain ⟨s1, rfl, hfl, hinv, hsame, hpar⟩ := key
  have hpe : parallel (((if fm.ec then del o s else s).set f
      (.farm { fm with emitter := none, ec := c })).heap e) = false ∨ e = f := by
    by_cases he : e = f
    · exact Or.inr he
    · left; simp only [S.set, upd, he, if_false]; exact hpar
  have hef : e ≠ f := by
    rintro rfl; rw [hf] at hk; simp [parallel] at hk
  have hpe := hpe.resolve_right hef
  cases c with
  | false =>
    simp only [Bool.false_eq_true, if_false]
    exact hinv.addEmitterPlain (set_get _ _ _) rfl
  | true =>
    simp only [if_true]
    refine hinv.addEmitterFlag (set_get _ _ _) rfl rfl ?_ hpe
    obtain ⟨hm1, hm2⟩ := hx rfl
    have hs := hsame e hm2 hm1 (by
      rintro rfl
      by_contra hc
      have := (a5 e).1 ⟨by simpa using hc, hn⟩
      rw [hm2] at this; cases this)
    refine ⟨(live_set hfl).2 (by rw [Live, hs]; exact hm1), ?_⟩
    simp only [forget, hm2, ite_self]

theorem Inv.changeEmitterNew (hi : Inv s g) {f fm e c} (hf : s.heap f = some (.farm fm))
    (hn : fm.emitter = none) (hx : fm.ec = true → Mine s g e) (hk : parallel (s.heap e) = false) :
    Inv (Own.changeEmitter f e c s) (if fm.ec then give g [e] f .emitter else g) := by
  simp only [Own.changeEmitter, hf, hn]
  by_cases hec : fm.ec = true
  · simp only [hec, if_true]; exact hi.addEmitterFlag hf hec hn (hx hec) hk
  · have hec' : fm.ec = false := by simpa using hec
    simp only [hec', Bool.false_eq_true, if_false]; exact hi.addEmitterPlain hf hec'

theorem Inv.changeFarmCollector (hi : Inv s g) {f fm old x c rm} (hf : s.heap f = some (.farm fm))
    (hne : fm.emitter ≠ some old) (ho : fm.coll = some old) (hrm : fm.removed = false)
    (hx : c = true → Mine s g x) (hk : parallel (s.heap x) = false)
    (hfo : fm.cc = true → ¬ Under g f old) :
    Inv (Own.changeFarmNode f old x c rm s)
      (let s1 := if fm.cc then del old s else s
       let g1 := forget s1 g
       if c then give g1 [x] f .collector else g1) := by
  obtain ⟨a1, a2, a3, a4, a5, a6, a7⟩ := hi.farm_facts hf
  simp only [Own.changeFarmNode, hf, hne, if_false]
  rw [if_pos ⟨ho, by simp [hrm]⟩]
  have key : ∃ s1, s1 = (if fm.cc then del old s else s) ∧ Live s1 f ∧
      Inv (s1.set f (.farm { fm with coll := none, cc := c })) (forget s1 g) ∧
      (∀ y, g y = none → Live s y → (y = old → fm.cc = false) → s1.heap y = s.heap y) ∧
      (parallel (s1.heap x) = false) := by
    by_cases hec : fm.cc = true
    · have hg : g old = some (f, .collector) := (a6 old).1 ⟨hec, ho⟩
      have hone : ∀ y, g y = some (f, .collector) → y = old := by
        intro y hx'
        have := ((a6 y).2 hx').2
        rw [ho] at this; exact (Option.some.inj this).symm
      obtain ⟨k1, k2, k3, k4⟩ := del_part hi hf (hi.noColl (c := c) hf) hg (hfo hec) hone
      refine ⟨_, rfl, ?_, ?_, ?_, ?_⟩
      · simp [hec, Live, k1]
      · simp only [hec, if_true]; exact k2
      · intro y hgx hlx hxo
        simp only [hec, if_true]
        apply k4
        rw [k3]
        refine ⟨hlx, ?_⟩
        intro hu
        cases hu with
        | refl => have := hxo rfl; rw [hec] at this; cases this
        | step h _ => rw [hgx] at h; cases h
      · simp only [hec, if_true]
        by_cases hl : Live (del old s) x
        · rw [k4 x hl]; exact hk
        · have : (del old s).heap x = none := by
            cases h : (del old s).heap x with
            | none => rfl
            | some v => exact absurd (by simp [Live, h]) hl
          rw [this]; rfl
    · have hec' : fm.cc = false := by simpa using hec
      refine ⟨s, by simp [hec'], by simp [Live, hf], ?_, fun _ _ _ _ => rfl, hk⟩
      rw [hi.forget_eq]
      have := hi.noColl (c := c) hf
      rwa [backAll_self (by intro x hx; have := (a6 x).2 hx; simp_all)] at this
  obtain ⟨s1, rfl, hfl, hinv, hsame, hpar⟩ := key
  have hef : x ≠ f := by
    rintro rfl; rw [hf] at hk; simp [parallel] at hk
  have hpe : parallel (((if fm.cc then del old s else s).set f
      (.farm { fm with coll := none, cc := c })).heap x) = false := by
    simp only [S.set, upd, hef, if_false]; exact hpar
  cases c with
  | false =>
    simp only [Bool.false_eq_true, if_false]
    exact hinv.addCollectorPlain (set_get _ _ _) rfl
  | true =>
    simp only [if_true]
    refine hinv.addCollectorHand (set_get _ _ _) (Or.inr rfl) (Or.inl rfl) ?_ hpe
    obtain ⟨hm1, hm2⟩ := hx rfl
    have hs := hsame x hm2 hm1 (by
      rintro rfl
      by_contra hc
      have := (a6 x).1 ⟨by simpa using hc, ho⟩
      rw [hm2] at this; cases this)
    refine ⟨(live_set hfl).2 (by rw [Live, hs]; exact hm1), ?_⟩
    simp only [forget, hm2, ite_self]

theorem nodup_set {l : List Nat} (h : l.Nodup) {i x : Nat} (hx : x ∉ l) : (l.set i x).Nodup := by
  induction l generalizing i with
  | nil => simp
  | cons a l ih =>
    obtain ⟨h1, h2⟩ := List.nodup_cons.1 h
    cases i with
    | zero => simp only [List.set_cons_zero]; exact List.nodup_cons.2 ⟨fun hc => hx (by simp [hc]), h2⟩
    | succ i =>
      simp only [List.set_cons_succ]
      refine List.nodup_cons.2 ⟨?_, ih h2 (fun hc => hx (by simp [hc]))⟩
      intro hc
      rcases List.mem_or_eq_of_mem_set hc with h' | h'
      · exact h1 h'
      · exact hx (by simp [h'])

theorem mem_set_idxOf {l : List Nat} (h : l.Nodup) {a x : Nat} (ha : a ∈ l) (y : Nat) :
    y ∈ l.set (l.idxOf a) x ↔ y = x ∨ (y ∈ l ∧ y ≠ a) := by
  induction l with
  | nil => cases ha
  | cons b l ih =>
    obtain ⟨h1, h2⟩ := List.nodup_cons.1 h
    by_cases hb : b = a
    · subst hb
      simp only [List.idxOf_cons_self, List.set_cons_zero, List.mem_cons]
      constructor
      · rintro (h | h)
        · exact Or.inl h
        · exact Or.inr ⟨Or.inr h, fun e => h1 (e ▸ h)⟩
      · rintro (h | ⟨h | h, h'⟩)
        · exact Or.inl h
        · exact absurd h h'
        · exact Or.inr h
    · have ha' : a ∈ l := by
        rcases List.mem_cons.1 ha with h | h
        · exact absurd h.symm hb
        · exact h
      rw [List.idxOf_cons_ne _ hb]
      simp only [List.set_cons_succ, List.mem_cons, ih h2 ha']
      constructor
      · rintro (h | h | h)
        · exact Or.inr ⟨Or.inl h, by rintro rfl; exact hb h.symm⟩
        · exact Or.inl h
        · exact Or.inr ⟨Or.inr h.1, h.2⟩
      · rintro (h | ⟨h | h, h'⟩)
        · exact Or.inr (Or.inl h)
        · exact Or.inl h
        · exact Or.inr (Or.inr ⟨h, h'⟩)

theorem Inv.changeFarmWorkerFlag (hi : Inv s g) {f fm old x c} (hf : s.heap f = some (.farm fm))
    (hne : fm.emitter ≠ some old) (hnc : fm.coll = some old → fm.removed = true) (ho : old ∈ fm.workers)
    (hw : fm.wc = true) (hx : Mine s g x) :
    Inv (Own.changeFarmNode f old x c false s) (give (give g [old] f .handed) [x] f .worker) := by
  obtain ⟨a1, a2, a3, a4, a5, a6, a7⟩ := hi.farm_facts hf
  have hl := hi.liveX
  have hgo := (a4 old).1 ⟨hw, ho⟩
  have hxw : x ∉ fm.workers := by
    intro hc; have := (a4 x).1 ⟨hw, hc⟩; rw [hx.2] at this; cases this
  have hm := mem_set_idxOf (x := x) (a3 hw) ho
  have hnd := nodup_set (i := fm.workers.idxOf old) (a3 hw) hxw
  simp only [Own.changeFarmNode, hf, hne, if_false]
  rw [if_neg (by intro h; have := hnc h.1; simp [this] at h), if_pos ho]
  simp only [hw, Bool.false_eq_true, if_false, if_true, Bool.not_true, Bool.and_false]
  refine hi.farm hf ?_ ?_ ?_ ?_ ?_ ?_ ?_ ?_ ?_ <;> (try dsimp only) <;> farm_tac

theorem Inv.changeFarmWorker (hi : Inv s g) {f fm old x c rm} (hf : s.heap f = some (.farm fm))
    (hne : fm.emitter ≠ some old) (hnc : fm.coll = some old → fm.removed = true) (ho : old ∈ fm.workers)
    (hw : fm.wc = false) (hx : c = true → Mine s g x) :
    Inv (Own.changeFarmNode f old x c rm s)
      (let g1 := if rm then back g [old] f .handed else g
       if c then give g1 [x] f .handed else g1) := by
  obtain ⟨a1, a2, a3, a4, a5, a6, a7⟩ := hi.farm_facts hf
  have hl := hi.liveX
  simp only [Own.changeFarmNode, hf, hne, if_false]
  rw [if_neg (by intro h; have := hnc h.1; simp [this] at h), if_pos ho]
  have he : ∀ y, y ∈ fm.sup.erase old ↔ y ≠ old ∧ y ∈ fm.sup := fun y => a1.mem_erase_iff
  have hen := a1.erase old
  simp only [hw, Bool.false_eq_true, if_false, Bool.not_false, Bool.and_true]
  cases rm <;> cases c <;> simp only [Bool.false_eq_true, if_false, if_true] <;>
    simp only [Bool.false_eq_true, forall_const, false_implies] at hx <;>
    refine hi.farm hf ?_ ?_ ?_ ?_ ?_ ?_ ?_ ?_ ?_ <;> (try dsimp only) <;> farm_tac

end FF.Own
