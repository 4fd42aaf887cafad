import Verif.Own.Inv
import Mathlib.Data.List.Nodup

/-!
# Every permitted call keeps the invariant
-/

namespace FF.Own

theorem give_eq {g : G} {xs : List Nat} {b : Nat} {r : Role} {y o : Nat} {r' : Role} :
    give g xs b r y = some (o, r') ↔ (y ∈ xs ∧ o = b ∧ r' = r) ∨ (y ∉ xs ∧ g y = some (o, r')) := by
  unfold give
  by_cases h : y ∈ xs
  · simp only [h, if_true, true_and, not_true, false_and, or_false]
    constructor
    · intro e; cases e; exact ⟨rfl, rfl⟩
    · rintro ⟨rfl, rfl⟩; rfl
  · simp [h]

theorem back_eq {g : G} {xs : List Nat} {b : Nat} {r : Role} {y o : Nat} {r' : Role} :
    back g xs b r y = some (o, r') ↔ g y = some (o, r') ∧ ¬ (y ∈ xs ∧ o = b ∧ r' = r) := by
  unfold back
  by_cases h : y ∈ xs ∧ g y = some (b, r)
  · rw [if_pos h]
    constructor
    · intro e; cases e
    · rintro ⟨h1, h2⟩; rw [h.2] at h1; cases h1; exact absurd ⟨h.1, rfl, rfl⟩ h2
  · rw [if_neg h]
    constructor
    · intro e; exact ⟨e, fun hc => h ⟨hc.1, by rw [e, hc.2.1, hc.2.2]⟩⟩
    · exact fun e => e.1

theorem backAll_eq {g : G} {b : Nat} {r : Role} {y o : Nat} {r' : Role} :
    backAll g b r y = some (o, r') ↔ g y = some (o, r') ∧ ¬ (o = b ∧ r' = r) := by
  unfold backAll
  by_cases h : g y = some (b, r)
  · rw [if_pos h]
    constructor
    · intro e; cases e
    · rintro ⟨h1, h2⟩; rw [h] at h1; cases h1; exact absurd ⟨rfl, rfl⟩ h2
  · rw [if_neg h]
    constructor
    · intro e; exact ⟨e, fun hc => h (by rw [e, hc.1, hc.2])⟩
    · exact fun e => e.1

theorem move_eq {g : G} {a b : Nat} {y o : Nat} {r : Role} :
    move g a b y = some (o, r) ↔ (o = b ∧ g y = some (a, r)) ∨ (o ≠ a ∧ g y = some (o, r)) := by
  unfold move
  cases h : g y with
  | none => simp
  | some v =>
    obtain ⟨o', r'⟩ := v
    by_cases h' : o' = a
    · simp only [h', if_true]; grind
    · simp only [h', if_false]; grind

theorem forget_eq {s : S} {g : G} {y o : Nat} {r : Role} :
    forget s g y = some (o, r) ↔ Live s y ∧ g y = some (o, r) := by
  unfold forget Live
  by_cases h : (s.heap y).isSome = true
  · simp [h]
  · simp [h]

section pipe
variable {s : S} {g : G} {p : Nat} {st : List Nat} {all : Bool} {sup dont uniq : List Nat}

/-- The invariant at a pipeline, and how to keep it when the pipeline changes. -/
theorem Inv.pipe (hi : Inv s g) (hp : s.heap p = some (.pipe st all sup dont uniq)) {g' : G}
    {st' : List Nat} {all' : Bool} {sup' dont' uniq' : List Nat}
    (h1 : sup'.Nodup) (h2 : ∀ x, x ∈ sup' ↔ g' x = some (p, .handed))
    (h3 : uniq'.Nodup) (h4 : ∀ x, x ∈ uniq' ↔ g' x = some (p, .unique))
    (h5 : all' = true → (st'.filter (fun n => !(sup'.contains n || dont'.contains n))).Nodup)
    (h6 : ∀ x, (all' = true ∧ x ∈ st' ∧ x ∉ sup' ∧ x ∉ dont') ↔ g' x = some (p, .stage))
    (h7 : ∀ x, g' x ≠ some (p, .emitter) ∧ g' x ≠ some (p, .collector) ∧ g' x ≠ some (p, .worker))
    (hoth : ∀ x o' r, o' ≠ p → (g' x = some (o', r) ↔ g x = some (o', r)))
    (hlive : ∀ x r, g' x = some (p, r) → Live s x) :
    Inv (s.set p (.pipe st' all' sup' dont' uniq')) g' := by
  refine hi.set hp ?_ ?_ hoth hlive
  · intro r
    cases r <;> simp only [part, List.nodup_nil] <;> try assumption
    split
    · rw [List.filter_reverse]; exact List.nodup_reverse.2 (h5 ‹_›)
    · simp
  · intro r x
    cases r <;> simp only [part, List.not_mem_nil, false_iff]
    · exact h2 x
    · exact h4 x
    · rw [← h6 x]
      split
      · rename_i h; simp [h]
      · rename_i h; simp [h]
    · exact (h7 x).1
    · exact (h7 x).2.1
    · exact (h7 x).2.2

theorem Inv.pipe_sup (hi : Inv s g) (hp : s.heap p = some (.pipe st all sup dont uniq)) :
    sup.Nodup ∧ ∀ x, x ∈ sup ↔ g x = some (p, .handed) :=
  ⟨hi.nodup _ _ .handed hp, fun x => hi.mem _ _ .handed x hp⟩

theorem Inv.pipe_uniq (hi : Inv s g) (hp : s.heap p = some (.pipe st all sup dont uniq)) :
    uniq.Nodup ∧ ∀ x, x ∈ uniq ↔ g x = some (p, .unique) :=
  ⟨hi.nodup _ _ .unique hp, fun x => hi.mem _ _ .unique x hp⟩

theorem Inv.pipe_stage (hi : Inv s g) (hp : s.heap p = some (.pipe st all sup dont uniq)) :
    (all = true → (st.filter (fun n => !(sup.contains n || dont.contains n))).Nodup) ∧
    ∀ x, (all = true ∧ x ∈ st ∧ x ∉ sup ∧ x ∉ dont) ↔ g x = some (p, .stage) := by
  refine ⟨?_, fun x => ?_⟩
  · intro h
    have := hi.nodup _ _ .stage hp
    simp only [part, h, if_true] at this
    rw [List.filter_reverse] at this
    exact List.nodup_reverse.1 this
  · rw [← hi.mem _ _ .stage x hp]
    simp only [part]
    split
    · rename_i h; simp [h]
    · rename_i h; simp [h]

theorem Inv.pipe_no (hi : Inv s g) (hp : s.heap p = some (.pipe st all sup dont uniq)) (x : Nat) :
    g x ≠ some (p, .emitter) ∧ g x ≠ some (p, .collector) ∧ g x ≠ some (p, .worker) := by
  refine ⟨?_, ?_, ?_⟩ <;> intro h <;> have h' := (hi.mem _ _ _ x hp).2 h <;> simp [part] at h'

end pipe

section farm
variable {s : S} {g : G} {f : Nat} {fm : Farm}

theorem Inv.farm (hi : Inv s g) (hf : s.heap f = some (.farm fm)) {g' : G} {fm' : Farm}
    (h1 : fm'.sup.Nodup) (h2 : ∀ x, x ∈ fm'.sup ↔ g' x = some (f, .handed))
    (h3 : fm'.wc = true → fm'.workers.Nodup)
    (h4 : ∀ x, (fm'.wc = true ∧ x ∈ fm'.workers) ↔ g' x = some (f, .worker))
    (h5 : ∀ x, (fm'.ec = true ∧ fm'.emitter = some x) ↔ g' x = some (f, .emitter))
    (h6 : ∀ x, (fm'.cc = true ∧ fm'.coll = some x) ↔ g' x = some (f, .collector))
    (h7 : ∀ x, g' x ≠ some (f, .stage) ∧ g' x ≠ some (f, .unique))
    (hoth : ∀ x o' r, o' ≠ f → (g' x = some (o', r) ↔ g x = some (o', r)))
    (hlive : ∀ x r, g' x = some (f, r) → Live s x) : Inv (s.set f (.farm fm')) g' := by
  have ho : ∀ o : Option Nat, o.toList.Nodup := by intro o; cases o <;> simp
  refine hi.set hf ?_ ?_ hoth hlive
  · intro r
    cases r <;> simp only [part, List.nodup_nil]
    · exact h1
    · split
      · exact ho _
      · simp
    · split
      · exact ho _
      · simp
    · split
      · exact h3 ‹_›
      · simp
  · intro r x
    cases r <;> simp only [part, List.not_mem_nil, false_iff]
    · exact h2 x
    · exact (h7 x).2
    · exact (h7 x).1
    · rw [← h5 x]; split <;> simp_all
    · rw [← h6 x]; split <;> simp_all
    · rw [← h4 x]; split <;> simp_all

theorem Inv.farm_facts (hi : Inv s g) (hf : s.heap f = some (.farm fm)) :
    fm.sup.Nodup ∧ (∀ x, x ∈ fm.sup ↔ g x = some (f, .handed)) ∧
    (fm.wc = true → fm.workers.Nodup) ∧
    (∀ x, (fm.wc = true ∧ x ∈ fm.workers) ↔ g x = some (f, .worker)) ∧
    (∀ x, (fm.ec = true ∧ fm.emitter = some x) ↔ g x = some (f, .emitter)) ∧
    (∀ x, (fm.cc = true ∧ fm.coll = some x) ↔ g x = some (f, .collector)) ∧
    (∀ x, g x ≠ some (f, .stage) ∧ g x ≠ some (f, .unique)) := by
  refine ⟨hi.nodup _ _ .handed hf, fun x => hi.mem _ _ .handed x hf, ?_, ?_, ?_, ?_, ?_⟩
  · intro h; have := hi.nodup _ _ .worker hf; simpa [part, h] using this
  · intro x; rw [← hi.mem _ _ .worker x hf]; simp only [part]; split <;> simp_all
  · intro x; rw [← hi.mem _ _ .emitter x hf]; simp only [part]; split <;> simp_all
  · intro x; rw [← hi.mem _ _ .collector x hf]; simp only [part]; split <;> simp_all
  · intro x
    refine ⟨?_, ?_⟩ <;> intro h <;> have h' := (hi.mem _ _ _ x hf).2 h <;> simp [part] at h'

end farm

/-- Blocks that only delete what was handed over by an argument. -/
def onlyHanded : Obj → Option (List Nat)
  | .node => some []
  | .wrap n c => some (if c then [n] else [])
  | .comb _ _ cl => some cl
  | .a2a _ _ sup => some sup
  | _ => none

section simple
variable {s : S} {g : G} {k : Nat} {ob ob' : Obj} {l l' : List Nat}

theorem Inv.simple (hi : Inv s g) (hk : s.heap k = some ob) {g' : G} (ho : onlyHanded ob' = some l')
    (h1 : l'.Nodup) (h2 : ∀ x, x ∈ l' ↔ g' x = some (k, .handed))
    (h7 : ∀ x r, g' x = some (k, r) → r = .handed)
    (hoth : ∀ x o' r, o' ≠ k → (g' x = some (o', r) ↔ g x = some (o', r)))
    (hlive : ∀ x r, g' x = some (k, r) → Live s x) : Inv (s.set k ob') g' := by
  refine hi.set hk ?_ ?_ hoth hlive
  · intro r
    cases ob' <;> simp only [onlyHanded, Option.some.injEq, reduceCtorEq] at ho <;> subst ho <;>
      cases r <;> simp only [part, List.nodup_nil] <;> exact h1
  · intro r x
    by_cases hr : r = .handed
    · subst hr
      rw [← h2 x]
      cases ob' <;> simp only [onlyHanded, Option.some.injEq, reduceCtorEq] at ho <;> subst ho <;>
        simp only [part]
    · constructor
      · intro h; exfalso
        cases ob' <;> simp only [onlyHanded, Option.some.injEq, reduceCtorEq] at ho <;> subst ho <;>
          cases r <;> simp_all [part]
      · intro h; exact absurd (h7 x r h) hr

theorem Inv.simple_facts (hi : Inv s g) (hk : s.heap k = some ob) (ho : onlyHanded ob = some l) :
    l.Nodup ∧ (∀ x, x ∈ l ↔ g x = some (k, .handed)) ∧ (∀ x r, g x = some (k, r) → r = .handed) := by
  have h1 := hi.nodup _ _ .handed hk
  have h2 := fun x => hi.mem _ _ .handed x hk
  have hp : part ob .handed = l := by
    cases ob <;> simp only [onlyHanded, Option.some.injEq, reduceCtorEq] at ho <;> subst ho <;>
      simp only [part]
  rw [hp] at h1
  simp only [hp] at h2
  refine ⟨h1, h2, ?_⟩
  intro x r h
  have h' := (hi.mem _ _ _ x hk).2 h
  cases ob <;> simp only [onlyHanded, Option.some.injEq, reduceCtorEq] at ho <;> subst ho <;>
    cases r <;> simp_all [part]

end simple

end FF.Own
