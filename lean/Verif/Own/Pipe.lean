import Verif.Own.Step
import Mathlib.Data.List.Basic

/-!
# Calls on pipelines keep the invariant
-/

namespace FF.Own

/-- Discharges the conditions of `Inv.pipe` from the facts about the pipeline before the call. -/
syntax "pipe_tac" : tactic
macro_rules
  | `(tactic| pipe_tac) => `(tactic| (
      first
        | grind [give_eq, back_eq, backAll_eq, Mine, AllMine, List.nodup_append, List.Nodup.filter, List.nodup_cons]))

variable {s : S} {g : G}

theorem Inv.addStageHand (hi : Inv s g) {p x st all sup dont uniq}
    (hp : s.heap p = some (.pipe st all sup dont uniq)) (hx : Mine s g x) :
    Inv (addStage p x true s) (give g [x] p .handed) := by
  obtain ⟨a1, a2⟩ := hi.pipe_sup hp
  obtain ⟨b1, b2⟩ := hi.pipe_uniq hp
  obtain ⟨c1, c2⟩ := hi.pipe_stage hp
  have d := hi.pipe_no hp
  have hl := hi.liveX
  simp only [addStage, hp, if_true]
  refine hi.pipe hp ?_ ?_ b1 ?_ ?_ ?_ ?_ ?_ ?_
  · pipe_tac
  · pipe_tac
  · pipe_tac
  · intro h
    have h2 := c1 h
    have : ((st ++ [x]).filter (fun n => !((sup ++ [x]).contains n || dont.contains n))) =
        (st.filter (fun n => !(sup.contains n || dont.contains n))).filter (fun n => !(n == x)) := by
      rw [List.filter_append, List.filter_filter]
      simp
      apply List.filter_congr
      intro y _
      grind
    rw [this]
    exact h2.filter _
  · pipe_tac
  · pipe_tac
  · pipe_tac
  · pipe_tac

theorem Inv.addStageFlag (hi : Inv s g) {p x st sup dont uniq}
    (hp : s.heap p = some (.pipe st true sup dont uniq)) (hx : Mine s g x) (hd : x ∉ dont) :
    Inv (addStage p x false s) (give g [x] p .stage) := by
  obtain ⟨a1, a2⟩ := hi.pipe_sup hp
  obtain ⟨b1, b2⟩ := hi.pipe_uniq hp
  obtain ⟨c1, c2⟩ := hi.pipe_stage hp
  have d := hi.pipe_no hp
  have hl := hi.liveX
  simp only [addStage, hp, Bool.false_eq_true, if_false]
  refine hi.pipe hp a1 ?_ b1 ?_ ?_ ?_ ?_ ?_ ?_
  · pipe_tac
  · pipe_tac
  · intro h
    have h2 := c1 h
    rw [List.filter_append]
    refine List.nodup_append.2 ⟨h2, List.Nodup.filter _ (by simp), ?_⟩
    pipe_tac
  · pipe_tac
  · pipe_tac
  · pipe_tac
  · pipe_tac

theorem Inv.addStagePlain (hi : Inv s g) {p x st sup dont uniq}
    (hp : s.heap p = some (.pipe st false sup dont uniq)) : Inv (addStage p x false s) g := by
  obtain ⟨a1, a2⟩ := hi.pipe_sup hp
  obtain ⟨b1, b2⟩ := hi.pipe_uniq hp
  obtain ⟨c1, c2⟩ := hi.pipe_stage hp
  have d := hi.pipe_no hp
  have hl := hi.liveX
  simp only [addStage, hp, Bool.false_eq_true, if_false]
  refine hi.pipe hp a1 a2 b1 b2 (by simp) ?_ d (by simp) ?_
  · pipe_tac
  · pipe_tac

/-- The order of the stages does not matter. -/
theorem Inv.pipe_perm (hi : Inv s g) {p st st' all sup dont uniq}
    (hp : s.heap p = some (.pipe st all sup dont uniq)) (hq : st.Perm st') :
    Inv (s.set p (.pipe st' all sup dont uniq)) g := by
  obtain ⟨a1, a2⟩ := hi.pipe_sup hp
  obtain ⟨b1, b2⟩ := hi.pipe_uniq hp
  obtain ⟨c1, c2⟩ := hi.pipe_stage hp
  refine hi.pipe hp a1 a2 b1 b2 ?_ ?_ (hi.pipe_no hp) (by simp) (fun x r h => hi.liveX _ _ _ h)
  · intro h; exact ((hq.filter _).nodup_iff).1 (c1 h)
  · intro x; rw [← c2 x, hq.mem_iff]

theorem set_set (s : S) (p : Nat) (a b : Obj) : (s.set p a).set p b = s.set p b := by
  unfold S.set
  simp only [S.mk.injEq, and_self, and_true]
  funext j; simp only [upd]; split <;> rfl

theorem set_get (s : S) (p : Nat) (a : Obj) : (s.set p a).heap p = some a := by simp [S.set, upd]

theorem insert_perm (st : List Nat) (pos x : Nat) : (st ++ [x]).Perm (st.take pos ++ x :: st.drop pos) := by
  have h : (st ++ [x]).Perm (x :: st) := List.perm_append_singleton x st
  have h2 : (x :: (st.take pos ++ st.drop pos)).Perm (st.take pos ++ x :: st.drop pos) :=
    List.perm_middle.symm
  rw [List.take_append_drop] at h2
  exact h.trans h2

/-- Inserting a stage is, for the responsibilities, adding it. -/
theorem Inv.insert (hi : Inv s g) {p pos x c st all sup dont uniq} {g' : G}
    (hp : s.heap p = some (.pipe st all sup dont uniq)) (hpos : pos ≤ st.length)
    (h : Inv (Own.addStage p x c s) g') : Inv (Own.insertStage p pos x c s) g' := by
  simp only [Own.addStage, hp] at h
  simp only [Own.insertStage, hp, hpos, if_true]
  have := h.pipe_perm (set_get _ _ _) (insert_perm st pos x)
  rwa [set_set] at this

theorem Inv.insertErr (hi : Inv s g) {p pos x c st all sup dont uniq}
    (hp : s.heap p = some (.pipe st all sup dont uniq)) (hpos : st.length < pos) :
    Inv (Own.insertStage p pos x c s) g := by
  simp only [Own.insertStage, hp, Nat.not_le.2 hpos, if_false]; exact hi

theorem mem_eraseIdx_nodup {l : List Nat} (hn : l.Nodup) {i x : Nat} (hx : l[i]? = some x) (y : Nat) :
    y ∈ l.eraseIdx i ↔ y ∈ l ∧ y ≠ x := by
  rw [List.mem_eraseIdx_iff_getElem?]
  obtain ⟨hi, hx⟩ := List.getElem?_eq_some_iff.1 hx
  constructor
  · rintro ⟨j, hj, h⟩
    obtain ⟨hj', h'⟩ := List.getElem?_eq_some_iff.1 h
    refine ⟨h' ▸ List.getElem_mem _, ?_⟩
    intro e; subst e
    exact hj ((List.Nodup.getElem_inj_iff hn).1 (h'.trans hx.symm))
  · rintro ⟨h, hne⟩
    obtain ⟨j, hj, h'⟩ := List.getElem_of_mem h
    refine ⟨j, ?_, by rw [List.getElem?_eq_some_iff]; exact ⟨hj, h'⟩⟩
    rintro rfl
    exact hne (h'.symm.trans hx)

/-- Removing a stage. -/
theorem Inv.remove (hi : Inv s g) {p pos rm st all sup dont uniq x}
    (hp : s.heap p = some (.pipe st all sup dont uniq)) (hx : st[pos]? = some x) (hn : st.Nodup) :
    Inv (Own.removeStage p pos rm s)
      (if rm then back (back g [x] p .stage) [x] p .handed else back g [x] p .stage) := by
  obtain ⟨a1, a2⟩ := hi.pipe_sup hp
  obtain ⟨b1, b2⟩ := hi.pipe_uniq hp
  obtain ⟨c1, c2⟩ := hi.pipe_stage hp
  have d := hi.pipe_no hp
  have hl := hi.liveX
  have he := mem_eraseIdx_nodup hn hx
  have hen : (st.eraseIdx pos).Nodup := hn.sublist (List.eraseIdx_sublist _ _)
  have hxm : x ∈ st := List.mem_of_getElem? hx
  simp only [Own.removeStage, hp, hx]
  cases rm
  · simp only [Bool.false_eq_true, if_false]
    refine hi.pipe hp a1 ?_ b1 ?_ (fun _ => hen.filter _) ?_ ?_ ?_ ?_ <;> pipe_tac
  · simp only [if_true]
    have hs : ∀ y, y ∈ sup.erase x ↔ y ≠ x ∧ y ∈ sup := fun y => a1.mem_erase_iff
    refine hi.pipe hp (a1.erase _) ?_ b1 ?_ (fun _ => hen.filter _) ?_ ?_ ?_ ?_ <;> pipe_tac

/-- Replacing a stage is inserting the new one and removing the old one. -/
theorem Inv.change (hi : Inv s g) {p old x c rm st all sup dont uniq} {g' : G}
    (hp : s.heap p = some (.pipe st all sup dont uniq)) (ho : old ∈ st) (hn : st.Nodup) (hxs : x ∉ st)
    (h : Inv (Own.addStage p x c s) g') :
    Inv (Own.changeStage p old x c rm s)
      (if rm then back (back g' [old] p .stage) [old] p .handed else back g' [old] p .stage) := by
  have hlt : st.idxOf old < st.length := List.idxOf_lt_length_iff.2 ho
  have h1 := hi.insert (pos := st.idxOf old + 1) hp (by omega) h
  simp only [Own.changeStage, hp, ho, if_true]
  refine h1.remove (st := st.take (st.idxOf old + 1) ++ x :: st.drop (st.idxOf old + 1)) (all := all)
    (sup := if c then sup ++ [x] else sup) (dont := dont) (uniq := uniq) ?_ ?_ ?_
  · simp only [Own.insertStage, hp, Nat.succ_le_of_lt hlt, if_true, set_get]
  · rw [List.getElem?_append_left (by simp; omega), List.getElem?_take_of_lt (by omega)]
    exact List.getElem?_idxOf ho
  · refine ((insert_perm st _ x).nodup_iff).1 (List.nodup_append.2 ⟨hn, by simp, ?_⟩)
    grind

theorem Inv.cleanupNodesOn (hi : Inv s g) {p st all sup dont uniq}
    (hp : s.heap p = some (.pipe st all sup dont uniq)) (hn : st.Nodup)
    (hx : ∀ x ∈ st, x ∉ dont → Mine s g x ∨ g x = some (p, .handed) ∨ g x = some (p, .stage)) :
    Inv (Own.cleanupNodes p true s)
      (give g (st.filter (fun x => !dont.contains x && (g x).isNone)) p .stage) := by
  obtain ⟨a1, a2⟩ := hi.pipe_sup hp
  obtain ⟨b1, b2⟩ := hi.pipe_uniq hp
  obtain ⟨c1, c2⟩ := hi.pipe_stage hp
  have d := hi.pipe_no hp
  have hl := hi.liveX
  have hm : ∀ y, y ∈ st.filter (fun x => !dont.contains x && (g x).isNone) ↔
      y ∈ st ∧ y ∉ dont ∧ g y = none := by intro y; simp
  generalize st.filter (fun x => !dont.contains x && (g x).isNone) = fl at hm
  simp only [Own.cleanupNodes, hp]
  refine hi.pipe hp a1 ?_ b1 ?_ (fun _ => hn.filter _) ?_ ?_ ?_ ?_ <;> pipe_tac

theorem Inv.cleanupNodesOff (hi : Inv s g) {p st all sup dont uniq}
    (hp : s.heap p = some (.pipe st all sup dont uniq)) :
    Inv (Own.cleanupNodes p false s) (backAll g p .stage) := by
  obtain ⟨a1, a2⟩ := hi.pipe_sup hp
  obtain ⟨b1, b2⟩ := hi.pipe_uniq hp
  obtain ⟨c1, c2⟩ := hi.pipe_stage hp
  have d := hi.pipe_no hp
  have hl := hi.liveX
  simp only [Own.cleanupNodes, hp]
  refine hi.pipe hp a1 ?_ b1 ?_ (by simp) ?_ ?_ ?_ ?_ <;> pipe_tac

end FF.Own
