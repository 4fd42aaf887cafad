/-
C64: places in a network.  A place is a list of frames, innermost first; `plug` rebuilds the whole network.
-/
import Verif.Dist.Lemmas

namespace FF.Dist

/-- What surrounds a node inside its building block. -/
inductive Frame
  | pipeF (i : Nat) (w : Bool) (pre post : List Net)
  | a2a1F (i : Nat) (w : Bool) (pre post ss : List Net)
  | a2a2F (i : Nat) (w : Bool) (fs pre post : List Net)
  | farmF (i : Nat) (em : Option Nat) (pre post : List Net) (co : Coll)

/-- Put a node back into its building block. -/
def Frame.fill : Frame → Net → Net
  | .pipeF i w pre post, t => .pipe i w (pre ++ t :: post)
  | .a2a1F i w pre post ss, t => .a2a i w (pre ++ t :: post) ss
  | .a2a2F i w fs pre post, t => .a2a i w fs (pre ++ t :: post)
  | .farmF i em pre post co, t => .farm i em (pre ++ t :: post) co

/-- The whole network around a place. -/
def plug : List Frame → Net → Net
  | [], t => t
  | f :: fs, t => plug fs (f.fill t)

/-- `x ∈ ids t` stays visible from outside. -/
theorem ids_fill (f : Frame) (t : Net) (x : Nat) (h : x ∈ ids t) : x ∈ ids (f.fill t) := by
  cases f <;> simp [Frame.fill, ids, idsL, h]

theorem sub_fill (f : Frame) (t : Net) : (ids t).Sublist (ids (f.fill t)) := by
  cases f with
  | pipeF i w pre post =>
    simp only [Frame.fill, ids, idsL_append, idsL]
    exact ((List.sublist_append_left _ _).trans (List.sublist_append_right _ _)).cons _
  | a2a1F i w pre post ss =>
    simp only [Frame.fill, ids, idsL_append, idsL]
    exact (((List.sublist_append_left _ _).trans (List.sublist_append_right _ _)).trans
      (List.sublist_append_left _ _)).cons _
  | a2a2F i w fs pre post =>
    simp only [Frame.fill, ids, idsL_append, idsL]
    exact (((List.sublist_append_left _ _).trans (List.sublist_append_right _ _)).trans
      (List.sublist_append_right _ _)).cons _
  | farmF i em pre post co =>
    simp only [Frame.fill, ids, idsL_append, idsL]
    exact ((((List.sublist_append_left _ _).trans (List.sublist_append_right _ _)).trans
      (List.sublist_append_left _ _)).trans (List.sublist_append_right _ _)).cons _

theorem sub_plug : ∀ (fs : List Frame) (t : Net), (ids t).Sublist (ids (plug fs t))
  | [], _ => List.Sublist.refl _
  | f :: fs, t => (sub_fill f t).trans (sub_plug fs (f.fill t))

/-- The addresses around a place, within the block. -/
def Frame.others : Frame → List Nat
  | .pipeF i _ pre post => i :: (idsL pre ++ idsL post)
  | .a2a1F i _ pre post ss => i :: (idsL pre ++ idsL post ++ idsL ss)
  | .a2a2F i _ fs pre post => i :: (idsL fs ++ idsL pre ++ idsL post)
  | .farmF i em pre post co => i :: (em.toList ++ idsL pre ++ idsL post ++ co.node)

theorem fill_perm (f : Frame) (t : Net) : (ids (f.fill t)).Perm (ids t ++ f.others) := by
  rw [List.perm_iff_count]
  intro a
  cases f <;> simp [Frame.fill, Frame.others, ids, idsL, List.count_cons] <;> omega

theorem disj {f : Frame} {t : Net} (hn : (ids (f.fill t)).Nodup) {x : Nat} (hx : x ∈ ids t) : x ∉ f.others := by
  have := (fill_perm f t).nodup_iff.1 hn
  rw [List.nodup_append] at this
  intro h
  exact this.2.2 x hx x h rfl

theorem mem_fill {f : Frame} {t : Net} {x : Nat} : x ∈ ids (f.fill t) ↔ x ∈ ids t ∨ x ∈ f.others := by
  rw [(fill_perm f t).mem_iff, List.mem_append]

theorem id_fill (f : Frame) (t : Net) : (f.fill t).id ∈ f.others := by
  cases f <;> simp [Frame.fill, Frame.others, Net.id]

/-! ### `getBB` finds the enclosing block -/

theorem firstId_mem : ∀ t, firstId t ∈ ids t
  | .seq _ _ _ => by simp [firstId, ids, Net.id]
  | .comb _ l _ => by have := firstId_mem l; simp [firstId, ids, this]
  | .pipe _ _ _ => by simp [firstId, ids, Net.id]
  | .a2a _ _ _ _ => by simp [firstId, ids, Net.id]
  | .farm _ _ _ _ => by simp [firstId, ids, Net.id]

theorem lastId_mem : ∀ t, lastId t ∈ ids t
  | .seq _ _ _ => by simp [lastId, ids, Net.id]
  | .comb _ _ r => by have := lastId_mem r; simp [lastId, ids, this]
  | .pipe _ _ _ => by simp [lastId, ids, Net.id]
  | .a2a _ _ _ _ => by simp [lastId, ids, Net.id]
  | .farm _ _ _ _ => by simp [lastId, ids, Net.id]

mutual
theorem getBB_none : ∀ t n, n ∉ ids t → getBB t n = none
  | .seq i _ _, n, h => by
      have : ¬ i = n := fun e => h (by simp [ids, e])
      simp [getBB, this]
  | .comb i l r, n, h => by
      have hi : ¬ i = n := fun e => h (by simp [ids, e])
      have hl : n ∉ ids l := fun e => h (by simp [ids, e])
      have hr : n ∉ ids r := fun e => h (by simp [ids, e])
      have h1 : ¬ firstId l = n := fun e => hl (e ▸ firstId_mem l)
      have h2 : ¬ lastId r = n := fun e => hr (e ▸ lastId_mem r)
      simp [getBB, hi, h1, h2, getBB_none l n hl, getBB_none r n hr]
  | .pipe i w ss, n, h => by
      have hi : ¬ i = n := fun e => h (by simp [ids, e])
      have hs : n ∉ idsL ss := fun e => h (by simp [ids, e])
      simp [getBB, hi, getBBL_none _ ss n hs]
  | .a2a i w fs ss, n, h => by
      have hi : ¬ i = n := fun e => h (by simp [ids, e])
      have hf : n ∉ idsL fs := fun e => h (by simp [ids, e])
      have hs : n ∉ idsL ss := fun e => h (by simp [ids, e])
      simp [getBB, hi, getBBL_none _ ss n hs, getBBL_none _ fs n hf]
  | .farm i em ws co, n, h => by
      have hi : ¬ i = n := fun e => h (by simp [ids, e])
      have hs : n ∉ idsL ws := fun e => h (by simp [ids, e])
      have he : em ≠ some n := fun e => h (by simp [ids, e])
      have hc : co ≠ .user n := fun e => h (by simp [ids, Coll.node, e])
      simp [getBB, hi, he, hc, getBBL_none _ ws n hs]
theorem getBBL_none : ∀ (bb : Net) ts n, n ∉ idsL ts → getBBL bb ts n = none
  | bb, [], n, _ => by simp [getBBL]
  | bb, t :: ts, n, h => by
      have h1 : n ∉ ids t := fun e => h (by simp [idsL, e])
      have h2 : n ∉ idsL ts := fun e => h (by simp [idsL, e])
      simp [getBBL, getBB_none t n h1, getBBL_none bb ts n h2]
end

theorem getBB_self (t : Net) : getBB t t.id = some t := by cases t <;> simp [getBB, Net.id]

theorem getBBL_at {bb : Net} {pre post : List Net} {t b : Net} {n : Nat} (h1 : n ∉ idsL pre)
    (h2 : getBB t n = some b) : getBBL bb (pre ++ t :: post) n = some (if b.id = n then bb else b) := by
  induction pre with
  | nil => simp [getBBL, h2]
  | cons s pre ih =>
    simp only [idsL, List.mem_append, not_or] at h1
    simp [getBBL, getBB_none s n h1.1, ih h1.2]

theorem getBB_fill {f : Frame} {t b : Net} {n : Nat} (hn : (ids (f.fill t)).Nodup) (hx : n ∈ ids t)
    (hb : getBB t n = some b) : getBB (f.fill t) n = some (if b.id = n then f.fill t else b) := by
  have hd := disj hn hx
  cases f with
  | pipeF i w pre post =>
    simp only [Frame.others, List.mem_cons, List.mem_append, not_or] at hd
    simp only [Frame.fill, getBB, if_neg (Ne.symm hd.1)]
    exact getBBL_at hd.2.1 hb
  | a2a1F i w pre post ss =>
    simp only [Frame.others, List.mem_cons, List.mem_append, not_or] at hd
    simp only [Frame.fill, getBB, if_neg (Ne.symm hd.1)]
    rw [getBBL_at hd.2.1.1 hb]
  | a2a2F i w fs pre post =>
    simp only [Frame.others, List.mem_cons, List.mem_append, not_or] at hd
    simp only [Frame.fill, getBB, if_neg (Ne.symm hd.1)]
    rw [getBBL_none _ fs n hd.2.1.1]
    exact getBBL_at hd.2.1.2 hb
  | farmF i em pre post co =>
    simp only [Frame.others, List.mem_cons, List.mem_append, not_or] at hd
    have he : em ≠ some n := fun e => hd.2.1.1.1 (by simp [e])
    have hc : co ≠ .user n := fun e => hd.2.2 (by simp [Coll.node, e])
    simp only [Frame.fill, getBB, if_neg (Ne.symm hd.1), if_neg he, if_neg hc]
    exact getBBL_at hd.2.1.1.2 hb

theorem getBB_plug : ∀ (fs : List Frame) (t b : Net) (n : Nat), (ids (plug fs t)).Nodup → n ∈ ids t →
    getBB t n = some b → b.id ≠ n → getBB (plug fs t) n = some b
  | [], t, b, n, _, _, hb, _ => hb
  | f :: fs, t, b, n, hn, hx, hb, hne => by
      have hn' : (ids (f.fill t)).Nodup := hn.sublist (sub_plug fs _)
      have h1 := getBB_fill hn' hx hb
      rw [if_neg hne] at h1
      exact getBB_plug fs (f.fill t) b n hn (ids_fill f t n hx) h1 hne

/-- `getBB` returns the block around a place. -/
theorem getBB_place (f : Frame) (fs : List Frame) (t : Net) (hn : (ids (plug (f :: fs) t)).Nodup) :
    getBB (plug (f :: fs) t) t.id = some (f.fill t) := by
  have hn' : (ids (f.fill t)).Nodup := List.Nodup.sublist (sub_plug fs _) hn
  have h1 := getBB_fill hn' (id_mem t) (getBB_self t)
  rw [if_pos rfl] at h1
  refine getBB_plug fs (f.fill t) _ t.id hn (ids_fill f t _ (id_mem t)) h1 ?_
  intro e
  exact disj hn' (id_mem t) (e ▸ id_fill f t)

theorem root_ne {fs : List Frame} {t : Net} {x : Nat} (hn : (ids (plug fs t)).Nodup) (hx : x ∈ ids t)
    (hxt : x ≠ t.id) : x ≠ (plug fs t).id := by
  induction fs generalizing t with
  | nil => exact hxt
  | cons f fs ih =>
    have hn' : (ids (f.fill t)).Nodup := List.Nodup.sublist (sub_plug fs _) hn
    refine ih (t := f.fill t) hn (ids_fill f t x hx) ?_
    intro e
    exact disj hn' hx (e ▸ id_fill f t)

theorem place_ne_root {f : Frame} {fs : List Frame} {t : Net} (hn : (ids (plug (f :: fs) t)).Nodup) :
    t.id ≠ (plug (f :: fs) t).id := by
  have hn' : (ids (f.fill t)).Nodup := List.Nodup.sublist (sub_plug fs _) hn
  refine root_ne (fs := fs) (t := f.fill t) hn (ids_fill f t _ (id_mem t)) ?_
  intro e
  exact disj hn' (id_mem t) (e ▸ id_fill f t)

/-! ### Positions -/

theorem nextStage_at {pre post : List Net} {t : Net} (h : t.id ∉ idsL pre) :
    nextStage (pre ++ t :: post) t.id = post.head? := by
  induction pre with
  | nil => simp [nextStage]
  | cons s pre ih =>
    simp only [idsL, List.mem_append, not_or] at h
    have : ¬ s.id = t.id := fun e => h.1 (e ▸ id_mem s)
    simp [nextStage, this, ih h.2]

theorem prevStage_at {pre post : List Net} {t : Net} (h : t.id ∉ idsL pre) :
    prevStage (pre ++ t :: post) t.id = pre.getLast? := by
  induction pre with
  | nil => cases post <;> simp [prevStage]
  | cons s pre ih =>
    simp only [idsL, List.mem_append, not_or] at h
    have hs : ¬ s.id = t.id := fun e => h.1 (e ▸ id_mem s)
    cases pre with
    | nil => simp [prevStage, hs]
    | cons u pre =>
      have h2 := ih h.2
      have hu : ¬ u.id = t.id := by
        have := h.2
        simp only [idsL, List.mem_append, not_or] at this
        exact fun e => this.1 (e ▸ id_mem u)
      simp only [List.cons_append] at h2 ⊢
      rw [prevStage, if_neg hs]
      simp only [if_neg hu]
      rw [h2, List.getLast?_cons_cons]

theorem index_at {pre post : List Net} {t : Net} (h : t.id ∉ idsL pre) :
    index (pre ++ t :: post) t.id = some pre.length := by
  induction pre with
  | nil => simp [index]
  | cons s pre ih =>
    simp only [idsL, List.mem_append, not_or] at h
    have : ¬ s.id = t.id := fun e => h.1 (e ▸ id_mem s)
    simp [index, this, ih h.2]

theorem index_none {ts : List Net} {n : Nat} (h : n ∉ idsL ts) : index ts n = none := by
  induction ts with
  | nil => simp [index]
  | cons s ts ih =>
    simp only [idsL, List.mem_append, not_or] at h
    have : ¬ s.id = n := fun e => h.1 (e ▸ id_mem s)
    simp [index, this, ih h.2]

end FF.Dist
