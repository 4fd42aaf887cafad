/-
C64: `getConsumers` and the channels of the network.
-/
import Verif.Dist.Zipper

namespace FF.Dist

/-- `getConsumers` at a place, without searching. -/
def consZ : List Frame → Net → List Nat × List Nat
  | [], _ => ([], [])
  | .pipeF i w pre [] :: fs, t =>
    addFb (if w then ins (Frame.fill (.pipeF i w pre []) t) else []) (consZ fs (Frame.fill (.pipeF i w pre []) t))
  | .pipeF _ _ _ (s :: _) :: _, _ => (ins s, [])
  | .a2a1F _ _ _ _ ss :: _, _ => (insL ss, [])
  | .a2a2F i w fs pre post :: r, t =>
    addFb (if w then ins (Frame.fill (.a2a2F i w fs pre post) t) else [])
      (consZ r (Frame.fill (.a2a2F i w fs pre post) t))
  | .farmF _ _ _ _ (.user c) :: _, _ => ([c], [])
  | .farmF i em pre post .none :: fs, t =>
    match fs with
    | .pipeF _ _ _ (.a2a _ _ fs' _ :: _) :: _ =>
      if pre.length + 1 + post.length = fs'.length then
        match fs'[pre.length]? with
        | some u => (ins u, [])
        | none => ([], [])
      else consZ fs (Frame.fill (.farmF i em pre post .none) t)
    | _ => consZ fs (Frame.fill (.farmF i em pre post .none) t)
  | .farmF i em pre post .dflt :: fs, t =>
    match fs with
    | .pipeF _ _ _ (.a2a _ _ fs' _ :: _) :: _ =>
      if pre.length + 1 + post.length = fs'.length then
        match fs'[pre.length]? with
        | some u => (ins u, [])
        | none => ([], [])
      else consZ fs (Frame.fill (.farmF i em pre post .dflt) t)
    | _ => consZ fs (Frame.fill (.farmF i em pre post .dflt) t)

theorem farm_len (pre post : List Net) (t : Net) : (pre ++ t :: post).length = pre.length + 1 + post.length := by
  simp; omega

theorem getConsumers_root (k : Nat) (t : Net) : getConsumers (k + 1) t t.id = some ([], []) := by
  simp [getConsumers]

/-- `getConsumers` finds the place and computes `consZ`. -/
theorem getConsumers_place : ∀ (fs : List Frame) (t : Net) (k : Nat), fs.length < k →
    (ids (plug fs t)).Nodup → getConsumers k (plug fs t) t.id = some (consZ fs t)
  | [], t, 0, h, _ => by simp at h
  | [], t, k + 1, _, _ => by simp [plug, getConsumers, consZ]
  | f :: fs, t, 0, h, _ => by simp at h
  | f :: fs, t, k + 1, hk, hn => by
    have hn' : (ids (f.fill t)).Nodup := hn.sublist (sub_plug fs _)
    have hd := disj hn' (id_mem t)
    have hb := getBB_place f fs t hn
    have hr := place_ne_root hn
    have ih := getConsumers_place fs (f.fill t) k (by simpa using hk) hn
    rw [getConsumers, if_neg hr, hb]
    cases f with
    | pipeF i w pre post =>
      simp only [Frame.others, List.mem_cons, List.mem_append, not_or] at hd
      simp only [Frame.fill, nextStage_at hd.2.1]
      cases post with
      | nil =>
        simp only [List.head?_nil, consZ]
        simp only [Frame.fill, Net.id] at ih
        simp only [plug, Frame.fill, ih, Option.map_some]
      | cons s post => simp [consZ]
    | a2a1F i w pre post ss =>
      simp only [Frame.others, List.mem_cons, List.mem_append, not_or] at hd
      simp [Frame.fill, index_at hd.2.1.1, consZ]
    | a2a2F i w gs pre post =>
      simp only [Frame.others, List.mem_cons, List.mem_append, not_or] at hd
      simp only [Frame.fill, Net.id] at ih
      simp [Frame.fill, index_none hd.2.1.1, consZ, plug, ih]
    | farmF i em pre post co =>
      simp only [Frame.others, List.mem_cons, List.mem_append, not_or] at hd
      have he : em ≠ some t.id := fun e => hd.2.1.1.1 (by simp [e])
      have ih' : getConsumers k (plug fs (.farm i em (pre ++ t :: post) co)) i =
          some (consZ fs (.farm i em (pre ++ t :: post) co)) := ih
      have key : ∀ (c : Coll), co = c → c ≠ .dflt ∨ c = .dflt → (∀ z, c ≠ .user z) →
          (match getBB (plug (.farmF i em pre post co :: fs) t) i with
              | some (.pipe _ _ ss') =>
                match nextStage ss' i with
                | some (.a2a _ _ fs' _) =>
                  if (pre ++ t :: post).length = fs'.length then
                    match fs'[pre.length]? with
                    | some u => some (ins u, [])
                    | none => some ([], [])
                  else getConsumers k (plug (.farmF i em pre post co :: fs) t) i
                | _ => getConsumers k (plug (.farmF i em pre post co :: fs) t) i
              | _ => getConsumers k (plug (.farmF i em pre post co :: fs) t) i) =
          some (consZ (.farmF i em pre post c :: fs) t) := by
        intro c hc _ hu
        subst hc
        cases fs with
        | nil =>
          have : getBB (plug [.farmF i em pre post co] t) i = some (.farm i em (pre ++ t :: post) co) := by
            simp [plug, Frame.fill, getBB]
          rw [this]
          cases co with
          | user z => exact absurd rfl (hu z)
          | none => simpa [consZ, plug, Frame.fill] using ih'
          | dflt => simpa [consZ, plug, Frame.fill] using ih'
        | cons g gs =>
          have hb2 := getBB_place g gs (.farm i em (pre ++ t :: post) co) hn
          have : getBB (plug (.farmF i em pre post co :: g :: gs) t) i =
            some (g.fill (.farm i em (pre ++ t :: post) co)) := hb2
          rw [this]
          have hn2 : (ids (g.fill (.farm i em (pre ++ t :: post) co))).Nodup :=
            hn.sublist (sub_plug gs _)
          have hd2 := disj hn2 (id_mem _)
          have ih2 : getConsumers k (plug (.farmF i em pre post co :: g :: gs) t) i =
            some (consZ (g :: gs) (.farm i em (pre ++ t :: post) co)) := ih'
          rw [ih2]
          cases g with
          | pipeF j v pre' post' =>
            simp only [Frame.others, List.mem_cons, List.mem_append, not_or] at hd2
            have hns := nextStage_at (pre := pre') (post := post') hd2.2.1
            simp only [Net.id] at hns
            simp only [Frame.fill, hns]
            cases post' with
            | nil =>
              cases co with
              | user z => exact absurd rfl (hu z)
              | none => simp [consZ, Frame.fill]
              | dflt => simp [consZ, Frame.fill]
            | cons s post' =>
              simp only [List.head?_cons]
              cases co with
              | user z => exact absurd rfl (hu z)
              | none =>
                cases s <;> simp only [consZ, farm_len]
                split
                · split <;> simp_all
                · rfl
              | dflt =>
                cases s <;> simp only [consZ, farm_len]
                split
                · split <;> simp_all
                · rfl
          | a2a1F j v pre' post' ss' =>
            cases co with
            | user z => exact absurd rfl (hu z)
            | none => simp [consZ, Frame.fill]
            | dflt => simp [consZ, Frame.fill]
          | a2a2F j v ss' pre' post' =>
            cases co with
            | user z => exact absurd rfl (hu z)
            | none => simp [consZ, Frame.fill]
            | dflt => simp [consZ, Frame.fill]
          | farmF j em' pre' post' co' =>
            cases co with
            | user z => exact absurd rfl (hu z)
            | none => simp [consZ, Frame.fill]
            | dflt => simp [consZ, Frame.fill]
      simp only [Frame.fill, if_neg he, index_at hd.2.1.1.2]
      cases co with
      | user z => simp [consZ]
      | none => exact key .none rfl (by simp) (by simp)
      | dflt => exact key .dflt rfl (by simp) (by simp)


/-! ### What one block adds to the channels of a member -/

/-- Forward channels from a member to its siblings. -/
def outLink : Frame → Net → List (Nat × Nat)
  | .pipeF _ _ _ [], _ => []
  | .pipeF _ _ _ (s :: _), t => link t s
  | .a2a1F _ _ _ _ ss, t => pairs (outs t) (insL ss)
  | .a2a2F _ _ _ _ _, _ => []
  | .farmF _ _ _ _ co, t => pairs (outs t) co.node

/-- Are the outputs of the member outputs of the block? -/
def lastF : Frame → Prop
  | .pipeF _ _ _ post => post = []
  | .a2a1F _ _ _ _ _ => False
  | .a2a2F _ _ _ _ _ => True
  | .farmF _ _ _ _ co => co = .none

/-- Feedback channels that start at the member. -/
def outFb : Frame → Net → List Nat
  | .pipeF i w pre [], t => if w then ins (Frame.fill (.pipeF i w pre []) t) else []
  | .a2a2F i w fs pre post, t => if w then ins (Frame.fill (.a2a2F i w fs pre post) t) else []
  | _, _ => []

theorem outsLast_append (pre : List Net) (t : Net) (post : List Net) :
    outsLast (pre ++ t :: post) = outsLast (t :: post) := by
  induction pre with
  | nil => rfl
  | cons s pre ih =>
    cases pre with
    | nil => simp [outsLast]
    | cons u pre => simpa [outsLast] using ih

theorem fwd_fill {f : Frame} {t : Net} (hn : (ids (f.fill t)).Nodup) {x y : Nat} (hx : x ∈ ids t) :
    (x, y) ∈ fwd (f.fill t) ↔ (x, y) ∈ fwd t ∨ (x, y) ∈ outLink f t := by
  have hd := disj hn hx
  cases f with
  | pipeF i w pre post =>
    simp only [Frame.others, List.mem_cons, List.mem_append, not_or] at hd
    have h1 : (x, y) ∉ fwdL pre := fun h => hd.2.1 (fwdL_mem _ h).1
    have h2 : (x, y) ∉ fwdL post := fun h => hd.2.2 (fwdL_mem _ h).1
    have h3 : (x, y) ∉ links (pre ++ [t]) := fun h => hd.2.1 (links_mem_init h).1
    simp only [Frame.fill, fwd, fwdL_append, fwdL, links_split pre t post, List.mem_append, h1, h2, h3, false_or,
      or_false]
    cases post with
    | nil => simp [links, outLink]
    | cons s post =>
      have h4 : (x, y) ∉ links (s :: post) := fun h => hd.2.2 (by simpa [idsL] using (links_mem_tail h).1)
      simp [links, outLink, h4]
  | a2a1F i w pre post ss =>
    simp only [Frame.others, List.mem_cons, List.mem_append, not_or] at hd
    have h1 : (x, y) ∉ fwdL pre := fun h => hd.2.1.1 (fwdL_mem _ h).1
    have h2 : (x, y) ∉ fwdL post := fun h => hd.2.1.2 (fwdL_mem _ h).1
    have h3 : (x, y) ∉ fwdL ss := fun h => hd.2.2 (fwdL_mem _ h).1
    have h4 : x ∉ outsL pre := fun h => hd.2.1.1 (outsL_sub _ _ h)
    have h5 : x ∉ outsL post := fun h => hd.2.1.2 (outsL_sub _ _ h)
    simp [Frame.fill, fwd, fwdL, outsL, outLink, h1, h2, h3, h4, h5]
  | a2a2F i w fs pre post =>
    simp only [Frame.others, List.mem_cons, List.mem_append, not_or] at hd
    have h1 : (x, y) ∉ fwdL pre := fun h => hd.2.1.2 (fwdL_mem _ h).1
    have h2 : (x, y) ∉ fwdL post := fun h => hd.2.2 (fwdL_mem _ h).1
    have h3 : (x, y) ∉ fwdL fs := fun h => hd.2.1.1 (fwdL_mem _ h).1
    have h4 : x ∉ outsL fs := fun h => hd.2.1.1 (outsL_sub _ _ h)
    simp [Frame.fill, fwd, fwdL, outLink, h1, h2, h3, h4]
  | farmF i em pre post co =>
    simp only [Frame.others, List.mem_cons, List.mem_append, not_or] at hd
    have h1 : (x, y) ∉ fwdL pre := fun h => hd.2.1.1.2 (fwdL_mem _ h).1
    have h2 : (x, y) ∉ fwdL post := fun h => hd.2.1.2 (fwdL_mem _ h).1
    have h4 : x ∉ outsL pre := fun h => hd.2.1.1.2 (outsL_sub _ _ h)
    have h5 : x ∉ outsL post := fun h => hd.2.1.2 (outsL_sub _ _ h)
    have h6 : x ∉ em.toList := hd.2.1.1.1
    simp only [Frame.fill, fwd, fwdL_append, fwdL, outsL_append, outsL, outLink, List.mem_append, mem_pairs, h1, h2, h4,
      h5, h6, false_or, or_false, false_and]

theorem outs_fill {f : Frame} {t : Net} (hn : (ids (f.fill t)).Nodup) {x : Nat} (hx : x ∈ ids t) :
    x ∈ outs (f.fill t) ↔ x ∈ outs t ∧ lastF f := by
  have hd := disj hn hx
  cases f with
  | pipeF i w pre post =>
    simp only [Frame.others, List.mem_cons, List.mem_append, not_or] at hd
    simp only [Frame.fill, outs, outsLast_append, lastF]
    cases post with
    | nil => simp [outsLast]
    | cons s post =>
      have : x ∉ outsLast (s :: post) := fun h => hd.2.2 (outsLast_sub _ _ h)
      simp [outsLast, this]
  | a2a1F i w pre post ss =>
    simp only [Frame.others, List.mem_cons, List.mem_append, not_or] at hd
    have : x ∉ outsL ss := fun h => hd.2.2 (outsL_sub _ _ h)
    simp [Frame.fill, outs, lastF, this]
  | a2a2F i w fs pre post =>
    simp only [Frame.others, List.mem_cons, List.mem_append, not_or] at hd
    have h4 : x ∉ outsL pre := fun h => hd.2.1.2 (outsL_sub _ _ h)
    have h5 : x ∉ outsL post := fun h => hd.2.2 (outsL_sub _ _ h)
    simp [Frame.fill, outs, outsL, lastF, h4, h5]
  | farmF i em pre post co =>
    simp only [Frame.others, List.mem_cons, List.mem_append, not_or] at hd
    have h4 : x ∉ outsL pre := fun h => hd.2.1.1.2 (outsL_sub _ _ h)
    have h5 : x ∉ outsL post := fun h => hd.2.1.2 (outsL_sub _ _ h)
    cases co with
    | none => simp [Frame.fill, outs, outsL, lastF, h4, h5]
    | dflt => simp [Frame.fill, outs, lastF, hd.1]
    | user c =>
      have : x ≠ c := fun e => hd.2.2 (by simp [Coll.node, e])
      simp [Frame.fill, outs, lastF, this]

theorem fbk_fill {f : Frame} {t : Net} (hn : (ids (f.fill t)).Nodup) {x y : Nat} (hx : x ∈ ids t) :
    (x, y) ∈ fbk (f.fill t) ↔ (x, y) ∈ fbk t ∨ (x ∈ outs t ∧ y ∈ outFb f t) := by
  have hd := disj hn hx
  have ho := outs_fill hn hx
  cases f with
  | pipeF i w pre post =>
    simp only [Frame.others, List.mem_cons, List.mem_append, not_or] at hd
    have h1 : (x, y) ∉ fbkL pre := fun h => hd.2.1 (fbkL_mem _ h).1
    have h2 : (x, y) ∉ fbkL post := fun h => hd.2.2 (fbkL_mem _ h).1
    simp only [Frame.fill, outs, lastF] at ho
    simp only [Frame.fill, fbk, fbkL_append, fbkL, List.mem_append, h1, h2, false_or, or_false]
    cases w
    · cases post <;> simp [outFb]
    · simp only [if_true, mem_pairs, ho]
      cases post with
      | nil => simp [outFb, Frame.fill, ins]
      | cons s post => simp [outFb]
  | a2a1F i w pre post ss =>
    simp only [Frame.others, List.mem_cons, List.mem_append, not_or] at hd
    have h1 : (x, y) ∉ fbkL pre := fun h => hd.2.1.1 (fbkL_mem _ h).1
    have h2 : (x, y) ∉ fbkL post := fun h => hd.2.1.2 (fbkL_mem _ h).1
    have h3 : (x, y) ∉ fbkL ss := fun h => hd.2.2 (fbkL_mem _ h).1
    have h4 : x ∉ outsL ss := fun h => hd.2.2 (outsL_sub _ _ h)
    cases w <;> simp [Frame.fill, fbk, fbkL, outFb, h1, h2, h3, h4]
  | a2a2F i w fs pre post =>
    simp only [Frame.others, List.mem_cons, List.mem_append, not_or] at hd
    have h1 : (x, y) ∉ fbkL pre := fun h => hd.2.1.2 (fbkL_mem _ h).1
    have h2 : (x, y) ∉ fbkL post := fun h => hd.2.2 (fbkL_mem _ h).1
    have h3 : (x, y) ∉ fbkL fs := fun h => hd.2.1.1 (fbkL_mem _ h).1
    have h4 : x ∉ outsL pre := fun h => hd.2.1.2 (outsL_sub _ _ h)
    have h5 : x ∉ outsL post := fun h => hd.2.2 (outsL_sub _ _ h)
    cases w <;> simp [Frame.fill, fbk, fbkL, outsL, outFb, ins, h1, h2, h3, h4, h5]
  | farmF i em pre post co =>
    simp only [Frame.others, List.mem_cons, List.mem_append, not_or] at hd
    have h1 : (x, y) ∉ fbkL pre := fun h => hd.2.1.1.2 (fbkL_mem _ h).1
    have h2 : (x, y) ∉ fbkL post := fun h => hd.2.1.2 (fbkL_mem _ h).1
    simp [Frame.fill, fbk, fbkL, outFb, h1, h2]

theorem outLink_outs {f : Frame} {t : Net} {x y : Nat} (h : (x, y) ∈ outLink f t) : x ∈ outs t := by
  cases f with
  | pipeF i w pre post =>
    cases post with
    | nil => simp [outLink] at h
    | cons s post => exact (link_mem h).1
  | a2a1F i w pre post ss => simp only [outLink, mem_pairs] at h; exact h.1
  | a2a2F i w fs pre post => simp [outLink] at h
  | farmF i em pre post co => simp only [outLink, mem_pairs] at h; exact h.1

/-! ### The channels of an inner node are those of its block -/

theorem fwd_inner : ∀ (fs : List Frame) (t : Net) {x y : Nat}, (ids (plug fs t)).Nodup → x ∈ ids t →
    x ∉ outs t → ((x, y) ∈ fwd (plug fs t) ↔ (x, y) ∈ fwd t)
  | [], _, _, _, _, _, _ => Iff.rfl
  | f :: fs, t, x, y, hn, hx, ho => by
    have hn' : (ids (f.fill t)).Nodup := List.Nodup.sublist (sub_plug fs _) hn
    have := fwd_inner fs (f.fill t) (x := x) (y := y) hn (ids_fill f t x hx)
      (by rw [outs_fill hn' hx]; exact fun h => ho h.1)
    show (x, y) ∈ fwd (plug fs (f.fill t)) ↔ _
    rw [this, fwd_fill hn' hx]
    exact ⟨fun h => h.resolve_right (fun h => ho (outLink_outs h)), Or.inl⟩

theorem fbk_inner : ∀ (fs : List Frame) (t : Net) {x y : Nat}, (ids (plug fs t)).Nodup → x ∈ ids t →
    x ∉ outs t → ((x, y) ∈ fbk (plug fs t) ↔ (x, y) ∈ fbk t)
  | [], _, _, _, _, _, _ => Iff.rfl
  | f :: fs, t, x, y, hn, hx, ho => by
    have hn' : (ids (f.fill t)).Nodup := List.Nodup.sublist (sub_plug fs _) hn
    have := fbk_inner fs (f.fill t) (x := x) (y := y) hn (ids_fill f t x hx)
      (by rw [outs_fill hn' hx]; exact fun h => ho h.1)
    show (x, y) ∈ fbk (plug fs (f.fill t)) ↔ _
    rw [this, fbk_fill hn' hx]
    exact ⟨fun h => h.resolve_right (fun h => ho h.1), Or.inl⟩

/-! ### `consZ` computes the channels -/

/-- A collectorless farm right before an all-to-all of matching size: its consumers depend on the worker. -/
def special : List Frame → Net → Prop
  | .pipeF _ _ _ (s :: _) :: _, t => p2p t s = true
  | _, _ => False

theorem zipLink_at : ∀ {pre post fs : List Net} {t : Net} {x y : Nat}, x ∈ outs t → x ∉ idsL pre → x ∉ idsL post →
    ((x, y) ∈ zipLink (pre ++ t :: post) fs ↔ ∃ u, fs[pre.length]? = some u ∧ y ∈ ins u)
  | [], post, [], t, x, y, _, _, _ => by simp [zipLink]
  | [], post, f :: fs, t, x, y, hx, _, hp => by
      have : (x, y) ∉ zipLink post fs := fun h => hp (outsL_sub _ _ (zipLink_mem h).1)
      simp [zipLink, this, hx]
  | s :: pre, post, [], t, x, y, _, _, _ => by simp [zipLink]
  | s :: pre, post, f :: fs, t, x, y, hx, h1, hp => by
      simp only [idsL, List.mem_append, not_or] at h1
      have h3 : x ∉ outs s := fun h => h1.1 (outs_sub _ _ h)
      have := zipLink_at (pre := pre) (post := post) (fs := fs) (y := y) hx h1.2 hp
      simp [zipLink, h3, this]

/-- The step outwards when the outputs of the member are outputs of the block. -/
theorem cons_step {f : Frame} {fs : List Frame} {t : Net} {x y : Nat} (hn : (ids (plug (f :: fs) t)).Nodup)
    (hx : x ∈ outs t) (hl : lastF f)
    (ih : (x, y) ∈ fwd (plug fs (f.fill t)) ↔ (x, y) ∈ fwd (f.fill t) ∨ y ∈ (consZ fs (f.fill t)).1) :
    (x, y) ∈ fwd (plug (f :: fs) t) ↔ (x, y) ∈ fwd t ∨ y ∈ (consZ fs (f.fill t)).1 := by
  have hn' : (ids (f.fill t)).Nodup := List.Nodup.sublist (sub_plug fs _) hn
  show (x, y) ∈ fwd (plug fs (f.fill t)) ↔ _
  rw [ih, fwd_fill hn' (outs_sub _ _ hx)]
  have : (x, y) ∉ outLink f t := by
    cases f with
    | pipeF i w pre post => simp only [lastF] at hl; subst hl; simp [outLink]
    | a2a1F i w pre post ss => exact hl.elim
    | a2a2F i w fs pre post => simp [outLink]
    | farmF i em pre post co => simp only [lastF] at hl; subst hl; simp [outLink, Coll.node]
  simp [this]

/-- The step outwards when they are not. -/
theorem cons_stop {f : Frame} {fs : List Frame} {t : Net} {x y : Nat} (hn : (ids (plug (f :: fs) t)).Nodup)
    (hx : x ∈ outs t) (hl : ¬ lastF f) :
    (x, y) ∈ fwd (plug (f :: fs) t) ↔ (x, y) ∈ fwd t ∨ (x, y) ∈ outLink f t := by
  have hn' : (ids (f.fill t)).Nodup := List.Nodup.sublist (sub_plug fs _) hn
  have hx' := outs_sub _ _ hx
  have := fwd_inner fs (f.fill t) (x := x) (y := y) hn (ids_fill f t x hx')
    (by rw [outs_fill hn' hx']; exact fun h => hl h.2)
  show (x, y) ∈ fwd (plug fs (f.fill t)) ↔ _
  rw [this, fwd_fill hn' hx']

/-- No farm with a default collector surrounds the place. -/
def noDflt : List Frame → Prop
  | [] => True
  | .farmF _ _ _ _ co :: fs => co ≠ .dflt ∧ noDflt fs
  | _ :: fs => noDflt fs

theorem cons_fwd : ∀ (fs : List Frame) (t : Net) {x y : Nat}, (ids (plug fs t)).Nodup → noDflt fs → x ∈ outs t →
    ¬ special fs t → ((x, y) ∈ fwd (plug fs t) ↔ (x, y) ∈ fwd t ∨ y ∈ (consZ fs t).1)
  | [], _, _, _, _, _, _, _ => by simp [plug, consZ]
  | .pipeF i w pre [] :: fs, t, x, y, hn, hc, hx, _ => by
    have hn' : (ids (Frame.fill (.pipeF i w pre []) t)).Nodup := List.Nodup.sublist (sub_plug fs _) hn
    have ih := cons_fwd fs (Frame.fill (.pipeF i w pre []) t) (x := x) (y := y) hn hc
      ((outs_fill hn' (outs_sub _ _ hx)).2 ⟨hx, rfl⟩)
      (by
        cases fs with
        | nil => exact id
        | cons g gs =>
          cases g with
          | pipeF j v pre' post' => cases post' <;> simp [special, Frame.fill, p2p]
          | _ => exact id)
    simpa [consZ, addFb] using cons_step hn hx rfl ih
  | .pipeF i w pre (s :: post) :: fs, t, x, y, hn, hc, hx, hs => by
    rw [cons_stop hn hx (by simp [lastF])]
    simp only [special, Bool.not_eq_true] at hs
    simp [outLink, link, hs, consZ, hx]
  | .a2a1F i w pre post ss :: fs, t, x, y, hn, hc, hx, _ => by
    rw [cons_stop hn hx (by simp [lastF])]
    simp [outLink, consZ, hx]
  | .a2a2F i w gs pre post :: fs, t, x, y, hn, hc, hx, _ => by
    have hn' : (ids (Frame.fill (.a2a2F i w gs pre post) t)).Nodup := List.Nodup.sublist (sub_plug fs _) hn
    have ih := cons_fwd fs (Frame.fill (.a2a2F i w gs pre post) t) (x := x) (y := y) hn hc
      ((outs_fill hn' (outs_sub _ _ hx)).2 ⟨hx, trivial⟩)
      (by
        cases fs with
        | nil => exact id
        | cons g gs =>
          cases g with
          | pipeF j v pre' post' => cases post' <;> simp [special, Frame.fill, p2p]
          | _ => exact id)
    simpa [consZ, addFb] using cons_step hn hx trivial ih
  | .farmF i em pre post (.user c) :: fs, t, x, y, hn, hc, hx, _ => by
    rw [cons_stop hn hx (by simp [lastF])]
    simp [outLink, consZ, hx, Coll.node]
  | .farmF i em pre post .dflt :: fs, t, x, y, hn, hc, hx, _ => absurd rfl hc.1
  | .farmF i em pre post .none :: fs, t, x, y, hn, hc, hx, _ => by
    have hn' : (ids (Frame.fill (.farmF i em pre post .none) t)).Nodup := List.Nodup.sublist (sub_plug fs _) hn
    have hx' := outs_sub _ _ hx
    have hd := disj hn' hx'
    simp only [Frame.others, List.mem_cons, List.mem_append, not_or] at hd
    have hxT : x ∈ outs (Frame.fill (.farmF i em pre post .none) t) := (outs_fill hn' hx').2 ⟨hx, rfl⟩
    by_cases hsp : special fs (Frame.fill (.farmF i em pre post .none) t)
    · cases fs with
      | nil => exact hsp.elim
      | cons g gs =>
        cases g with
        | pipeF j v pre' post' =>
          cases post' with
          | nil => exact hsp.elim
          | cons s post' =>
            have hp := hsp
            simp only [special] at hp
            obtain ⟨i', em', ws', j', w', fs', ss', h1, h2, h3⟩ := p2p_true hp
            simp only [Frame.fill, Net.farm.injEq] at h1
            obtain ⟨rfl, rfl, rfl, _⟩ := h1
            subst h2
            have := cons_stop (f := .pipeF j v pre' (.a2a j' w' fs' ss' :: post')) (fs := gs) (y := y) hn hxT
              (by simp [lastF])
            show (x, y) ∈ fwd (plug (.pipeF j v pre' (.a2a j' w' fs' ss' :: post') :: gs)
              (Frame.fill (.farmF i em pre post .none) t)) ↔ _
            rw [this, fwd_fill hn' hx']
            have hl : pre.length + 1 + post.length = fs'.length := by rw [← farm_len]; exact h3
            have hz := zipLink_at (pre := pre) (post := post) (fs := fs') (y := y) hx hd.2.1.1.2 hd.2.1.2
            have e : link (Frame.fill (.farmF i em pre post .none) t) (.a2a j' w' fs' ss') =
                zipLink (pre ++ t :: post) fs' := by
              unfold link; rw [if_pos hp]; rfl
            simp only [outLink, e, Coll.node, consZ, hl, if_true]
            rw [hz]
            simp only [mem_pairs, List.not_mem_nil, and_false, or_false]
            cases hk : fs'[pre.length]? with
            | none => simp
            | some u => simp
        | _ => exact hsp.elim
    · have ih := cons_fwd fs (Frame.fill (.farmF i em pre post .none) t) (x := x) (y := y) hn hc.2 hxT hsp
      have := cons_step hn hx rfl ih
      rw [this]
      have e : consZ (.farmF i em pre post .none :: fs) t = consZ fs (Frame.fill (.farmF i em pre post .none) t) := by
        cases fs with
        | nil => simp [consZ]
        | cons g gs =>
          cases g with
          | pipeF j v pre' post' =>
            cases post' with
            | nil => simp [consZ]
            | cons s post' =>
              cases s with
              | a2a j' w' fs' ss' =>
                simp only [special, Frame.fill, p2p, farm_len, beq_iff_eq] at hsp
                simp [consZ, hsp]
              | _ => simp [consZ]
          | _ => simp [consZ]
      rw [e]

theorem cons_fbk : ∀ (fs : List Frame) (t : Net) {x y : Nat}, (ids (plug fs t)).Nodup → noDflt fs → x ∈ outs t →
    ((x, y) ∈ fbk (plug fs t) ↔ (x, y) ∈ fbk t ∨ y ∈ (consZ fs t).2)
  | [], _, _, _, _, _, _ => by simp [plug, consZ]
  | f :: fs, t, x, y, hn, hc, hx => by
    have hn' : (ids (f.fill t)).Nodup := List.Nodup.sublist (sub_plug fs _) hn
    have hx' := outs_sub _ _ hx
    by_cases hl : lastF f
    · have ih := cons_fbk fs (f.fill t) (x := x) (y := y) hn
        (by cases f <;> first | exact hc | exact hc.2) ((outs_fill hn' hx').2 ⟨hx, hl⟩)
      show (x, y) ∈ fbk (plug fs (f.fill t)) ↔ _
      rw [ih, fbk_fill hn' hx']
      cases f with
      | pipeF i w pre post =>
        simp only [lastF] at hl; subst hl
        simp [consZ, addFb, outFb, hx, or_assoc]
      | a2a1F i w pre post ss => exact hl.elim
      | a2a2F i w gs pre post => simp [consZ, addFb, outFb, hx, or_assoc]
      | farmF i em pre post co =>
        simp only [lastF] at hl; subst hl
        cases fs with
        | nil => simp [consZ, outFb]
        | cons g gs =>
          cases g with
          | pipeF j v pre' post' =>
            cases post' with
            | nil => simp [consZ, outFb]
            | cons s post' =>
              cases s with
              | a2a j' w' fs' ss' =>
                simp only [consZ, outFb, List.not_mem_nil, and_false, or_false]
                split
                · split <;> simp
                · simp
              | _ => simp [consZ, outFb]
          | _ => simp [consZ, outFb]
    · have := fbk_inner fs (f.fill t) (x := x) (y := y) hn (ids_fill f t x hx')
        (by rw [outs_fill hn' hx']; exact fun h => hl h.2)
      show (x, y) ∈ fbk (plug fs (f.fill t)) ↔ _
      rw [this, fbk_fill hn' hx']
      cases f with
      | pipeF i w pre post =>
        cases post with
        | nil => exact absurd rfl hl
        | cons s post => simp [consZ, outFb]
      | a2a1F i w pre post ss => simp [consZ, outFb]
      | a2a2F i w gs pre post => exact absurd trivial hl
      | farmF i em pre post co =>
        cases co with
        | none => exact absurd rfl hl
        | dflt => exact absurd rfl hc.1
        | user c => simp [consZ, outFb]

end FF.Dist
