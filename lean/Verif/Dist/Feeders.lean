/-
C64: `getFeeders` and the channels of the network.
-/
import Verif.Dist.Consumers

namespace FF.Dist

/-- `getFeeders` at a place, without searching. -/
def feedZ : List Frame → Net → List Nat × List Nat
  | [], _ => ([], [])
  | .pipeF i w pre post :: fs, t =>
    match pre.getLast? with
    | some s => (outs s, [])
    | none => addFb (if w then outs (Frame.fill (.pipeF i w pre post) t) else [])
        (feedZ fs (Frame.fill (.pipeF i w pre post) t))
  | .a2a2F _ _ gs _ _ :: _, _ => (outsL gs, [])
  | .farmF _ em _ _ _ :: _, _ => (em.toList, [])
  | .a2a1F i w pre post ss :: fs, t =>
    match fs with
    | .pipeF _ _ pre' _ :: _ =>
      match pre'.getLast? with
      | some (.farm _ _ ws .none) =>
        if (outsL ws).length = pre.length + 1 + post.length then
          match (outsL ws)[pre.length]? with
          | some x => ([x], [])
          | none => ([], [])
        else addFb (if w then outs (Frame.fill (.a2a1F i w pre post ss) t) else [])
          (feedZ fs (Frame.fill (.a2a1F i w pre post ss) t))
      | _ => addFb (if w then outs (Frame.fill (.a2a1F i w pre post ss) t) else [])
          (feedZ fs (Frame.fill (.a2a1F i w pre post ss) t))
    | _ => addFb (if w then outs (Frame.fill (.a2a1F i w pre post ss) t) else [])
        (feedZ fs (Frame.fill (.a2a1F i w pre post ss) t))

/-- `getFeeders` finds the place and computes `feedZ`. -/
theorem getFeeders_place : ∀ (fs : List Frame) (t : Net) (k : Nat), fs.length < k →
    (ids (plug fs t)).Nodup → getFeeders k (plug fs t) t.id = some (feedZ fs t)
  | [], t, 0, h, _ => by simp at h
  | [], t, k + 1, _, _ => by simp [plug, getFeeders, feedZ]
  | f :: fs, t, 0, h, _ => by simp at h
  | f :: fs, t, k + 1, hk, hn => by
    have hn' : (ids (f.fill t)).Nodup := hn.sublist (sub_plug fs _)
    have hd := disj hn' (id_mem t)
    have hb := getBB_place f fs t hn
    have hr := place_ne_root hn
    have ih := getFeeders_place fs (f.fill t) k (by simpa using hk) hn
    rw [getFeeders, if_neg hr, hb]
    cases f with
    | pipeF i w pre post =>
      simp only [Frame.others, List.mem_cons, List.mem_append, not_or] at hd
      simp only [Frame.fill, prevStage_at hd.2.1]
      cases hp : pre.getLast? with
      | none =>
        simp only [Frame.fill, Net.id] at ih
        simp only [plug, Frame.fill, ih, Option.map_some, feedZ, hp]
      | some s => simp [feedZ, hp]
    | a2a2F i w gs pre post =>
      simp only [Frame.others, List.mem_cons, List.mem_append, not_or] at hd
      simp [Frame.fill, index_at hd.2.1.2, feedZ]
    | farmF i em pre post co =>
      simp only [Frame.others, List.mem_cons, List.mem_append, not_or] at hd
      have he : em ≠ some t.id := fun e => hd.2.1.1.1 (by simp [e])
      simp [Frame.fill, he, index_at hd.2.1.1.2, feedZ]
    | a2a1F i w pre post ss =>
      simp only [Frame.others, List.mem_cons, List.mem_append, not_or] at hd
      have ih' : getFeeders k (plug (.a2a1F i w pre post ss :: fs) t) i =
          some (feedZ fs (.a2a i w (pre ++ t :: post) ss)) := ih
      simp only [Frame.fill, index_none hd.2.2, Option.isSome_none, index_at hd.2.1.1, ih', Option.map_some]
      cases fs with
      | nil =>
        have : getBB (plug [.a2a1F i w pre post ss] t) i = some (.a2a i w (pre ++ t :: post) ss) := by
          simp [plug, Frame.fill, getBB]
        rw [this]
        simp [feedZ, Frame.fill]
      | cons g gs =>
        have hb2 := getBB_place g gs (.a2a i w (pre ++ t :: post) ss) hn
        have : getBB (plug (.a2a1F i w pre post ss :: g :: gs) t) i =
          some (g.fill (.a2a i w (pre ++ t :: post) ss)) := hb2
        rw [this]
        have hn2 : (ids (g.fill (.a2a i w (pre ++ t :: post) ss))).Nodup := hn.sublist (sub_plug gs _)
        have hd2 := disj hn2 (id_mem _)
        cases g with
        | pipeF j v pre' post' =>
          simp only [Frame.others, List.mem_cons, List.mem_append, not_or] at hd2
          have hns := prevStage_at (pre := pre') (post := post') hd2.2.1
          simp only [Net.id] at hns
          simp only [Frame.fill, hns]
          generalize hG : feedZ (.pipeF j v pre' post' :: gs) (.a2a i w (pre ++ t :: post) ss) = G
          have hG' : feedZ (.pipeF j v pre' post' :: gs) (Frame.fill (.a2a1F i w pre post ss) t) = G := hG
          rw [feedZ, hG']
          cases hp : pre'.getLast? with
          | none => simp [Frame.fill]
          | some s =>
            cases s with
            | farm i' em' ws co =>
              cases co with
              | none =>
                simp only [farm_len, Frame.fill]
                by_cases h : (outsL ws).length = pre.length + 1 + post.length
                · simp only [if_pos h]
                  cases (outsL ws)[pre.length]? <;> simp
                · simp only [if_neg h]
                  simp
              | _ => simp [Frame.fill]
            | _ => simp [Frame.fill]
        | _ => simp [feedZ, Frame.fill]

/-! ### What one block adds to the channels of a member -/

/-- Forward channels from the siblings to a member. -/
def inLink : Frame → Net → List (Nat × Nat)
  | .pipeF _ _ pre _, t =>
    match pre.getLast? with
    | some s => link s t
    | none => []
  | .a2a1F _ _ _ _ _, _ => []
  | .a2a2F _ _ gs _ _, t => pairs (outsL gs) (ins t)
  | .farmF _ em _ _ _, t => pairs em.toList (ins t)

/-- Are the inputs of the member inputs of the block? -/
def firstF : Frame → Prop
  | .pipeF _ _ pre _ => pre = []
  | .a2a1F _ _ _ _ _ => True
  | .a2a2F _ _ _ _ _ => False
  | .farmF _ _ _ _ _ => False

/-- Feedback channels that end at the member. -/
def inFb : Frame → Net → List Nat
  | .pipeF i w [] post, t => if w then outs (Frame.fill (.pipeF i w [] post) t) else []
  | .a2a1F i w pre post ss, t => if w then outs (Frame.fill (.a2a1F i w pre post ss) t) else []
  | _, _ => []

theorem fwd_fill' {f : Frame} {t : Net} (hn : (ids (f.fill t)).Nodup) {x y : Nat} (hy : y ∈ ids t) :
    (x, y) ∈ fwd (f.fill t) ↔ (x, y) ∈ fwd t ∨ (x, y) ∈ inLink f t := by
  have hd := disj hn hy
  cases f with
  | pipeF i w pre post =>
    simp only [Frame.others, List.mem_cons, List.mem_append, not_or] at hd
    have h1 : (x, y) ∉ fwdL pre := fun h => hd.2.1 (fwdL_mem _ h).2
    have h2 : (x, y) ∉ fwdL post := fun h => hd.2.2 (fwdL_mem _ h).2
    have h3 : (x, y) ∉ links (t :: post) := fun h => hd.2.2 (links_mem_tail h).2
    simp only [Frame.fill, fwd, fwdL_append, fwdL, links_split pre t post, List.mem_append, h1, h2, h3, false_or,
      or_false]
    rcases List.eq_nil_or_concat pre with rfl | ⟨pre, s, rfl⟩
    · simp [links, inLink]
    · rw [List.concat_eq_append] at hd ⊢
      have h4 : (x, y) ∉ links (pre ++ [s]) := fun h => hd.2.1 (by simpa [idsL] using (links_mem_init h).2)
      rw [links_snoc]
      simp [inLink, h4]
  | a2a1F i w pre post ss =>
    simp only [Frame.others, List.mem_cons, List.mem_append, not_or] at hd
    have h1 : (x, y) ∉ fwdL pre := fun h => hd.2.1.1 (fwdL_mem _ h).2
    have h2 : (x, y) ∉ fwdL post := fun h => hd.2.1.2 (fwdL_mem _ h).2
    have h3 : (x, y) ∉ fwdL ss := fun h => hd.2.2 (fwdL_mem _ h).2
    have h4 : y ∉ insL ss := fun h => hd.2.2 (insL_sub _ _ h)
    simp [Frame.fill, fwd, fwdL, inLink, h1, h2, h3, h4]
  | a2a2F i w fs pre post =>
    simp only [Frame.others, List.mem_cons, List.mem_append, not_or] at hd
    have h1 : (x, y) ∉ fwdL pre := fun h => hd.2.1.2 (fwdL_mem _ h).2
    have h2 : (x, y) ∉ fwdL post := fun h => hd.2.2 (fwdL_mem _ h).2
    have h3 : (x, y) ∉ fwdL fs := fun h => hd.2.1.1 (fwdL_mem _ h).2
    have h4 : y ∉ insL pre := fun h => hd.2.1.2 (insL_sub _ _ h)
    have h5 : y ∉ insL post := fun h => hd.2.2 (insL_sub _ _ h)
    simp [Frame.fill, fwd, fwdL, insL, inLink, h1, h2, h3, h4, h5]
  | farmF i em pre post co =>
    simp only [Frame.others, List.mem_cons, List.mem_append, not_or] at hd
    have h1 : (x, y) ∉ fwdL pre := fun h => hd.2.1.1.2 (fwdL_mem _ h).2
    have h2 : (x, y) ∉ fwdL post := fun h => hd.2.1.2 (fwdL_mem _ h).2
    have h4 : y ∉ insL pre := fun h => hd.2.1.1.2 (insL_sub _ _ h)
    have h5 : y ∉ insL post := fun h => hd.2.1.2 (insL_sub _ _ h)
    have h6 : y ∉ co.node := hd.2.2
    simp only [Frame.fill, fwd, fwdL_append, fwdL, insL_append, insL, inLink, List.mem_append, mem_pairs, h1, h2, h4,
      h5, h6, false_or, or_false, and_false]

theorem ins_fill {f : Frame} {t : Net} (hn : (ids (f.fill t)).Nodup) {y : Nat} (hy : y ∈ ids t) :
    y ∈ ins (f.fill t) ↔ y ∈ ins t ∧ firstF f := by
  have hd := disj hn hy
  cases f with
  | pipeF i w pre post =>
    simp only [Frame.others, List.mem_cons, List.mem_append, not_or] at hd
    simp only [Frame.fill, ins, firstF]
    cases pre with
    | nil => simp [insHd]
    | cons s pre =>
      have : y ∉ ins s := fun h => hd.2.1 (by simp [idsL, ins_sub _ _ h])
      simp [insHd, this]
  | a2a1F i w pre post ss =>
    simp only [Frame.others, List.mem_cons, List.mem_append, not_or] at hd
    have h4 : y ∉ insL pre := fun h => hd.2.1.1 (insL_sub _ _ h)
    have h5 : y ∉ insL post := fun h => hd.2.1.2 (insL_sub _ _ h)
    simp [Frame.fill, ins, insL, firstF, h4, h5]
  | a2a2F i w fs pre post =>
    simp only [Frame.others, List.mem_cons, List.mem_append, not_or] at hd
    have h4 : y ∉ insL fs := fun h => hd.2.1.1 (insL_sub _ _ h)
    simp [Frame.fill, ins, firstF, h4]
  | farmF i em pre post co =>
    simp only [Frame.others, List.mem_cons, List.mem_append, not_or] at hd
    simp [Frame.fill, ins, firstF, hd.1]

theorem fbk_fill' {f : Frame} {t : Net} (hn : (ids (f.fill t)).Nodup) {x y : Nat} (hy : y ∈ ids t) :
    (x, y) ∈ fbk (f.fill t) ↔ (x, y) ∈ fbk t ∨ (y ∈ ins t ∧ x ∈ inFb f t) := by
  have hd := disj hn hy
  have ho := ins_fill hn hy
  cases f with
  | pipeF i w pre post =>
    simp only [Frame.others, List.mem_cons, List.mem_append, not_or] at hd
    have h1 : (x, y) ∉ fbkL pre := fun h => hd.2.1 (fbkL_mem _ h).2
    have h2 : (x, y) ∉ fbkL post := fun h => hd.2.2 (fbkL_mem _ h).2
    simp only [Frame.fill, ins, firstF] at ho
    simp only [Frame.fill, fbk, fbkL_append, fbkL, List.mem_append, h1, h2, false_or, or_false]
    cases w
    · cases pre <;> simp [inFb]
    · simp only [if_true, mem_pairs, ho]
      cases pre with
      | nil => simp [inFb, Frame.fill, outs, and_comm]
      | cons s pre => simp [inFb]
  | a2a1F i w pre post ss =>
    simp only [Frame.others, List.mem_cons, List.mem_append, not_or] at hd
    have h1 : (x, y) ∉ fbkL pre := fun h => hd.2.1.1 (fbkL_mem _ h).2
    have h2 : (x, y) ∉ fbkL post := fun h => hd.2.1.2 (fbkL_mem _ h).2
    have h3 : (x, y) ∉ fbkL ss := fun h => hd.2.2 (fbkL_mem _ h).2
    have h4 : y ∉ insL pre := fun h => hd.2.1.1 (insL_sub _ _ h)
    have h5 : y ∉ insL post := fun h => hd.2.1.2 (insL_sub _ _ h)
    cases w <;> simp [Frame.fill, fbk, fbkL, insL, inFb, outs, h1, h2, h3, h4, h5, and_comm]
  | a2a2F i w fs pre post =>
    simp only [Frame.others, List.mem_cons, List.mem_append, not_or] at hd
    have h1 : (x, y) ∉ fbkL pre := fun h => hd.2.1.2 (fbkL_mem _ h).2
    have h2 : (x, y) ∉ fbkL post := fun h => hd.2.2 (fbkL_mem _ h).2
    have h3 : (x, y) ∉ fbkL fs := fun h => hd.2.1.1 (fbkL_mem _ h).2
    have h4 : y ∉ insL fs := fun h => hd.2.1.1 (insL_sub _ _ h)
    cases w <;> simp [Frame.fill, fbk, fbkL, inFb, h1, h2, h3, h4]
  | farmF i em pre post co =>
    simp only [Frame.others, List.mem_cons, List.mem_append, not_or] at hd
    have h1 : (x, y) ∉ fbkL pre := fun h => hd.2.1.1.2 (fbkL_mem _ h).2
    have h2 : (x, y) ∉ fbkL post := fun h => hd.2.1.2 (fbkL_mem _ h).2
    simp [Frame.fill, fbk, fbkL, inFb, h1, h2]

theorem inLink_ins {f : Frame} {t : Net} {x y : Nat} (h : (x, y) ∈ inLink f t) : y ∈ ins t := by
  cases f with
  | pipeF i w pre post =>
    simp only [inLink] at h
    cases hp : pre.getLast? with
    | none => simp [hp] at h
    | some s => rw [hp] at h; exact (link_mem h).2
  | a2a1F i w pre post ss => simp [inLink] at h
  | a2a2F i w fs pre post => simp only [inLink, mem_pairs] at h; exact h.2
  | farmF i em pre post co => simp only [inLink, mem_pairs] at h; exact h.2

/-! ### The channels of an inner node are those of its block -/

theorem fwd_inner' : ∀ (fs : List Frame) (t : Net) {x y : Nat}, (ids (plug fs t)).Nodup → y ∈ ids t →
    y ∉ ins t → ((x, y) ∈ fwd (plug fs t) ↔ (x, y) ∈ fwd t)
  | [], _, _, _, _, _, _ => Iff.rfl
  | f :: fs, t, x, y, hn, hy, ho => by
    have hn' : (ids (f.fill t)).Nodup := List.Nodup.sublist (sub_plug fs _) hn
    have := fwd_inner' fs (f.fill t) (x := x) (y := y) hn (ids_fill f t y hy)
      (by rw [ins_fill hn' hy]; exact fun h => ho h.1)
    show (x, y) ∈ fwd (plug fs (f.fill t)) ↔ _
    rw [this, fwd_fill' hn' hy]
    exact ⟨fun h => h.resolve_right (fun h => ho (inLink_ins h)), Or.inl⟩

theorem fbk_inner' : ∀ (fs : List Frame) (t : Net) {x y : Nat}, (ids (plug fs t)).Nodup → y ∈ ids t →
    y ∉ ins t → ((x, y) ∈ fbk (plug fs t) ↔ (x, y) ∈ fbk t)
  | [], _, _, _, _, _, _ => Iff.rfl
  | f :: fs, t, x, y, hn, hy, ho => by
    have hn' : (ids (f.fill t)).Nodup := List.Nodup.sublist (sub_plug fs _) hn
    have := fbk_inner' fs (f.fill t) (x := x) (y := y) hn (ids_fill f t y hy)
      (by rw [ins_fill hn' hy]; exact fun h => ho h.1)
    show (x, y) ∈ fbk (plug fs (f.fill t)) ↔ _
    rw [this, fbk_fill' hn' hy]
    exact ⟨fun h => h.resolve_right (fun h => ho h.1), Or.inl⟩

/-! ### Good networks -/

theorem goodL_mem : ∀ {ts : List Net} {t : Net}, GoodL ts → t ∈ ts → Good t
  | s :: ts, t, h, hm => by
    simp only [GoodL] at h
    rcases List.mem_cons.1 hm with rfl | hm
    · exact h.1
    · exact goodL_mem h.2 hm

theorem good_fill (f : Frame) (t : Net) (h : Good (f.fill t)) : Good t := by
  cases f with
  | pipeF i w pre post => simp only [Frame.fill, Good] at h; exact goodL_mem h.2 (by simp)
  | a2a1F i w pre post ss => simp only [Frame.fill, Good] at h; exact goodL_mem h.1 (by simp)
  | a2a2F i w fs pre post => simp only [Frame.fill, Good] at h; exact goodL_mem h.2 (by simp)
  | farmF i em pre post co => simp only [Frame.fill, Good] at h; exact goodL_mem h.2 (by simp)

theorem good_plug : ∀ (fs : List Frame) (t : Net), Good (plug fs t) → Good t
  | [], _, h => h
  | f :: fs, t, h => good_fill f t (good_plug fs (f.fill t) h)

theorem good_noDflt : ∀ (fs : List Frame) (t : Net), Good (plug fs t) → noDflt fs
  | [], _, _ => trivial
  | f :: fs, t, h => by
    have h1 := good_noDflt fs (f.fill t) h
    cases f with
    | farmF i em pre post co =>
      have := good_plug fs _ h
      simp only [Frame.fill, Good] at this
      exact ⟨this.1, h1⟩
    | _ => exact h1

theorem linksOk_at : ∀ {pre post : List Net} {s t : Net}, LinksOk (pre ++ s :: t :: post) → LinkOk s t
  | [], post, s, t, h => by simp only [List.nil_append, LinksOk] at h; exact h.1
  | [u], post, s, t, h => by
    simp only [List.cons_append, List.nil_append, LinksOk] at h; exact h.2.1
  | u :: v :: pre, post, s, t, h => by
    simp only [List.cons_append, LinksOk] at h
    exact linksOk_at (pre := v :: pre) h.2

theorem linkOk_frame {i : Nat} {w : Bool} {pre post : List Net} {fs : List Frame} {s t : Net}
    (h : Good (plug (.pipeF i w pre post :: fs) t)) (hp : pre.getLast? = some s) : LinkOk s t := by
  have h1 := good_plug fs _ h
  simp only [Frame.fill, Good] at h1
  rcases List.eq_nil_or_concat pre with rfl | ⟨pre, u, rfl⟩
  · simp at hp
  · rw [List.concat_eq_append] at hp h1
    simp only [List.getLast?_append, List.getLast?_singleton, Option.some_or, Option.some.injEq] at hp
    subst hp
    have := h1.1
    simp only [List.append_assoc, List.cons_append, List.nil_append] at this
    exact linksOk_at this

theorem outsL_single : ∀ {ws : List Net}, (∀ t ∈ ws, (outs t).length = 1) → (outsL ws).length = ws.length
  | [], _ => rfl
  | w :: ws, h => by
    have h1 := h w (by simp)
    have h2 := outsL_single (ws := ws) (fun t ht => h t (by simp [ht]))
    simp [outsL, h1, h2]; omega

theorem outsL_get : ∀ {ws : List Net} (k : Nat), (∀ t ∈ ws, (outs t).length = 1) →
    ∀ x, (outsL ws)[k]? = some x ↔ ∃ u, ws[k]? = some u ∧ x ∈ outs u
  | [], k, _, x => by simp [outsL]
  | w :: ws, 0, h, x => by
    obtain ⟨z, hz⟩ := List.length_eq_one_iff.1 (h w (by simp))
    simp [outsL, hz, eq_comm]
  | w :: ws, k + 1, h, x => by
    obtain ⟨z, hz⟩ := List.length_eq_one_iff.1 (h w (by simp))
    have := outsL_get (ws := ws) k (fun t ht => h t (by simp [ht])) x
    simpa [outsL, hz] using this

/-! ### `feedZ` computes the channels -/

/-- An all-to-all right after a collectorless farm of matching size: its feeders depend on the first-set node. -/
def specialF : List Frame → Net → Prop
  | .pipeF _ _ pre _ :: _, t => ∃ s, pre.getLast? = some s ∧ p2p s t = true
  | _, _ => False

theorem zipLink_at' : ∀ {pre post ws : List Net} {t : Net} {x y : Nat}, y ∈ ins t → y ∉ idsL pre → y ∉ idsL post →
    ((x, y) ∈ zipLink ws (pre ++ t :: post) ↔ ∃ u, ws[pre.length]? = some u ∧ x ∈ outs u)
  | [], post, [], t, x, y, _, _, _ => by simp [zipLink]
  | [], post, f :: fs, t, x, y, hy, _, hp => by
      have : (x, y) ∉ zipLink fs post := fun h => hp (insL_sub _ _ (zipLink_mem h).2)
      simp [zipLink, this, hy]
  | s :: pre, post, [], t, x, y, _, _, _ => by simp [zipLink]
  | s :: pre, post, f :: fs, t, x, y, hy, h1, hp => by
      simp only [idsL, List.mem_append, not_or] at h1
      have h3 : y ∉ ins s := fun h => h1.1 (ins_sub _ _ h)
      have := zipLink_at' (pre := pre) (post := post) (ws := fs) (x := x) hy h1.2 hp
      simp [zipLink, h3, this]

theorem feed_step {f : Frame} {fs : List Frame} {t : Net} {x y : Nat} (hn : (ids (plug (f :: fs) t)).Nodup)
    (hy : y ∈ ins t) (hl : firstF f)
    (ih : (x, y) ∈ fwd (plug fs (f.fill t)) ↔ (x, y) ∈ fwd (f.fill t) ∨ x ∈ (feedZ fs (f.fill t)).1) :
    (x, y) ∈ fwd (plug (f :: fs) t) ↔ (x, y) ∈ fwd t ∨ x ∈ (feedZ fs (f.fill t)).1 := by
  have hn' : (ids (f.fill t)).Nodup := List.Nodup.sublist (sub_plug fs _) hn
  show (x, y) ∈ fwd (plug fs (f.fill t)) ↔ _
  rw [ih, fwd_fill' hn' (ins_sub _ _ hy)]
  have : (x, y) ∉ inLink f t := by
    cases f with
    | pipeF i w pre post => simp only [firstF] at hl; subst hl; simp [inLink]
    | a2a1F i w pre post ss => simp [inLink]
    | a2a2F i w fs pre post => exact hl.elim
    | farmF i em pre post co => exact hl.elim
  simp [this]

theorem feed_stop {f : Frame} {fs : List Frame} {t : Net} {x y : Nat} (hn : (ids (plug (f :: fs) t)).Nodup)
    (hy : y ∈ ins t) (hl : ¬ firstF f) :
    (x, y) ∈ fwd (plug (f :: fs) t) ↔ (x, y) ∈ fwd t ∨ (x, y) ∈ inLink f t := by
  have hn' : (ids (f.fill t)).Nodup := List.Nodup.sublist (sub_plug fs _) hn
  have hy' := ins_sub _ _ hy
  have := fwd_inner' fs (f.fill t) (x := x) (y := y) hn (ids_fill f t y hy')
    (by rw [ins_fill hn' hy']; exact fun h => hl h.2)
  show (x, y) ∈ fwd (plug fs (f.fill t)) ↔ _
  rw [this, fwd_fill' hn' hy']

/-- `feedZ` at a first-set node: the one-to-one case and the general case. -/
theorem feedZ_first {i : Nat} {w : Bool} {pre post ss : List Net} {fs : List Frame} {t : Net}
    (hg : Good (plug (.a2a1F i w pre post ss :: fs) t)) :
    (∃ j v pre' post' gs i' em' ws, fs = .pipeF j v pre' post' :: gs ∧ pre'.getLast? = some (.farm i' em' ws .none) ∧
        (∀ t ∈ ws, (outs t).length = 1) ∧ ws.length = pre.length + 1 + post.length ∧ w = false ∧
        feedZ (.a2a1F i w pre post ss :: fs) t =
          (match (outsL ws)[pre.length]? with
            | some x => ([x], [])
            | none => ([], []))) ∨
    (¬ specialF fs (Frame.fill (.a2a1F i w pre post ss) t) ∧
      feedZ (.a2a1F i w pre post ss :: fs) t =
        addFb (if w then outs (Frame.fill (.a2a1F i w pre post ss) t) else [])
          (feedZ fs (Frame.fill (.a2a1F i w pre post ss) t))) := by
  cases fs with
  | nil => right; exact ⟨id, by simp [feedZ]⟩
  | cons g gs =>
    cases g with
    | pipeF j v pre' post' =>
      generalize hG : feedZ (.pipeF j v pre' post' :: gs) (Frame.fill (.a2a1F i w pre post ss) t) = G
      cases hp : pre'.getLast? with
      | none => right; exact ⟨by simp [specialF, hp], by rw [feedZ, hG]; simp [hp]⟩
      | some s =>
        have hlk : LinkOk s (Frame.fill (.a2a1F i w pre post ss) t) :=
          linkOk_frame (fs := gs) (i := j) (w := v) (pre := pre') (post := post') hg hp
        by_cases hs : ∃ i' em' ws, s = .farm i' em' ws .none
        · obtain ⟨i', em', ws, rfl⟩ := hs
          simp only [Frame.fill, LinkOk, farm_len] at hlk
          have hlen := outsL_single hlk.1
          by_cases hl : ws.length = pre.length + 1 + post.length
          · left
            refine ⟨j, v, pre', post', gs, i', em', ws, rfl, hp, hlk.1, hl, hlk.2 hl, ?_⟩
            rw [feedZ, hG]
            simp only [hp, hlen, if_pos hl]
          · right
            refine ⟨?_, ?_⟩
            · rintro ⟨s', hs', hpp⟩
              rw [hp] at hs'
              obtain rfl := Option.some.inj hs'
              simp only [p2p, Frame.fill, farm_len, beq_iff_eq] at hpp
              exact hl hpp
            · rw [feedZ, hG]
              simp only [hp, hlen, if_neg hl]
        · right
          constructor
          · rintro ⟨s', hs', hpp⟩
            rw [hp] at hs'
            obtain rfl := Option.some.inj hs'
            obtain ⟨i', em', ws, _, _, _, _, rfl, _⟩ := p2p_true hpp
            exact hs ⟨i', em', ws, rfl⟩
          · rw [feedZ, hG]
            cases s with
            | farm i' em' ws co =>
              cases co with
              | none => exact absurd ⟨i', em', ws, rfl⟩ hs
              | _ => simp [hp]
            | _ => simp [hp]
    | _ => right; exact ⟨id, by simp [feedZ]⟩

theorem feed_fwd : ∀ (fs : List Frame) (t : Net) {x y : Nat}, (ids (plug fs t)).Nodup → Good (plug fs t) → y ∈ ins t →
    ¬ specialF fs t → ((x, y) ∈ fwd (plug fs t) ↔ (x, y) ∈ fwd t ∨ x ∈ (feedZ fs t).1)
  | [], _, _, _, _, _, _, _ => by simp [plug, feedZ]
  | .pipeF i w pre post :: fs, t, x, y, hn, hg, hy, hs => by
    cases hp : pre.getLast? with
    | some s =>
      have hne : pre ≠ [] := by rintro rfl; simp at hp
      rw [feed_stop hn hy (by simpa [firstF] using hne)]
      have : p2p s t = false := by
        by_contra h
        exact hs ⟨s, hp, by simpa using h⟩
      simp [inLink, hp, link, this, feedZ, hy]
    | none =>
      have hpre : pre = [] := by simpa using hp
      subst hpre
      have hn' : (ids (Frame.fill (.pipeF i w [] post) t)).Nodup := List.Nodup.sublist (sub_plug fs _) hn
      have ih := feed_fwd fs (Frame.fill (.pipeF i w [] post) t) (x := x) (y := y) hn hg
        ((ins_fill hn' (ins_sub _ _ hy)).2 ⟨hy, rfl⟩)
        (by
          cases fs with
          | nil => exact id
          | cons g gs =>
            cases g with
            | pipeF j v pre' post' =>
              rintro ⟨s, _, h⟩
              obtain ⟨_, _, _, _, _, _, _, _, h2, _⟩ := p2p_true h
              simp [Frame.fill] at h2
            | _ => exact id)
      simpa [feedZ, addFb] using feed_step hn hy rfl ih
  | .a2a2F i w gs pre post :: fs, t, x, y, hn, hg, hy, _ => by
    rw [feed_stop hn hy (by simp [firstF])]
    simp [inLink, feedZ, hy]
  | .farmF i em pre post co :: fs, t, x, y, hn, hg, hy, _ => by
    rw [feed_stop hn hy (by simp [firstF])]
    simp only [inLink, feedZ, hy, mem_pairs, and_true]
  | .a2a1F i w pre post ss :: fs, t, x, y, hn, hg, hy, _ => by
    have hn' : (ids (Frame.fill (.a2a1F i w pre post ss) t)).Nodup := List.Nodup.sublist (sub_plug fs _) hn
    have hy' := ins_sub _ _ hy
    have hd := disj hn' hy'
    simp only [Frame.others, List.mem_cons, List.mem_append, not_or] at hd
    have hyT : y ∈ ins (Frame.fill (.a2a1F i w pre post ss) t) := (ins_fill hn' hy').2 ⟨hy, trivial⟩
    rcases feedZ_first hg with ⟨j, v, pre', post', gs, i', em', ws, rfl, hp, h1, hl, hw, he⟩ | ⟨hsp, he⟩
    · have hne : pre' ≠ [] := by rintro rfl; simp at hp
      have := feed_stop (f := .pipeF j v pre' post') (fs := gs) (x := x) hn hyT (by simpa [firstF] using hne)
      show (x, y) ∈ fwd (plug (.pipeF j v pre' post' :: gs) (Frame.fill (.a2a1F i w pre post ss) t)) ↔ _
      rw [this, fwd_fill' hn' hy', he]
      have hpp : p2p (.farm i' em' ws .none) (Frame.fill (.a2a1F i w pre post ss) t) = true := by
        simp [p2p, Frame.fill, hl]; omega
      have e : link (.farm i' em' ws .none) (Frame.fill (.a2a1F i w pre post ss) t) =
          zipLink ws (pre ++ t :: post) := by
        unfold link; rw [if_pos hpp]; rfl
      have hz := zipLink_at' (pre := pre) (post := post) (ws := ws) (x := x) hy hd.2.1.1 hd.2.1.2
      simp only [inLink, hp, e, List.not_mem_nil, or_false]
      rw [hz, ← outsL_get pre.length h1 x]
      cases hk : (outsL ws)[pre.length]? with
      | none => simp
      | some u => simp [eq_comm]
    · have ih := feed_fwd fs (Frame.fill (.a2a1F i w pre post ss) t) (x := x) (y := y) hn hg hyT hsp
      rw [feed_step hn hy trivial ih, he]
      simp [addFb]

theorem feed_fbk : ∀ (fs : List Frame) (t : Net) {x y : Nat}, (ids (plug fs t)).Nodup → Good (plug fs t) → y ∈ ins t →
    ((x, y) ∈ fbk (plug fs t) ↔ (x, y) ∈ fbk t ∨ x ∈ (feedZ fs t).2)
  | [], _, _, _, _, _, _ => by simp [plug, feedZ]
  | f :: fs, t, x, y, hn, hg, hy => by
    have hn' : (ids (f.fill t)).Nodup := List.Nodup.sublist (sub_plug fs _) hn
    have hy' := ins_sub _ _ hy
    by_cases hl : firstF f
    · have ih := feed_fbk fs (f.fill t) (x := x) (y := y) hn hg ((ins_fill hn' hy').2 ⟨hy, hl⟩)
      show (x, y) ∈ fbk (plug fs (f.fill t)) ↔ _
      rw [ih, fbk_fill' hn' hy']
      cases f with
      | pipeF i w pre post =>
        simp only [firstF] at hl; subst hl
        simp [feedZ, addFb, inFb, hy, or_assoc]
      | a2a1F i w pre post ss =>
        rcases feedZ_first hg with ⟨j, v, pre', post', gs, i', em', ws, rfl, hp, h1, hlen, hw, he⟩ | ⟨hsp, he⟩
        · rw [he]
          subst hw
          have : (feedZ (.pipeF j v pre' post' :: gs) (Frame.fill (.a2a1F i false pre post ss) t)).2 = [] := by
            simp [feedZ, hp]
          rw [this]
          simp only [inFb, List.not_mem_nil, or_false, if_false, and_false, Bool.false_eq_true]
          split <;> simp
        · rw [he]
          simp [addFb, inFb, hy, or_assoc]
      | a2a2F i w gs pre post => exact hl.elim
      | farmF i em pre post co => exact hl.elim
    · have := fbk_inner' fs (f.fill t) (x := x) (y := y) hn (ids_fill f t y hy')
        (by rw [ins_fill hn' hy']; exact fun h => hl h.2)
      show (x, y) ∈ fbk (plug fs (f.fill t)) ↔ _
      rw [this, fbk_fill' hn' hy']
      cases f with
      | pipeF i w pre post =>
        cases pre with
        | nil => exact absurd rfl hl
        | cons s pre => 
          cases hp : (s :: pre).getLast? with
          | none => simp at hp
          | some u => simp [feedZ, inFb, hp]
      | a2a1F i w pre post ss => exact absurd trivial hl
      | a2a2F i w gs pre post => simp [feedZ, inFb]
      | farmF i em pre post co => simp [feedZ, inFb]

end FF.Dist
