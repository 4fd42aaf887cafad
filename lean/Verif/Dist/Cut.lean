/-
C64: both ends of every channel of a network agree on it.
-/
import Verif.Dist.Feeders

namespace FF.Dist

theorem plug_append : ∀ (fs gs : List Frame) (t : Net), plug (fs ++ gs) t = plug gs (plug fs t)
  | [], _, _ => rfl
  | f :: fs, gs, t => plug_append fs gs (f.fill t)

theorem plug_len : ∀ (fs : List Frame) (t : Net), fs.length + (ids t).length ≤ (ids (plug fs t)).length
  | [], _ => by simp [plug]
  | f :: fs, t => by
    have h1 := plug_len fs (f.fill t)
    have h2 := (fill_perm f t).length_eq
    have h3 : 1 ≤ f.others.length := by cases f <;> simp [Frame.others]
    simp only [List.length_append] at h2
    simp only [List.length_cons, plug]
    omega

/-! ### Where the senders and receivers are -/

/-- A sending node at a place. -/
inductive Sends (x : Nat) : Net → Prop
  | seq (a b : Bool) : Sends x (.seq x a b)
  | comb (i : Nat) (l r : Net) (h : x ∈ outs r) : Sends x (.comb i l r)
  | emitter (i : Nat) (ws : List Net) (co : Coll) : Sends x (.farm i (some x) ws co)
  | collector (i : Nat) (em : Option Nat) (ws : List Net) : Sends x (.farm i em ws (.user x))

/-- A receiving node at a place. -/
inductive Receives (y : Nat) : Net → Prop
  | seq (a b : Bool) : Receives y (.seq y a b)
  | comb (i : Nat) (l r : Net) (h : y ∈ ins l) : Receives y (.comb i l r)
  | farm (em : Option Nat) (ws : List Net) (co : Coll) : Receives y (.farm y em ws co)
  | collector (i : Nat) (em : Option Nat) (ws : List Net) : Receives y (.farm i em ws (.user y))

theorem place_in {P : Net → Prop} {u T : Net} (f : Frame) (hf : f.fill u = T) (h : ∃ fs t, plug fs t = u ∧ P t) :
    ∃ fs t, plug fs t = T ∧ P t := by
  obtain ⟨fs, t, h1, h2⟩ := h
  exact ⟨fs ++ [f], t, by rw [plug_append, h1]; exact hf, h2⟩

mutual
theorem senders_place : ∀ (T : Net) (x : Nat), x ∈ senders T → ∃ fs t, plug fs t = T ∧ Sends x t
  | .seq i a b, x, h => by
    have : x = i := by simpa [senders] using h
    subst this
    exact ⟨[], _, rfl, .seq a b⟩
  | .comb i l r, x, h => ⟨[], _, rfl, .comb i l r (by simpa [senders] using h)⟩
  | .pipe i w ss, x, h => by
    obtain ⟨pre, u, post, rfl, hu⟩ := sendersL_place ss x (by simpa [senders] using h)
    exact place_in (.pipeF i w pre post) rfl hu
  | .a2a i w fs ss, x, h => by
    simp only [senders, List.mem_append] at h
    rcases h with h | h
    · obtain ⟨pre, u, post, rfl, hu⟩ := sendersL_place fs x h
      exact place_in (.a2a1F i w pre post ss) rfl hu
    · obtain ⟨pre, u, post, rfl, hu⟩ := sendersL_place ss x h
      exact place_in (.a2a2F i w fs pre post) rfl hu
  | .farm i em ws co, x, h => by
    simp only [senders, List.mem_append] at h
    rcases h with h | h | h
    · have : em = some x := by simpa using h
      subst this
      exact ⟨[], _, rfl, .emitter i ws co⟩
    · obtain ⟨pre, u, post, rfl, hu⟩ := sendersL_place ws x h
      exact place_in (.farmF i em pre post co) rfl hu
    · have : co = .user x := by cases co <;> simp_all [Coll.node]
      subst this
      exact ⟨[], _, rfl, .collector i em ws⟩
theorem sendersL_place : ∀ (ts : List Net) (x : Nat), x ∈ sendersL ts →
    ∃ pre u post, ts = pre ++ u :: post ∧ ∃ fs t, plug fs t = u ∧ Sends x t
  | [], x, h => by simp [sendersL] at h
  | t :: ts, x, h => by
    simp only [sendersL, List.mem_append] at h
    rcases h with h | h
    · exact ⟨[], t, ts, rfl, senders_place t x h⟩
    · obtain ⟨pre, u, post, rfl, hu⟩ := sendersL_place ts x h
      exact ⟨t :: pre, u, post, rfl, hu⟩
end

mutual
theorem receivers_place : ∀ (T : Net) (x : Nat), x ∈ receivers T → ∃ fs t, plug fs t = T ∧ Receives x t
  | .seq i a b, x, h => by
    have : x = i := by simpa [receivers] using h
    subst this
    exact ⟨[], _, rfl, .seq a b⟩
  | .comb i l r, x, h => ⟨[], _, rfl, .comb i l r (by simpa [receivers] using h)⟩
  | .pipe i w ss, x, h => by
    obtain ⟨pre, u, post, rfl, hu⟩ := receiversL_place ss x (by simpa [receivers] using h)
    exact place_in (.pipeF i w pre post) rfl hu
  | .a2a i w fs ss, x, h => by
    simp only [receivers, List.mem_append] at h
    rcases h with h | h
    · obtain ⟨pre, u, post, rfl, hu⟩ := receiversL_place fs x h
      exact place_in (.a2a1F i w pre post ss) rfl hu
    · obtain ⟨pre, u, post, rfl, hu⟩ := receiversL_place ss x h
      exact place_in (.a2a2F i w fs pre post) rfl hu
  | .farm i em ws co, x, h => by
    simp only [receivers, List.mem_cons, List.mem_append] at h
    rcases h with h | h | h
    · subst h
      exact ⟨[], _, rfl, .farm em ws co⟩
    · obtain ⟨pre, u, post, rfl, hu⟩ := receiversL_place ws x h
      exact place_in (.farmF i em pre post co) rfl hu
    · have : co = .user x := by cases co <;> simp_all [Coll.node]
      subst this
      exact ⟨[], _, rfl, .collector i em ws⟩
theorem receiversL_place : ∀ (ts : List Net) (x : Nat), x ∈ receiversL ts →
    ∃ pre u post, ts = pre ++ u :: post ∧ ∃ fs t, plug fs t = u ∧ Receives x t
  | [], x, h => by simp [receiversL] at h
  | t :: ts, x, h => by
    simp only [receiversL, List.mem_append] at h
    rcases h with h | h
    · exact ⟨[], t, ts, rfl, receivers_place t x h⟩
    · obtain ⟨pre, u, post, rfl, hu⟩ := receiversL_place ts x h
      exact ⟨t :: pre, u, post, rfl, hu⟩
end

theorem not_special_of {fs : List Frame} {t : Net} (h : ∀ s, p2p t s = false) : ¬ special fs t := by
  cases fs with
  | nil => exact id
  | cons f fs =>
    cases f with
    | pipeF i w pre post => cases post <;> simp [special, h]
    | _ => exact id

theorem not_specialF_of {fs : List Frame} {t : Net} (h : ∀ s, p2p s t = false) : ¬ specialF fs t := by
  cases fs with
  | nil => exact id
  | cons f fs =>
    cases f with
    | pipeF i w pre post => simp [specialF, h]
    | _ => exact id

/-! ### The theorems -/

/-- **C64.** For every network whose nodes are distinct objects and that is `Good`, and for every node `x` of it
that sends, `getConsumers` returns exactly the receivers of the channels that start at `x`, the forward ones and
the feedback ones, as soon as the stack allows a recursion as deep as the network. -/
theorem C64_consumers {root : Net} (hn : (ids root).Nodup) (hg : Good root) {x : Nat} (hx : x ∈ senders root)
    {k : Nat} (hk : (ids root).length + 1 < k) :
    ∃ a b, getConsumers k root x = some (a, b) ∧ (∀ y, y ∈ a ↔ (x, y) ∈ fwd root) ∧
      (∀ y, y ∈ b ↔ (x, y) ∈ fbk root) := by
  obtain ⟨fs, t, rfl, hs⟩ := senders_place root x hx
  have hc := good_noDflt fs t hg
  have hnt : (ids t).Nodup := hn.sublist (sub_plug fs t)
  have hlen := plug_len fs t
  cases hs with
  | seq a b =>
    refine ⟨_, _, getConsumers_place fs (.seq x a b) k (by omega) hn, fun y => ?_, fun y => ?_⟩
    · rw [cons_fwd fs _ hn hc (by simp [outs]) (not_special_of (by simp [p2p]))]; simp [fwd]
    · rw [cons_fbk fs _ hn hc (by simp [outs])]; simp [fbk]
  | comb i l r h =>
    have hgc := good_plug fs _ hg
    simp only [Good] at hgc
    obtain ⟨⟨il, al, bl, rfl⟩, ⟨ir, ar, br, rfl⟩⟩ := hgc
    have hxr : x = ir := by simpa [outs] using h
    subst hxr
    have hne : i ≠ x := by
      simp only [ids, List.nodup_cons, List.mem_append, List.mem_singleton] at hnt
      exact fun e => hnt.1 (Or.inr e)
    have hne2 : il ≠ x := by
      simp only [ids, List.nodup_cons, List.cons_append, List.nil_append, List.mem_cons, List.not_mem_nil,
        or_false] at hnt
      exact hnt.2.1
    have hb : getBB (plug fs (.comb i (.seq il al bl) (.seq x ar br))) x =
        some (.comb i (.seq il al bl) (.seq x ar br)) := by
      refine getBB_plug fs _ _ x hn (by simp [ids]) ?_ hne
      simp [getBB, hne, hne2, Net.isComb, firstId, lastId, Net.id]
    obtain ⟨k, rfl⟩ : ∃ j, k = j + 1 := ⟨k - 1, by omega⟩
    have hp := getConsumers_place fs (.comb i (.seq il al bl) (.seq x ar br)) k (by omega) hn
    have hr : x ≠ (plug fs (.comb i (.seq il al bl) (.seq x ar br))).id :=
      root_ne hn (by simp [ids]) (by simpa [Net.id] using hne.symm)
    refine ⟨_, _, by rw [getConsumers, if_neg hr, hb]; exact hp, fun y => ?_, fun y => ?_⟩
    · rw [cons_fwd fs _ hn hc (by simp [outs]) (not_special_of (by simp [p2p]))]; simp [fwd]
    · rw [cons_fbk fs _ hn hc (by simp [outs])]; simp [fbk]
  | emitter i ws co =>
    have hgc := good_plug fs _ hg
    simp only [Good] at hgc
    simp only [ids, Option.toList, List.cons_append, List.nil_append, List.nodup_cons, List.mem_cons,
      List.mem_append, not_or] at hnt
    have hb : getBB (plug fs (.farm i (some x) ws co)) x = some (.farm i (some x) ws co) := by
      refine getBB_plug fs _ _ x hn (by simp [ids]) ?_ hnt.1.1
      simp [getBB, hnt.1.1]
    obtain ⟨k, rfl⟩ : ∃ j, k = j + 1 := ⟨k - 1, by omega⟩
    have hr : x ≠ (plug fs (.farm i (some x) ws co)).id :=
      root_ne hn (by simp [ids]) (by simpa [Net.id] using Ne.symm hnt.1.1)
    have ho : x ∉ outs (.farm i (some x) ws co) := by
      cases co with
      | none => exact fun h => hnt.2.1.1 (outsL_sub _ _ (by simpa [outs] using h))
      | dflt => exact absurd rfl hgc.1
      | user c => intro h; have : x = c := by simpa [outs] using h
                  exact hnt.2.1.2 (by simp [Coll.node, this])
    refine ⟨insL ws, [], by rw [getConsumers, if_neg hr, hb]; simp, fun y => ?_, fun y => ?_⟩
    · rw [fwd_inner fs _ hn (by simp [ids]) ho]
      have h1 : (x, y) ∉ fwdL ws := fun h => hnt.2.1.1 (fwdL_mem _ h).1
      have h2 : x ∉ outsL ws := fun h => hnt.2.1.1 (outsL_sub _ _ h)
      simp [fwd, h1, h2]
    · rw [fbk_inner fs _ hn (by simp [ids]) ho]
      have h1 : (x, y) ∉ fbkL ws := fun h => hnt.2.1.1 (fbkL_mem _ h).1
      simp [fbk, h1]
  | collector i em ws =>
    have hgc := good_plug fs _ hg
    simp only [ids, Coll.node, List.nodup_cons, List.mem_append, List.mem_singleton, not_or] at hnt
    have hws : x ∉ idsL ws := by
      have := hnt.2
      rw [List.nodup_append, List.nodup_append] at this
      intro h
      exact this.2.1.2.2 x h x (by simp) rfl
    have hem : em ≠ some x := by
      have := hnt.2
      rw [List.nodup_append] at this
      intro h
      exact this.2.2 x (by simp [h]) x (by simp) rfl
    have hix : ¬ i = x := hnt.1.2.2
    have hb : getBB (plug fs (.farm i em ws (.user x))) x = some (.farm i em ws (.user x)) := by
      refine getBB_plug fs _ _ x hn (by simp [ids, Coll.node]) ?_ hix
      simp [getBB, hix, hem]
    obtain ⟨k, rfl⟩ : ∃ j, k = j + 1 := ⟨k - 1, by omega⟩
    have hr : x ≠ (plug fs (.farm i em ws (.user x))).id :=
      root_ne hn (by simp [ids, Coll.node]) (by simpa [Net.id] using Ne.symm hix)
    have hp := getConsumers_place fs (.farm i em ws (.user x)) k (by omega) hn
    refine ⟨_, _, by rw [getConsumers, if_neg hr, hb]; simp [hem, index_none hws]; exact hp,
      fun y => ?_, fun y => ?_⟩
    · rw [cons_fwd fs _ hn hc (by simp [outs]) (not_special_of (by simp [p2p]))]
      have h1 : (x, y) ∉ fwdL ws := fun h => hws (fwdL_mem _ h).1
      have h2 : x ∉ outsL ws := fun h => hws (outsL_sub _ _ h)
      have h3 : x ∉ em.toList := by simpa using hem
      simp only [fwd, List.mem_append, mem_pairs, h1, h2, h3, false_and, or_false, false_or]
    · rw [cons_fbk fs _ hn hc (by simp [outs])]
      have h1 : (x, y) ∉ fbkL ws := fun h => hws (fbkL_mem _ h).1
      simp [fbk, h1]

/-- **C64.** The same for the nodes that receive and `getFeeders`. -/
theorem C64_feeders {root : Net} (hn : (ids root).Nodup) (hg : Good root) {y : Nat} (hy : y ∈ receivers root)
    {k : Nat} (hk : (ids root).length + 1 < k) :
    ∃ a b, getFeeders k root y = some (a, b) ∧ (∀ x, x ∈ a ↔ (x, y) ∈ fwd root) ∧
      (∀ x, x ∈ b ↔ (x, y) ∈ fbk root) := by
  obtain ⟨fs, t, rfl, hs⟩ := receivers_place root y hy
  have hnt : (ids t).Nodup := hn.sublist (sub_plug fs t)
  have hlen := plug_len fs t
  cases hs with
  | seq a b =>
    refine ⟨_, _, getFeeders_place fs (.seq y a b) k (by omega) hn, fun x => ?_, fun x => ?_⟩
    · rw [feed_fwd fs _ hn hg (by simp [ins]) (not_specialF_of (by intro s; cases s <;> simp [p2p]))]; simp [fwd]
    · rw [feed_fbk fs _ hn hg (by simp [ins])]; simp [fbk]
  | comb i l r h =>
    have hgc := good_plug fs _ hg
    simp only [Good] at hgc
    obtain ⟨⟨il, al, bl, rfl⟩, ⟨ir, ar, br, rfl⟩⟩ := hgc
    have hxl : y = il := by simpa [ins] using h
    subst hxl
    have hne : i ≠ y := by
      simp only [ids, List.nodup_cons, List.mem_append, List.mem_singleton] at hnt
      exact fun e => hnt.1 (Or.inl e)
    have hb : getBB (plug fs (.comb i (.seq y al bl) (.seq ir ar br))) y =
        some (.comb i (.seq y al bl) (.seq ir ar br)) := by
      refine getBB_plug fs _ _ y hn (by simp [ids]) ?_ hne
      simp [getBB, hne, Net.isComb, firstId, Net.id]
    obtain ⟨k, rfl⟩ : ∃ j, k = j + 1 := ⟨k - 1, by omega⟩
    have hp := getFeeders_place fs (.comb i (.seq y al bl) (.seq ir ar br)) k (by omega) hn
    have hr : y ≠ (plug fs (.comb i (.seq y al bl) (.seq ir ar br))).id :=
      root_ne hn (by simp [ids]) (by simpa [Net.id] using hne.symm)
    refine ⟨_, _, by rw [getFeeders, if_neg hr, hb]; exact hp, fun x => ?_, fun x => ?_⟩
    · rw [feed_fwd fs _ hn hg (by simp [ins]) (not_specialF_of (by intro s; cases s <;> simp [p2p]))]; simp [fwd]
    · rw [feed_fbk fs _ hn hg (by simp [ins])]; simp [fbk]
  | farm em ws co =>
    have hnm : y ∉ em.toList ++ (idsL ws ++ co.node) := by
      simp only [ids, List.nodup_cons] at hnt; exact hnt.1
    simp only [List.mem_append, not_or] at hnm
    refine ⟨_, _, getFeeders_place fs (.farm y em ws co) k (by omega) hn, fun x => ?_, fun x => ?_⟩
    · rw [feed_fwd fs _ hn hg (by simp [ins]) (not_specialF_of (by intro s; cases s <;> simp [p2p]))]
      have h1 : (x, y) ∉ fwdL ws := fun h => hnm.2.1 (fwdL_mem _ h).2
      have h2 : y ∉ insL ws := fun h => hnm.2.1 (insL_sub _ _ h)
      simp only [fwd, List.mem_append, mem_pairs, h1, h2, hnm.2.2, and_false, or_false, false_or]
    · rw [feed_fbk fs _ hn hg (by simp [ins])]
      have h1 : (x, y) ∉ fbkL ws := fun h => hnm.2.1 (fbkL_mem _ h).2
      simp [fbk, h1]
  | collector i em ws =>
    simp only [ids, Coll.node, List.nodup_cons, List.mem_append, List.mem_singleton, not_or] at hnt
    have hws : y ∉ idsL ws := by
      have := hnt.2
      rw [List.nodup_append, List.nodup_append] at this
      intro h
      exact this.2.1.2.2 y h y (by simp) rfl
    have hem : em ≠ some y := by
      have := hnt.2
      rw [List.nodup_append] at this
      intro h
      exact this.2.2 y (by simp [h]) y (by simp) rfl
    have hiy : ¬ i = y := hnt.1.2.2
    have hb : getBB (plug fs (.farm i em ws (.user y))) y = some (.farm i em ws (.user y)) := by
      refine getBB_plug fs _ _ y hn (by simp [ids, Coll.node]) ?_ hiy
      simp [getBB, hiy, hem]
    obtain ⟨k, rfl⟩ : ∃ j, k = j + 1 := ⟨k - 1, by omega⟩
    have hr : y ≠ (plug fs (.farm i em ws (.user y))).id :=
      root_ne hn (by simp [ids, Coll.node]) (by simpa [Net.id] using Ne.symm hiy)
    have hi : y ∉ ins (.farm i em ws (.user y)) := by simpa [ins] using Ne.symm hiy
    refine ⟨outsL ws, [], by rw [getFeeders, if_neg hr, hb]; simp [hem, index_none hws],
      fun x => ?_, fun x => ?_⟩
    · rw [fwd_inner' fs _ hn (by simp [ids, Coll.node]) hi]
      have h1 : (x, y) ∉ fwdL ws := fun h => hws (fwdL_mem _ h).2
      have h2 : y ∉ insL ws := fun h => hws (insL_sub _ _ h)
      simp [fwd, h1, h2, Coll.node]
    · rw [fbk_inner' fs _ hn (by simp [ids, Coll.node]) hi]
      have h1 : (x, y) ∉ fbkL ws := fun h => hws (fbkL_mem _ h).2
      simp [fbk, h1]

/-- **C64.** The emitter of a farm receives what the farm receives: its feeders are those of the farm. -/
theorem C64_emitter_feeders (fs : List Frame) (i e : Nat) (ws : List Net) (co : Coll)
    (hn : (ids (plug fs (.farm i (some e) ws co))).Nodup) {k : Nat} (hk : fs.length < k) :
    getFeeders (k + 1) (plug fs (.farm i (some e) ws co)) e =
      getFeeders k (plug fs (.farm i (some e) ws co)) i := by
  have hnt : (ids (.farm i (some e) ws co)).Nodup := hn.sublist (sub_plug fs _)
  simp only [ids, List.nodup_cons, List.mem_append, not_or, Option.toList, List.mem_singleton] at hnt
  have hie : ¬ i = e := hnt.1.1
  have hb : getBB (plug fs (.farm i (some e) ws co)) e = some (.farm i (some e) ws co) := by
    refine getBB_plug fs _ _ e hn (by simp [ids]) ?_ hie
    simp [getBB, hie]
  have hr : e ≠ (plug fs (.farm i (some e) ws co)).id :=
    root_ne hn (by simp [ids]) (by simpa [Net.id] using Ne.symm hie)
  rw [getFeeders, if_neg hr, hb]
  simp

-- the emitter of a farm in a pipeline is fed by the stage before the farm
example : getFeeders 9 (plug [.pipeF 0 false [.seq 1 false false] []] (.farm 2 (some 3) [.seq 4 false false] .none)) 3 = some ([1], []) :=
  (C64_emitter_feeders _ 2 3 _ _ (by decide) (k := 8) (by decide)).trans (by decide)

/-- **C64.** Both ends agree: `y` is a consumer of `x` exactly when `x` is a feeder of `y`, forward and feedback. -/
theorem C64_converse_partial {root : Net} (hn : (ids root).Nodup) (hg : Good root) {x y : Nat}
    (hx : x ∈ senders root) (hy : y ∈ receivers root) {k : Nat} (hk : (ids root).length + 1 < k) :
    ∃ a b c d, getConsumers k root x = some (a, b) ∧ getFeeders k root y = some (c, d) ∧
      (y ∈ a ↔ x ∈ c) ∧ (y ∈ b ↔ x ∈ d) := by
  obtain ⟨a, b, h1, h2, h3⟩ := C64_consumers hn hg hx hk
  obtain ⟨c, d, h4, h5, h6⟩ := C64_feeders hn hg hy hk
  exact ⟨a, b, c, d, h1, h4, by rw [h2, h5], by rw [h3, h6]⟩

end FF.Dist
