/-
`optimize_static`, with any options, keeps what a stateless network does to one item (C60).
-/
import Verif.Opt.Pure

namespace FF.Opt

variable {α : Type}

/-- The stages `a` do to an item what the stages `b` do. -/
def PP (a b : List (Sk α)) : Prop := ∀ F, PurePipe b F → PurePipe a F

/-- The same for one stage. -/
def PS (s' s : Sk α) : Prop := ∀ F, Pure s F → Pure s' F

/-- The same for workers. -/
def WP (a b : List (Sk α)) : Prop := ∀ F, PureAll b F → PureAll a F

theorem PP.refl (a : List (Sk α)) : PP a a := fun _ h => h

theorem PP.trans {a b c : List (Sk α)} (h1 : PP a b) (h2 : PP b c) : PP a c :=
  fun F h => h1 F (h2 F h)

theorem WP.trans {a b c : List (Sk α)} (h1 : WP a b) (h2 : WP b c) : WP a c :=
  fun F h => h1 F (h2 F h)

theorem purePipe_append (a b : List (Sk α)) (F : α → List α) :
    PurePipe (a ++ b) F ↔ ∃ f g, PurePipe a f ∧ PurePipe b g ∧ F = kc f g := by
  induction a generalizing F with
  | nil =>
    simp only [List.nil_append, PurePipe]
    constructor
    · intro h; exact ⟨ret, F, rfl, h, (ret_kc F).symm⟩
    · rintro ⟨f, g, rfl, h, rfl⟩; rw [ret_kc]; exact h
  | cons s a ih =>
    simp only [List.cons_append, PurePipe]
    constructor
    · rintro ⟨f, g, h1, h2, rfl⟩
      obtain ⟨f', g', h3, h4, rfl⟩ := (ih g).1 h2
      exact ⟨kc f f', g', ⟨f, f', h1, h3, rfl⟩, h4, (kc_assoc _ _ _).symm⟩
    · rintro ⟨f', g, ⟨f, f'', h1, h3, rfl⟩, h4, rfl⟩
      exact ⟨f, kc f'' g, h1, (ih _).2 ⟨f'', g, h3, h4, rfl⟩, kc_assoc _ _ _⟩

theorem purePipe_single (s : Sk α) (F : α → List α) : PurePipe [s] F ↔ Pure s F := by
  simp only [PurePipe]
  constructor
  · rintro ⟨f, g, h, rfl, rfl⟩; rw [kc_ret]; exact h
  · intro h; exact ⟨F, ret, h, rfl, (kc_ret F).symm⟩

theorem PP.append {a b c d : List (Sk α)} (h1 : PP a b) (h2 : PP c d) : PP (a ++ c) (b ++ d) := by
  intro F h
  rw [purePipe_append] at h ⊢
  obtain ⟨f, g, ha, hc, e⟩ := h
  exact ⟨f, g, h1 _ ha, h2 _ hc, e⟩

theorem PP.middle {a b : List (Sk α)} (h : PP a b) (x y : List (Sk α)) :
    PP (x ++ a ++ y) (x ++ b ++ y) :=
  ((PP.refl x).append h).append (PP.refl y)

mutual
theorem flat_pure : ∀ (ss : List (Sk α)) (F : α → List α), PurePipe ss F → PurePipe (flat ss) F
  | [], F, h => by simpa [flat] using h
  | s :: ss, F, h => by
    simp only [flat, purePipe_append]
    simp only [PurePipe] at h
    obtain ⟨f, g, h1, h2, e⟩ := h
    exact ⟨f, g, flat1_pure s f h1, flat_pure ss g h2, e⟩
theorem flat1_pure : ∀ (s : Sk α) (F : α → List α), Pure s F → PurePipe (flat1 s) F
  | .pipe ss, F, h => by
    simp only [flat1]
    simp only [Pure] at h
    exact flat_pure ss F h
  | .leaf n, F, h => by simpa only [flat1, purePipe_single] using h
  | .farm hd ws, F, h => by simpa only [flat1, purePipe_single] using h
  | .a2a l r, F, h => by simpa only [flat1, purePipe_single] using h
end

theorem PP.all {a b : List (Sk α)} (h : All2 (fun x y => PS x y) a b) : PP a b := by
  induction h with
  | nil => exact PP.refl _
  | cons h1 _ ih =>
    intro F hs
    simp only [PurePipe] at hs ⊢
    obtain ⟨f, g, h2, h3, e⟩ := hs
    exact ⟨f, g, h1 _ h2, ih _ h3, e⟩

theorem WP.all {a b : List (Sk α)} (h : All2 (fun x y => PS x y) a b) : WP a b := by
  induction h with
  | nil => exact fun _ h => h
  | cons h1 _ ih =>
    intro F hs
    simp only [PureAll] at hs ⊢
    exact ⟨h1 _ hs.1, ih _ hs.2⟩

theorem WP.farm {a b : List (Sk α)} (h : WP a b) (hd : Hdr α) : PS (.farm hd a) (.farm hd b) := by
  intro F hp
  simp only [Pure] at hp ⊢
  obtain ⟨e, f, c, h1, h2, h3, rfl⟩ := hp
  exact ⟨e, f, c, h1, h _ h2, h3, rfl⟩

theorem WP.a2a {a b c d : List (Sk α)} (h : WP a b) (h' : WP c d) : PS (.a2a a c) (.a2a b d) := by
  intro F hp
  simp only [Pure] at hp ⊢
  obtain ⟨f, g, h1, h2, rfl⟩ := hp
  exact ⟨f, g, h _ h1, h' _ h2, rfl⟩

theorem onPipe_ps {f : List (Sk α) → Res (List (Sk α))}
    (hf : ∀ a b, f a = .ok b → PP b a) {s s' : Sk α} (h : onPipe f s = .ok s') : PS s' s := by
  cases s with
  | pipe ss =>
    obtain ⟨b, h1, h2⟩ := bind_ok h
    cases h2
    intro F hp
    simp only [Pure] at hp ⊢
    exact hf _ _ h1 F hp
  | leaf n => cases h; exact fun _ h => h
  | farm _ _ => cases h; exact fun _ h => h
  | a2a _ _ => cases h; exact fun _ h => h

theorem mapR_onPipe_wp {f : List (Sk α) → Res (List (Sk α))}
    (hf : ∀ a b, f a = .ok b → PP b a) {l l' : List (Sk α)}
    (h : mapR (onPipe f) l = .ok l') : WP l' l :=
  WP.all ((mapR_ok h).mono fun _ _ h => onPipe_ps hf h)

theorem onInner_ps {f : List (Sk α) → Res (List (Sk α))}
    (hf : ∀ a b, f a = .ok b → PP b a) {s s' : Sk α} (h : onInner f s = .ok s') : PS s' s := by
  cases s with
  | pipe ss => cases h; exact fun _ h => h
  | leaf n => cases h; exact fun _ h => h
  | farm hd ws =>
    obtain ⟨w', h1, h2⟩ := bind_ok h
    cases h2
    exact (mapR_onPipe_wp hf h1).farm hd
  | a2a l r =>
    obtain ⟨l', h1, h2⟩ := bind_ok h
    obtain ⟨r', h3, h4⟩ := bind_ok h2
    cases h4
    exact (mapR_onPipe_wp hf h1).a2a (mapR_onPipe_wp hf h3)

theorem onFarm_ps {g : List (Sk α) → Res (List (Sk α))}
    (hg : ∀ a b, g a = .ok b → WP b a) {s s' : Sk α} (h : onFarm g s = .ok s') : PS s' s := by
  cases s with
  | pipe ss => cases h; exact fun _ h => h
  | leaf n => cases h; exact fun _ h => h
  | farm hd ws =>
    obtain ⟨w', h1, h2⟩ := bind_ok h
    cases h2
    exact (hg _ _ h1).farm hd
  | a2a l r => cases h; exact fun _ h => h

theorem collPure_null {h : Hdr α} (hc : h.getColl = none) {c : α → List α} :
    collPure h.coll c ↔ c = ret := by
  unfold Hdr.getColl at hc
  cases hcc : h.coll with
  | none => rfl
  | dflt => rfl
  | node n => rw [hcc] at hc; cases hc

theorem removeColl_ppS {h : Hdr α} (_ho : h.ordered = false) (hc : h.getColl = none)
    (ws : List (Sk α)) : PS (.farm h.removeColl ws) (.farm h ws) := by
  intro F hp
  simp only [Pure] at hp ⊢
  obtain ⟨e, f, c, h1, h2, h3, rfl⟩ := hp
  refine ⟨e, f, c, ?_, h2, ?_, rfl⟩
  · unfold Hdr.removeColl; split <;> exact h1
  · rw [collPure_null hc] at h3
    rw [h3]; unfold Hdr.removeColl; split <;> rfl

theorem onWorker_ps {f g : List (Sk α) → Res (List (Sk α))}
    (hf : ∀ a b, f a = .ok b → PP b a) (hg : ∀ a b, g a = .ok b → WP b a)
    {s s' : Sk α} (h : onWorker f g s = .ok s') : PS s' s := by
  cases s with
  | pipe ss => exact onPipe_ps hf h
  | leaf n => cases h; exact fun _ h => h
  | a2a l r =>
    obtain ⟨l', h1, h2⟩ := bind_ok h
    obtain ⟨r', h3, h4⟩ := bind_ok h2
    cases h4
    exact (mapR_onPipe_wp hf h1).a2a (mapR_onPipe_wp hf h3)
  | farm hd ws =>
    simp only [onWorker] at h
    cases ho : hd.ordered with
    | true =>
      rw [ho] at h
      cases h
      exact fun _ h => h
    | false =>
      simp only [ho, Bool.false_eq_true, if_false] at h
      obtain ⟨w', h1, h2⟩ := bind_ok h
      cases h2
      intro F hp
      have hp' := (hg _ _ h1).farm hd F hp
      split
      · rename_i hc
        exact removeColl_ppS ho (by simpa using hc) _ F hp'
      · exact hp'

theorem farm_null {h : Hdr α} {ws : List (Sk α)} (hc : h.getColl = none) {F : α → List α} :
    Pure (.farm h ws) F ↔ ∃ e f, emitPure h.emitter e ∧ PureAll ws f ∧ F = kc e f := by
  simp only [Pure]
  constructor
  · rintro ⟨e, f, c, h1, h2, h3, rfl⟩
    rw [collPure_null hc] at h3
    subst h3
    exact ⟨e, f, h1, h2, by rw [kc_ret]⟩
  · rintro ⟨e, f, h1, h2, rfl⟩
    exact ⟨e, f, ret, h1, h2, (collPure_null hc).2 rfl, by rw [kc_ret]⟩

/-- The stage after an ordered farm becomes its collector. -/
theorem addColl_pp {h : Hdr α} (_ho : h.ordered = true) (hc : h.getColl = none) (m : Node α)
    (ws : List (Sk α)) : PP [.farm (h.addColl (some m)) ws] [.farm h ws, .leaf m] := by
  intro F hp
  rw [purePipe_single]
  simp only [PurePipe] at hp
  obtain ⟨f1, g1, h1, ⟨f2, g2, h2, rfl, rfl⟩, rfl⟩ := hp
  rw [farm_null hc] at h1
  obtain ⟨e, f, h3, h4, rfl⟩ := h1
  simp only [Pure] at h2 ⊢
  exact ⟨e, f, f2, h3, h4, h2, by rw [kc_ret, kc_assoc]⟩

theorem leaf_mi_ppS (m : Node α) :
    PS (.leaf (if m.mi then m else miNode m)) (.leaf m) := by
  intro F hp
  simp only [Pure] at hp ⊢
  split
  · exact hp
  · exact hp

theorem pp_at {ss : List (Sk α)} {f : Nat} {s : Sk α} {a : List (Sk α)}
    (h : ss[f]? = some s) (ha : PP a [s]) : PP (ss.take f ++ a ++ ss.drop (f + 1)) ss := by
  conv => rhs; rw [split1 h]
  simpa using ha.middle (ss.take f) (ss.drop (f + 1))

theorem pp_at2 {ss : List (Sk α)} {f : Nat} {s t : Sk α} {a : List (Sk α)}
    (h : ss[f]? = some s) (h' : ss[f + 1]? = some t) (ha : PP a [s, t]) :
    PP (ss.take f ++ a ++ ss.drop (f + 2)) ss := by
  conv => rhs; rw [split2 h h']
  simpa using ha.middle (ss.take f) (ss.drop (f + 2))

theorem rmRound_pp {ss ss' : List (Sk α)} {f : Nat} (h : rmRound ss f = .ok ss')
    (hn : ∃ s, ss[f]? = some s ∧ s.nullColl = true) : PP ss' ss := by
  obtain ⟨s, hf, hn⟩ := hn
  unfold rmRound at h
  cases s with
  | leaf n => cases hn
  | pipe _ => cases hn
  | a2a _ _ => cases hn
  | farm hd ws =>
    have hc := Sk.nullColl_farm hn
    rw [hf] at h
    simp only at h
    cases hx : ss[f + 1]? with
    | none =>
      rw [hx] at h
      simp only at h
      split at h
      · rename_i hh
        cases h
        have ho : hd.ordered = false := by
          simp at hh; exact hh.1
        have := pp_at (a := [.farm hd.removeColl ws]) hf
          (PP.all (.cons (removeColl_ppS ho hc ws) .nil))
        simpa using this
      · cases h; exact PP.refl _
    | some nx =>
      rw [hx] at h
      simp only at h
      split at h
      · split at h
        · rename_i ho
          cases nx with
          | leaf m =>
            cases h
            have := pp_at2 hf hx (addColl_pp ho hc m ws)
            simpa using this
          | pipe _ => cases h
          | farm _ _ => cases h; exact PP.refl _
          | a2a _ _ => cases h; exact PP.refl _
        · rename_i ho
          have ho : hd.ordered = false := by simpa using ho
          cases nx with
          | leaf m =>
            cases h
            have := pp_at2 (a := [.farm hd.removeColl ws, .leaf (if m.mi then m else miNode m)])
              hf hx (PP.all (.cons (removeColl_ppS ho hc ws)
                (.cons (leaf_mi_ppS m) .nil)))
            simpa using this
          | pipe _ => cases h
          | farm _ _ =>
            cases h
            have := pp_at (a := [.farm hd.removeColl ws]) hf
              (PP.all (.cons (removeColl_ppS ho hc ws) .nil))
            simpa using this
          | a2a _ _ => cases h; exact PP.refl _
      · cases h; exact PP.refl _

theorem rmLoop_pp {n : Nat} {ss ss' : List (Sk α)} {next : Nat}
    (h : rmLoop n ss next = .ok ss') : PP ss' ss := by
  induction n generalizing ss next with
  | zero => cases h
  | succ n ih =>
    unfold rmLoop at h
    cases hf : findFrom Sk.nullColl ss next with
    | none => rw [hf] at h; cases h; exact PP.refl _
    | some f =>
      rw [hf] at h
      obtain ⟨s1, h1, h2⟩ := bind_ok h
      exact (ih h2).trans (rmRound_pp h1 (findFrom_some hf).2)


theorem addEmit_pp {h : Hdr α} {m : Node α} (_hm : m.mo = false) (he : h.emitter = none)
    (ws : List (Sk α)) : PP [.farm { h with emitter := some m } ws] [.leaf m, .farm h ws] := by
  intro F hp
  rw [purePipe_single]
  simp only [PurePipe] at hp
  obtain ⟨f1, g1, h1, ⟨f2, g2, h2, rfl, rfl⟩, rfl⟩ := hp
  simp only [Pure] at h1 h2 ⊢
  obtain ⟨e, f, c, h3, h4, h5, rfl⟩ := h2
  rw [he] at h3
  cases h3
  exact ⟨f1, f, c, h1, h4, h5, by rw [kc_ret, ret_kc]⟩

theorem removeNode_pp {hp : Hdr α} {c : Node α} (hc : hp.getColl = some c)
    (wp : List (Sk α)) : PP [.farm hp.removeColl wp, .leaf c] [.farm hp wp] := by
  have hcc : hp.coll = .node c := by
    unfold Hdr.getColl at hc
    cases hx : hp.coll with
    | none => rw [hx] at hc; cases hc
    | dflt => rw [hx] at hc; cases hc
    | node n => rw [hx] at hc; cases hc; rfl
  intro F h
  rw [purePipe_single] at h
  simp only [Pure] at h
  obtain ⟨e, f, k, h1, h2, h3, rfl⟩ := h
  rw [hcc] at h3
  have hr : hp.removeColl.getColl = none := by
    unfold Hdr.removeColl; split <;> rfl
  have hr' : hp.removeColl.emitter = hp.emitter := by
    unfold Hdr.removeColl; split <;> rfl
  have : PurePipe ([.farm hp.removeColl wp] ++ [.leaf c]) (kc e (kc f k)) := by
    rw [purePipe_append]
    refine ⟨kc e f, k, ?_, ?_, (kc_assoc _ _ _).symm⟩
    · rw [purePipe_single, farm_null hr, hr']
      exact ⟨e, f, h1, h2, rfl⟩
    · rw [purePipe_single]; simp only [Pure]; exact h3
  exact this

theorem mergeEmit_pp {ss ss' : List (Sk α)} (h : mergeEmit ss = .ok ss') : PP ss' ss := by
  unfold mergeEmit at h
  cases hf : findFrom Sk.nullEmit ss 0 with
  | none => rw [hf] at h; cases h; exact PP.refl _
  | some k =>
    rw [hf] at h
    cases k with
    | zero => cases h; exact PP.refl _
    | succ f =>
      obtain ⟨_, s, hs, hn⟩ := findFrom_some hf
      simp only at h
      rw [hs] at h
      cases hp : ss[f]? with
      | none => rw [hp] at h; cases s <;> cases h
      | some prev =>
        rw [hp] at h
        cases s with
        | leaf n => cases hn
        | pipe _ => cases hn
        | a2a _ _ => cases hn
        | farm hd ws =>
          have he := Sk.nullEmit_farm hn
          simp only at h
          split at h
          · cases h; exact PP.refl _
          · rename_i hmo
            cases prev with
            | pipe _ => cases h
            | a2a _ _ => cases h
            | leaf m =>
              simp only [Sk.isMO, Bool.not_eq_true] at hmo
              simp only at h
              split at h
              · cases h
              · obtain ⟨h', h1, h2⟩ := bind_ok h
                cases h2
                rw [addEmit_ok h1]
                have := pp_at2 hp hs (addEmit_pp hmo he ws)
                simpa using this
            | farm hq wq =>
              simp only [Sk.isMO, Bool.not_eq_true] at hmo
              simp only at h
              split at h
              · cases hc : hq.getColl with
                | none => rw [hc] at h; cases h
                | some c =>
                  rw [hc] at h
                  simp only at h
                  split at h
                  · cases h
                  · obtain ⟨h', h1, h2⟩ := bind_ok h
                    cases h2
                    rw [addEmit_ok h1]
                    have hcmo : c.mo = false := by
                      unfold Hdr.getColl at hc
                      unfold Hdr.isMO at hmo
                      cases hx : hq.coll with
                      | none => rw [hx] at hc; cases hc
                      | dflt => rw [hx] at hc; cases hc
                      | node n => rw [hx] at hc hmo; cases hc; exact hmo
                    have e1 : PP [.farm hq.removeColl wq, .farm { hd with emitter := some c } ws]
                        [.farm hq.removeColl wq, .leaf c, .farm hd ws] :=
                      (PP.refl [.farm hq.removeColl wq]).append (addEmit_pp hcmo he ws)
                    have e2 : PP [.farm hq.removeColl wq, .leaf c, .farm hd ws]
                        [.farm hq wq, .farm hd ws] :=
                      (removeNode_pp hc wq).append (PP.refl [.farm hd ws])
                    have := pp_at2 hp hs (e1.trans e2)
                    simpa using this
              · cases h; exact PP.refl _

/-! ### `merge_farms` -/

theorem comb_pure {a b : Node α} {f g : α → List α} (ha : a.Pure f) (hb : b.Pure g) :
    (combNode a b).Pure (kc f g) := by
  intro h x
  simp only [combNode]
  rw [run_pure hb, ha h x]
  rfl

theorem combRow_pure {ws r ws' : List (Sk α)} (h : combRow ws r = .ok ws')
    (hl : r.length = ws.length) {f g : α → List α} (h1 : PureAll ws f) (h2 : PureAll r g) :
    PureAll ws' (kc f g) := by
  obtain ⟨as, bs, e1, rfl, rfl, rfl⟩ := combRow_leaf h hl
  clear h hl
  induction as generalizing bs with
  | nil => simp [PureAll]
  | cons x as ih =>
    cases bs with
    | nil => simp [PureAll]
    | cons y bs =>
      simp only [List.map_cons, PureAll, Pure, List.zipWith_cons_cons] at h1 h2 ⊢
      exact ⟨comb_pure h1.1 h2.1, ih bs (by simpa using e1) h1.2 h2.2⟩

theorem combRows_pure {o : Bool} {nw : Nat} {rest : List (Sk α)} {rows : List (List (Sk α))}
    {ws ws' : List (Sk α)} (hw : ws.length = nw)
    (hg : ∀ s ∈ rest, Good o nw s)
    (hr : mapR Sk.workers rest = .ok rows) (h : combRows ws rows = .ok ws')
    {f F : α → List α} (h1 : PureAll ws f) (h2 : PurePipe rest F) : PureAll ws' (kc f F) := by
  induction rest generalizing ws rows f F with
  | nil =>
    cases hr
    cases h
    simp only [PurePipe] at h2
    rw [h2, kc_ret]; exact h1
  | cons s rest ih =>
    obtain ⟨r, k1, k2⟩ := bind_ok hr
    obtain ⟨rs, k3, k4⟩ := bind_ok k2
    cases k4
    obtain ⟨w1, k5, k6⟩ := bind_ok h
    obtain ⟨hd, w, e1, e2, e3, e4, e5⟩ := hg s (by simp)
    obtain ⟨hd', e6⟩ := workers_ok k1
    rw [e1] at e6
    cases e6
    simp only [PurePipe] at h2
    obtain ⟨f1, g1, p1, p2, rfl⟩ := h2
    rw [e1, farm_null e4, e5] at p1
    obtain ⟨e, f2, p3, p4, rfl⟩ := p1
    cases p3
    rw [ret_kc, ← kc_assoc]
    exact ih (ws := w1) ((combRow_length k5).trans hw) (fun t ht => hg t (by simp [ht])) k3 k6
      (combRow_pure k5 (e3.trans hw.symm) h1 p4) p2

theorem combineSeq_pp {h : Hdr α} {ws rest : List (Sk α)} {nf : Sk α}
    (hc : h.getColl = none) (hr : rest ≠ [])
    (hg : ∀ s ∈ rest, Good h.ordered ws.length s)
    (hh : combineSeq (.farm h ws :: rest) = .ok nf) : PP [nf] (.farm h ws :: rest) := by
  obtain ⟨rows, h1, hh⟩ := bind_ok hh
  obtain ⟨ws', h2, hh⟩ := bind_ok hh
  obtain ⟨h3, h4, hh⟩ := bind_ok hh
  obtain ⟨h5, h6, hh⟩ := bind_ok hh
  cases hh
  obtain ⟨e1, e2, e3⟩ := newEmit_ok h4 rfl
  have hlast : rest.getLastD (.farm h ws) ∈ rest := by
    cases rest with
    | nil => exact absurd rfl hr
    | cons s rest =>
      have : (s :: rest).getLastD (.farm h ws) = (s :: rest).getLast (by simp) := by
        simp [List.getLastD_eq_getLast?, List.getLast?_eq_some_getLast]
      rw [this]
      exact List.getLast_mem _
  obtain ⟨hl, wl, g1, g2, g3, g4, g5⟩ := hg _ hlast
  rw [g1] at h6
  simp only [newColl, Res.ok.injEq] at h6
  have q1 : h5.emitter = h.emitter := by
    rw [← h6]
    split
    · rw [g4]; exact e1
    · exact e1
  have q3 : h5.getColl = none := by
    rw [← h6]
    split
    · rw [g4]; rfl
    · rfl
  intro F hp
  simp only [PurePipe] at hp
  obtain ⟨f1, g1, p1, p2, rfl⟩ := hp
  rw [farm_null hc] at p1
  obtain ⟨e, f, p3, p4, rfl⟩ := p1
  rw [purePipe_single, farm_null (show (h5.setOndemand h.ondemand).getColl = none from q3)]
  refine ⟨e, kc f g1, ?_, combRows_pure rfl hg h1 h2 p4 p2, kc_assoc _ _ _⟩
  show emitPure h5.emitter e
  rw [q1]; exact p3

theorem mergeRound_pp {n f : Nat} {ss ss' : List (Sk α)} (h : mergeRound n ss f = .ok ss')
    (hn : ∃ s, ss[f]? = some s ∧ s.nullColl = true) : PP ss' ss := by
  obtain ⟨s, hf, hn⟩ := hn
  unfold mergeRound at h
  rw [hf] at h
  cases s with
  | leaf n => cases hn
  | pipe _ => cases hn
  | a2a _ _ => cases hn
  | farm hd ws =>
    obtain ⟨last, h1, h2⟩ := bind_ok h
    cases last with
    | none => cases h2; exact PP.refl _
    | some l =>
      simp only at h2
      split at h2
      · rename_i hfl
        obtain ⟨nf, h3, h4⟩ := bind_ok h2
        cases h4
        obtain ⟨_, hg⟩ := farmSeq_good (f := f) h1 (Nat.le_refl _) (fun k hk => by cases hk)
          (fun s hs => by simp at hs)
        have e1 : (ss.drop f).take (l + 1 - f) = .farm hd ws :: (ss.drop (f + 1)).take (l - f) := by
          have hlt := get_lt hf
          rw [List.drop_eq_getElem_cons hlt]
          have : ss[f] = .farm hd ws := by
            rw [List.getElem?_eq_getElem hlt] at hf; exact Option.some.inj hf
          rw [this]
          have : l + 1 - f = (l - f) + 1 := by omega
          rw [this, List.take_succ_cons]
        rw [e1] at h3
        by_cases hr : (ss.drop (f + 1)).take (l - f) = []
        · rw [hr] at h3 hg e1
          -- the sequence would be empty: the list ends at `f`, so no farm was found after it
          exfalso
          have hlen : ss.length ≤ f + 1 := by
            have := congrArg List.length hr
            simp at this
            omega
          have : farmSeq hd.ordered ws.length ss n (f + 1) none ≠ .ok (some l) := by
            cases n with
            | zero => simp [farmSeq]
            | succ n =>
              unfold farmSeq
              rw [if_neg (by omega)]
              simp
          exact this h1
        · have hp := combineSeq_pp (Sk.nullColl_farm hn) hr hg h3
          have hss : ss = ss.take f ++ (.farm hd ws :: (ss.drop (f + 1)).take (l - f)) ++
              ss.drop (l + 1) := by
            conv => lhs; rw [split1 hf]
            rw [List.append_assoc, List.cons_append]
            have : (ss.drop (f + 1)).take (l - f) ++ ss.drop (l + 1) = ss.drop (f + 1) := by
              have e : ss.drop (l + 1) = (ss.drop (f + 1)).drop (l - f) := by
                rw [List.drop_drop]; congr 1; omega
              rw [e, List.take_append_drop]
            rw [this]
          conv => rhs; rw [hss]
          have := hp.middle (ss.take f) (ss.drop (l + 1))
          simpa using this
      · cases h2; exact PP.refl _

theorem mergeLoop_pp {n f : Nat} {ss ss' : List (Sk α)} (h : mergeLoop n ss f = .ok ss')
    (hn : ∃ s, ss[f]? = some s ∧ s.nullColl = true) : PP ss' ss := by
  induction n generalizing ss f with
  | zero => cases h
  | succ n ih =>
    obtain ⟨s1, h1, h2⟩ := bind_ok h
    have p1 := mergeRound_pp h1 hn
    cases hx : findFrom Sk.nullColl s1 (f + 1) with
    | none => rw [hx] at h2; cases h2; exact p1
    | some f' => rw [hx] at h2; exact (ih h2 (findFrom_some hx).2).trans p1

theorem mergeFarms_pp {n : Nat} {ss ss' : List (Sk α)} (h : mergeFarms n ss = .ok ss') :
    PP ss' ss := by
  unfold mergeFarms at h
  cases hx : findFrom Sk.nullColl ss 0 with
  | none => rw [hx] at h; cases h; exact PP.refl _
  | some f => rw [hx] at h; exact mergeLoop_pp h (findFrom_some hx).2


/-! ### `introduce_a2a` -/

theorem combineA2A_pp {h1 h2 : Hdr α} {w1 w2 : List (Sk α)} {nf : Sk α}
    (hc : h1.getColl = none) (he : h2.emitter = none)
    (h : combineA2A h1 w1 h2 w2 = .ok nf) : PP [nf] [.farm h1 w1, .farm h2 w2] := by
  obtain ⟨h3, h4, hh⟩ := bind_ok h
  cases hh
  obtain ⟨e1, e2, e3⟩ := newEmit_ok h4 rfl
  intro F hp
  simp only [PurePipe] at hp
  obtain ⟨f1, g1, p1, ⟨f2, g2, p2, rfl, rfl⟩, rfl⟩ := hp
  rw [farm_null hc] at p1
  obtain ⟨e, f, p3, p4, rfl⟩ := p1
  simp only [Pure] at p2
  obtain ⟨e', g, c, p5, p6, p7, rfl⟩ := p2
  rw [he] at p5
  cases p5
  rw [purePipe_single, ret_kc, kc_ret]
  have hem : ∀ h : Hdr α, (if h1.ondemand = 0 then h else h.setOndemand h1.ondemand).emitter =
      h.emitter := by
    intro h; split <;> rfl
  have hco : ∀ h : Hdr α, (if h1.ondemand = 0 then h else h.setOndemand h1.ondemand).coll =
      h.coll := by
    intro h; split <;> rfl
  simp only [Pure, PureAll]
  refine ⟨e, kc f g, c, ?_, ⟨⟨f, g, p4, p6, rfl⟩, trivial⟩, ?_, ?_⟩
  · rw [hem]
    have : (if h2.hasColl then h3.addColl h2.getColl else h3).emitter = h3.emitter := by
      split
      · cases h2.getColl <;> rfl
      · rfl
    rw [this, e1]; exact p3
  · rw [hco]
    cases hx : h2.coll with
    | none =>
      rw [hx] at p7
      cases p7
      have hg : h2.getColl = none := by unfold Hdr.getColl; rw [hx]
      rw [hg]
      split
      · rfl
      · rw [e2]; rfl
    | dflt =>
      rw [hx] at p7
      cases p7
      have hg : h2.getColl = none := by unfold Hdr.getColl; rw [hx]
      rw [hg]
      split
      · rfl
      · rw [e2]; rfl
    | node n =>
      rw [hx] at p7
      have hg : h2.getColl = some n := by unfold Hdr.getColl; rw [hx]
      have hh : h2.hasColl = true := by unfold Hdr.hasColl; rw [hx]; simp [Coll.gathers]
      rw [hg, hh]
      exact p7
  · simp only [kc_assoc]

theorem a2aLoop_pp {n : Nat} {ss ss' : List (Sk α)} {f : Option Nat}
    (h : a2aLoop n ss f = .ok ss')
    (hn : ∀ i, f = some i → ∃ s, ss[i]? = some s ∧ s.nullColl = true) : PP ss' ss := by
  induction n generalizing ss f with
  | zero => cases f <;> cases h
  | succ n ih =>
    cases f with
    | none => simp only [a2aLoop] at h; cases h; exact PP.refl _
    | some i =>
      obtain ⟨s, hs, hc⟩ := hn i rfl
      have next : ∀ (ts : List (Sk α)) (st j : Nat), findFrom Sk.nullColl ts st = some j →
          ∃ s, ts[j]? = some s ∧ s.nullColl = true := fun ts st j hj => (findFrom_some hj).2
      simp only [a2aLoop] at h
      split at h
      · rw [hs] at h
        cases s with
        | leaf _ => cases hc
        | pipe _ => cases hc
        | a2a _ _ => cases hc
        | farm h1 w1 =>
          have hc := Sk.nullColl_farm hc
          cases hx : ss[i + 1]? with
          | none => rw [hx] at h; cases h
          | some s2 =>
            rw [hx] at h
            simp only at h
            split at h
            · exact ih h (next _ _)
            · cases s2 with
              | leaf _ => exact ih h (next _ _)
              | pipe _ => exact ih h (next _ _)
              | a2a _ _ => exact ih h (next _ _)
              | farm h2 w2 =>
                simp only at h
                split at h
                · exact ih h (next _ _)
                · split at h
                  · rename_i he
                    obtain ⟨nf, k1, k2⟩ := bind_ok h
                    have p1 := ih k2 (next _ _)
                    refine p1.trans ?_
                    have := pp_at2 hs hx (combineA2A_pp hc (by simpa using he) k1)
                    simpa using this
                  · exact ih h hn
      · cases h; exact PP.refl _

theorem introduceA2A_pp {n : Nat} {ss ss' : List (Sk α)} (h : introduceA2A n ss = .ok ss') :
    PP ss' ss :=
  a2aLoop_pp h fun _ hi => (findFrom_some hi).2

/-! ### The recursion -/

theorem opt_pp (n : Nat) :
    (∀ (o : Opts) (ss ss' : List (Sk α)), optPipe n o ss = .ok ss' → PP ss' ss) ∧
    (∀ (o : Opts) (ws ws' : List (Sk α)), optFarm n o ws = .ok ws' → WP ws' ws) := by
  induction n with
  | zero =>
    constructor
    · intro o ss ss' h; simp [optPipe] at h
    · intro o ss ss' h; simp [optFarm] at h
  | succ n ih =>
    obtain ⟨ihP, ihF⟩ := ih
    constructor
    · intro o ss ss' h
      simp only [optPipe] at h
      obtain ⟨s1, h1, h⟩ := bind_ok h
      obtain ⟨s2, h2, h⟩ := bind_ok h
      obtain ⟨s3, h3, h⟩ := bind_ok h
      obtain ⟨s5, h5, h⟩ := bind_ok h
      have p1 : PP s1 ss := by
        have a : PP s1 (flat ss) := PP.all ((mapR_ok h1).mono fun _ _ h =>
          onInner_ps (fun a b hab => ihP o a b hab) h)
        exact a.trans fun F h => flat_pure ss F h
      have p2 : PP s2 s1 := by
        split at h2
        · exact mergeFarms_pp h2
        · cases h2; exact PP.refl _
      have p3 : PP s3 s2 := by
        split at h3
        · exact introduceA2A_pp h3
        · cases h3; exact PP.refl _
      have p5 : PP s5 s3 := by
        split at h5
        · obtain ⟨s4, h4, h5⟩ := bind_ok h5
          have a : PP s4 s3 := PP.all ((mapR_ok h4).mono fun _ _ h =>
            onFarm_ps (fun a b hab => ihF level1 a b hab) h)
          exact (rmLoop_pp h5).trans a
        · cases h5; exact PP.refl _
      have p6 : PP ss' s5 := by
        split at h
        · exact mergeEmit_pp h
        · cases h; exact PP.refl _
      exact p6.trans (p5.trans (p3.trans (p2.trans p1)))
    · intro o ws ws' h
      simp only [optFarm] at h
      obtain ⟨w1, h1, h⟩ := bind_ok h
      have p1 : WP w1 ws := mapR_onPipe_wp (fun a b hab => ihP o a b hab) h1
      split at h
      · have p2 : WP ws' w1 := WP.all ((mapR_ok h).mono fun _ _ h =>
          onWorker_ps (fun a b hab => ihP level1 a b hab)
            (fun a b hab => ihF level1 a b hab) h)
        exact p2.trans p1
      · cases h; exact p1

/-! ### Ordered networks -/

mutual
/-- All farms are ordered and gather; there is no all-to-all. -/
def Ord : Sk α → Prop
  | .leaf _ => True
  | .pipe ss => OrdAll ss
  | .farm h ws => h.ordered = true ∧ h.coll.gathers = true ∧ OrdAll ws
  | .a2a _ _ => False
/-- Lists. -/
def OrdAll : List (Sk α) → Prop
  | [] => True
  | s :: ss => Ord s ∧ OrdAll ss
end

mutual
/-- A stateless ordered network is a loop over the items. -/
theorem sem_ord : ∀ (s : Sk α) (F : α → List α) (xs ys : List α), Pure s F → Ord s → sem s xs ys →
    ys = xs.flatMap F
  | .leaf n, F, xs, ys, hp, _, h => by
    simp only [sem] at h
    simp only [Pure] at hp
    rw [h, beh_pure hp]
  | .pipe ss, F, xs, ys, hp, ho, h => by
    simp only [sem] at h
    simp only [Pure] at hp
    simp only [Ord] at ho
    exact semPipe_ord ss F xs ys hp ho h
  | .farm hd ws, F, xs, ys, hp, ho, h => by
    simp only [sem] at h
    simp only [Pure] at hp
    simp only [Ord] at ho
    obtain ⟨e, f, c, h1, h2, h3, rfl⟩ := hp
    obtain ⟨_, vs, g1, g2⟩ := h
    rw [g1, collOut_pure h3, flatMap_kc, flatMap_kc, ← emitOut_pure h1]
    rcases g2 with ⟨ns, _, _, g3, g4⟩ | ⟨g3, _⟩
    · rw [OrdRun.pure (stdNodes_pure h2 g3) g4]
    · rcases g3 with g3 | g3
      · rw [ho.1] at g3; cases g3
      · rw [ho.2.1] at g3; cases g3.1
  | .a2a l r, F, xs, ys, hp, ho, h => by
    simp only [Ord] at ho
theorem semPipe_ord : ∀ (ss : List (Sk α)) (F : α → List α) (xs ys : List α), PurePipe ss F →
    OrdAll ss → semPipe ss xs ys → ys = xs.flatMap F
  | [], F, xs, ys, hp, _, h => by
    simp only [semPipe] at h
    simp only [PurePipe] at hp
    rw [h, hp]; simp
  | s :: ss, F, xs, ys, hp, ho, h => by
    simp only [semPipe] at h
    simp only [PurePipe] at hp
    simp only [OrdAll] at ho
    obtain ⟨f, g, h1, h2, rfl⟩ := hp
    obtain ⟨zs, g1, g2⟩ := h
    rw [flatMap_kc, ← sem_ord s f xs zs h1 ho.1 g1]
    exact semPipe_ord ss g zs ys h2 ho.2 g2
end

/-- **C60, stateless networks.**  If the nodes of a pipeline keep no state and the workers of each farm all do
the same, then `optimize_static` with any options returns a pipeline that does the same to each item:
every output of the original and every output of the optimised pipeline are permutations of the
same list.  (Missing from the full property: as above.) -/
theorem C60_stateless_partial (n : Nat) (o : Opts) (ss ss' : List (Sk α)) (F : α → List α)
    (hp : Pure (.pipe ss) F) (h : optPipe n o ss = .ok ss') :
    Pure (.pipe ss') F ∧
    (∀ xs ys, sem (.pipe ss) xs ys → ys.Perm (xs.flatMap F)) ∧
    (∀ xs ys, sem (.pipe ss') xs ys → ys.Perm (xs.flatMap F)) := by
  have hp' : Pure (.pipe ss') F := by
    simp only [Pure] at hp ⊢
    exact (opt_pp n).1 o ss ss' h F hp
  exact ⟨hp', fun xs ys hs => sem_pure _ F xs ys hp hs, fun xs ys hs => sem_pure _ F xs ys hp' hs⟩

/-- The same for `optimize_static(ff_farm&)`. -/
theorem C60_farm_stateless_partial (n : Nat) (o : Opts) (hd : Hdr α) (ws ws' : List (Sk α))
    (F : α → List α) (hp : Pure (.farm hd ws) F) (h : optFarm n o ws = .ok ws') :
    Pure (.farm hd ws') F ∧ (∀ xs ys, sem (.farm hd ws') xs ys → ys.Perm (xs.flatMap F)) := by
  have hp' := ((opt_pp n).2 o ws ws' h).farm hd F hp
  exact ⟨hp', fun xs ys hs => sem_pure _ F xs ys hp' hs⟩

end FF.Opt
