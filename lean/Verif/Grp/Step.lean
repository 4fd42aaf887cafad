import Verif.Grp.Inv
/-!
# C67: the invariant is kept
-/
namespace FF.Grp
variable {D : Type} {N : Net D}

theorem ser_mem {x : Nat} {outs : List (Option Nat × D)}
    (hi : ∀ p ∈ outs, ∀ i, p.1 = some i → i < (N.eg x).length) {o : O D} (h : o ∈ ser N x outs) :
    IsD o ∧ ∀ m, o = .msg m → OutOk N x m := by
  simp only [ser] at h
  split at h
  · simp at h
  · rename_i hne
    rw [List.mem_map] at h
    obtain ⟨p, hp, rfl⟩ := h
    refine ⟨by simp [IsD], ?_⟩
    intro m hm
    simp only [O.msg.injEq] at hm
    subst hm
    refine ⟨rfl, hne, ?_, by simp⟩
    intro d hd
    simp only [Option.map_eq_some_iff] at hd
    obtain ⟨i, e, rfl⟩ := hd
    have := hi p hp i e
    rw [List.getD_eq_getElem?_getD, List.getElem?_eq_getElem this]
    simp

theorem serRet_mem {x : Nat} {r : Ret D} (hr : r ≠ .eos) {o : O D} (h : o ∈ serRet N x r) :
    IsD o ∧ ∀ m, o = .msg m → OutOk N x m := by
  cases r with
  | goon => simp [serRet] at h
  | eos => exact absurd rfl hr
  | out d =>
    simp only [serRet] at h
    split at h
    · simp at h
    · rename_i hne
      simp only [List.mem_singleton] at h
      subst h
      refine ⟨by simp [IsD], ?_⟩
      intro m hm
      simp only [O.msg.injEq] at hm
      subst hm
      exact ⟨rfl, hne, by simp, by simp⟩

/-- What a wrapper may put out in one go, ending the stream if `e`. -/
structure Blk (N : Net D) (x : Nat) (e : Bool) (l : List (O D)) : Prop where
  out : ∀ m, O.msg m ∈ l → OutOk N x m
  ord : Ord l
  ends : e = true → .fin ∈ l ∧ (N.eg x ≠ [] → .msg (leos x) ∈ l)
  fin : ∀ o ∈ l, ¬ IsD o → e = true

theorem Ord.data {l : List (O D)} (h : ∀ o ∈ l, IsD o) : Ord l :=
  List.Pairwise.imp_of_mem (R := fun _ _ => True) (fun ha _ _ _ => h _ ha) (by simp [List.pairwise_iff_getElem])

theorem Ord.append {l l' : List (O D)} (h : ∀ o ∈ l, IsD o) (h' : Ord l') : Ord (l ++ l') :=
  List.pairwise_append.2 ⟨Ord.data h, h', fun _ ha _ _ _ => h _ ha⟩

theorem Blk.data {x : Nat} {l : List (O D)} (h : ∀ o ∈ l, IsD o ∧ ∀ m, o = .msg m → OutOk N x m) :
    Blk N x false l where
  out := fun m hm => (h _ hm).2 m rfl
  ord := Ord.data fun o ho => (h o ho).1
  ends := by simp
  fin := fun o ho hn => absurd (h o ho).1 hn

theorem Blk.last {x : Nat} {l t : List (O D)} (h : ∀ o ∈ l, IsD o ∧ ∀ m, o = .msg m → OutOk N x m)
    (ht : ∀ o ∈ t, o = .fin) (hne : t ≠ []) :
    Blk N x true (l ++ (if N.eg x = [] then [] else [.msg (leos x)]) ++ t) where
  out := by
    intro m hm
    rcases List.mem_append.1 hm with hm | hm
    · rcases List.mem_append.1 hm with hm | hm
      · exact (h _ hm).2 m rfl
      · split at hm
        · simp at hm
        · rename_i hne'
          simp only [List.mem_singleton, O.msg.injEq] at hm
          subst hm
          exact ⟨rfl, hne', by simp, fun _ => rfl⟩
    · exact absurd (ht _ hm) (by simp)
  ord := by
    have hl : Ord t := List.Pairwise.imp_of_mem (R := fun _ _ => True)
      (fun _ hb _ hn => absurd (ht _ hb) hn) (by simp [List.pairwise_iff_getElem])
    rw [List.append_assoc]
    refine Ord.append (fun o ho => (h o ho).1) ?_
    split
    · exact hl
    · refine List.pairwise_append.2 ⟨by simp, hl, ?_⟩
      intro a _ b hb hn
      exact absurd (ht _ hb) hn
  ends := by
    intro _
    refine ⟨?_, ?_⟩
    · obtain ⟨o, os, e⟩ := List.exists_cons_of_ne_nil hne
      have : o = .fin := ht o (by rw [e]; exact List.mem_cons_self)
      rw [List.mem_append]
      right
      rw [e, this]
      exact List.mem_cons_self
    · intro h1
      rw [if_neg h1]
      simp
  fin := fun _ _ _ => rfl

theorem srcOut_blk (hg : Good N) {x : Nat} (hx : x < N.n) (hs : N.ing x = []) :
    Blk N x true (srcOut N x) := by
  have hr := hg.once x hx hs
  have e : srcOut N x = ser N x ((N.node x).first (N.node x).init).2.1 ++
      (if N.eg x = [] then [] else [.msg (leos x)]) ++
      (if N.eg x = [] then [.fin] else [.fin, .fin]) := by
    simp only [srcOut, hr, serRet]
    split <;> simp
  rw [e]
  refine Blk.last (fun o ho => ser_mem (hg.idx0 x hx) ho) ?_ ?_
  · split <;> simp
  · split <;> simp

theorem wstep_blk (hg : Good N) {x : Nat} (hx : x < N.n) (w : W (N.node x)) (he : w.exited = false)
    (m : M D) : Blk N x (wstep N x w m).1.exited (wstep N x w m).2 := by
  simp only [wstep]
  cases hb : m.body with
  | none =>
    simp only
    split
    · rw [he]; exact Blk.data (by simp)
    · split
      · exact Blk.last (fun o ho => ser_mem (hg.idx2 x hx _ _) ho) (by simp) (by simp)
      · simp only [he]; exact Blk.data (fun o ho => ser_mem (hg.idx2 x hx _ _) ho)
  | some d =>
    simp only [he]
    refine Blk.data (fun o ho => ?_)
    rcases List.mem_append.1 ho with ho | ho
    · exact ser_mem (hg.idx1 x hx _ _ _) ho
    · exact serRet_mem (hg.steady x hx _ _ _) ho

theorem wrun_snoc (x : Nat) (l : List (M D)) (m : M D) :
    wrun N x (l ++ [m]) = ((wstep N x (wrun N x l).1 m).1,
      (wrun N x l).2 ++ (wstep N x (wrun N x l).1 m).2) := by
  simp [wrun, List.foldl_append]

/-- Steps of a wrapper. -/
theorem Inv.node {s s' : S N} {x : Nat} {l : List (O D)} (hi : Inv N s) (hx : x < N.n)
    (hne : (s.w x).exited = false) (hw : ∀ z, z ≠ x → s'.w z = s.w z)
    (hX : s'.X x = s.X x ++ l) (hX' : ∀ z, z ≠ x → s'.X z = s.X z)
    (hc : ∀ z, z ≠ x → s'.cons z = s.cons z)
    (ho : s'.oproc = s.oproc) (hp : s'.cproc = s.cproc) (hf : s'.off = s.off)
    (hC : ∀ a g, s'.C a g = s.C a g) (hR : ∀ x, s'.R x = s.R x) (hrt : s'.rtodo = s.rtodo)
    (hb : Blk N x (s'.w x).exited l)
    (hwr : N.ing x ≠ [] → s'.w x = (FF.Grp.wrun N x (s'.cons x)).1 ∧
      s'.X x = (FF.Grp.wrun N x (s'.cons x)).2)
    (hsr : N.ing x = [] → s'.X x = if (s'.w x).exited then srcOut N x else [])
    (hse : N.ing x ≠ [] → (∀ y, y ∈ (s'.w x).seen ↔ leos y ∈ s'.cons x) ∧
      (s'.w x).seen.Nodup ∧ ((s'.w x).exited = true ↔ (N.ing x).length ≤ (s'.w x).seen.length)) :
    Inv N s' := by
  have hd : ∀ o ∈ s.X x, IsD o := by
    intro o ho
    refine Classical.byContradiction fun hn => ?_
    rw [hi.fin x hx o ho hn] at hne
    cases hne
  constructor
  · intro z hz h
    by_cases e : z = x
    · subst e; exact hwr h
    · rw [hw z e, hX' z e, hc z e]; exact hi.wrun z hz h
  · intro z hz h
    by_cases e : z = x
    · subst e; exact hsr h
    · rw [hw z e, hX' z e]; exact hi.srcs z hz h
  · intro z hz m hm
    by_cases e : z = x
    · subst e
      rw [hX] at hm
      rcases List.mem_append.1 hm with hm | hm
      · exact hi.out z hz m hm
      · exact hb.out m hm
    · rw [hX' z e] at hm; exact hi.out z hz m hm
  · intro z hz
    by_cases e : z = x
    · subst e; rw [hX]; exact Ord.append hd hb.ord
    · rw [hX' z e]; exact hi.ord z hz
  · intro z hz h
    by_cases e : z = x
    · subst e
      rw [hX]
      obtain ⟨h1, h2⟩ := hb.ends h
      exact ⟨List.mem_append_right _ h1, fun h => List.mem_append_right _ (h2 h)⟩
    · rw [hX' z e]; rw [hw z e] at h; exact hi.ends z hz h
  · intro z hz o ho' hn
    by_cases e : z = x
    · subst e
      rw [hX] at ho'
      rcases List.mem_append.1 ho' with h | h
      · exact absurd (hd o h) hn
      · exact hb.fin o h hn
    · rw [hX' z e] at ho'; rw [hw z e]; exact hi.fin z hz o ho' hn
  · intro z hz h
    by_cases e : z = x
    · subst e; exact hse h
    · rw [hw z e, hc z e]; exact hi.seen z hz h
  · intro z; rw [hf, ho]; exact hi.off z
  · intro a g; rw [hC]; exact hi.conn a g
  · intro z; rw [hR]; exact hi.recv z
  · rw [hrt]; exact hi.rt
  · intro y hy; simp only [hC, ho]; exact hi.deal1 y hy
  · intro y hy g; simp only [hR, hp]; exact hi.deal2 y hy g
  · intro y hy g; simp only [hC, ho]; exact hi.eos1 y hy g
  · intro y hy z hz hyz; simp only [hR, hp]; exact hi.eos2 y hy z hz hyz

theorem Inv.first {s s' : S N} {x : Nat} (hg : Good N) (hi : Inv N s)
    (h : step N s (.first x) = some s') : Inv N s' := by
  simp only [step] at h
  split at h
  · rename_i hc
    obtain ⟨hx, hs, he⟩ := hc
    have hX0 : s.X x = [] := by rw [hi.srcs x hx hs, he]; simp
    have h3 : s.oproc x = [] ∧ s.outq x = [] ∧ s.pend x = [] := by
      simpa [S.X] using hX0
    simp only [Option.some.injEq] at h
    subst h
    refine hi.node (x := x) (l := srcOut N x) hx he ?_ ?_ ?_ ?_ rfl rfl rfl (fun _ _ => rfl)
      (fun _ => rfl) rfl ?_ ?_ ?_ ?_
    · intro z hz; exact updW_ne _ _ hz
    · rw [hX0]; simp [S.X, h3]
    · intro z hz; simp [S.X, upd_ne _ _ hz]
    · intro z hz; rfl
    · simp only [updW_self]; exact srcOut_blk hg hx hs
    · intro h; exact absurd hs h
    · intro _; simp [S.X, h3]
    · intro h; exact absurd hs h
  · exact absurd h (by simp)

theorem Inv.r_eos {s : S N} (hg : Good N) (hi : Inv N s) {x : Nat} {m : M D} (hm : m ∈ s.R x)
    (hb : m.body = none) : m = leos m.src := by
  obtain ⟨hx, hy⟩ := hi.recv x m hm
  have hs := hi.eos2 m.src (hg.ing_lt x hx _ hy) x hx hy
  have hmf : m ∈ (s.R x).filter (·.src == m.src) := by simp [hm]
  by_cases hc : leos m.src ∈ s.cproc (N.grp m.src) (N.grp x)
  · obtain ⟨ds, h1, h2⟩ := hs.1 hc
    rw [h2] at hmf
    rcases List.mem_append.1 hmf with h | h
    · exact absurd hb (h1 m h)
    · exact List.mem_singleton.1 h
  · exact absurd hb (hs.2 hc m hmf)

theorem Inv.pop {s s' : S N} {x : Nat} (hg : Good N) (hi : Inv N s)
    (h : step N s (.pop x) = some s') : Inv N s' := by
  simp only [step] at h
  cases hq : s.inq x with
  | nil => rw [hq] at h; exact absurd h (by simp)
  | cons m ms =>
    rw [hq] at h
    simp only at h
    split at h
    · rename_i hc
      obtain ⟨hx, hs, he, hpe⟩ := hc
      obtain ⟨hw1, hw2⟩ := hi.wrun x hx hs
      obtain ⟨hse1, hse2, hse3⟩ := hi.seen x hx hs
      have hmR : m ∈ s.R x := by simp [S.R, hq]
      simp only [Option.some.injEq] at h
      subst h
      refine hi.node (x := x) (l := (wstep N x (s.w x) m).2) hx he ?_ ?_ ?_ ?_ rfl rfl rfl
        (fun _ _ => rfl) ?_ rfl ?_ ?_ ?_ ?_
      · intro z hz; exact updW_ne _ _ hz
      · simp [S.X, hpe]
      · intro z hz; simp [S.X, upd_ne _ _ hz]
      · intro z hz; simp [upd_ne _ _ hz]
      · intro z
        by_cases e : z = x
        · subst e; simp [S.R, hq]
        · simp [S.R, upd_ne _ _ e]
      · simp only [updW_self]; exact wstep_blk hg hx _ he m
      · intro _
        simp only [updW_self, upd_self, S.X]
        rw [wrun_snoc]
        refine ⟨by rw [← hw1], ?_⟩
        rw [← hw1, ← hw2]
        simp [S.X, hpe]
      · intro h; exact absurd h hs
      · intro _
        simp only [updW_self, upd_self]
        have hme := hi.r_eos hg hmR
        simp only [wstep]
        cases hb : m.body with
        | some d =>
          simp only
          refine ⟨fun y => ?_, hse2, hse3⟩
          rw [hse1 y, List.mem_append, List.mem_singleton]
          constructor
          · exact fun h => .inl h
          · rintro (h | h)
            · exact h
            · rw [← h] at hb; simp at hb
        | none =>
          have hm := hme hb
          simp only
          split
          · rename_i hin
            refine ⟨fun y => ?_, hse2, hse3⟩
            rw [hse1 y, List.mem_append, List.mem_singleton]
            constructor
            · exact fun h => .inl h
            · rintro (h | h)
              · exact h
              · rw [hm] at h
                simp only [M.mk.injEq, and_true] at h
                rw [h]; exact (hse1 _).1 hin
          · rename_i hin
            have hy : ∀ y, y ∈ m.src :: (s.w x).seen ↔ leos y ∈ s.cons x ++ [m] := by
              intro y
              rw [List.mem_cons, List.mem_append, List.mem_singleton, ← hse1 y, hm]
              simp only [M.mk.injEq, and_true]
              exact or_comm
            split
            · rename_i hl
              exact ⟨hy, List.nodup_cons.2 ⟨hin, hse2⟩, fun _ => hl, fun _ => rfl⟩
            · rename_i hl
              refine ⟨hy, List.nodup_cons.2 ⟨hin, hse2⟩, ?_⟩
              simp only [he]
              constructor
              · intro h; cases h
              · intro h; exact absurd h hl
    · exact absurd h (by simp)

theorem toG_map {l : List Nat} (hl : l.Nodup) (m : M D) (g : Nat) :
    toG (l.map fun c => (c, m)) g = if g ∈ l then [m] else [] := by
  induction l with
  | nil => rfl
  | cons c l ih =>
    rw [List.nodup_cons] at hl
    rw [List.map_cons, toG_cons, ih hl.2]
    by_cases e : c = g
    · subst e; simp [hl.1]
    · simp [e, Ne.symm e]

theorem conns_nodup (y : Nat) : (conns N y).Nodup := List.Pairwise.filter _ List.nodup_range
theorem poss_nodup (g y : Nat) : (poss N g y).Nodup := List.Pairwise.filter _ List.nodup_range

theorem mem_conns (hg : Good N) {y g : Nat} (hy : y < N.n) :
    g ∈ conns N y ↔ ∃ x ∈ N.eg y, N.grp x = g := by
  simp only [conns, List.mem_filter, List.mem_range, List.any_eq_true, beq_iff_eq]
  constructor
  · exact fun h => h.2
  · rintro ⟨x, hx, e⟩
    exact ⟨e ▸ hg.grp_lt x (hg.eg_lt y hy x hx), x, hx, e⟩

theorem mem_poss {g y x : Nat} : x ∈ poss N g y ↔ x < N.n ∧ N.grp x = g ∧ y ∈ N.ing x := by
  simp [poss]

theorem dat_append (y : Nat) (l l' : List (M D)) : dat y (l ++ l') = dat y l ++ dat y l' :=
  List.filterMap_append
theorem od_append (l l' : List (O D)) : od (l ++ l') = od l ++ od l' := List.filterMap_append

theorem dat_other {y : Nat} {l : List (M D)} (h : ∀ m ∈ l, m.src ≠ y) : dat y l = [] := by
  rw [dat, List.filterMap_eq_nil_iff]
  intro m hm
  simp [h m hm]

theorem dat_eos {y : Nat} {l : List (M D)} (h : ∀ m ∈ l, m.body = none) : dat y l = [] := by
  rw [dat, List.filterMap_eq_nil_iff]
  intro m hm
  simp [h m hm]

theorem filter_other {y : Nat} {l : List (M D)} (h : ∀ m ∈ l, m.src ≠ y) :
    l.filter (·.src == y) = [] := by
  rw [List.filter_eq_nil_iff]
  intro m hm
  simp [h m hm]

theorem Deal.congr {α : Type} {ok : α → Nat → Prop} {l l' : List α} {f f' : Nat → List α}
    (h : Deal ok l f) (hl : l' = l) (hf : ∀ i, f' i = f i) : Deal ok l' f' := by
  have : f' = f := funext hf
  rw [this, hl]
  exact h

end FF.Grp
