import Verif.Grp.Step
/-!
# C67: the invariant is kept by senders and receivers
-/
namespace FF.Grp
variable {D : Type} {N : Net D}

/-- what the sender makes of a message of `x` -/
inductive SR (N : Net D) (x : Nat) (m : M D) : List (Nat × M D) → Prop
  | data (d : D) (g : Nat) : m.body = some d → m.src = x → ok1 N x (m.dest, d) g →
      ConnOk N (N.grp x) g m → SR N x m [(g, m)]
  | eos : m = leos x → SR N x m ((conns N x).map fun c => (c, leos x))

theorem senderRoute_ok (hg : Good N) {x c : Nat} (hx : x < N.n) {m : M D} (hm : OutOk N x m)
    {l : List (Nat × M D)} (h : senderRoute N m c = some l) : SR N x m l := by
  cases hb : m.body with
  | none =>
    have e := hm.eos hb
    rw [e] at h
    simp only [senderRoute, Option.some.injEq] at h
    subst h
    exact .eos e
  | some d =>
    simp only [senderRoute, hb] at h
    have hne : m.body = none → m = leos m.src := by rw [hb]; simp
    cases hd : m.dest with
    | some t =>
      rw [hd] at h
      simp only [Option.some.injEq] at h
      subst h
      have ht := hm.dest t hd
      refine .data d _ hb hm.src (by simp [ok1, hd]) ⟨by rw [hm.src]; exact hx, by rw [hm.src], ?_, ?_, hne⟩
      · intro d' hd'
        rw [hd] at hd'
        cases hd'
        exact ⟨by rw [hm.src]; exact ht, rfl⟩
      · intro h; rw [hd] at h; cases h
    | none =>
      rw [hd] at h
      simp only at h
      split at h
      · rename_i hc
        simp only [Option.some.injEq] at h
        subst h
        refine .data d _ hb hm.src (by rw [hm.src] at hc; simp [ok1, hd, hc])
          ⟨by rw [hm.src]; exact hx, by rw [hm.src], ?_, fun _ => hc, hne⟩
        intro d' hd'
        rw [hd] at hd'; cases hd'
      · exact absurd h (by simp)

/-- what the receiver of `g` makes of a message -/
inductive BR (N : Net D) (g : Nat) (m : M D) : List (Nat × M D) → Prop
  | data (d : D) (x : Nat) : m.body = some d → okTo N m.src (m.dest, d) x → x < N.n → N.grp x = g →
      m.src ∈ N.ing x → BR N g m [(x, m)]
  | eos : m = leos m.src → BR N g m ((poss N g m.src).map fun x => (x, leos m.src))

theorem boxRoute_ok (hg : Good N) {a g c : Nat} {m : M D} (hm : ConnOk N a g m)
    {l : List (Nat × M D)} (h : boxRoute N g m c = some l) : BR N g m l := by
  cases hb : m.body with
  | none =>
    have e := hm.eos hb
    rw [e] at h
    simp only [boxRoute, Option.some.injEq] at h
    subst h
    exact .eos e
  | some d =>
    simp only [boxRoute, hb] at h
    cases hd : m.dest with
    | some t =>
      rw [hd] at h
      obtain ⟨h1, h2⟩ := hm.dest t hd
      simp only [h2, if_true, Option.some.injEq] at h
      subst h
      have ht := hg.eg_lt _ hm.lt _ h1
      exact .data d t hb (by simp [okTo, hd]) ht h2 ((hg.dual t _ ht hm.lt).1 h1)
    | none =>
      rw [hd] at h
      obtain ⟨z, hz1, hz2⟩ := (mem_conns hg hm.lt).1 (hm.anon hd)
      have hzn := hg.eg_lt _ hm.lt _ hz1
      have hzp : z ∈ poss N g m.src := mem_poss.2 ⟨hzn, hz2, (hg.dual z _ hzn hm.lt).1 hz1⟩
      simp only at h
      rw [if_neg (List.ne_nil_of_mem hzp)] at h
      split at h
      · rename_i hc
        simp only [Option.some.injEq] at h
        subst h
        obtain ⟨h1, h2, h3⟩ := mem_poss.1 hc
        exact .data d c hb (by simp only [okTo, hd]; exact (hg.dual c _ h1 hm.lt).2 h3) h1 h2 h3
      · exact absurd h (by simp)

theorem Inv.gather {s s' : S N} {x c : Nat} (hg : Good N) (hi : Inv N s)
    (h : step N s (.gather x c) = some s') : Inv N s' := by
  simp only [step] at h
  cases hq : s.outq x with
  | nil => rw [hq] at h; exact absurd h (by simp)
  | cons o os =>
    rw [hq] at h
    simp only at h
    split at h
    · rename_i hc
      obtain ⟨hx, hoff, hst⟩ := hc
      have hX : s.X x = s.oproc x ++ o :: (os ++ s.pend x) := by simp [S.X, hq]
      cases o with
      | fin =>
        simp only [Option.some.injEq] at h
        subst h
        have hXe : ∀ z, S.X (N := N) { s with
            outq := upd s.outq x os
            oproc := upd s.oproc x (s.oproc x ++ [.fin])
            off := upd s.off x true } z = s.X z := by
          intro z
          by_cases e : z = x
          · subst e; simp [S.X, hq]
          · simp [S.X, upd_ne _ _ e]
        constructor
        · intro z hz h; rw [hXe]; exact hi.wrun z hz h
        · intro z hz h; rw [hXe]; exact hi.srcs z hz h
        · intro z hz; rw [hXe]; exact hi.out z hz
        · intro z hz; rw [hXe]; exact hi.ord z hz
        · intro z hz h; rw [hXe]; exact hi.ends z hz h
        · intro z hz; rw [hXe]; exact hi.fin z hz
        · exact hi.seen
        · intro z
          by_cases e : z = x
          · subst e; simp
          · simp only [upd_ne _ _ e]; exact hi.off z
        · exact hi.conn
        · exact hi.recv
        · exact hi.rt
        · intro y hy
          refine (hi.deal1 y hy).congr ?_ (fun _ => rfl)
          by_cases e : y = x
          · subst e; simp [od]
          · simp [upd_ne _ _ e]
        · exact hi.deal2
        · intro y hy g
          have := hi.eos1 y hy g
          by_cases e : y = x
          · subst e; simpa [S.C] using this
          · simpa [S.C, upd_ne _ _ e] using this
        · exact hi.eos2
      | msg m =>
        simp only [Option.map_eq_some_iff] at h
        obtain ⟨l, hl, rfl⟩ := h
        have hom : OutOk N x m := hi.out x hx m (by rw [hX]; simp)
        have hsr := senderRoute_ok hg hx hom hl
        have hdat : ∀ o ∈ s.oproc x, IsD o := by
          intro o ho
          have := hi.ord x hx
          rw [hX] at this
          exact (List.pairwise_append.1 this).2.2 o ho (.msg m) List.mem_cons_self (by simp)
        have hle : .msg (leos x) ∉ s.oproc x := fun h => hdat _ h rfl
        have hXe : ∀ z, S.X (N := N) { s with
            outq := upd s.outq x os
            oproc := upd s.oproc x (s.oproc x ++ [.msg m])
            stodo := upd s.stodo (N.grp x) l } z = s.X z := by
          intro z
          by_cases e : z = x
          · subst e; simp [S.X, hq]
          · simp [S.X, upd_ne _ _ e]
        have hC1 : ∀ g, S.C (N := N) { s with
            outq := upd s.outq x os
            oproc := upd s.oproc x (s.oproc x ++ [.msg m])
            stodo := upd s.stodo (N.grp x) l } (N.grp x) g = s.C (N.grp x) g ++ toG l g := by
          intro g; simp [S.C, hst]
        have hC2 : ∀ a g, a ≠ N.grp x → S.C (N := N) { s with
            outq := upd s.outq x os
            oproc := upd s.oproc x (s.oproc x ++ [.msg m])
            stodo := upd s.stodo (N.grp x) l } a g = s.C a g := by
          intro a g ha; simp [S.C, upd_ne _ _ ha]
        -- messages in `l`
        have hlm : ∀ g, ∀ m' ∈ toG l g, m'.src = x ∧ ConnOk N (N.grp x) g m' := by
          intro g m' hm'
          rw [mem_toG] at hm'
          cases hsr with
          | data d g' hb hs ho hc =>
            simp only [List.mem_singleton, Prod.mk.injEq] at hm'
            obtain ⟨rfl, rfl⟩ := hm'
            exact ⟨hs, hc⟩
          | eos e =>
            simp only [List.mem_map, Prod.mk.injEq] at hm'
            obtain ⟨c, h1, rfl, rfl⟩ := hm'
            exact ⟨rfl, hx, rfl, by simp, fun _ => h1, fun _ => rfl⟩
        constructor
        · intro z hz h; rw [hXe]; exact hi.wrun z hz h
        · intro z hz h; rw [hXe]; exact hi.srcs z hz h
        · intro z hz; rw [hXe]; exact hi.out z hz
        · intro z hz; rw [hXe]; exact hi.ord z hz
        · intro z hz h; rw [hXe]; exact hi.ends z hz h
        · intro z hz; rw [hXe]; exact hi.fin z hz
        · exact hi.seen
        · intro z
          by_cases e : z = x
          · subst e
            have := hi.off z
            simp only [upd_self, List.mem_append, List.mem_singleton, reduceCtorEq, or_false]
            exact this
          · simp only [upd_ne _ _ e]; exact hi.off z
        · intro a g m' hm'
          by_cases e : a = N.grp x
          · subst e
            rw [hC1] at hm'
            rcases List.mem_append.1 hm' with h | h
            · exact hi.conn _ g m' h
            · exact (hlm g m' h).2
          · rw [hC2 a g e] at hm'; exact hi.conn a g m' hm'
        · exact hi.recv
        · exact hi.rt
        · intro y hy
          by_cases e : y = x
          · subst e
            have hd1 := hi.deal1 y hy
            cases hsr with
            | data d g' hb hs ho hc =>
              have e1 : od (upd s.oproc y (s.oproc y ++ [.msg m]) y) = od (s.oproc y) ++ [(m.dest, d)] := by
                simp [od, hb]
              simp only [e1]
              refine .snoc g' hd1 ho ?_ ?_
              · rw [hC1, dat_append, toG_cons]; simp [dat, hs, hb]
              · intro j hj
                rw [hC1, dat_append, toG_cons]; simp [Ne.symm hj, dat]
            | eos e =>
              refine hd1.congr ?_ ?_
              · simp [od, e]
              · intro g
                rw [hC1, dat_append, toG_map (conns_nodup y)]
                split <;> simp [dat]
          · refine (hi.deal1 y hy).congr (by simp [upd_ne _ _ e]) ?_
            intro g
            by_cases e' : N.grp y = N.grp x
            · rw [e', hC1, dat_append, dat_other (l := toG l g)]
              · simp
              · intro m' hm' h; exact e (h.symm.trans (hlm g m' hm').1)
            · rw [hC2 _ _ e']
        · exact hi.deal2
        · intro y hy g
          by_cases e : y = x
          · subst e
            have h0 := (hi.eos1 y hy g).2 (fun h => hle h.1)
            rw [hC1, List.filter_append]
            simp only [upd_self]
            cases hsr with
            | data d g' hb hs ho hc =>
              have : ¬ (O.msg (leos y) ∈ s.oproc y ++ [.msg m] ∧ g ∈ conns N y) := by
                rintro ⟨h, -⟩
                rcases List.mem_append.1 h with h | h
                · exact hle h
                · simp only [List.mem_singleton, O.msg.injEq] at h
                  rw [← h] at hb; simp at hb
              refine ⟨fun h => absurd h this, fun _ m' hm' => ?_⟩
              rcases List.mem_append.1 hm' with h | h
              · exact h0 m' h
              · have h1 := (List.mem_filter.1 h).1
                rw [mem_toG] at h1
                simp only [List.mem_singleton, Prod.mk.injEq] at h1
                rw [h1.2, hb]; simp
            | eos e =>
              rw [toG_map (conns_nodup y)]
              refine ⟨?_, ?_⟩
              · rintro ⟨-, hgc⟩
                exact ⟨_, h0, by simp [hgc]⟩
              · intro hn
                have hgc : g ∉ conns N y := fun h => hn ⟨by rw [e]; simp, h⟩
                simpa [hgc] using h0
          · have h0 := hi.eos1 y hy g
            simp only [upd_ne _ _ e]
            by_cases e' : N.grp y = N.grp x
            · rw [e'] at h0 ⊢
              rw [hC1, List.filter_append, filter_other (l := toG l g)]
              · simpa using h0
              · intro m' hm' h; exact e (h.symm.trans (hlm g m' hm').1)
            · rw [hC2 _ _ e']; exact h0
        · exact hi.eos2
    · exact absurd h (by simp)

/-- before any message of a stream there are only data -/
theorem Str.before {y : Nat} {l A B : List (M D)} {b : Prop} {m : M D} (h : Str y l b)
    (e : l = A ++ m :: B) : ∀ a ∈ A, a.body ≠ none := by
  intro a ha
  by_cases hb : b
  · obtain ⟨ds, h1, h2⟩ := h.1 hb
    rw [h2] at e
    rcases List.append_eq_append_iff.1 e with ⟨A', h3, h4⟩ | ⟨A', h3, h4⟩
    · cases A' with
      | nil => rw [List.append_nil] at h3; rw [h3] at ha; exact h1 a ha
      | cons z zs => simp at h4
    · rw [h3] at h1
      exact h1 a (List.mem_append_left _ ha)
  · exact h.2 hb a (by rw [e]; exact List.mem_append_left _ ha)

theorem Inv.recvStep {s s' : S N} {a g c : Nat} (hg : Good N) (hi : Inv N s)
    (h : step N s (.recv a g c) = some s') : Inv N s' := by
  simp only [step] at h
  cases hq : s.wire a g with
  | nil => rw [hq] at h; exact absurd h (by simp)
  | cons m ms =>
    rw [hq] at h
    simp only at h
    split at h
    · rename_i hc
      obtain ⟨hrt, hen⟩ := hc
      simp only [Option.map_eq_some_iff] at h
      obtain ⟨l, hl, rfl⟩ := h
      have hC0 : s.C a g = s.cproc a g ++ m :: (ms ++ toG (s.stodo a) g) := by simp [S.C, hq]
      have hm : ConnOk N a g m := hi.conn a g m (by rw [hC0]; simp)
      have hbr := boxRoute_ok hg hm hl
      have hy := hm.lt
      have hga := hm.grp
      -- no end mark of the same source came before
      have hle : leos m.src ∉ s.cproc a g := by
        intro h
        have h1 := hi.eos1 m.src hy g
        rw [hga] at h1
        have e : (s.C a g).filter (·.src == m.src) = (s.cproc a g).filter (·.src == m.src) ++
            m :: (ms ++ toG (s.stodo a) g).filter (·.src == m.src) := by
          rw [hC0]; simp
        exact h1.before e (leos m.src) (List.mem_filter.2 ⟨h, by simp⟩) rfl
      have hlm : ∀ z, ∀ m' ∈ toG l z, m'.src = m.src ∧ z < N.n ∧ N.grp z = g ∧ m.src ∈ N.ing z := by
        intro z m' hm'
        rw [mem_toG] at hm'
        cases hbr with
        | data d x hb ho h1 h2 h3 =>
          simp only [List.mem_singleton, Prod.mk.injEq] at hm'
          obtain ⟨rfl, rfl⟩ := hm'
          exact ⟨rfl, h1, h2, h3⟩
        | eos e =>
          simp only [List.mem_map, Prod.mk.injEq] at hm'
          obtain ⟨z', h1, rfl, rfl⟩ := hm'
          obtain ⟨h1, h2, h3⟩ := mem_poss.1 h1
          exact ⟨rfl, h1, h2, h3⟩
      have hCe : ∀ a' g', S.C (N := N) { s with
          wire := upd2 s.wire a g ms
          cproc := upd2 s.cproc a g (s.cproc a g ++ [m])
          rtodo := upd s.rtodo g l } a' g' = s.C a' g' := by
        intro a' g'
        by_cases e : a' = a ∧ g' = g
        · obtain ⟨rfl, rfl⟩ := e; simp [S.C, hq]
        · simp [S.C, upd2_ne _ _ e]
      have hR1 : ∀ z, N.grp z = g → S.R (N := N) { s with
          wire := upd2 s.wire a g ms
          cproc := upd2 s.cproc a g (s.cproc a g ++ [m])
          rtodo := upd s.rtodo g l } z = s.R z ++ toG l z := by
        intro z hz; simp [S.R, hz, hrt]
      have hR2 : ∀ z, N.grp z ≠ g → S.R (N := N) { s with
          wire := upd2 s.wire a g ms
          cproc := upd2 s.cproc a g (s.cproc a g ++ [m])
          rtodo := upd s.rtodo g l } z = s.R z := by
        intro z hz; simp [S.R, upd_ne _ _ hz]
      constructor
      · exact hi.wrun
      · exact hi.srcs
      · exact hi.out
      · exact hi.ord
      · exact hi.ends
      · exact hi.fin
      · exact hi.seen
      · exact hi.off
      · intro a' g'; rw [hCe]; exact hi.conn a' g'
      · intro z m' hm'
        by_cases e : N.grp z = g
        · rw [hR1 z e] at hm'
          rcases List.mem_append.1 hm' with h | h
          · exact hi.recv z m' h
          · obtain ⟨h1, h2, -, h3⟩ := hlm z m' h
            exact ⟨h2, h1 ▸ h3⟩
        · rw [hR2 z e] at hm'; exact hi.recv z m' hm'
      · intro g' p hp
        by_cases e : g' = g
        · subst e
          simp only [upd_self] at hp
          exact (hlm p.1 p.2 (mem_toG.2 hp)).2.2.1
        · simp only [upd_ne _ _ e] at hp; exact hi.rt g' p hp
      · intro y hy; simp only [hCe]; exact hi.deal1 y hy
      · intro y hy' g'
        have hd := hi.deal2 y hy' g'
        by_cases e : y = m.src ∧ g' = g
        · obtain ⟨rfl, rfl⟩ := e
          simp only [hga, upd2_self] at hd ⊢
          cases hbr with
          | data d x hb ho h1 h2 h3 =>
            have e1 : dat m.src (s.cproc a g' ++ [m]) = dat m.src (s.cproc a g') ++ [(m.dest, d)] := by
              rw [dat_append]; simp [dat, hb]
            rw [e1]
            refine .snoc x hd ho ?_ ?_
            · simp only [h2, if_true]
              rw [hR1 x h2, dat_append, toG_cons]; simp [dat, hb]
            · intro j hj
              split
              · rename_i e
                rw [hR1 j e, dat_append, toG_cons]; simp [Ne.symm hj, dat]
              · rfl
          | eos e =>
            refine hd.congr ?_ ?_
            · rw [dat_append, dat_eos (l := [m])]
              · simp
              · intro m' hm'; rw [List.mem_singleton.1 hm', e]
            · intro z
              split
              · rename_i e'
                rw [hR1 z e', dat_append, toG_map (poss_nodup _ _)]
                split <;> simp [dat]
              · rfl
        · refine hd.congr ?_ ?_
          · by_cases e2 : N.grp y = a ∧ g' = g
            · obtain ⟨h1, h2⟩ := e2
              have hne : m.src ≠ y := fun h => e ⟨h.symm, h2⟩
              simp only [h1, h2, upd2_self]
              rw [dat_append, dat_other (l := [m])]
              · simp
              · intro m' hm'; rw [List.mem_singleton.1 hm']; exact hne
            · simp [upd2_ne _ _ e2]
          · intro z
            split
            · rename_i e3
              by_cases e4 : N.grp z = g
              · have hne : m.src ≠ y := fun h => e ⟨h.symm, e3 ▸ e4⟩
                rw [hR1 z e4, dat_append, dat_other (l := toG l z)]
                · simp
                · intro m' hm' h; exact hne ((hlm z m' hm').1.symm.trans h)
              · rw [hR2 z e4]
            · rfl
      · intro y hy g'; simp only [hCe]; exact hi.eos1 y hy g'
      · intro y hy' z hz hyz
        have h0 := hi.eos2 y hy' z hz hyz
        by_cases e : y = m.src ∧ N.grp z = g
        · obtain ⟨rfl, e4⟩ := e
          rw [hga, e4] at h0
          have h0 := h0.2 hle
          rw [hR1 z e4, List.filter_append]
          simp only [hga, e4, upd2_self]
          cases hbr with
          | data d x hb ho h1 h2 h3 =>
            have : leos m.src ∉ s.cproc a g ++ [m] := by
              intro h
              rcases List.mem_append.1 h with h | h
              · exact hle h
              · rw [← List.mem_singleton.1 h] at hb; simp at hb
            refine ⟨fun h => absurd h this, fun _ m' hm' => ?_⟩
            rcases List.mem_append.1 hm' with h | h
            · exact h0 m' h
            · have h1 := (List.mem_filter.1 h).1
              rw [mem_toG] at h1
              simp only [List.mem_singleton, Prod.mk.injEq] at h1
              rw [h1.2, hb]; simp
          | eos e =>
            rw [toG_map (poss_nodup _ _), if_pos (mem_poss.2 ⟨hz, e4, hyz⟩)]
            refine ⟨fun _ => ⟨_, h0, by simp⟩, fun hn => absurd ?_ hn⟩
            rw [List.mem_append, List.mem_singleton]
            exact .inr e.symm
        · by_cases e4 : N.grp z = g
          · have hne : m.src ≠ y := fun h => e ⟨h.symm, e4⟩
            rw [hR1 z e4, List.filter_append, filter_other (l := toG l z), List.append_nil]
            · by_cases e5 : N.grp y = a
              · simp only [e5, e4, upd2_self] at h0 ⊢
                have : leos y ∈ s.cproc a g ++ [m] ↔ leos y ∈ s.cproc a g := by
                  rw [List.mem_append, List.mem_singleton]
                  constructor
                  · rintro (h | h)
                    · exact h
                    · exact absurd (by rw [← h]) hne
                  · exact .inl
                rw [this]; exact h0
              · simp only [upd2_ne s.cproc (i' := N.grp y) (j' := N.grp z) _ (fun h => e5 h.1)]
                exact h0
            · intro m' hm' h; exact hne ((hlm z m' hm').1.symm.trans h)
          · rw [hR2 z e4]
            simp only [upd2_ne s.cproc (i' := N.grp y) (j' := N.grp z) _ (fun h => e4 h.2)]
            exact h0
    · exact absurd h (by simp)

theorem Inv.step {s s' : S N} {act : Act} (hg : Good N) (hi : Inv N s)
    (h : FF.Grp.step N s act = some s') : Inv N s' := by
  cases act with
  | first x => exact hi.first hg h
  | pop x => exact hi.pop hg h
  | push x => exact hi.push h
  | gather x c => exact hi.gather hg h
  | send g => exact hi.send h
  | recv a g x => exact hi.recvStep hg h
  | deliver g => exact hi.deliver h

theorem Inv.reach {s : S N} (hg : Good N) (hr : Reach (FF.Grp.step N) (S.start N) s) : Inv N s :=
  hr.inv Inv.start fun _ _ _ hi h => hi.step hg h

end FF.Grp
