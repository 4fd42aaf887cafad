import Verif.Dc.Inv
/-! # Divide and conquer: every action keeps the invariant -/
namespace FF.Dc
open FF.Mdf (Core Rec Cfg St decRow Qi Moved Pushed Rdy)
open FF.Farm (sumN)
open FF.Node (upd)

variable {Op R : Type} {P : Prob Op R} {D : Op → Prop} {sol : Op → R} {G : Cfg} {op : Op} {x y : S Op R}

theorem I.work (hS : Solves P D sol) (h : I P D sol G op x) {w : Nat} {cells : List Nat}
    (hs : x.work P w cells = some y) : I P D sol G op y := by
  have tok : ∀ k a rest, x.prog w = .act k a :: rest → x.duty a = some k ∧ x.place a = .st w := by
    intro k a rest hp
    exact h.l.tok w (.act k a) k a (by unfold S.stream; rw [hp]; simp) rfl
  unfold S.work at hs
  split at hs
  · rename_i b i a rest hp
    obtain ⟨hd, _⟩ := tok _ _ _ hp
    obtain ⟨hD, blk, e1, e2, e3⟩ := h.m.dac a b i hd
    have hb : ((x.heap b).bind fun blk => blk.ops[i]?) = some (x.goal a) := by rw [e1]; exact e3
    rw [hb] at hs
    dsimp only at hs
    split at hs
    · rename_i hc
      cases hs
      exact ⟨h.m.base hS hd e1 e3 hc _, h.t,
        h.l.swap h.m hp ⟨(by rintro ⟨_, _, q⟩; cases q), (by rintro ⟨_, _, q⟩; cases q)⟩ (fun b v blk q => by cases q),
        h.a.rep (N := [.act (.put none (P.seq (x.goal a))) a]) hp (by simp) rfl rfl rfl h.a.ok.2 h.a.goal⟩
    · rename_i hc
      have hc' : P.cond (x.goal a) = false := by simpa using hc
      rw [if_neg (hS.parts _ hD hc').1] at hs
      split at hs
      · rename_i hf
        cases hs
        have hm' := h.m.split (w := w) hS hd e1 e3 hc' hf rest
        refine ⟨hm', h.t, h.l.split h.m hp hf hm', h.a.rep
          (N := spawn x.nb 0 cells ++ [.new (.comb x.nb cells) a]) hp ?_ rfl rfl (by unfold S.split; simp) h.a.ok.2 ?_⟩
        · intro t ht
          rw [List.mem_append, List.mem_singleton] at ht
          rcases ht with ht | ht
          · obtain ⟨_, _, _, q | q⟩ := spawn_mem _ _ _ _ ht <;> cases q
          · cases ht
        · show aim x.goal cells (P.divide (x.goal a)) x.root = op
          rw [aim_other]
          · exact h.a.goal
          · intro hm
            have := ((fresh_iff hf).2.2 _ hm).2
            rw [(h.m.live x.root).2 (Or.inl rfl)] at this; cases this
      · cases hs
  · rename_i b cs a rest hp
    obtain ⟨hd, _⟩ := tok _ _ _ hp
    obtain ⟨_, _, blk, e1, e2⟩ := h.m.comb a b cs hd
    have hw := h.l.c2 w b cs a (by unfold S.stream; rw [hp]; simp)
    rw [e1] at hs
    dsimp only at hs
    cases hs
    rw [e2]
    refine ⟨h.m.combine hd (fun c hc => (hw c hc).1) _, h.t,
      h.l.swap h.m hp ⟨(by rintro ⟨_, _, q⟩; cases q), (by rintro ⟨_, _, q⟩; cases q)⟩ ?_,
      h.a.rep (N := [.act (.put (some b) (P.comb (cs.map x.mem))) a]) hp (by simp) rfl rfl rfl h.a.ok.2 h.a.goal⟩
    intro b' v blk' q hb' d hd'
    cases q
    rw [e1] at hb'; cases hb'
    rw [e2] at hd'
    exact (hw d hd').2
  · rename_i v a rest hp
    obtain ⟨hd, _⟩ := tok _ _ _ hp
    rw [if_pos (h.m.liv a _ hd)] at hs
    cases hs
    exact ⟨h.m.write hd _, h.t, h.l.drop h.m hp rfl rfl rfl rfl rfl rfl (fun c hc => (h.l.l0 c hc).2) (fun _ _ q => q),
      h.a.rep (N := []) hp (by simp) rfl rfl rfl h.a.ok.2 h.a.goal⟩
  · rename_i b v a rest hp
    obtain ⟨hd, _⟩ := tok _ _ _ hp
    obtain ⟨_, hq⟩ := h.m.put a _ v hd
    obtain ⟨_, blk, e1, e2⟩ := hq b rfl
    rw [if_pos ⟨h.m.liv a _ hd, by rw [e1]; rfl⟩] at hs
    cases hs
    have hm' := h.m.free hd (upd x.prog w rest)
    refine ⟨hm', h.t, h.l.drop h.m hp rfl rfl rfl rfl rfl rfl ?_ ?_,
      h.a.rep (N := []) hp (by simp) rfl rfl rfl h.a.ok.2 h.a.goal⟩
    · intro c hc
      refine (hm'.live c).2 ?_
      rcases (h.m.live c).1 (h.l.l0 c hc).2 with q | ⟨b', blk', q1, q2⟩
      · exact Or.inl q
      · refine Or.inr ⟨b', blk', ?_, q2⟩
        have hne : b' ≠ b := by
          rintro rfl
          rw [e1] at q1; cases q1
          exact h.l.c2' w b' v a blk (by unfold S.stream; rw [hp]; simp) e1 c q2 hc
        show upd x.heap b none b' = _
        rw [upd_ne _ hne]; exact q1
    · intro b' blk' hb'
      by_cases e : b' = b
      · subst e
        have : upd x.heap b' none b' = some blk' := hb'
        rw [upd_self] at this; cases this
      · have : upd x.heap b none b' = some blk' := hb'
        rwa [upd_ne _ e] at this
  · cases hs

theorem I.start (h : I P D sol G op x) {w : Nat} (hs : step P G x (.start w) = some y) : I P D sol G op y := by
  simp only [step] at hs
  split at hs
  · rename_i hw
    split at hs
    · rename_i t rest hcur hq
      have hloc : x.s.loc t = .q w := (h.a.qi.lq w t).1 (by rw [hq]; simp)
      obtain ⟨r, hr, hst⟩ : Rdy x.s.c t := (h.a.qi.rdy t).2 (by rw [hloc]; simp)
      obtain ⟨k, a, hk, hkk⟩ := h.l.tsk t r hr
      rw [hk] at hs
      dsimp only at hs
      cases hs
      have hprog : x.prog w = [] := by
        rcases h.a.cur w with q | ⟨_, _, q, _⟩
        · exact q.2
        · rw [hcur] at q; cases q
      have hidle : ∀ v, Tok.done t ∉ x.stream v := by
        intro v hv
        unfold S.stream at hv
        rw [List.mem_append] at hv
        rcases hv with q | q
        · have : t ∈ x.s.back v := by rw [h.a.back]; exact List.mem_filterMap.2 ⟨_, q, rfl⟩
          rw [h.a.qi.lback, hloc] at this; cases this
        · rcases h.a.cur v with ⟨_, z⟩ | ⟨t', l, z1, z2, z3⟩
          · rw [z] at q; cases q
          · rw [z2, List.mem_append, List.mem_singleton] at q
            rcases q with q | q
            · exact z3 t q
            · cases q
              rw [h.a.qi.lcur, hloc] at z1; cases z1
      refine ⟨h.m.same rfl rfl rfl rfl rfl rfl rfl, h.t, ?_, ?_⟩
      · refine h.l.start h.t hr hst hk hidle rfl rfl ?_ ?_ rfl rfl (fun _ => rfl) rfl
        · intro v hv
          unfold S.stream
          show x.chan v ++ upd x.prog w _ v = _
          rw [upd_ne _ hv]
        · unfold S.stream
          show x.chan w ++ upd x.prog w _ w = _
          rw [upd_self, hprog]; simp
      · refine ⟨Mdf.qi_start h.a.qi hw hcur hq, h.a.sat, h.a.mlt, h.a.back, ?_, h.a.noact, h.a.far, ?_, h.a.num, h.a.over,
          h.a.more, h.a.ended, h.a.ok, h.a.goal⟩
        · intro v
          by_cases e : v = w
          · subst e
            right
            exact ⟨t, [.act k a], upd_self _ _ _, upd_self _ _ _, by simp⟩
          · have := h.a.cur v
            show (upd x.s.cur w _ v = none ∧ upd x.prog w _ v = []) ∨ ∃ t l, upd x.s.cur w _ v = some t ∧
              upd x.prog w _ v = l ++ [.done t] ∧ _
            rw [upd_ne _ e, upd_ne _ e]
            exact this
        · intro v hv hnil
          have hnil' : upd x.prog w [.act k a, .done t] v = [] := hnil
          by_cases e : v = w
          · subst e; rw [upd_self] at hnil'; cases hnil'
          · rw [upd_ne _ e] at hnil'; exact h.a.lst v hv hnil'
    · cases hs
  · cases hs

/-- the stream of a worker does not change when it sends a message -/
theorem send_stream {w : Nat} {u : Tok R} {rest : List (Tok R)} (hp : x.prog w = u :: rest)
    (e1 : y.prog = upd x.prog w rest) (e2 : y.chan = upd x.chan w (x.chan w ++ [u])) (v : Nat) : y.stream v = x.stream v := by
  unfold S.stream
  rw [e1, e2]
  by_cases e : v = w
  · subst e; rw [upd_self, upd_self, hp]; simp
  · rw [upd_ne _ e, upd_ne _ e]

theorem I.send (h : I P D sol G op x) {w : Nat} (hs : step P G x (.send w) = some y) : I P D sol G op y := by
  simp only [step] at hs
  split at hs
  · rename_i hw
    have far : ∀ c : List (Tok R), ∀ v, G.n < v → upd x.chan w c v = [] := by
      intro c v hv
      have e : v ≠ w := by omega
      rw [upd_ne _ e]; exact h.a.far v hv
    have chn : ∀ c : List (Tok R), upd x.chan w c G.n = x.chan G.n := by
      intro c
      have e : G.n ≠ w := by omega
      rw [upd_ne _ e]
    split at hs
    · rename_i k a rest hp
      cases hs
      have hcu : ∃ t l, x.s.cur w = some t ∧ rest = l ++ [.done t] ∧ ∀ t', Tok.done t' ∉ l := by
        rcases h.a.cur w with ⟨_, q⟩ | ⟨t, l, q1, q2, q3⟩
        · rw [hp] at q; cases q
        · rw [hp] at q2
          cases l with
          | nil => simp only [List.nil_append, List.cons.injEq] at q2; cases q2.1
          | cons z l =>
            simp only [List.cons_append, List.cons.injEq] at q2
            exact ⟨t, l, q1, q2.2, fun t' ht' => q3 t' (by simp [ht'])⟩
      refine ⟨h.m.same rfl rfl rfl rfl rfl rfl rfl, h.t,
        h.l.same rfl rfl (send_stream hp rfl rfl) rfl rfl (fun _ => rfl) rfl, ?_⟩
      refine ⟨h.a.qi, h.a.sat, h.a.mlt, ?_, ?_, ?_, far _, ?_, h.a.num, ?_, ?_, h.a.ended, h.a.ok, h.a.goal⟩
      · intro v
        dsimp only
        by_cases e : v = w
        · subst e; rw [upd_self, h.a.back]; simp [List.filterMap, Tok.fin]
        · rw [upd_ne _ e]; exact h.a.back v
      · intro v
        dsimp only
        by_cases e : v = w
        · subst e; rw [upd_self]; exact Or.inr hcu
        · rw [upd_ne _ e]; exact h.a.cur v
      · intro v k2 a2
        dsimp only
        by_cases e : v = w
        · subst e; rw [upd_self]
          intro hm
          rw [List.mem_append, List.mem_singleton] at hm
          rcases hm with hm | hm
          · exact h.a.noact v k2 a2 hm
          · cases hm
        · rw [upd_ne _ e]; exact h.a.noact v k2 a2
      · intro v hv
        dsimp only
        by_cases e : v = w
        · subst e
          rw [upd_self]
          obtain ⟨t, l, _, q, _⟩ := hcu
          intro hn; rw [q] at hn; simp at hn
        · rw [upd_ne _ e, upd_ne _ e]; exact h.a.lst v hv
      · dsimp only; rw [chn]; exact h.a.over
      · dsimp only; rw [chn]; exact h.a.more
    · rename_i t rest hp
      cases hs
      have hcu : x.s.cur w = some t ∧ rest = [] := by
        rcases h.a.cur w with ⟨_, q⟩ | ⟨t', l, q1, q2, q3⟩
        · rw [hp] at q; cases q
        · rw [hp] at q2
          cases l with
          | nil =>
            simp only [List.nil_append, List.cons.injEq] at q2
            obtain ⟨z1, z2⟩ := q2
            cases z1
            exact ⟨q1, z2⟩
          | cons z l =>
            simp only [List.cons_append, List.cons.injEq] at q2
            obtain ⟨z1, _⟩ := q2
            exact absurd (by rw [z1]; simp) (q3 t)
      refine ⟨h.m.same rfl rfl rfl rfl rfl rfl rfl, h.t,
        h.l.same rfl rfl (send_stream hp rfl rfl) rfl rfl (fun _ => rfl) rfl, ?_⟩
      refine ⟨Mdf.qi_stop h.a.qi hw.1 hcu.1, h.a.sat, h.a.mlt, ?_, ?_, ?_, far _, ?_, h.a.num, ?_, ?_, h.a.ended, h.a.ok, h.a.goal⟩
      · intro v
        dsimp only
        by_cases e : v = w
        · subst e; rw [upd_self, upd_self, h.a.back]; simp [List.filterMap, Tok.fin]
        · rw [upd_ne _ e, upd_ne _ e]; exact h.a.back v
      · intro v
        dsimp only
        by_cases e : v = w
        · subst e; rw [upd_self, upd_self]; exact Or.inl ⟨rfl, hcu.2⟩
        · rw [upd_ne _ e, upd_ne _ e]; exact h.a.cur v
      · intro v k2 a2
        dsimp only
        by_cases e : v = w
        · subst e; rw [upd_self]
          intro hm
          rw [List.mem_append, List.mem_singleton] at hm
          rcases hm with hm | hm
          · exact h.a.noact v k2 a2 hm
          · cases hm
        · rw [upd_ne _ e]; exact h.a.noact v k2 a2
      · intro v hv
        dsimp only
        by_cases e : v = w
        · subst e
          intro _
          rw [upd_self]
          exact Or.inr ⟨_, t, rfl⟩
        · rw [upd_ne _ e, upd_ne _ e]; exact h.a.lst v hv
      · dsimp only; rw [chn]; exact h.a.over
      · dsimp only; rw [chn]; exact h.a.more
    · cases hs
  · cases hs

theorem recv_stream {w : Nat} {u : Tok R} {rest : List (Tok R)} (hc : x.chan w = u :: rest)
    (e1 : y.prog = x.prog) (e2 : y.chan = upd x.chan w rest) :
    x.stream w = u :: (rest ++ x.prog w) ∧ (∀ v, v ≠ w → y.stream v = x.stream v) ∧ y.stream w = rest ++ x.prog w := by
  unfold S.stream
  rw [e1, e2]
  refine ⟨by rw [hc]; rfl, fun v hv => by rw [upd_ne _ hv], by rw [upd_self]⟩

theorem newRow_st (c : Core) (L : List Nat) (a : Nat) : (newRow c L a).st = .ready ∨ (newRow c L a).st = .notReady := by
  unfold newRow
  dsimp only
  split
  · exact Or.inl rfl
  · exact Or.inr rfl

/-- the rest of a channel -/
theorem A.chan {w : Nat} {u : Tok R} {rest : List (Tok R)} (h : A G op x) (hc : x.chan w = u :: rest) :
    (∀ v k a, Tok.act k a ∉ upd x.chan w rest v) ∧ (∀ v, G.n < v → upd x.chan w rest v = []) ∧
    (∀ v, v < G.n → x.prog v = [] → upd x.chan w rest v = [] ∨ ∃ l t, upd x.chan w rest v = l ++ [.done t]) := by
  refine ⟨?_, ?_, ?_⟩
  · intro v k a
    by_cases e : v = w
    · subst e; rw [upd_self]
      intro hm; exact h.noact v k a (by rw [hc]; simp [hm])
    · rw [upd_ne _ e]; exact h.noact v k a
  · intro v hv
    by_cases e : v = w
    · subst e; have := h.far v hv; rw [hc] at this; cases this
    · rw [upd_ne _ e]; exact h.far v hv
  · intro v hv hp
    by_cases e : v = w
    · subst e; rw [upd_self]
      rcases h.lst v hv hp with q | ⟨l, t, q⟩
      · rw [hc] at q; cases q
      · rw [hc] at q
        cases l with
        | nil => simp only [List.nil_append, List.cons.injEq] at q; exact Or.inl q.2
        | cons z l =>
          simp only [List.cons_append, List.cons.injEq] at q
          exact Or.inr ⟨l, t, q.2⟩
    · rw [upd_ne _ e]; exact h.lst v hv hp

theorem I.recv (h : I P D sol G op x) {w junk : Nat} {o : List Nat → Nat}
    (hs : step P G x (.recv w o junk) = some y) : I P D sol G op y := by
  simp only [step] at hs
  split at hs
  · rename_i hg
    obtain ⟨hov, hwn, hfirst⟩ := hg
    split at hs
    · rename_i k a rest hc
      cases hs
      obtain ⟨c1, c2, c3⟩ := h.a.chan hc
      have hstr := (recv_stream (y := S.insert G o junk { x with chan := upd x.chan w rest } k a) hc rfl rfl)
      obtain ⟨s1, s2, s3⟩ := hstr
      have H := h.l.head h.t h.m s1
      have hI := insert_desc h.t k H.a0 junk H.nodup H.empty H.out
      have hT' : Tb (insertTask junk x.s.c k a) := tb_insert h.t hI H.nodup (by
        intro i hi
        obtain ⟨d, _, z2, z3⟩ := mem_links.1 hi
        obtain ⟨r, hr⟩ := (lk_look h.t d).2 z3
        rw [z2] at hr
        exact ⟨r, hr, H.empty i hi r hr⟩) H.out
      have hnx := h.t.nextNone
      have rdyOld : ∀ i, i ≠ x.s.c.next → (Rdy (insertTask junk x.s.c k a) i ↔ Rdy x.s.c i) := by
        intro i hi
        unfold Rdy
        rw [hI.old i hi]
        cases x.s.c.tk i with
        | none => simp
        | some r => simp [rowUpd]
      have rdyN : ¬ Rdy x.s.c x.s.c.next := by rintro ⟨r, hr, _⟩; rw [hnx] at hr; cases hr
      have n1 : 1 ≤ G.n := by have := h.a.mlt; omega
      -- the state before `schedule_task`
      obtain ⟨s2', hs2⟩ : ∃ s2 : Mdf.S, s2 = (if (insertTask junk x.s.c k a).isReady x.s.c.next then
          { Mdf.S.push x.s.m { x.s with c := insertTask junk x.s.c k a, numb := x.s.numb + 1 } x.s.c.next with m := (x.s.m + 1) % G.n }
          else { x.s with c := insertTask junk x.s.c k a, numb := x.s.numb + 1 }) := ⟨_, rfl⟩
      have hy : S.insert G o junk { x with chan := upd x.chan w rest } k a =
          { x with chan := upd x.chan w rest, s := s2'.schedule G o 0, task := upd x.task x.s.c.next (some (k, a)),
                   place := upd x.place a (.tk x.s.c.next) } := by
        rw [hs2]; rfl
      have base : Qi G { x.s with c := insertTask junk x.s.c k a, numb := x.s.numb + 1 } (Rdy x.s.c) :=
        h.a.qi.same rfl rfl rfl rfl rfl rfl rfl rfl (fun _ => Iff.rfl)
      have fields : s2'.c = insertTask junk x.s.c k a ∧ s2'.numb = x.s.numb + 1 ∧ s2'.compl = x.s.compl ∧ s2'.cur = x.s.cur ∧
          s2'.back = x.s.back ∧ s2'.over = x.s.over ∧ s2'.ended = x.s.ended ∧ s2'.bad = x.s.bad ∧ s2'.m < G.n ∧
          Qi G s2' (Rdy s2'.c) := by
        by_cases hr : (insertTask junk x.s.c k a).isReady x.s.c.next = true
        · rw [if_pos hr] at hs2
          subst hs2
          refine ⟨rfl, rfl, rfl, rfl, rfl, rfl, rfl, rfl, Nat.mod_lt _ n1, ?_⟩
          refine (Mdf.push_ok base h.a.mlt rdyN).same rfl rfl rfl rfl rfl rfl rfl rfl ?_
          intro i
          by_cases e : i = x.s.c.next
          · subst e
            exact ⟨fun _ => Or.inr rfl, fun _ => (Mdf.isReady_iff _ _).1 hr⟩
          · rw [← rdyOld i e]; simp only [e, or_false]; exact Iff.rfl
        · rw [if_neg hr] at hs2
          subst hs2
          refine ⟨rfl, rfl, rfl, rfl, rfl, rfl, rfl, rfl, h.a.mlt, ?_⟩
          refine base.same rfl rfl rfl rfl rfl rfl rfl rfl ?_
          intro i
          by_cases e : i = x.s.c.next
          · subst e
            exact ⟨fun z => absurd ((Mdf.isReady_iff _ _).2 z) hr, fun z => absurd z rdyN⟩
          · exact rdyOld i e
      obtain ⟨f1, f2, f3, f4, f5, f6, f7, f8, f9, f10⟩ := fields
      obtain ⟨q1, q2, q3⟩ := Mdf.schedule_ok (o := o) (th := 0) (by omega) f10
      have hcc : (s2'.schedule G o 0).c = insertTask junk x.s.c k a := by rw [q2.c, f1]
      rw [hy] at s2 s3 ⊢
      refine ⟨h.m.same rfl rfl rfl rfl rfl rfl rfl, ?_, ?_, ?_⟩
      · show Tb (s2'.schedule G o 0).c
        rw [hcc]; exact hT'
      · exact h.l.recvNew h.t h.m s1 (by show Ins x.s.c (s2'.schedule G o 0).c _ _; rw [hcc]; exact hI) rfl s2 s3 rfl rfl (fun _ => rfl) rfl
      · refine ⟨q1, q3, ?_, ?_, ?_, c1, c2, c3, ?_, ?_, ?_, ?_, ⟨?_, h.a.ok.2⟩, h.a.goal⟩
        · show (s2'.schedule G o 0).m < G.n
          rw [q2.m]; exact f9
        · intro v
          show (s2'.schedule G o 0).back v = _
          rw [q2.back, f5, h.a.back]
          dsimp only
          by_cases e : v = w
          · subst e; rw [upd_self, hc]; rfl
          · rw [upd_ne _ e]
        · intro v
          show ((s2'.schedule G o 0).cur v = none ∧ _) ∨ ∃ t l, (s2'.schedule G o 0).cur v = some t ∧ _
          rw [q2.cur, f4]; exact h.a.cur v
        · show (s2'.schedule G o 0).numb = (s2'.schedule G o 0).compl + size (s2'.schedule G o 0).c
          rw [hcc, q2.numb, q2.compl, f2, f3, size_insert hI, h.a.num]; omega
        · intro z
          have z' : (s2'.schedule G o 0).over = true := z
          rw [q2.over, f6, hov] at z'; cases z'
        · intro _
          right
          show (s2'.schedule G o 0).numb ≠ (s2'.schedule G o 0).compl
          rw [q2.numb, q2.compl, f2, f3, h.a.num]; omega
        · show (s2'.schedule G o 0).ended = true
          rw [q2.ended, f7]; exact h.a.ended
        · exact q2.bad (by rw [f8]; exact h.a.ok.1)
    · rename_i t rest hc
      cases hs
      obtain ⟨c1, c2, c3⟩ := h.a.chan hc
      have hwn' : w < G.n := by
        rcases Nat.lt_or_eq_of_le hwn with q | q
        · exact q
        · subst q; exact absurd (by rw [hc]; simp) (h.a.rown t)
      have hch : x.chan G.n = [] := by
        rcases hfirst with q | q
        · omega
        · exact q
      have hb : x.s.back w = t :: rest.filterMap Tok.fin := by rw [h.a.back, hc, fin_cons]
      have hloc : x.s.loc t = .back w := (h.a.qi.lback w t).1 (by rw [hb]; simp)
      obtain ⟨rt, hrt, hst⟩ : Rdy x.s.c t := (h.a.qi.rdy t).2 (by rw [hloc]; simp)
      obtain ⟨c', rd, hh, g1, g2, g3, g4, g5, g6⟩ := tb_handle h.t hrt hst
      obtain ⟨s1, hs1⟩ : ∃ s1 : Mdf.S, s1 = { x.s with
          back := upd x.s.back w (rest.filterMap Tok.fin)
          compl := x.s.compl + 1
          nsch := upd x.s.nsch w (x.s.nsch w - 1)
          loc := upd x.s.loc t .no
          c := c' } := ⟨_, rfl⟩
      have hqi : Qi G s1 (fun i => i ≠ t ∧ Rdy x.s.c i) := by
        rw [hs1]; exact Mdf.qi_back h.a.qi hwn' hb _ _
      have hc1 : s1.c = c' := by rw [hs1]
      have hnr : ∀ k ∈ rd, ∃ r, x.s.c.tk k = some r ∧ r.st = .notReady := by
        intro k hk
        obtain ⟨z1, _⟩ := (g5 k).1 hk
        exact h.t.edg t rt k hrt z1
      have hself : t ∉ rt.ubl := fun hm => by
        obtain ⟨r, h1, h2⟩ := h.t.edg t rt t hrt hm
        rw [hrt] at h1; cases h1; rw [hst] at h2; cases h2
      obtain ⟨p1, p2⟩ := Mdf.pushes_ok hwn' rd hqi g4 (by
        rintro k hk ⟨_, r, z1, z2⟩
        obtain ⟨r', z3, z4⟩ := hnr k hk
        rw [z1] at z3; cases z3; rw [z2] at z4; cases z4)
      have rdy' : ∀ i, Rdy c' i ↔ (i ≠ t ∧ Rdy x.s.c i) ∨ i ∈ rd := by
        intro i
        unfold Rdy
        rw [g1]
        by_cases e : i = t
        · subst e
          simp only [if_true, ne_eq, not_true_eq_false, false_and, false_or, reduceCtorEq, exists_false]
          constructor
          · intro z; cases z
          · intro z; exact absurd ((g5 i).1 z).1 hself
        · rw [if_neg e]
          cases hx : x.s.c.tk i with
          | none =>
            simp only [Option.map_none, reduceCtorEq, false_and, exists_false, and_false, false_or]
            constructor
            · intro z; cases z
            · intro z; obtain ⟨r, q1, _⟩ := hnr i z; rw [hx] at q1; cases q1
          | some r =>
            simp only [Option.map_some, Option.some.injEq, exists_eq_left', e, ne_eq, not_false_iff, true_and]
            rw [g5, hx]
            simp only [Option.some.injEq, exists_eq_left']
            unfold decRow
            by_cases hm : i ∈ rt.ubl
            · rw [if_pos hm]
              obtain ⟨r', q1, q2⟩ := h.t.edg t rt i hrt hm
              rw [hx] at q1; cases q1
              simp only [hm, true_and]
              constructor
              · intro z
                split at z
                · rename_i z'; right; omega
                · exact Or.inl z
              · rintro (z | z)
                · rw [q2] at z; cases z
                · rw [if_pos (by omega)]
            · rw [if_neg hm]
              simp only [hm, false_and, or_false]
      have p3 : Qi G (rd.foldl (Mdf.S.push w) s1) (Rdy (rd.foldl (Mdf.S.push w) s1).c) := by
        refine p1.same rfl rfl rfl rfl rfl rfl rfl rfl ?_
        intro i
        rw [p2.c, hc1]; exact rdy' i
      obtain ⟨q1, q2, _⟩ := Mdf.schedule_ok (o := o) (th := 0) (by omega) p3
      obtain ⟨r1, r2, r3⟩ := Mdf.schedule_ok (o := o) (th := 1) (by omega) q1
      obtain ⟨f, hf⟩ : ∃ f, f = ((rd.foldl (Mdf.S.push w) s1).schedule G o 0).schedule G o 1 := ⟨_, rfl⟩
      rw [← hf] at r1 r2 r3
      have hy : S.complete G o { x with chan := upd x.chan w rest } w t =
          { x with chan := upd x.chan w rest, s := if f.numb = f.compl ∧ f.ended = true then { f with over := true } else f } := by
        unfold S.complete Mdf.S.done
        dsimp only
        rw [hh]
        dsimp only
        rw [hf, hs1, hb]
        rfl
      have hff : f.c = c' ∧ f.numb = x.s.numb ∧ f.compl = x.s.compl + 1 ∧ f.cur = x.s.cur ∧
          f.back = upd x.s.back w (rest.filterMap Tok.fin) ∧ f.over = x.s.over ∧ f.ended = x.s.ended ∧ f.bad = false ∧ f.m = x.s.m := by
        refine ⟨?_, ?_, ?_, ?_, ?_, ?_, ?_, ?_, ?_⟩
        · rw [r2.c, q2.c, p2.c, hs1]
        · rw [r2.numb, q2.numb, p2.numb, hs1]
        · rw [r2.compl, q2.compl, p2.compl, hs1]
        · rw [r2.cur, q2.cur, p2.cur, hs1]
        · rw [r2.back, q2.back, p2.back, hs1]
        · rw [r2.over, q2.over, p2.over, hs1]
        · rw [r2.ended, q2.ended, p2.ended, hs1]
        · exact r2.bad (q2.bad (by rw [p2.bad, hs1]; exact h.a.ok.1))
        · rw [r2.m, q2.m, p2.m, hs1]
      obtain ⟨f1, f2, f3, f4, f5, f6, f7, f8, f9⟩ := hff
      have hsz := size_handle h.t hrt g1 g3
      have hnum := h.a.num
      have hstr := (recv_stream (y := S.complete G o { x with chan := upd x.chan w rest } w t) hc rfl rfl)
      rw [hy] at hstr ⊢
      obtain ⟨t1, t2, t3⟩ := hstr
      have hgc : (if f.numb = f.compl ∧ f.ended = true then { f with over := true } else f).c = c' := by
        split <;> exact f1
      refine ⟨h.m.same rfl rfl rfl rfl rfl rfl rfl, ?_, ?_, ?_⟩
      · dsimp only; rw [hgc]; exact g6
      · exact h.l.recvDone h.t t1 hrt (by intro k; dsimp only; rw [hgc]; exact g1 k) (by dsimp only; rw [hgc, g2]) rfl t2 t3 rfl rfl
          (fun _ => rfl) rfl
      · have bk : ∀ v, f.back v = (upd x.chan w rest v).filterMap Tok.fin := by
          intro v
          rw [f5]
          by_cases e : v = w
          · subst e; rw [upd_self, upd_self]
          · rw [upd_ne _ e, upd_ne _ e]; exact h.a.back v
        have cu : ∀ v, (f.cur v = none ∧ x.prog v = []) ∨
            ∃ t l, f.cur v = some t ∧ x.prog v = l ++ [.done t] ∧ ∀ t', Tok.done t' ∉ l := by
          intro v; rw [f4]; exact h.a.cur v
        have nu : f.numb = f.compl + size f.c := by rw [f1, f2, f3]; omega
        have cn : upd x.chan w rest G.n = [] := by
          have e : G.n ≠ w := by omega
          rw [upd_ne _ e]; exact hch
        by_cases he : f.numb = f.compl ∧ f.ended = true
        · rw [if_pos he]
          exact ⟨r1.same rfl rfl rfl rfl rfl rfl rfl rfl (fun _ => Iff.rfl), r3, by show f.m < _; rw [f9]; exact h.a.mlt, bk, cu, c1, c2, c3, nu,
            fun _ => ⟨he.1, cn⟩, fun z => (by cases z), he.2, ⟨f8, h.a.ok.2⟩, h.a.goal⟩
        · rw [if_neg he]
          have en : f.ended = true := by rw [f7]; exact h.a.ended
          exact ⟨r1, r3, by show f.m < _; rw [f9]; exact h.a.mlt, bk, cu, c1, c2, c3, nu,
            fun z => (by dsimp only at z; rw [f6, hov] at z; cases z), fun _ => Or.inr fun z => he ⟨z, en⟩, en, ⟨f8, h.a.ok.2⟩, h.a.goal⟩
    · cases hs
  · cases hs

theorem I.step (hS : Solves P D sol) (h : I P D sol G op x) {act : Act} (hs : step P G x act = some y) : I P D sol G op y := by
  cases act with
  | recv w o junk => exact h.recv hs
  | start w => exact h.start hs
  | work w cells =>
    simp only [Dc.step] at hs
    split at hs
    · exact h.work hS hs
    · cases hs
  | send w => exact h.send hs

end FF.Dc
