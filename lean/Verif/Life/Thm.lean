import Verif.Life.Keep
/-! # C70: the theorems -/
namespace FF.Life
open FF

theorem isQ_iff {x : St} {m : Nat} (h : x.isQ m = true) : ∃ w, x = .queued w m := by
  cases x <;> simp_all [St.isQ]

theorem isS_iff {x : St} {m : Nat} (h : x.isS m = true) : ∃ w, x = .sent w m := by
  cases x <;> simp_all [St.isS]

theorem keep_place (keep : Bool) : (if keep then Place.pool else Place.none) = .pool ∨
    (if keep then Place.pool else Place.none) = .none := by
  cases keep <;> simp

theorem isOut_iff {x : M} (h : x.isOut = true) : ∃ k, x.data = some (.out k) := by
  unfold M.isOut at h; split at h
  · exact ⟨_, by assumption⟩
  · exact absurd h (by simp)

theorem isInp_iff {x : M} (h : x.isInp = true) : ∃ k, x.data = some (.inp k) := by
  unfold M.isInp at h; split at h
  · exact ⟨_, by assumption⟩
  · exact absurd h (by simp)

/-- Releasing a message that carries task `k`. -/
theorem releaseData_out {c : Cfg} {s : S} {k : Nat} {x : M} (hd : x.data = some (.out k)) (hcl : x.cleanup = true)
    (ho : x.owner = if (c.ser k).hook then some k else none) (hh : x.hook = (c.ser k).hook)
    (hb : (c.ser k).copied = false → (c.ser k).hook = true) (hl : s.life (c.blk (.out k)) = .alive) :
    ∃ r : Rel, s.releaseData c x = { s with life := upd s.life (c.blk (.out k)) .dead, log := s.log ++ [r] } ∧
      r.block c = c.blk (.out k) ∧ r.proper c ∧ (x.size = (c.ser k).bytes.length → r.sized c) := by
  unfold S.releaseData
  rw [hd]
  simp only [hcl, if_true, hh, ho]
  by_cases hk : (c.ser k).hook = true
  · simp only [hk, if_true]
    by_cases hc : (c.ser k).copied = true
    · simp only [Cfg.blk, hc, if_true] at hl ⊢
      exact ⟨.hook (some k) (.out k) x.size, kill_alive hl, by simp [Rel.block, Cfg.blk, hc], ⟨hk, rfl⟩, id⟩
    · simp only [Cfg.blk, hc, if_false] at hl ⊢
      exact ⟨.hook (some k) (.out k) x.size, kill_alive hl, by simp [Rel.block, Cfg.blk, hc], ⟨hk, rfl⟩, id⟩
  · have hc : (c.ser k).copied = true := by
      cases h : (c.ser k).copied with
      | true => rfl
      | false => exact absurd (hb h) hk
    simp only [Bool.not_eq_true] at hk
    simp only [hk, Cfg.blk, hc, if_true, Bool.false_eq_true, if_false] at hl ⊢
    exact ⟨.free (.out k), kill_alive hl, by simp [Rel.block, Cfg.blk, hc], ⟨hc, hk⟩, fun _ => trivial⟩

theorem Inv.step {c : Cfg} (hc : Contract c) {s s' : S} {a : Act} (hi : Inv c s) (h : step c s a = some s') :
    Inv c s' := by
  cases a with
  | start w m =>
    simp only [Life.step] at h
    split at h
    · rename_i hpc
      split at h
      · rename_i s1 r ht
        simp only [Option.some.injEq] at h
        subst h
        unfold S.takeMsg at ht
        split at ht
        · rename_i r' hr
          rw [if_pos (hi.hReuse w r' hr)] at ht
          simp only [Option.some.injEq, Prod.mk.injEq] at ht
          obtain ⟨rfl, rfl⟩ := ht
          exact inv_startReuse hi hpc hr
        · split at ht
          · rename_i s2 ha
            simp only [Option.some.injEq, Prod.mk.injEq] at ht
            obtain ⟨rfl, rfl⟩ := ht
            obtain ⟨rfl, hp⟩ := alloc_eq hi ha
            exact inv_startAlloc hi hpc hp
          · exact absurd ht (by simp)
      · exact absurd h (by simp)
    · exact absurd h (by simp)
  | fill w =>
    simp only [Life.step] at h
    split at h
    · rename_i k m hpc
      rw [if_pos (hi.pGot w k m hpc).2.1] at h
      simp only [Option.some.injEq] at h
      subst h
      exact inv_fill hi hpc
    · exact absurd h (by simp)
  | push w =>
    simp only [Life.step] at h
    split at h
    · rename_i k m hpc
      rw [if_pos (hi.tFilled k w m (hi.pFilled w k m hpc)).2.1] at h
      simp only [Option.some.injEq] at h
      subst h
      exact inv_push hi hpc
    · exact absurd h (by simp)
  | freeTask w =>
    simp only [Life.step] at h
    split at h
    · rename_i k hpc
      simp only [Option.some.injEq] at h
      subst h
      by_cases hk : (c.ser k).copied = true
      · simp only [hk, if_true, kill_alive ((hi.pPushed w k hpc).2 hk)]
        exact inv_freeCopied hi hpc hk
      · simp only [hk]
        exact inv_freeBorrowed hi hpc (by simpa using hk)
    · exact absurd h (by simp)
  | giveLocal w =>
    simp only [Life.step] at h
    split at h
    · rename_i k m hpc
      simp only [Option.some.injEq] at h
      subst h
      exact inv_giveLocal hi hpc
    · exact absurd h (by simp)
  | dropMsg w keep =>
    simp only [Life.step] at h
    split at h
    · rename_i k m hpc
      obtain ⟨h1, h2, h3, h4, h5⟩ := hi.tLoc k w m (hi.pLoc w k m hpc)
      rw [if_pos h2] at h
      simp only [Option.some.injEq] at h
      subst h
      by_cases hk : (c.ser k).copied = true
      · simp only [hk, if_true]
        obtain ⟨r, hr, hb, hp, hs⟩ := releaseData_out (c := c) (s := s) (k := k) (x := s.mem m) (by rw [h3]; rfl)
          (by rw [h3]; rfl) (by rw [h3]; rfl) (by rw [h3]; rfl) (hc.borrowed k)
          (by simp only [Cfg.blk, hk, if_true]; rw [h4, Cfg.bufA, if_pos hk])
        rw [release_of keep hr]
        simp only [Cfg.blk, hk, if_true] at hb ⊢
        exact inv_dropCopied hi hpc hk (keep_place keep) hb hp (hs (by rw [h3]; rfl))
      · simp only [hk, Bool.false_eq_true, if_false]
        rw [release_new c keep (Or.inr (by simp))]
        simp only [upd_upd]
        exact inv_dropBorrowed hi hpc (by simpa using hk) (keep_place keep)
    · exact absurd h (by simp)
  | userObj k =>
    simp only [Life.step] at h
    split at h
    · rename_i hk
      simp only [Option.some.injEq] at h
      subst h
      rw [kill_alive hk.2]
      exact inv_userObj hi hk.1 hk.2
    · exact absurd h (by simp)
  | eos w m =>
    simp only [Life.step] at h
    split at h
    · split at h
      · rename_i s1 ha
        simp only [Option.some.injEq] at h
        subst h
        obtain ⟨rfl, hp⟩ := alloc_eq hi ha
        exact inv_eos hi hp
      · exact absurd h (by simp)
    · exact absurd h (by simp)
  | recv w m =>
    simp only [Life.step] at h
    split at h
    · rename_i s1 ha
      simp only [Option.some.injEq] at h
      subst h
      obtain ⟨rfl, hp⟩ := alloc_eq hi ha
      simp only [upd_same, upd_upd]
      exact inv_recv hi hp
    · exact absurd h (by simp)
  | recvEos w m =>
    simp only [Life.step] at h
    split at h
    · rename_i s1 ha
      simp only [Option.some.injEq] at h
      subst h
      obtain ⟨rfl, hp⟩ := alloc_eq hi ha
      exact inv_recvEos hi hp
    · exact absurd h (by simp)
  | take w m =>
    simp only [Life.step] at h
    split at h
    · rename_i hpc hh
      split at h
      · rename_i hp
        obtain ⟨hk, hj⟩ := hi.mInq w m hp
        rcases hk with hm | hm
        · rw [if_pos (by rw [hm]; rfl)] at h
          simp only [Option.some.injEq] at h
          subst h
          rw [delete_new c (Or.inl (by rw [hm]; rfl))]
          exact inv_takeEos hi hp hm
        · obtain ⟨j, hd⟩ := isInp_iff hm
          have hs := hj j hd
          obtain ⟨-, hmm, hl, -⟩ := hi.iInq j w m hs
          have hsz : (s.mem m).size ≠ 0 := by
            rw [hmm, recvM_size]
            exact fun e => hc.received j (List.eq_nil_of_length_eq_zero e)
          rw [if_neg hsz] at h
          simp only [hd, if_pos hl, Option.some.injEq] at h
          subst h
          exact inv_take hi hh hs
      · exact absurd h (by simp)
    · exact absurd h (by simp)
  | userInp j =>
    simp only [Life.step] at h
    split at h
    · rename_i hk
      simp only [Option.some.injEq] at h
      subst h
      rw [kill_alive hk.2]
      exact inv_userInp hi hk.1 hk.2
    · exact absurd h (by simp)
  | done w keep =>
    simp only [Life.step] at h
    split at h
    · rename_i m hpc hh
      obtain ⟨hp, hin, hj⟩ := hi.hHold w m hh
      obtain ⟨j, hd⟩ := isInp_iff hin
      have hs := hj j hd
      obtain ⟨-, hmm, hl, -⟩ := hi.iHeld j w m hs
      rw [if_pos hp] at h
      simp only [hd, Option.some.injEq] at h
      subst h
      by_cases hk : c.dcopied j = true
      · have hrd : s.releaseData c (s.mem m) =
            { s with life := upd s.life (.inp j) .dead, log := s.log ++ [.free (.inp j)] } := by
          rw [hmm]
          simp only [S.releaseData, Cfg.recvM, M.new, if_true, Bool.false_eq_true, if_false]
          exact kill_alive (hl hk).1
        simp only [hk, if_true]
        by_cases hr : c.coll w = true ∨ (s.reuse w).isSome
        · simp only [hr, if_true]
          rw [release_of keep hrd]
          exact inv_doneCopiedRel hi hh hs hk (keep_place keep)
        · simp only [hr, if_false]
          rw [clean_of hrd]
          refine inv_doneCopiedReuse hi hh hs hk ?_
          cases e : s.reuse w with
          | none => rfl
          | some x => exact absurd (Or.inr (by rw [e]; rfl)) hr
      · have hk' : c.dcopied j = false := by simpa using hk
        simp only [hk]
        by_cases hr : c.coll w = true ∨ (s.reuse w).isSome
        · simp only [hr, if_true]
          simp only [Bool.false_eq_true, if_false]
          rw [release_new c keep (Or.inr (by simp))]
          simp only [upd_upd]
          exact inv_doneKeptRel hi hh hs hk' (keep_place keep)
        · simp only [hr, if_false]
          simp only [Bool.false_eq_true, if_false]
          rw [clean_new c (Or.inr (by simp))]
          simp only [upd_upd]
          refine inv_doneKeptReuse hi hh hs hk' ?_
          cases e : s.reuse w with
          | none => rfl
          | some x => exact absurd (Or.inr (by rw [e]; rfl)) hr
    · exact absurd h (by simp)
  | pop w m =>
    simp only [Life.step] at h
    split at h
    · rename_i hsp
      split at h
      · rename_i hp
        simp only [Option.some.injEq] at h
        subst h
        exact inv_pop hi hsp hp
      · exact absurd h (by simp)
    · exact absurd h (by simp)
  | send =>
    simp only [Life.step] at h
    split at h
    · rename_i m hsp
      obtain ⟨hp, hm, hk⟩ := hi.sHas m hsp
      rw [if_pos hp] at h
      rcases hm with hm | hm
      · rw [if_pos (by rw [hm]; rfl)] at h
        simp only [Option.some.injEq] at h
        subst h
        exact inv_sendEos hi hsp hm
      · obtain ⟨k, hd⟩ := isOut_iff hm
        obtain ⟨w, hst⟩ := isQ_iff (hk k hd)
        obtain ⟨-, hmm, l1, l2, l3⟩ := hi.tQueued k w m hst
        have hsz : (s.mem m).size ≠ 0 := by
          rw [hmm, fillM_size]
          exact fun e => hc.nonempty k (List.eq_nil_of_length_eq_zero e)
        have hl : s.life (c.blk (.out k)) = .alive := by
          unfold Cfg.blk
          by_cases e : (c.ser k).copied = true
          · simp only [e, if_true]; rw [l1, Cfg.bufA, if_pos e]
          · simp only [e]; exact l3 (by simpa using e)
        rw [if_neg hsz] at h
        simp only [hd, if_pos hl, Option.some.injEq, hst] at h
        subst h
        have hsame : upd s.mem m (s.mem m) = s.mem := by
          funext x; simp only [upd]; split
          · rename_i e; rw [e]
          · rfl
        by_cases e : c.direct (s.mem m).size = true ∧ c.thr < (s.mem m).size
        · rw [if_pos e]
          rw [hmm, fillM_size] at e
          exact inv_send hi hsp hst (Or.inr ⟨e.1, e.2, by rw [hmm]; rfl⟩)
        · rw [if_neg e]
          have := inv_send (x := s.mem m) hi hsp hst (Or.inl hmm)
          rw [hsame] at this
          exact this
    · exact absurd h (by simp)
  | finish keep =>
    simp only [Life.step] at h
    split at h
    · rename_i m hsp
      obtain ⟨hp, hm, hk⟩ := hi.sSent m hsp
      rw [if_pos hp] at h
      simp only [Option.some.injEq] at h
      subst h
      rcases hm with hm | hm
      · rw [release_new c keep (Or.inl (by rw [hm]; rfl))]
        have : (s.mem m).data = none := by rw [hm]; rfl
        simp only [this]
        exact inv_finishEos hi hsp hm (keep_place keep)
      · obtain ⟨k, hd⟩ := isOut_iff hm
        obtain ⟨w, hst⟩ := isS_iff (hk k hd)
        obtain ⟨-, -, hmm, l1, l2, l3⟩ := hi.tSent k w m hst
        have hl : s.life (c.blk (.out k)) = .alive := by
          unfold Cfg.blk
          by_cases e : (c.ser k).copied = true
          · simp only [e, if_true]; rw [l1, Cfg.bufA, if_pos e]
          · simp only [e]; exact l3 (by simpa using e)
        have hx : (s.mem m).cleanup = true ∧ (s.mem m).owner = (if (c.ser k).hook then some k else none) ∧
            (s.mem m).hook = (c.ser k).hook := by
          rcases hmm with h | ⟨-, -, h⟩ <;> rw [h] <;> exact ⟨rfl, rfl, rfl⟩
        obtain ⟨r, hr, hb, hpr, hsz⟩ := releaseData_out (c := c) (s := s) (k := k) (x := s.mem m) hd hx.1 hx.2.1 hx.2.2
          (hc.borrowed k) hl
        rw [release_of keep hr]
        simp only [hd, hst]
        have hsz' : (∀ k, c.direct (c.ser k).bytes.length = true → (c.ser k).bytes.length ≤ c.thr) → r.sized c := by
          intro hsm
          rcases hmm with h | ⟨hd', ht, -⟩
          · exact hsz (by rw [h]; rfl)
          · exact absurd (hsm k hd') (by omega)
        by_cases e : (c.ser k).copied = true
        · simp only [Cfg.blk, e, if_true] at hb ⊢
          exact inv_finishCopied hi hsp hst (keep_place keep) e hb hpr hsz'
        · simp only [Cfg.blk, e] at hb ⊢
          exact inv_finishBorrowed hi hsp hst (keep_place keep) (by simpa using e) hb hpr hsz'
    · exact absurd h (by simp)

theorem inv_reach {c : Cfg} (hc : Contract c) {s : S} (h : Reachable c s) : Inv c s :=
  Reach.inv h (Inv.init c) fun _ _ _ hi hs => Inv.step hc hi hs

/-- **C70** (safety).  In every execution no thread reads bytes that have been released, releases a block that is not
allocated, frees bytes that are not in a buffer of their own, or touches a message that another thread holds. -/
theorem C70_safe {c : Cfg} (hc : Contract c) {s : S} (h : Reachable c s) : s.bad = false := (inv_reach hc h).bad

/-- **C70** (once, as asked for).  Every block is released at most once, and by the means that the program asked
for. -/
theorem C70_released_once {c : Cfg} (hc : Contract c) {s : S} (h : Reachable c s) :
    (∀ b, releases c s b ≤ 1) ∧ ∀ r ∈ s.log, r.proper c := by
  refine ⟨fun b => ?_, (inv_reach hc h).proper⟩
  rw [(inv_reach hc h).count b]
  split <;> omega

/-- **C70** (the bytes that go out).  At most one message goes out for a task, and it has the bytes that
`serialize()` returned; nothing else goes out with a payload. -/
theorem C70_wire {c : Cfg} (hc : Contract c) {s : S} (h : Reachable c s) :
    (∀ k, sentFor s k = [] ∨ sentFor s k = [.data (.out k) (c.ser k).bytes]) ∧
    ∀ d b, Wire.data d b ∈ s.wire → ∃ k, d = .out k ∧ k < s.next := by
  have hi := inv_reach hc h
  refine ⟨fun k => ?_, fun d b hb => ?_⟩
  · rw [hi.wOut k]; split
    · exact Or.inr rfl
    · exact Or.inl rfl
  · obtain ⟨k, rfl⟩ := hi.wIn d b hb
    refine ⟨k, rfl, ?_⟩
    refine Nat.lt_of_not_le fun hle => ?_
    have h1 := hi.wOut k
    rw [(hi.fresh k).1 hle] at h1
    simp only [St.isOut, Bool.false_eq_true, if_false] at h1
    have : Wire.data (.out k) b ∈ sentFor s k := List.mem_filter.2 ⟨hb, by simp⟩
    rw [h1] at this
    exact absurd this (by simp)

/-- **C70** (nothing is lost).  When nothing is under way, every task has been given to a node of the same group, and
then nothing was sent for it, or it has been sent; its buffer has been released, exactly once; and a task that was
sent has been released, exactly once. -/
theorem C70_tasks {c : Cfg} (hc : Contract c) {s : S} (h : Reachable c s) (hq : Quiet s) {k : Nat} (hk : k < s.next) :
    ((k ∈ s.locals ∧ sentFor s k = []) ∨
      (k ∉ s.locals ∧ sentFor s k = [.data (.out k) (c.ser k).bytes] ∧ releases c s (.obj k) = 1)) ∧
    releases c s (.buf k) = if (c.ser k).copied then 1 else 0 := by
  have hi := inv_reach hc h
  obtain ⟨q1, q2, q3, q4, q5⟩ := hq
  have hnew : s.st k ≠ .new := fun e => absurd ((hi.fresh k).2 e) (by omega)
  have hw := hi.wOut k
  have hlo := hi.locs k
  have hb : ∀ l, s.life (.buf k) = l → l = c.bufD k →
      releases c s (.buf k) = if (c.ser k).copied then 1 else 0 := by
    intro l h1 h2
    rw [hi.count, h1, h2, Cfg.bufD]
    cases (c.ser k).copied <;> simp
  cases e : s.st k with
  | new => exact absurd e hnew
  | got w m => have := (hi.tGot k w m e).1; rw [q1 w] at this; exact absurd this (by simp)
  | filled w m => have := (hi.tFilled k w m e).1; rw [q1 w] at this; exact absurd this (by simp)
  | loc w m => have := (hi.tLoc k w m e).1; rw [q1 w] at this; exact absurd this (by simp)
  | queued w m =>
    rcases (hi.tQueued k w m e).1 with h1 | h1
    · cases hp : s.place m <;> rw [hp] at h1 <;> simp [Place.isChan] at h1
      exact absurd hp (q4 _ m)
    · rw [q3] at h1; exact absurd h1.2 (by simp)
  | sent w m => have := (hi.tSent k w m e).2.1; rw [q3] at this; exact absurd this (by simp)
  | doneR w =>
    obtain ⟨h1, h2, h3⟩ := hi.tDoneR k w e
    rw [e] at hw hlo
    refine ⟨Or.inr ⟨fun x => absurd (hlo.1 x) (by simp [St.isLoc]), by simpa [St.isOut] using hw, ?_⟩, hb _ h1 rfl⟩
    have hd : s.life (.obj k) = .dead := by
      by_cases hcp : (c.ser k).copied = true
      · rcases h2 hcp with h2 | h2
        · rw [q1 w] at h2; exact absurd h2.2 (by simp)
        · exact h2
      · exact h3 (by simpa using hcp)
    rw [hi.count, hd]; rfl
  | doneL =>
    obtain ⟨h1, -⟩ := hi.tDoneL k e
    rw [e] at hw hlo
    exact ⟨Or.inl ⟨hlo.2 rfl, by simpa [St.isOut] using hw⟩, hb _ h1 rfl⟩

/-- **C70** (received buffers).  When nothing is under way, the runtime has released every received buffer that
`deserialize` copied, exactly once, and none that `deserialize` kept. -/
theorem C70_received {c : Cfg} (hc : Contract c) {s : S} (h : Reachable c s) (hq : Quiet s) {j : Nat} (hj : j < s.nextIn) :
    (c.dcopied j = true → releases c s (.inp j) = 1) ∧
    (c.dcopied j = false → ∀ r ∈ s.log, r.block c = .inp j → r = .user (.inp j)) := by
  have hi := inv_reach hc h
  obtain ⟨q1, q2, q3, q4, q5⟩ := hq
  have hnew : s.sti j ≠ .new := fun e => absurd ((hi.freshI j).2 e) (by omega)
  refine ⟨fun hd => ?_, fun hd r hr hb => ?_⟩
  · cases e : s.sti j with
    | new => exact absurd e hnew
    | inq w m => exact absurd (hi.iInq j w m e).1 (q5 w m)
    | held w m =>
      have := hi.mHold w m (hi.iHeld j w m e).1
      rw [q2 w] at this; exact absurd this (by simp)
    | over => rw [hi.count, ((hi.iOver j e).1 hd).1]; rfl
  · have hp := hi.proper r hr
    cases r with
    | free d =>
      cases d with
      | out k => simp only [Rel.block, Cfg.blk] at hb; split at hb <;> exact absurd hb (by simp)
      | inp j' =>
        simp only [Rel.block, Cfg.blk, Blk.inp.injEq] at hb
        subst hb
        simp only [Rel.proper] at hp
        rw [hd] at hp; exact absurd hp (by simp)
    | hook o d z =>
      cases d with
      | out k => simp only [Rel.block, Cfg.blk] at hb; split at hb <;> exact absurd hb (by simp)
      | inp j' => exact absurd hp (by simp [Rel.proper])
    | task k => exact absurd hb (by simp [Rel.block])
    | user b => simp only [Rel.block] at hb; rw [hb]

/-- **C70** (messages).  When nothing is under way, every message object is in the queue of the allocator, kept by a node
for its next message, or deleted; and the recycled ones are as new. -/
theorem C70_messages {c : Cfg} (hc : Contract c) {s : S} (h : Reachable c s) (hq : Quiet s) (m : Nat) :
    s.place m = .none ∨ ((s.place m = .pool ∨ ∃ w, s.place m = .reuse w ∧ s.reuse w = some m) ∧ s.mem m = M.new) := by
  have hi := inv_reach hc h
  obtain ⟨q1, q2, q3, q4, q5⟩ := hq
  cases e : s.place m with
  | none => exact Or.inl rfl
  | pool => exact Or.inr ⟨Or.inl rfl, hi.mPool m e⟩
  | send w => have := hi.mSend w m e; rw [q1 w] at this; exact absurd this (by simp [Pc.holds])
  | hold w => have := hi.mHold w m e; rw [q2 w] at this; exact absurd this (by simp)
  | reuse w => exact Or.inr ⟨Or.inr ⟨w, rfl, (hi.mReuse w m e).2⟩, (hi.mReuse w m e).1⟩
  | chan w => exact absurd e (q4 w m)
  | inq w => exact absurd e (q5 w m)
  | snd => have := hi.mSnd m e; rw [q3] at this; exact absurd this (by simp)

/-- **C70** (the size given to the program's function), partial.  If no message that is sent on its own is above the
threshold for a separate send, the function that releases a task is told the size of its bytes.  Missing: larger
messages, see `C70_size_counterexample`. -/
theorem C70_size_partial {c : Cfg} (hc : Contract c) {s : S} (h : Reachable c s)
    (hsmall : ∀ k, c.direct (c.ser k).bytes.length = true → (c.ser k).bytes.length ≤ c.thr) :
    ∀ r ∈ s.log, r.sized c := (inv_reach hc h).sized hsmall

end FF.Life
