import Verif.Life.Inv
/-! # C70: every action keeps the invariant -/
namespace FF.Life
open FF

/-- One part of the invariant is kept, because of that part and what is known about the action. -/
macro "fld" h:ident f:term : tactic => `(tactic|
  (have hF := $f; clear $h; dsimp only [ObjC, SentM, sentFor, releases] at *; intros
   grind [upd, St.isQ, St.isS, St.by, St.isOut, St.isLoc, Place.isChan, Pc.holds, M.isOut, M.isInp, Cfg.bufA, Cfg.bufD]))

theorem by_inj {x : St} {w w' : Nat} (h : x.by w = true) (h' : x.by w' = true) : w' = w := by
  cases x <;> simp_all [St.by]

theorem by_loc {x : St} {w : Nat} (h : x.isLoc = true) : x.by w = false := by
  cases x <;> simp_all [St.by, St.isLoc]

/-- A block that is allocated is released. -/
theorem count_kill {c : Cfg} {s : S} {b0 : Blk} {r : Rel} (h : ∀ b, releases c s b = if s.life b = .dead then 1 else 0)
    (hl : s.life b0 = .alive) (hr : r.block c = b0) (b : Blk) :
    ((s.log ++ [r]).map (Rel.block c)).count b = if upd s.life b0 .dead b = .dead then 1 else 0 := by
  have h1 := h b
  simp only [releases] at h1
  rw [List.map_append, List.count_append, h1]
  simp only [List.map_cons, List.map_nil, List.count_cons, List.count_nil, hr, upd]
  by_cases e : b = b0
  · subst e; simp [hl]
  · simp [e, Ne.symm e]

theorem all_snoc {P : Rel → Prop} {l : List Rel} {r : Rel} (h : ∀ x ∈ l, P x) (hr : P r) : ∀ x ∈ l ++ [r], P x := by
  intro x hx
  rcases List.mem_append.1 hx with hx | hx
  · exact h x hx
  · rw [List.mem_singleton.1 hx]; exact hr

theorem inv_startReuse {c : Cfg} {s : S} {w r : Nat} (hi : Inv c s) (hpc : s.pc w = .idle) (hr : s.reuse w = some r) :
    Inv c { s with reuse := upd s.reuse w none, pc := upd s.pc w (.got s.next r), place := upd s.place r (.send w), next := s.next + 1, life := upd s.life (.obj s.next) .alive, st := upd s.st s.next (.got w r) } := by
  have hp := hi.hReuse w r hr
  obtain ⟨hm, -⟩ := hi.mReuse w r hp
  have hn := (hi.fresh s.next).1 (Nat.le_refl _)
  obtain ⟨l1, l2⟩ := hi.tNew _ hn
  constructor
  case bad => fld hi hi.bad
  case fresh => fld hi hi.fresh
  case freshI => fld hi hi.freshI
  case tNew => fld hi hi.tNew
  case tGot => fld hi hi.tGot
  case tFilled => fld hi hi.tFilled
  case tQueued => fld hi hi.tQueued
  case tSent => fld hi hi.tSent
  case tDoneR => fld hi hi.tDoneR
  case tLoc => fld hi hi.tLoc
  case tDoneL => fld hi hi.tDoneL
  case iNew => fld hi hi.iNew
  case iInq => fld hi hi.iInq
  case iHeld => fld hi hi.iHeld
  case iOver => fld hi hi.iOver
  case iGiven => fld hi hi.iGiven
  case pGot => fld hi hi.pGot
  case pFilled => fld hi hi.pFilled
  case pLoc => fld hi hi.pLoc
  case pPushed => fld hi hi.pPushed
  case hHold => fld hi hi.hHold
  case hReuse => fld hi hi.hReuse
  case mPool => fld hi hi.mPool
  case mReuse => fld hi hi.mReuse
  case mSend => fld hi hi.mSend
  case mChan => fld hi hi.mChan
  case mInq => fld hi hi.mInq
  case mHold => fld hi hi.mHold
  case mSnd => fld hi hi.mSnd
  case sHas => fld hi hi.sHas
  case sSent => fld hi hi.sSent
  case locs => fld hi hi.locs
  case wOut => fld hi hi.wOut
  case wIn => fld hi hi.wIn
  case count => fld hi hi.count
  case proper => fld hi hi.proper
  case sized => fld hi hi.sized

theorem inv_startAlloc {c : Cfg} {s : S} {w m : Nat} (hi : Inv c s) (hpc : s.pc w = .idle) (hp : s.place m = .pool ∨ s.place m = .none) :
    Inv c { s with mem := upd s.mem m M.new, pc := upd s.pc w (.got s.next m), place := upd s.place m (.send w), next := s.next + 1, life := upd s.life (.obj s.next) .alive, st := upd s.st s.next (.got w m) } := by
  have hn := (hi.fresh s.next).1 (Nat.le_refl _)
  obtain ⟨l1, l2⟩ := hi.tNew _ hn
  constructor
  case bad => fld hi hi.bad
  case fresh => fld hi hi.fresh
  case freshI => fld hi hi.freshI
  case tNew => fld hi hi.tNew
  case tGot => fld hi hi.tGot
  case tFilled => fld hi hi.tFilled
  case tQueued => fld hi hi.tQueued
  case tSent => fld hi hi.tSent
  case tDoneR => fld hi hi.tDoneR
  case tLoc => fld hi hi.tLoc
  case tDoneL => fld hi hi.tDoneL
  case iNew => fld hi hi.iNew
  case iInq => fld hi hi.iInq
  case iHeld => fld hi hi.iHeld
  case iOver => fld hi hi.iOver
  case iGiven => fld hi hi.iGiven
  case pGot => fld hi hi.pGot
  case pFilled => fld hi hi.pFilled
  case pLoc => fld hi hi.pLoc
  case pPushed => fld hi hi.pPushed
  case hHold => fld hi hi.hHold
  case hReuse => fld hi hi.hReuse
  case mPool => fld hi hi.mPool
  case mReuse => fld hi hi.mReuse
  case mSend => fld hi hi.mSend
  case mChan => fld hi hi.mChan
  case mInq => fld hi hi.mInq
  case mHold => fld hi hi.mHold
  case mSnd => fld hi hi.mSnd
  case sHas => fld hi hi.sHas
  case sSent => fld hi hi.sSent
  case locs => fld hi hi.locs
  case wOut => fld hi hi.wOut
  case wIn => fld hi hi.wIn
  case count => fld hi hi.count
  case proper => fld hi hi.proper
  case sized => fld hi hi.sized

theorem inv_fill {c : Cfg} {s : S} {w k m : Nat} (hi : Inv c s) (hpc : s.pc w = .got k m) :
    Inv c { s with pc := upd s.pc w (.filled k m), mem := upd s.mem m (c.fillM k), life := if (c.ser k).copied then upd s.life (.buf k) .alive else s.life, st := upd s.st k (.filled w m) } := by
  obtain ⟨hst, hp, hm⟩ := hi.pGot w k m hpc
  obtain ⟨-, l1, l2⟩ := hi.tGot k w m hst
  constructor
  case bad => fld hi hi.bad
  case fresh => fld hi hi.fresh
  case freshI => fld hi hi.freshI
  case tNew => fld hi hi.tNew
  case tGot => fld hi hi.tGot
  case tFilled => fld hi hi.tFilled
  case tQueued => fld hi hi.tQueued
  case tSent => fld hi hi.tSent
  case tDoneR => fld hi hi.tDoneR
  case tLoc => fld hi hi.tLoc
  case tDoneL => fld hi hi.tDoneL
  case iNew => fld hi hi.iNew
  case iInq => fld hi hi.iInq
  case iHeld => fld hi hi.iHeld
  case iOver => fld hi hi.iOver
  case iGiven => fld hi hi.iGiven
  case pGot => fld hi hi.pGot
  case pFilled => fld hi hi.pFilled
  case pLoc => fld hi hi.pLoc
  case pPushed => fld hi hi.pPushed
  case hHold => fld hi hi.hHold
  case hReuse => fld hi hi.hReuse
  case mPool => fld hi hi.mPool
  case mReuse => fld hi hi.mReuse
  case mSend => fld hi hi.mSend
  case mChan => fld hi hi.mChan
  case mInq => fld hi hi.mInq
  case mHold => fld hi hi.mHold
  case mSnd => fld hi hi.mSnd
  case sHas => fld hi hi.sHas
  case sSent => fld hi hi.sSent
  case locs => fld hi hi.locs
  case wOut => fld hi hi.wOut
  case wIn => fld hi hi.wIn
  case count => fld hi hi.count
  case proper => fld hi hi.proper
  case sized => fld hi hi.sized

theorem inv_push {c : Cfg} {s : S} {w k m : Nat} (hi : Inv c s) (hpc : s.pc w = .filled k m) :
    Inv c { s with pc := upd s.pc w (.pushed k), place := upd s.place m (.chan w), st := upd s.st k (.queued w m) } := by
  have hst := hi.pFilled w k m hpc
  obtain ⟨h1, h2, h3, h4, h5⟩ := hi.tFilled k w m hst
  constructor
  case bad => fld hi hi.bad
  case fresh => fld hi hi.fresh
  case freshI => fld hi hi.freshI
  case tNew => fld hi hi.tNew
  case tGot => fld hi hi.tGot
  case tFilled => fld hi hi.tFilled
  case tQueued => fld hi hi.tQueued
  case tSent => fld hi hi.tSent
  case tDoneR => fld hi hi.tDoneR
  case tLoc => fld hi hi.tLoc
  case tDoneL => fld hi hi.tDoneL
  case iNew => fld hi hi.iNew
  case iInq => fld hi hi.iInq
  case iHeld => fld hi hi.iHeld
  case iOver => fld hi hi.iOver
  case iGiven => fld hi hi.iGiven
  case pGot => fld hi hi.pGot
  case pFilled => fld hi hi.pFilled
  case pLoc => fld hi hi.pLoc
  case pPushed => fld hi hi.pPushed
  case hHold => fld hi hi.hHold
  case hReuse => fld hi hi.hReuse
  case mPool => fld hi hi.mPool
  case mReuse => fld hi hi.mReuse
  case mSend => fld hi hi.mSend
  case mChan => fld hi hi.mChan
  case mInq => fld hi hi.mInq
  case mHold => fld hi hi.mHold
  case mSnd => fld hi hi.mSnd
  case sHas => fld hi hi.sHas
  case sSent => fld hi hi.sSent
  case locs => fld hi hi.locs
  case wOut => fld hi hi.wOut
  case wIn => fld hi hi.wIn
  case count => fld hi hi.count
  case proper => fld hi hi.proper
  case sized => fld hi hi.sized

theorem inv_freeCopied {c : Cfg} {s : S} {w k : Nat} (hi : Inv c s) (hpc : s.pc w = .pushed k) (hc : (c.ser k).copied = true) :
    Inv c { s with life := upd s.life (.obj k) .dead, log := s.log ++ [.task k], pc := upd s.pc w .idle } := by
  obtain ⟨hby, hl⟩ := hi.pPushed w k hpc
  have hl := hl hc
  have hbyi := fun w' h => by_inj (w' := w') hby h
  constructor
  case bad => fld hi hi.bad
  case fresh => fld hi hi.fresh
  case freshI => fld hi hi.freshI
  case tNew => fld hi hi.tNew
  case tGot => fld hi hi.tGot
  case tFilled => fld hi hi.tFilled
  case tQueued => fld hi hi.tQueued
  case tSent => fld hi hi.tSent
  case tDoneR => fld hi hi.tDoneR
  case tLoc => fld hi hi.tLoc
  case tDoneL => fld hi hi.tDoneL
  case iNew => fld hi hi.iNew
  case iInq => fld hi hi.iInq
  case iHeld => fld hi hi.iHeld
  case iOver => fld hi hi.iOver
  case iGiven => fld hi hi.iGiven
  case pGot => fld hi hi.pGot
  case pFilled => fld hi hi.pFilled
  case pLoc => fld hi hi.pLoc
  case pPushed => fld hi hi.pPushed
  case hHold => fld hi hi.hHold
  case hReuse => fld hi hi.hReuse
  case mPool => fld hi hi.mPool
  case mReuse => fld hi hi.mReuse
  case mSend => fld hi hi.mSend
  case mChan => fld hi hi.mChan
  case mInq => fld hi hi.mInq
  case mHold => fld hi hi.mHold
  case mSnd => fld hi hi.mSnd
  case sHas => fld hi hi.sHas
  case sSent => fld hi hi.sSent
  case locs => fld hi hi.locs
  case wOut => fld hi hi.wOut
  case wIn => fld hi hi.wIn
  case count => exact count_kill hi.count hl rfl
  case proper => exact all_snoc hi.proper hc
  case sized => exact fun h => all_snoc (hi.sized h) trivial

theorem inv_freeBorrowed {c : Cfg} {s : S} {w k : Nat} (hi : Inv c s) (hpc : s.pc w = .pushed k) (hc : (c.ser k).copied = false) :
    Inv c { s with pc := upd s.pc w .idle } := by
  obtain ⟨hby, -⟩ := hi.pPushed w k hpc
  constructor
  case bad => fld hi hi.bad
  case fresh => fld hi hi.fresh
  case freshI => fld hi hi.freshI
  case tNew => fld hi hi.tNew
  case tGot => fld hi hi.tGot
  case tFilled => fld hi hi.tFilled
  case tQueued => fld hi hi.tQueued
  case tSent => fld hi hi.tSent
  case tDoneR => fld hi hi.tDoneR
  case tLoc => fld hi hi.tLoc
  case tDoneL => fld hi hi.tDoneL
  case iNew => fld hi hi.iNew
  case iInq => fld hi hi.iInq
  case iHeld => fld hi hi.iHeld
  case iOver => fld hi hi.iOver
  case iGiven => fld hi hi.iGiven
  case pGot => fld hi hi.pGot
  case pFilled => fld hi hi.pFilled
  case pLoc => fld hi hi.pLoc
  case pPushed => fld hi hi.pPushed
  case hHold => fld hi hi.hHold
  case hReuse => fld hi hi.hReuse
  case mPool => fld hi hi.mPool
  case mReuse => fld hi hi.mReuse
  case mSend => fld hi hi.mSend
  case mChan => fld hi hi.mChan
  case mInq => fld hi hi.mInq
  case mHold => fld hi hi.mHold
  case mSnd => fld hi hi.mSnd
  case sHas => fld hi hi.sHas
  case sSent => fld hi hi.sSent
  case locs => fld hi hi.locs
  case wOut => fld hi hi.wOut
  case wIn => fld hi hi.wIn
  case count => fld hi hi.count
  case proper => fld hi hi.proper
  case sized => fld hi hi.sized

theorem inv_giveLocal {c : Cfg} {s : S} {w k m : Nat} (hi : Inv c s) (hpc : s.pc w = .filled k m) :
    Inv c { s with pc := upd s.pc w (.loc k m), locals := s.locals ++ [k], st := upd s.st k (.loc w m) } := by
  have hst := hi.pFilled w k m hpc
  obtain ⟨h1, h2, h3, h4, h5⟩ := hi.tFilled k w m hst
  constructor
  case bad => fld hi hi.bad
  case fresh => fld hi hi.fresh
  case freshI => fld hi hi.freshI
  case tNew => fld hi hi.tNew
  case tGot => fld hi hi.tGot
  case tFilled => fld hi hi.tFilled
  case tQueued => fld hi hi.tQueued
  case tSent => fld hi hi.tSent
  case tDoneR => fld hi hi.tDoneR
  case tLoc => fld hi hi.tLoc
  case tDoneL => fld hi hi.tDoneL
  case iNew => fld hi hi.iNew
  case iInq => fld hi hi.iInq
  case iHeld => fld hi hi.iHeld
  case iOver => fld hi hi.iOver
  case iGiven => fld hi hi.iGiven
  case pGot => fld hi hi.pGot
  case pFilled => fld hi hi.pFilled
  case pLoc => fld hi hi.pLoc
  case pPushed => fld hi hi.pPushed
  case hHold => fld hi hi.hHold
  case hReuse => fld hi hi.hReuse
  case mPool => fld hi hi.mPool
  case mReuse => fld hi hi.mReuse
  case mSend => fld hi hi.mSend
  case mChan => fld hi hi.mChan
  case mInq => fld hi hi.mInq
  case mHold => fld hi hi.mHold
  case mSnd => fld hi hi.mSnd
  case sHas => fld hi hi.sHas
  case sSent => fld hi hi.sSent
  case locs => fld hi hi.locs
  case wOut => fld hi hi.wOut
  case wIn => fld hi hi.wIn
  case count => fld hi hi.count
  case proper => fld hi hi.proper
  case sized => fld hi hi.sized

theorem inv_dropCopied {c : Cfg} {s : S} {w k m : Nat} {q : Place} {r : Rel} (hi : Inv c s) (hpc : s.pc w = .loc k m) (hc : (c.ser k).copied = true) (hq : q = .pool ∨ q = .none)
    (hr : r.block c = .buf k) (hpr : r.proper c) (hsz : r.sized c) :
    Inv c { s with life := upd s.life (.buf k) .dead, log := s.log ++ [r], mem := upd s.mem m M.new, place := upd s.place m q, pc := upd s.pc w .idle, st := upd s.st k .doneL } := by
  have hst := hi.pLoc w k m hpc
  obtain ⟨h1, h2, h3, h4, h5⟩ := hi.tLoc k w m hst
  have hl : s.life (.buf k) = .alive := by rw [h4, Cfg.bufA, if_pos hc]
  constructor
  case bad => fld hi hi.bad
  case fresh => fld hi hi.fresh
  case freshI => fld hi hi.freshI
  case tNew => fld hi hi.tNew
  case tGot => fld hi hi.tGot
  case tFilled => fld hi hi.tFilled
  case tQueued => fld hi hi.tQueued
  case tSent => fld hi hi.tSent
  case tDoneR => fld hi hi.tDoneR
  case tLoc => fld hi hi.tLoc
  case tDoneL => fld hi hi.tDoneL
  case iNew => fld hi hi.iNew
  case iInq => fld hi hi.iInq
  case iHeld => fld hi hi.iHeld
  case iOver => fld hi hi.iOver
  case iGiven => fld hi hi.iGiven
  case pGot => fld hi hi.pGot
  case pFilled => fld hi hi.pFilled
  case pLoc => fld hi hi.pLoc
  case pPushed => fld hi hi.pPushed
  case hHold => fld hi hi.hHold
  case hReuse => fld hi hi.hReuse
  case mPool => fld hi hi.mPool
  case mReuse => fld hi hi.mReuse
  case mSend => fld hi hi.mSend
  case mChan => fld hi hi.mChan
  case mInq => fld hi hi.mInq
  case mHold => fld hi hi.mHold
  case mSnd => fld hi hi.mSnd
  case sHas => fld hi hi.sHas
  case sSent => fld hi hi.sSent
  case locs => fld hi hi.locs
  case wOut => fld hi hi.wOut
  case wIn => fld hi hi.wIn
  case count => exact count_kill hi.count hl hr
  case proper => exact all_snoc hi.proper hpr
  case sized => exact fun h => all_snoc (hi.sized h) hsz

theorem inv_dropBorrowed {c : Cfg} {s : S} {w k m : Nat} {q : Place} (hi : Inv c s) (hpc : s.pc w = .loc k m) (hc : (c.ser k).copied = false) (hq : q = .pool ∨ q = .none) :
    Inv c { s with mem := upd s.mem m M.new, place := upd s.place m q, pc := upd s.pc w .idle, st := upd s.st k .doneL } := by
  have hst := hi.pLoc w k m hpc
  obtain ⟨h1, h2, h3, h4, h5⟩ := hi.tLoc k w m hst
  constructor
  case bad => fld hi hi.bad
  case fresh => fld hi hi.fresh
  case freshI => fld hi hi.freshI
  case tNew => fld hi hi.tNew
  case tGot => fld hi hi.tGot
  case tFilled => fld hi hi.tFilled
  case tQueued => fld hi hi.tQueued
  case tSent => fld hi hi.tSent
  case tDoneR => fld hi hi.tDoneR
  case tLoc => fld hi hi.tLoc
  case tDoneL => fld hi hi.tDoneL
  case iNew => fld hi hi.iNew
  case iInq => fld hi hi.iInq
  case iHeld => fld hi hi.iHeld
  case iOver => fld hi hi.iOver
  case iGiven => fld hi hi.iGiven
  case pGot => fld hi hi.pGot
  case pFilled => fld hi hi.pFilled
  case pLoc => fld hi hi.pLoc
  case pPushed => fld hi hi.pPushed
  case hHold => fld hi hi.hHold
  case hReuse => fld hi hi.hReuse
  case mPool => fld hi hi.mPool
  case mReuse => fld hi hi.mReuse
  case mSend => fld hi hi.mSend
  case mChan => fld hi hi.mChan
  case mInq => fld hi hi.mInq
  case mHold => fld hi hi.mHold
  case mSnd => fld hi hi.mSnd
  case sHas => fld hi hi.sHas
  case sSent => fld hi hi.sSent
  case locs => fld hi hi.locs
  case wOut => fld hi hi.wOut
  case wIn => fld hi hi.wIn
  case count => fld hi hi.count
  case proper => fld hi hi.proper
  case sized => fld hi hi.sized

theorem inv_userObj {c : Cfg} {s : S} {k : Nat} (hi : Inv c s) (hk : k ∈ s.locals) (hl : s.life (.obj k) = .alive) :
    Inv c { s with life := upd s.life (.obj k) .dead, log := s.log ++ [.user (.obj k)] } := by
  have hk' := (hi.locs k).1 hk
  have hnb := fun w => by_loc (w := w) (hk')
  constructor
  case bad => fld hi hi.bad
  case fresh => fld hi hi.fresh
  case freshI => fld hi hi.freshI
  case tNew => fld hi hi.tNew
  case tGot => fld hi hi.tGot
  case tFilled => fld hi hi.tFilled
  case tQueued => fld hi hi.tQueued
  case tSent => fld hi hi.tSent
  case tDoneR => fld hi hi.tDoneR
  case tLoc => fld hi hi.tLoc
  case tDoneL => fld hi hi.tDoneL
  case iNew => fld hi hi.iNew
  case iInq => fld hi hi.iInq
  case iHeld => fld hi hi.iHeld
  case iOver => fld hi hi.iOver
  case iGiven => fld hi hi.iGiven
  case pGot => fld hi hi.pGot
  case pFilled => fld hi hi.pFilled
  case pLoc => fld hi hi.pLoc
  case pPushed => fld hi hi.pPushed
  case hHold => fld hi hi.hHold
  case hReuse => fld hi hi.hReuse
  case mPool => fld hi hi.mPool
  case mReuse => fld hi hi.mReuse
  case mSend => fld hi hi.mSend
  case mChan => fld hi hi.mChan
  case mInq => fld hi hi.mInq
  case mHold => fld hi hi.mHold
  case mSnd => fld hi hi.mSnd
  case sHas => fld hi hi.sHas
  case sSent => fld hi hi.sSent
  case locs => fld hi hi.locs
  case wOut => fld hi hi.wOut
  case wIn => fld hi hi.wIn
  case count => exact count_kill hi.count hl rfl
  case proper => exact all_snoc hi.proper trivial
  case sized => exact fun h => all_snoc (hi.sized h) trivial

theorem inv_eos {c : Cfg} {s : S} {w m : Nat} (hi : Inv c s) (hp : s.place m = .pool ∨ s.place m = .none) :
    Inv c { s with mem := upd s.mem m M.new, place := upd s.place m (.chan w) } := by

  constructor
  case bad => fld hi hi.bad
  case fresh => fld hi hi.fresh
  case freshI => fld hi hi.freshI
  case tNew => fld hi hi.tNew
  case tGot => fld hi hi.tGot
  case tFilled => fld hi hi.tFilled
  case tQueued => fld hi hi.tQueued
  case tSent => fld hi hi.tSent
  case tDoneR => fld hi hi.tDoneR
  case tLoc => fld hi hi.tLoc
  case tDoneL => fld hi hi.tDoneL
  case iNew => fld hi hi.iNew
  case iInq => fld hi hi.iInq
  case iHeld => fld hi hi.iHeld
  case iOver => fld hi hi.iOver
  case iGiven => fld hi hi.iGiven
  case pGot => fld hi hi.pGot
  case pFilled => fld hi hi.pFilled
  case pLoc => fld hi hi.pLoc
  case pPushed => fld hi hi.pPushed
  case hHold => fld hi hi.hHold
  case hReuse => fld hi hi.hReuse
  case mPool => fld hi hi.mPool
  case mReuse => fld hi hi.mReuse
  case mSend => fld hi hi.mSend
  case mChan => fld hi hi.mChan
  case mInq => fld hi hi.mInq
  case mHold => fld hi hi.mHold
  case mSnd => fld hi hi.mSnd
  case sHas => fld hi hi.sHas
  case sSent => fld hi hi.sSent
  case locs => fld hi hi.locs
  case wOut => fld hi hi.wOut
  case wIn => fld hi hi.wIn
  case count => fld hi hi.count
  case proper => fld hi hi.proper
  case sized => fld hi hi.sized

theorem inv_recvEos {c : Cfg} {s : S} {w m : Nat} (hi : Inv c s) (hp : s.place m = .pool ∨ s.place m = .none) :
    Inv c { s with mem := upd s.mem m M.new, place := upd s.place m (.inq w) } := by

  constructor
  case bad => fld hi hi.bad
  case fresh => fld hi hi.fresh
  case freshI => fld hi hi.freshI
  case tNew => fld hi hi.tNew
  case tGot => fld hi hi.tGot
  case tFilled => fld hi hi.tFilled
  case tQueued => fld hi hi.tQueued
  case tSent => fld hi hi.tSent
  case tDoneR => fld hi hi.tDoneR
  case tLoc => fld hi hi.tLoc
  case tDoneL => fld hi hi.tDoneL
  case iNew => fld hi hi.iNew
  case iInq => fld hi hi.iInq
  case iHeld => fld hi hi.iHeld
  case iOver => fld hi hi.iOver
  case iGiven => fld hi hi.iGiven
  case pGot => fld hi hi.pGot
  case pFilled => fld hi hi.pFilled
  case pLoc => fld hi hi.pLoc
  case pPushed => fld hi hi.pPushed
  case hHold => fld hi hi.hHold
  case hReuse => fld hi hi.hReuse
  case mPool => fld hi hi.mPool
  case mReuse => fld hi hi.mReuse
  case mSend => fld hi hi.mSend
  case mChan => fld hi hi.mChan
  case mInq => fld hi hi.mInq
  case mHold => fld hi hi.mHold
  case mSnd => fld hi hi.mSnd
  case sHas => fld hi hi.sHas
  case sSent => fld hi hi.sSent
  case locs => fld hi hi.locs
  case wOut => fld hi hi.wOut
  case wIn => fld hi hi.wIn
  case count => fld hi hi.count
  case proper => fld hi hi.proper
  case sized => fld hi hi.sized

theorem inv_recv {c : Cfg} {s : S} {w m : Nat} (hi : Inv c s) (hp : s.place m = .pool ∨ s.place m = .none) :
    Inv c { s with mem := upd s.mem m (c.recvM s.nextIn M.new), place := upd s.place m (.inq w), nextIn := s.nextIn + 1, life := upd s.life (.inp s.nextIn) .alive, sti := upd s.sti s.nextIn (.inq w m) } := by
  have hn := (hi.freshI s.nextIn).1 (Nat.le_refl _)
  have l1 := hi.iNew _ hn
  have hg : s.nextIn ∉ s.given := fun h => (hi.iGiven _ h).2 hn
  constructor
  case bad => fld hi hi.bad
  case fresh => fld hi hi.fresh
  case freshI => fld hi hi.freshI
  case tNew => fld hi hi.tNew
  case tGot => fld hi hi.tGot
  case tFilled => fld hi hi.tFilled
  case tQueued => fld hi hi.tQueued
  case tSent => fld hi hi.tSent
  case tDoneR => fld hi hi.tDoneR
  case tLoc => fld hi hi.tLoc
  case tDoneL => fld hi hi.tDoneL
  case iNew => fld hi hi.iNew
  case iInq => fld hi hi.iInq
  case iHeld => fld hi hi.iHeld
  case iOver => fld hi hi.iOver
  case iGiven => fld hi hi.iGiven
  case pGot => fld hi hi.pGot
  case pFilled => fld hi hi.pFilled
  case pLoc => fld hi hi.pLoc
  case pPushed => fld hi hi.pPushed
  case hHold => fld hi hi.hHold
  case hReuse => fld hi hi.hReuse
  case mPool => fld hi hi.mPool
  case mReuse => fld hi hi.mReuse
  case mSend => fld hi hi.mSend
  case mChan => fld hi hi.mChan
  case mInq => fld hi hi.mInq
  case mHold => fld hi hi.mHold
  case mSnd => fld hi hi.mSnd
  case sHas => fld hi hi.sHas
  case sSent => fld hi hi.sSent
  case locs => fld hi hi.locs
  case wOut => fld hi hi.wOut
  case wIn => fld hi hi.wIn
  case count => fld hi hi.count
  case proper => fld hi hi.proper
  case sized => fld hi hi.sized

theorem inv_takeEos {c : Cfg} {s : S} {w m : Nat} (hi : Inv c s) (hp : s.place m = .inq w) (hm : s.mem m = M.new) :
    Inv c { s with mem := upd s.mem m M.new, place := upd s.place m .none } := by
  have hd : (s.mem m).data = none := by rw [hm]; rfl
  constructor
  case bad => fld hi hi.bad
  case fresh => fld hi hi.fresh
  case freshI => fld hi hi.freshI
  case tNew => fld hi hi.tNew
  case tGot => fld hi hi.tGot
  case tFilled => fld hi hi.tFilled
  case tQueued => fld hi hi.tQueued
  case tSent => fld hi hi.tSent
  case tDoneR => fld hi hi.tDoneR
  case tLoc => fld hi hi.tLoc
  case tDoneL => fld hi hi.tDoneL
  case iNew => fld hi hi.iNew
  case iInq => fld hi hi.iInq
  case iHeld => fld hi hi.iHeld
  case iOver => fld hi hi.iOver
  case iGiven => fld hi hi.iGiven
  case pGot => fld hi hi.pGot
  case pFilled => fld hi hi.pFilled
  case pLoc => fld hi hi.pLoc
  case pPushed => fld hi hi.pPushed
  case hHold => fld hi hi.hHold
  case hReuse => fld hi hi.hReuse
  case mPool => fld hi hi.mPool
  case mReuse => fld hi hi.mReuse
  case mSend => fld hi hi.mSend
  case mChan => fld hi hi.mChan
  case mInq => fld hi hi.mInq
  case mHold => fld hi hi.mHold
  case mSnd => fld hi hi.mSnd
  case sHas => fld hi hi.sHas
  case sSent => fld hi hi.sSent
  case locs => fld hi hi.locs
  case wOut => fld hi hi.wOut
  case wIn => fld hi hi.wIn
  case count => fld hi hi.count
  case proper => fld hi hi.proper
  case sized => fld hi hi.sized

theorem inv_take {c : Cfg} {s : S} {w m j : Nat} (hi : Inv c s) (hh : s.hold w = none) (hs : s.sti j = .inq w m) :
    Inv c { s with hold := upd s.hold w (some m), place := upd s.place m (.hold w), given := if c.dcopied j then s.given else s.given ++ [j], sti := upd s.sti j (.held w m) } := by
  obtain ⟨hp, hm, hl, hg⟩ := hi.iInq j w m hs
  have hd : (s.mem m).data = some (.inp j) := by rw [hm]; rfl
  constructor
  case bad => fld hi hi.bad
  case fresh => fld hi hi.fresh
  case freshI => fld hi hi.freshI
  case tNew => fld hi hi.tNew
  case tGot => fld hi hi.tGot
  case tFilled => fld hi hi.tFilled
  case tQueued => fld hi hi.tQueued
  case tSent => fld hi hi.tSent
  case tDoneR => fld hi hi.tDoneR
  case tLoc => fld hi hi.tLoc
  case tDoneL => fld hi hi.tDoneL
  case iNew => fld hi hi.iNew
  case iInq => fld hi hi.iInq
  case iHeld => fld hi hi.iHeld
  case iOver => fld hi hi.iOver
  case iGiven => fld hi hi.iGiven
  case pGot => fld hi hi.pGot
  case pFilled => fld hi hi.pFilled
  case pLoc => fld hi hi.pLoc
  case pPushed => fld hi hi.pPushed
  case hHold => fld hi hi.hHold
  case hReuse => fld hi hi.hReuse
  case mPool => fld hi hi.mPool
  case mReuse => fld hi hi.mReuse
  case mSend => fld hi hi.mSend
  case mChan => fld hi hi.mChan
  case mInq => fld hi hi.mInq
  case mHold => fld hi hi.mHold
  case mSnd => fld hi hi.mSnd
  case sHas => fld hi hi.sHas
  case sSent => fld hi hi.sSent
  case locs => fld hi hi.locs
  case wOut => fld hi hi.wOut
  case wIn => fld hi hi.wIn
  case count => fld hi hi.count
  case proper => fld hi hi.proper
  case sized => fld hi hi.sized

theorem inv_userInp {c : Cfg} {s : S} {j : Nat} (hi : Inv c s) (hk : j ∈ s.given) (hl : s.life (.inp j) = .alive) :
    Inv c { s with life := upd s.life (.inp j) .dead, log := s.log ++ [.user (.inp j)] } := by
  have hk' := hi.iGiven j hk
  constructor
  case bad => fld hi hi.bad
  case fresh => fld hi hi.fresh
  case freshI => fld hi hi.freshI
  case tNew => fld hi hi.tNew
  case tGot => fld hi hi.tGot
  case tFilled => fld hi hi.tFilled
  case tQueued => fld hi hi.tQueued
  case tSent => fld hi hi.tSent
  case tDoneR => fld hi hi.tDoneR
  case tLoc => fld hi hi.tLoc
  case tDoneL => fld hi hi.tDoneL
  case iNew => fld hi hi.iNew
  case iInq => fld hi hi.iInq
  case iHeld => fld hi hi.iHeld
  case iOver => fld hi hi.iOver
  case iGiven => fld hi hi.iGiven
  case pGot => fld hi hi.pGot
  case pFilled => fld hi hi.pFilled
  case pLoc => fld hi hi.pLoc
  case pPushed => fld hi hi.pPushed
  case hHold => fld hi hi.hHold
  case hReuse => fld hi hi.hReuse
  case mPool => fld hi hi.mPool
  case mReuse => fld hi hi.mReuse
  case mSend => fld hi hi.mSend
  case mChan => fld hi hi.mChan
  case mInq => fld hi hi.mInq
  case mHold => fld hi hi.mHold
  case mSnd => fld hi hi.mSnd
  case sHas => fld hi hi.sHas
  case sSent => fld hi hi.sSent
  case locs => fld hi hi.locs
  case wOut => fld hi hi.wOut
  case wIn => fld hi hi.wIn
  case count => exact count_kill hi.count hl rfl
  case proper => exact all_snoc hi.proper hk'.1
  case sized => exact fun h => all_snoc (hi.sized h) trivial

theorem inv_doneCopiedRel {c : Cfg} {s : S} {w m j : Nat} (hi : Inv c s) (hpc : s.hold w = some m) (hs : s.sti j = .held w m) (hc : c.dcopied j = true) {q : Place} (hq : q = .pool ∨ q = .none) :
    Inv c { s with life := upd s.life (.inp j) .dead, log := s.log ++ [.free (.inp j)], mem := upd s.mem m M.new, place := upd s.place m q, hold := upd s.hold w none, sti := upd s.sti j .over } := by
  obtain ⟨hp, hm, hl, -⟩ := hi.iHeld j w m hs
  obtain ⟨hl, hg⟩ := hl hc
  have hd : (s.mem m).data = some (.inp j) := by rw [hm]; rfl
  constructor
  case bad => fld hi hi.bad
  case fresh => fld hi hi.fresh
  case freshI => fld hi hi.freshI
  case tNew => fld hi hi.tNew
  case tGot => fld hi hi.tGot
  case tFilled => fld hi hi.tFilled
  case tQueued => fld hi hi.tQueued
  case tSent => fld hi hi.tSent
  case tDoneR => fld hi hi.tDoneR
  case tLoc => fld hi hi.tLoc
  case tDoneL => fld hi hi.tDoneL
  case iNew => fld hi hi.iNew
  case iInq => fld hi hi.iInq
  case iHeld => fld hi hi.iHeld
  case iOver => fld hi hi.iOver
  case iGiven => fld hi hi.iGiven
  case pGot => fld hi hi.pGot
  case pFilled => fld hi hi.pFilled
  case pLoc => fld hi hi.pLoc
  case pPushed => fld hi hi.pPushed
  case hHold => fld hi hi.hHold
  case hReuse => fld hi hi.hReuse
  case mPool => fld hi hi.mPool
  case mReuse => fld hi hi.mReuse
  case mSend => fld hi hi.mSend
  case mChan => fld hi hi.mChan
  case mInq => fld hi hi.mInq
  case mHold => fld hi hi.mHold
  case mSnd => fld hi hi.mSnd
  case sHas => fld hi hi.sHas
  case sSent => fld hi hi.sSent
  case locs => fld hi hi.locs
  case wOut => fld hi hi.wOut
  case wIn => fld hi hi.wIn
  case count => exact count_kill hi.count hl rfl
  case proper => exact all_snoc hi.proper hc
  case sized => exact fun h => all_snoc (hi.sized h) trivial

theorem inv_doneKeptRel {c : Cfg} {s : S} {w m j : Nat} (hi : Inv c s) (hpc : s.hold w = some m) (hs : s.sti j = .held w m) (hc : c.dcopied j = false) {q : Place} (hq : q = .pool ∨ q = .none) :
    Inv c { s with mem := upd s.mem m M.new, place := upd s.place m q, hold := upd s.hold w none, sti := upd s.sti j .over } := by
  obtain ⟨hp, hm, -, hl⟩ := hi.iHeld j w m hs
  obtain ⟨hg, hl⟩ := hl hc
  have hd : (s.mem m).data = some (.inp j) := by rw [hm]; rfl
  constructor
  case bad => fld hi hi.bad
  case fresh => fld hi hi.fresh
  case freshI => fld hi hi.freshI
  case tNew => fld hi hi.tNew
  case tGot => fld hi hi.tGot
  case tFilled => fld hi hi.tFilled
  case tQueued => fld hi hi.tQueued
  case tSent => fld hi hi.tSent
  case tDoneR => fld hi hi.tDoneR
  case tLoc => fld hi hi.tLoc
  case tDoneL => fld hi hi.tDoneL
  case iNew => fld hi hi.iNew
  case iInq => fld hi hi.iInq
  case iHeld => fld hi hi.iHeld
  case iOver => fld hi hi.iOver
  case iGiven => fld hi hi.iGiven
  case pGot => fld hi hi.pGot
  case pFilled => fld hi hi.pFilled
  case pLoc => fld hi hi.pLoc
  case pPushed => fld hi hi.pPushed
  case hHold => fld hi hi.hHold
  case hReuse => fld hi hi.hReuse
  case mPool => fld hi hi.mPool
  case mReuse => fld hi hi.mReuse
  case mSend => fld hi hi.mSend
  case mChan => fld hi hi.mChan
  case mInq => fld hi hi.mInq
  case mHold => fld hi hi.mHold
  case mSnd => fld hi hi.mSnd
  case sHas => fld hi hi.sHas
  case sSent => fld hi hi.sSent
  case locs => fld hi hi.locs
  case wOut => fld hi hi.wOut
  case wIn => fld hi hi.wIn
  case count => fld hi hi.count
  case proper => fld hi hi.proper
  case sized => fld hi hi.sized

theorem inv_doneCopiedReuse {c : Cfg} {s : S} {w m j : Nat} (hi : Inv c s) (hpc : s.hold w = some m) (hs : s.sti j = .held w m) (hc : c.dcopied j = true) (hr : s.reuse w = none) :
    Inv c { s with life := upd s.life (.inp j) .dead, log := s.log ++ [.free (.inp j)], mem := upd s.mem m M.new, place := upd s.place m (.reuse w), reuse := upd s.reuse w (some m), hold := upd s.hold w none, sti := upd s.sti j .over } := by
  obtain ⟨hp, hm, hl, -⟩ := hi.iHeld j w m hs
  obtain ⟨hl, hg⟩ := hl hc
  have hd : (s.mem m).data = some (.inp j) := by rw [hm]; rfl
  constructor
  case bad => fld hi hi.bad
  case fresh => fld hi hi.fresh
  case freshI => fld hi hi.freshI
  case tNew => fld hi hi.tNew
  case tGot => fld hi hi.tGot
  case tFilled => fld hi hi.tFilled
  case tQueued => fld hi hi.tQueued
  case tSent => fld hi hi.tSent
  case tDoneR => fld hi hi.tDoneR
  case tLoc => fld hi hi.tLoc
  case tDoneL => fld hi hi.tDoneL
  case iNew => fld hi hi.iNew
  case iInq => fld hi hi.iInq
  case iHeld => fld hi hi.iHeld
  case iOver => fld hi hi.iOver
  case iGiven => fld hi hi.iGiven
  case pGot => fld hi hi.pGot
  case pFilled => fld hi hi.pFilled
  case pLoc => fld hi hi.pLoc
  case pPushed => fld hi hi.pPushed
  case hHold => fld hi hi.hHold
  case hReuse => fld hi hi.hReuse
  case mPool => fld hi hi.mPool
  case mReuse => fld hi hi.mReuse
  case mSend => fld hi hi.mSend
  case mChan => fld hi hi.mChan
  case mInq => fld hi hi.mInq
  case mHold => fld hi hi.mHold
  case mSnd => fld hi hi.mSnd
  case sHas => fld hi hi.sHas
  case sSent => fld hi hi.sSent
  case locs => fld hi hi.locs
  case wOut => fld hi hi.wOut
  case wIn => fld hi hi.wIn
  case count => exact count_kill hi.count hl rfl
  case proper => exact all_snoc hi.proper hc
  case sized => exact fun h => all_snoc (hi.sized h) trivial

theorem inv_doneKeptReuse {c : Cfg} {s : S} {w m j : Nat} (hi : Inv c s) (hpc : s.hold w = some m) (hs : s.sti j = .held w m) (hc : c.dcopied j = false) (hr : s.reuse w = none) :
    Inv c { s with mem := upd s.mem m M.new, place := upd s.place m (.reuse w), reuse := upd s.reuse w (some m), hold := upd s.hold w none, sti := upd s.sti j .over } := by
  obtain ⟨hp, hm, -, hl⟩ := hi.iHeld j w m hs
  obtain ⟨hg, hl⟩ := hl hc
  have hd : (s.mem m).data = some (.inp j) := by rw [hm]; rfl
  constructor
  case bad => fld hi hi.bad
  case fresh => fld hi hi.fresh
  case freshI => fld hi hi.freshI
  case tNew => fld hi hi.tNew
  case tGot => fld hi hi.tGot
  case tFilled => fld hi hi.tFilled
  case tQueued => fld hi hi.tQueued
  case tSent => fld hi hi.tSent
  case tDoneR => fld hi hi.tDoneR
  case tLoc => fld hi hi.tLoc
  case tDoneL => fld hi hi.tDoneL
  case iNew => fld hi hi.iNew
  case iInq => fld hi hi.iInq
  case iHeld => fld hi hi.iHeld
  case iOver => fld hi hi.iOver
  case iGiven => fld hi hi.iGiven
  case pGot => fld hi hi.pGot
  case pFilled => fld hi hi.pFilled
  case pLoc => fld hi hi.pLoc
  case pPushed => fld hi hi.pPushed
  case hHold => fld hi hi.hHold
  case hReuse => fld hi hi.hReuse
  case mPool => fld hi hi.mPool
  case mReuse => fld hi hi.mReuse
  case mSend => fld hi hi.mSend
  case mChan => fld hi hi.mChan
  case mInq => fld hi hi.mInq
  case mHold => fld hi hi.mHold
  case mSnd => fld hi hi.mSnd
  case sHas => fld hi hi.sHas
  case sSent => fld hi hi.sSent
  case locs => fld hi hi.locs
  case wOut => fld hi hi.wOut
  case wIn => fld hi hi.wIn
  case count => fld hi hi.count
  case proper => fld hi hi.proper
  case sized => fld hi hi.sized

theorem inv_pop {c : Cfg} {s : S} {w m : Nat} (hi : Inv c s) (hs : s.spc = .idle) (hp : s.place m = .chan w) :
    Inv c { s with spc := .has m, place := upd s.place m .snd } := by
  have hx := hi.mChan w m hp
  constructor
  case bad => fld hi hi.bad
  case fresh => fld hi hi.fresh
  case freshI => fld hi hi.freshI
  case tNew => fld hi hi.tNew
  case tGot => fld hi hi.tGot
  case tFilled => fld hi hi.tFilled
  case tQueued => fld hi hi.tQueued
  case tSent => fld hi hi.tSent
  case tDoneR => fld hi hi.tDoneR
  case tLoc => fld hi hi.tLoc
  case tDoneL => fld hi hi.tDoneL
  case iNew => fld hi hi.iNew
  case iInq => fld hi hi.iInq
  case iHeld => fld hi hi.iHeld
  case iOver => fld hi hi.iOver
  case iGiven => fld hi hi.iGiven
  case pGot => fld hi hi.pGot
  case pFilled => fld hi hi.pFilled
  case pLoc => fld hi hi.pLoc
  case pPushed => fld hi hi.pPushed
  case hHold => fld hi hi.hHold
  case hReuse => fld hi hi.hReuse
  case mPool => fld hi hi.mPool
  case mReuse => fld hi hi.mReuse
  case mSend => fld hi hi.mSend
  case mChan => fld hi hi.mChan
  case mInq => fld hi hi.mInq
  case mHold => fld hi hi.mHold
  case mSnd => fld hi hi.mSnd
  case sHas => fld hi hi.sHas
  case sSent => fld hi hi.sSent
  case locs => fld hi hi.locs
  case wOut => fld hi hi.wOut
  case wIn => fld hi hi.wIn
  case count => fld hi hi.count
  case proper => fld hi hi.proper
  case sized => fld hi hi.sized

theorem inv_sendEos {c : Cfg} {s : S} {m : Nat} (hi : Inv c s) (hs : s.spc = .has m) (hm : s.mem m = M.new) :
    Inv c { s with spc := .sent m, wire := s.wire ++ [.eos] } := by
  obtain ⟨hp, -, -⟩ := hi.sHas m hs
  have hd : (s.mem m).data = none := by rw [hm]; rfl
  constructor
  case bad => fld hi hi.bad
  case fresh => fld hi hi.fresh
  case freshI => fld hi hi.freshI
  case tNew => fld hi hi.tNew
  case tGot => fld hi hi.tGot
  case tFilled => fld hi hi.tFilled
  case tQueued => fld hi hi.tQueued
  case tSent => fld hi hi.tSent
  case tDoneR => fld hi hi.tDoneR
  case tLoc => fld hi hi.tLoc
  case tDoneL => fld hi hi.tDoneL
  case iNew => fld hi hi.iNew
  case iInq => fld hi hi.iInq
  case iHeld => fld hi hi.iHeld
  case iOver => fld hi hi.iOver
  case iGiven => fld hi hi.iGiven
  case pGot => fld hi hi.pGot
  case pFilled => fld hi hi.pFilled
  case pLoc => fld hi hi.pLoc
  case pPushed => fld hi hi.pPushed
  case hHold => fld hi hi.hHold
  case hReuse => fld hi hi.hReuse
  case mPool => fld hi hi.mPool
  case mReuse => fld hi hi.mReuse
  case mSend => fld hi hi.mSend
  case mChan => fld hi hi.mChan
  case mInq => fld hi hi.mInq
  case mHold => fld hi hi.mHold
  case mSnd => fld hi hi.mSnd
  case sHas => fld hi hi.sHas
  case sSent => fld hi hi.sSent
  case locs => fld hi hi.locs
  case wOut => fld hi hi.wOut
  case wIn => fld hi hi.wIn
  case count => fld hi hi.count
  case proper => fld hi hi.proper
  case sized => fld hi hi.sized

theorem inv_send {c : Cfg} {s : S} {m k w : Nat} {x : M} (hi : Inv c s) (hs : s.spc = .has m) (hst : s.st k = .queued w m) (hx : SentM c k x) :
    Inv c { s with spc := .sent m, wire := s.wire ++ [.data (.out k) (c.ser k).bytes], mem := upd s.mem m x, st := upd s.st k (.sent w m) } := by
  obtain ⟨hp, -, -⟩ := hi.sHas m hs
  obtain ⟨-, hm, l1, l2, l3⟩ := hi.tQueued k w m hst
  have hw := hi.wOut k
  constructor
  case bad => fld hi hi.bad
  case fresh => fld hi hi.fresh
  case freshI => fld hi hi.freshI
  case tNew => fld hi hi.tNew
  case tGot => fld hi hi.tGot
  case tFilled => fld hi hi.tFilled
  case tQueued => fld hi hi.tQueued
  case tSent => fld hi hi.tSent
  case tDoneR => fld hi hi.tDoneR
  case tLoc => fld hi hi.tLoc
  case tDoneL => fld hi hi.tDoneL
  case iNew => fld hi hi.iNew
  case iInq => fld hi hi.iInq
  case iHeld => fld hi hi.iHeld
  case iOver => fld hi hi.iOver
  case iGiven => fld hi hi.iGiven
  case pGot => fld hi hi.pGot
  case pFilled => fld hi hi.pFilled
  case pLoc => fld hi hi.pLoc
  case pPushed => fld hi hi.pPushed
  case hHold => fld hi hi.hHold
  case hReuse => fld hi hi.hReuse
  case mPool => fld hi hi.mPool
  case mReuse => fld hi hi.mReuse
  case mSend => fld hi hi.mSend
  case mChan => fld hi hi.mChan
  case mInq => fld hi hi.mInq
  case mHold => fld hi hi.mHold
  case mSnd => fld hi hi.mSnd
  case sHas => fld hi hi.sHas
  case sSent => fld hi hi.sSent
  case locs => fld hi hi.locs
  case wOut => fld hi hi.wOut
  case wIn => fld hi hi.wIn
  case count => fld hi hi.count
  case proper => fld hi hi.proper
  case sized => fld hi hi.sized

theorem inv_finishEos {c : Cfg} {s : S} {m : Nat} {q : Place} (hi : Inv c s) (hs : s.spc = .sent m) (hm : s.mem m = M.new) (hq : q = .pool ∨ q = .none) :
    Inv c { s with mem := upd s.mem m M.new, place := upd s.place m q, spc := .idle } := by
  obtain ⟨hp, -, -⟩ := hi.sSent m hs
  constructor
  case bad => fld hi hi.bad
  case fresh => fld hi hi.fresh
  case freshI => fld hi hi.freshI
  case tNew => fld hi hi.tNew
  case tGot => fld hi hi.tGot
  case tFilled => fld hi hi.tFilled
  case tQueued => fld hi hi.tQueued
  case tSent => fld hi hi.tSent
  case tDoneR => fld hi hi.tDoneR
  case tLoc => fld hi hi.tLoc
  case tDoneL => fld hi hi.tDoneL
  case iNew => fld hi hi.iNew
  case iInq => fld hi hi.iInq
  case iHeld => fld hi hi.iHeld
  case iOver => fld hi hi.iOver
  case iGiven => fld hi hi.iGiven
  case pGot => fld hi hi.pGot
  case pFilled => fld hi hi.pFilled
  case pLoc => fld hi hi.pLoc
  case pPushed => fld hi hi.pPushed
  case hHold => fld hi hi.hHold
  case hReuse => fld hi hi.hReuse
  case mPool => fld hi hi.mPool
  case mReuse => fld hi hi.mReuse
  case mSend => fld hi hi.mSend
  case mChan => fld hi hi.mChan
  case mInq => fld hi hi.mInq
  case mHold => fld hi hi.mHold
  case mSnd => fld hi hi.mSnd
  case sHas => fld hi hi.sHas
  case sSent => fld hi hi.sSent
  case locs => fld hi hi.locs
  case wOut => fld hi hi.wOut
  case wIn => fld hi hi.wIn
  case count => fld hi hi.count
  case proper => fld hi hi.proper
  case sized => fld hi hi.sized

theorem inv_finishCopied {c : Cfg} {s : S} {m k w : Nat} {q : Place} {r : Rel} (hi : Inv c s) (hs : s.spc = .sent m) (hst : s.st k = .sent w m) (hq : q = .pool ∨ q = .none)
    (hc : (c.ser k).copied = true) (hr : r.block c = .buf k) (hpr : r.proper c)
    (hsz : (∀ k, c.direct (c.ser k).bytes.length = true → (c.ser k).bytes.length ≤ c.thr) → r.sized c) :
    Inv c { s with life := upd s.life (.buf k) .dead, log := s.log ++ [r], mem := upd s.mem m M.new, place := upd s.place m q, spc := .idle, st := upd s.st k (.doneR w) } := by
  obtain ⟨hp, -, hm, l1, l2, l3⟩ := hi.tSent k w m hst
  have hl : s.life (.buf k) = .alive := by rw [l1, Cfg.bufA, if_pos hc]
  constructor
  case bad => fld hi hi.bad
  case fresh => fld hi hi.fresh
  case freshI => fld hi hi.freshI
  case tNew => fld hi hi.tNew
  case tGot => fld hi hi.tGot
  case tFilled => fld hi hi.tFilled
  case tQueued => fld hi hi.tQueued
  case tSent => fld hi hi.tSent
  case tDoneR => fld hi hi.tDoneR
  case tLoc => fld hi hi.tLoc
  case tDoneL => fld hi hi.tDoneL
  case iNew => fld hi hi.iNew
  case iInq => fld hi hi.iInq
  case iHeld => fld hi hi.iHeld
  case iOver => fld hi hi.iOver
  case iGiven => fld hi hi.iGiven
  case pGot => fld hi hi.pGot
  case pFilled => fld hi hi.pFilled
  case pLoc => fld hi hi.pLoc
  case pPushed => fld hi hi.pPushed
  case hHold => fld hi hi.hHold
  case hReuse => fld hi hi.hReuse
  case mPool => fld hi hi.mPool
  case mReuse => fld hi hi.mReuse
  case mSend => fld hi hi.mSend
  case mChan => fld hi hi.mChan
  case mInq => fld hi hi.mInq
  case mHold => fld hi hi.mHold
  case mSnd => fld hi hi.mSnd
  case sHas => fld hi hi.sHas
  case sSent => fld hi hi.sSent
  case locs => fld hi hi.locs
  case wOut => fld hi hi.wOut
  case wIn => fld hi hi.wIn
  case count => exact count_kill hi.count hl hr
  case proper => exact all_snoc hi.proper hpr
  case sized => exact fun h => all_snoc (hi.sized h) (hsz h)

theorem inv_finishBorrowed {c : Cfg} {s : S} {m k w : Nat} {q : Place} {r : Rel} (hi : Inv c s) (hs : s.spc = .sent m) (hst : s.st k = .sent w m) (hq : q = .pool ∨ q = .none)
    (hc : (c.ser k).copied = false) (hr : r.block c = .obj k) (hpr : r.proper c)
    (hsz : (∀ k, c.direct (c.ser k).bytes.length = true → (c.ser k).bytes.length ≤ c.thr) → r.sized c) :
    Inv c { s with life := upd s.life (.obj k) .dead, log := s.log ++ [r], mem := upd s.mem m M.new, place := upd s.place m q, spc := .idle, st := upd s.st k (.doneR w) } := by
  obtain ⟨hp, -, hm, l1, l2, l3⟩ := hi.tSent k w m hst
  have hl : s.life (.obj k) = .alive := l3 hc
  constructor
  case bad => fld hi hi.bad
  case fresh => fld hi hi.fresh
  case freshI => fld hi hi.freshI
  case tNew => fld hi hi.tNew
  case tGot => fld hi hi.tGot
  case tFilled => fld hi hi.tFilled
  case tQueued => fld hi hi.tQueued
  case tSent => fld hi hi.tSent
  case tDoneR => fld hi hi.tDoneR
  case tLoc => fld hi hi.tLoc
  case tDoneL => fld hi hi.tDoneL
  case iNew => fld hi hi.iNew
  case iInq => fld hi hi.iInq
  case iHeld => fld hi hi.iHeld
  case iOver => fld hi hi.iOver
  case iGiven => fld hi hi.iGiven
  case pGot => fld hi hi.pGot
  case pFilled => fld hi hi.pFilled
  case pLoc => fld hi hi.pLoc
  case pPushed => fld hi hi.pPushed
  case hHold => fld hi hi.hHold
  case hReuse => fld hi hi.hReuse
  case mPool => fld hi hi.mPool
  case mReuse => fld hi hi.mReuse
  case mSend => fld hi hi.mSend
  case mChan => fld hi hi.mChan
  case mInq => fld hi hi.mInq
  case mHold => fld hi hi.mHold
  case mSnd => fld hi hi.mSnd
  case sHas => fld hi hi.sHas
  case sSent => fld hi hi.sSent
  case locs => fld hi hi.locs
  case wOut => fld hi hi.wOut
  case wIn => fld hi hi.wIn
  case count => exact count_kill hi.count hl hr
  case proper => exact all_snoc hi.proper hpr
  case sized => exact fun h => all_snoc (hi.sized h) (hsz h)

end FF.Life
