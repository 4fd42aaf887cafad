import Verif.Life.Spec
/-! # C70: the invariant -/
namespace FF.Life
open FF

/-- the buffer of task `k` while a message carries it -/
def Cfg.bufA (c : Cfg) (k : Nat) : Life := if (c.ser k).copied then .alive else .unborn
/-- ... and afterwards -/
def Cfg.bufD (c : Cfg) (k : Nat) : Life := if (c.ser k).copied then .dead else .unborn

/-- the task, once its message has been sent by node `w` -/
def ObjC (c : Cfg) (s : S) (k w : Nat) : Prop :=
  (c.ser k).copied = true → (s.life (.obj k) = .alive ∧ s.pc w = .pushed k) ∨ s.life (.obj k) = .dead

/-- the message of task `k` after `uBuffer::push` -/
def SentM (c : Cfg) (k : Nat) (x : M) : Prop :=
  x = c.fillM k ∨
  (c.direct (c.ser k).bytes.length = true ∧ c.thr < (c.ser k).bytes.length ∧ x = { c.fillM k with size := 0 })

/-- message `m` is in a queue and carries the task -/
def St.isQ (m : Nat) : St → Bool
  | .queued _ m' => m' == m
  | _ => false
/-- message `m` has been sent and carries the task -/
def St.isS (m : Nat) : St → Bool
  | .sent _ m' => m' == m
  | _ => false
/-- the message of the task has been put into a queue by node `w` -/
def St.by (w : Nat) : St → Bool
  | .queued w' _ => w' == w
  | .sent w' _ => w' == w
  | .doneR w' => w' == w
  | _ => false
/-- the bytes of the task have gone out -/
def St.isOut : St → Bool
  | .sent _ _ => true
  | .doneR _ => true
  | _ => false
/-- the task has been given to a node of the same group -/
def St.isLoc : St → Bool
  | .loc _ _ => true
  | .doneL => true
  | _ => false
def Place.isChan : Place → Bool
  | .chan _ => true
  | _ => false
def Pc.holds (m : Nat) : Pc → Bool
  | .got _ m' => m' == m
  | .filled _ m' => m' == m
  | .loc _ m' => m' == m
  | _ => false
def M.isOut (x : M) : Bool := match x.data with
  | some (.out _) => true
  | _ => false
def M.isInp (x : M) : Bool := match x.data with
  | some (.inp _) => true
  | _ => false

structure Inv (c : Cfg) (s : S) : Prop where
  bad : s.bad = false
  fresh : ∀ k, s.next ≤ k ↔ s.st k = .new
  freshI : ∀ j, s.nextIn ≤ j ↔ s.sti j = .new
  tNew : ∀ k, s.st k = .new → s.life (.obj k) = .unborn ∧ s.life (.buf k) = .unborn
  tGot : ∀ k w m, s.st k = .got w m →
    s.pc w = .got k m ∧ s.life (.obj k) = .alive ∧ s.life (.buf k) = .unborn
  tFilled : ∀ k w m, s.st k = .filled w m → s.pc w = .filled k m ∧ s.place m = .send w ∧
    s.mem m = c.fillM k ∧ s.life (.obj k) = .alive ∧ s.life (.buf k) = c.bufA k
  tQueued : ∀ k w m, s.st k = .queued w m →
    ((s.place m).isChan = true ∨ (s.place m = .snd ∧ s.spc = .has m)) ∧ s.mem m = c.fillM k ∧
    s.life (.buf k) = c.bufA k ∧ ObjC c s k w ∧ ((c.ser k).copied = false → s.life (.obj k) = .alive)
  tSent : ∀ k w m, s.st k = .sent w m → s.place m = .snd ∧ s.spc = .sent m ∧ SentM c k (s.mem m) ∧
    s.life (.buf k) = c.bufA k ∧ ObjC c s k w ∧ ((c.ser k).copied = false → s.life (.obj k) = .alive)
  tDoneR : ∀ k w, s.st k = .doneR w → s.life (.buf k) = c.bufD k ∧ ObjC c s k w ∧
    ((c.ser k).copied = false → s.life (.obj k) = .dead)
  tLoc : ∀ k w m, s.st k = .loc w m → s.pc w = .loc k m ∧ s.place m = .send w ∧
    s.mem m = c.fillM k ∧ s.life (.buf k) = c.bufA k ∧ s.life (.obj k) ≠ .unborn
  tDoneL : ∀ k, s.st k = .doneL → s.life (.buf k) = c.bufD k ∧ s.life (.obj k) ≠ .unborn
  iNew : ∀ j, s.sti j = .new → s.life (.inp j) = .unborn
  iInq : ∀ j w m, s.sti j = .inq w m → s.place m = .inq w ∧ s.mem m = c.recvM j M.new ∧
    s.life (.inp j) = .alive ∧ j ∉ s.given
  iHeld : ∀ j w m, s.sti j = .held w m → s.place m = .hold w ∧ s.mem m = c.recvM j M.new ∧
    (c.dcopied j = true → s.life (.inp j) = .alive ∧ j ∉ s.given) ∧
    (c.dcopied j = false → j ∈ s.given ∧ s.life (.inp j) ≠ .unborn)
  iOver : ∀ j, s.sti j = .over → (c.dcopied j = true → s.life (.inp j) = .dead ∧ j ∉ s.given) ∧
    (c.dcopied j = false → j ∈ s.given ∧ s.life (.inp j) ≠ .unborn)
  iGiven : ∀ j, j ∈ s.given → c.dcopied j = false ∧ s.sti j ≠ .new
  pGot : ∀ w k m, s.pc w = .got k m → s.st k = .got w m ∧ s.place m = .send w ∧ s.mem m = M.new
  pFilled : ∀ w k m, s.pc w = .filled k m → s.st k = .filled w m
  pLoc : ∀ w k m, s.pc w = .loc k m → s.st k = .loc w m
  pPushed : ∀ w k, s.pc w = .pushed k →
    (s.st k).by w = true ∧
    ((c.ser k).copied = true → s.life (.obj k) = .alive)
  hHold : ∀ w m, s.hold w = some m → s.place m = .hold w ∧ (s.mem m).isInp = true ∧ ∀ j, (s.mem m).data = some (.inp j) → s.sti j = .held w m
  hReuse : ∀ w m, s.reuse w = some m → s.place m = .reuse w
  mPool : ∀ m, s.place m = .pool → s.mem m = M.new
  mReuse : ∀ w m, s.place m = .reuse w → s.mem m = M.new ∧ s.reuse w = some m
  mSend : ∀ w m, s.place m = .send w → (s.pc w).holds m = true
  mChan : ∀ w m, s.place m = .chan w →
    (s.mem m = M.new ∨ (s.mem m).isOut = true) ∧ ∀ k, (s.mem m).data = some (.out k) → (s.st k).isQ m = true
  mInq : ∀ w m, s.place m = .inq w →
    (s.mem m = M.new ∨ (s.mem m).isInp = true) ∧ ∀ j, (s.mem m).data = some (.inp j) → s.sti j = .inq w m
  mHold : ∀ w m, s.place m = .hold w → s.hold w = some m
  mSnd : ∀ m, s.place m = .snd → s.spc = .has m ∨ s.spc = .sent m
  sHas : ∀ m, s.spc = .has m → s.place m = .snd ∧
    (s.mem m = M.new ∨ (s.mem m).isOut = true) ∧ ∀ k, (s.mem m).data = some (.out k) → (s.st k).isQ m = true
  sSent : ∀ m, s.spc = .sent m → s.place m = .snd ∧
    (s.mem m = M.new ∨ (s.mem m).isOut = true) ∧ ∀ k, (s.mem m).data = some (.out k) → (s.st k).isS m = true
  locs : ∀ k, k ∈ s.locals ↔ (s.st k).isLoc = true
  wOut : ∀ k, sentFor s k = if (s.st k).isOut then [.data (.out k) (c.ser k).bytes] else []
  wIn : ∀ d b, Wire.data d b ∈ s.wire → ∃ k, d = .out k
  count : ∀ b, releases c s b = if s.life b = .dead then 1 else 0
  proper : ∀ r ∈ s.log, r.proper c
  sized : (∀ k, c.direct (c.ser k).bytes.length = true → (c.ser k).bytes.length ≤ c.thr) → ∀ r ∈ s.log, r.sized c

@[grind =] theorem fillM_data (c : Cfg) (k : Nat) : (c.fillM k).data = some (.out k) := rfl
@[grind =] theorem fillM_size (c : Cfg) (k : Nat) : (c.fillM k).size = (c.ser k).bytes.length := rfl
@[grind =] theorem fillM_cleanup (c : Cfg) (k : Nat) : (c.fillM k).cleanup = true := rfl
@[grind =] theorem new_data : M.new.data = none := rfl
@[grind =] theorem recvM_data (c : Cfg) (j : Nat) (x : M) : (c.recvM j x).data = some (.inp j) := rfl
@[grind =] theorem recvM_size (c : Cfg) (j : Nat) (x : M) : (c.recvM j x).size = (c.rbytes j).length := rfl

theorem Inv.init (c : Cfg) : Inv c S.init := by
  constructor <;> simp [S.init, sentFor, releases, St.isLoc, St.isOut]

theorem upd_upd {I V : Type} [DecidableEq I] (f : I → V) (i : I) (v v' : V) : upd (upd f i v) i v' = upd f i v' := by
  funext j; simp only [upd]; split <;> rfl

theorem kill_alive {s : S} {b : Blk} {r : Rel} (h : s.life b = .alive) :
    s.kill b r = { s with life := upd s.life b .dead, log := s.log ++ [r] } := if_pos h

theorem clean_of {c : Cfg} {s s1 : S} {m : Nat} (h : s.releaseData c (s.mem m) = s1) :
    s.cleanContent c m = { s1 with mem := upd s1.mem m M.new } := by
  subst h; rfl

theorem clean_new (c : Cfg) {s : S} {m : Nat} (h : (s.mem m).data = none ∨ (s.mem m).cleanup = false) :
    s.cleanContent c m = { s with mem := upd s.mem m M.new } := by
  refine clean_of ?_
  unfold S.releaseData
  rcases h with h | h
  · rw [h]
  · cases (s.mem m).data <;> simp [h]

theorem delete_new (c : Cfg) {s : S} {m : Nat} (h : (s.mem m).data = none ∨ (s.mem m).cleanup = false) :
    s.delete c m = { s with mem := upd s.mem m M.new, place := upd s.place m .none } := by
  unfold S.delete; rw [clean_new c h]

theorem release_of {c : Cfg} {s s1 : S} {m : Nat} (keep : Bool) (h : s.releaseData c (s.mem m) = s1) :
    s.release c m keep =
      { s1 with mem := upd s1.mem m M.new, place := upd s1.place m (if keep then .pool else .none) } := by
  unfold S.release
  rw [clean_of h]
  cases keep with
  | true => rfl
  | false =>
    simp only [Bool.false_eq_true, if_false]
    rw [delete_new c (Or.inl (by simp [M.new]))]
    simp only [upd_upd]

theorem release_new (c : Cfg) {s : S} {m : Nat} (keep : Bool)
    (h : (s.mem m).data = none ∨ (s.mem m).cleanup = false) :
    s.release c m keep =
      { s with mem := upd s.mem m M.new, place := upd s.place m (if keep then .pool else .none) } := by
  refine release_of keep ?_
  unfold S.releaseData
  rcases h with h | h
  · rw [h]
  · cases (s.mem m).data <;> simp [h]

theorem releases_snoc (c : Cfg) (s s' : S) (r : Rel) (h : s'.log = s.log ++ [r]) (b : Blk) :
    releases c s' b = releases c s b + if r.block c = b then 1 else 0 := by
  unfold releases
  rw [h, List.map_append, List.count_append]
  simp [List.count_cons]

theorem alloc_eq {c : Cfg} {s s' : S} {m : Nat} (hi : Inv c s) (h : s.alloc m = some s') :
    s' = { s with mem := upd s.mem m M.new } ∧ (s.place m = .pool ∨ s.place m = .none) := by
  unfold S.alloc at h
  split at h
  · rename_i hp
    simp only [Option.some.injEq] at h
    subst h
    refine ⟨?_, Or.inl hp⟩
    have : upd s.mem m M.new = s.mem := by
      funext x; simp only [upd]; split
      · rename_i e; rw [e, hi.mPool m hp]
      · rfl
    rw [this]
  · rename_i hp
    simp only [Option.some.injEq] at h
    exact ⟨h.symm, Or.inr hp⟩
  · exact absurd h (by simp)

end FF.Life
