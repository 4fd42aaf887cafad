/-
Invariants of the queues made of several queues: what goes in and out of each inner queue, and the counters.
-/
import Verif.Pool.Model

namespace FF.Pool

/-! ### Projections of the log -/

def eCall : Ev → Option (Nat × Nat)
  | .callPush t v => some (t, v)
  | _ => none
def ePut : Ev → Option (Nat × Nat)
  | .put t _ v => some (t, v)
  | _ => none
def eCnt : Ev → Option (Nat × Nat)
  | .counted t v => some (t, v)
  | _ => none
def eTook : Ev → Option (Nat × Nat)
  | .took t _ v => some (t, v)
  | _ => none
def eDct : Ev → Option (Nat × Nat)
  | .discounted t v => some (t, v)
  | _ => none
def ePop : Ev → Option (Nat × Nat)
  | .retPop t (some v) => some (t, v)
  | _ => none
/-- Inner queue and value of an insertion. -/
def qPut : Ev → Option (Nat × Nat)
  | .put _ q v => some (q, v)
  | _ => none
/-- Inner queue and value of an extraction. -/
def qTook : Ev → Option (Nat × Nat)
  | .took _ q v => some (q, v)
  | _ => none

/-- The value a thread still has to put. -/
def Pc.toPut : Pc → Option Nat
  | .pTick v | .pPut v _ => some v
  | _ => none
/-- … still has to count. -/
def Pc.toCnt : Pc → Option Nat
  | .pCnt v => some v
  | _ => none
/-- … still has to subtract from the count. -/
def Pc.toDec : Pc → Option Nat
  | .cDec v => some v
  | _ => none
/-- … still has to return. -/
def Pc.toRet : Pc → Option Nat
  | .cDec v | .cRet (some v) => some v
  | _ => none

/-- Values of the pairs with first component `q`. -/
def at_ (q : Nat) (l : List (Nat × Nat)) : List Nat := (l.filter (fun x => x.1 == q)).map Prod.snd

@[simp] theorem upd_same {β : Type} (f : Nat → β) (i : Nat) (x : β) : upd f i x i = x := by simp [upd]
theorem upd_ne {β : Type} (f : Nat → β) {i j : Nat} (x : β) (h : j ≠ i) : upd f i x j = f j := by
  simp [upd, h]

/-- `f` counts as much as `g` plus what threads hold according to `h`. -/
def Bal (f g : Ev → Option (Nat × Nat)) (h : Pc → Option Nat) (s : S) : Prop :=
  ∀ u v, (s.log.filterMap f).count (u, v) =
    (s.log.filterMap g).count (u, v) + if h (s.pc u) = some v then 1 else 0

def one (b : Option (Nat × Nat)) (u v : Nat) : Nat := if b = some (u, v) then 1 else 0

theorem count_filterMap_cons (f : Ev → Option (Nat × Nat)) (e : Ev) (l : List Ev) (u v : Nat) :
    ((e :: l).filterMap f).count (u, v) = (l.filterMap f).count (u, v) + one (f e) u v := by
  rw [List.filterMap_cons]
  unfold one
  cases h : f e with
  | none => simp
  | some x => simp [List.count_cons]

/-- One step keeps the balance if it does locally. -/
theorem Bal.ev {f g : Ev → Option (Nat × Nat)} {h : Pc → Option Nat} {s s' : S} (hI : Bal f g h s)
    (t : Nat) (c : Pc) (e : Ev) (hpc : s'.pc = upd s.pc t c) (hlog : s'.log = e :: s.log)
    (hloc : ∀ u v, one (f e) u v + (if u = t then (if h (s.pc t) = some v then 1 else 0) else 0) =
      one (g e) u v + (if u = t then (if h c = some v then 1 else 0) else 0)) : Bal f g h s' := by
  intro u v
  rw [hlog, hpc, count_filterMap_cons, count_filterMap_cons, hI u v]
  have := hloc u v
  by_cases hu : u = t
  · subst hu; simp at this ⊢; omega
  · rw [upd_ne _ _ hu]; simp [hu] at this; omega

theorem Bal.quiet {f g : Ev → Option (Nat × Nat)} {h : Pc → Option Nat} {s s' : S} (hI : Bal f g h s)
    (t : Nat) (c : Pc) (hpc : s'.pc = upd s.pc t c) (hlog : s'.log = s.log)
    (hloc : h (s.pc t) = h c) : Bal f g h s' := by
  intro u v
  rw [hlog, hpc, hI u v]
  by_cases hu : u = t
  · subst hu; simp [hloc]
  · rw [upd_ne _ _ hu]

theorem at_log (f : Ev → Option (Nat × Nat)) (e : Ev) (l : List Ev) (q : Nat) :
    (at_ q ((e :: l).filterMap f)).reverse = (at_ q (l.filterMap f)).reverse ++ at_ q (f e).toList := by
  rw [List.filterMap_cons]
  cases f e with
  | none => simp [at_]
  | some x => by_cases hx : x.1 = q <;> simp [at_, List.filter_cons, hx]

structure Inv (n : Nat) (s : S) : Prop where
  put : Bal eCall ePut Pc.toPut s
  cntd : Bal ePut eCnt Pc.toCnt s
  dct : Bal eTook eDct Pc.toDec s
  ret : Bal eTook ePop Pc.toRet s
  cnt : s.cnt = (s.log.filterMap eCnt).length - (s.log.filterMap eDct).length
  sub : ∀ q, (at_ q (s.log.filterMap qPut)).reverse = (at_ q (s.log.filterMap qTook)).reverse ++ s.sub q
  pq : ∀ t v q, s.pc t = .pPut v q → q < n
  cq : ∀ t q, s.pc t = .cTake q → q < n
  qp : ∀ x ∈ s.log.filterMap qPut, x.1 < n
  qt : ∀ x ∈ s.log.filterMap qTook, x.1 < n

theorem init_inv (k : Kind) (n : Nat) : Inv n (init k) where
  put := by intro u v; simp [init, Pc.toPut]
  cntd := by intro u v; simp [init, Pc.toCnt]
  dct := by intro u v; simp [init, Pc.toDec]
  ret := by intro u v; simp [init, Pc.toRet]
  cnt := by simp [init]
  sub := by intro q; simp [init, at_]
  pq := by intro t v q h; simp [init] at h
  cq := by intro t q h; simp [init] at h
  qp := by simp [init]
  qt := by simp [init]

/-- A step that only moves a thread. -/
theorem Inv.move {n : Nat} {s s' : S} (hI : Inv n s) (t : Nat) (c : Pc)
    (hpc : s'.pc = upd s.pc t c) (hlog : s'.log = s.log) (hcnt : s'.cnt = s.cnt) (hsub : s'.sub = s.sub)
    (h1 : (s.pc t).toPut = c.toPut) (h2 : (s.pc t).toCnt = c.toCnt) (h3 : (s.pc t).toDec = c.toDec)
    (h4 : (s.pc t).toRet = c.toRet) (h5 : ∀ v q, c = .pPut v q → q < n) (h6 : ∀ q, c = .cTake q → q < n) :
    Inv n s' where
  put := hI.put.quiet t c hpc hlog h1
  cntd := hI.cntd.quiet t c hpc hlog h2
  dct := hI.dct.quiet t c hpc hlog h3
  ret := hI.ret.quiet t c hpc hlog h4
  cnt := by rw [hlog, hcnt]; exact hI.cnt
  sub := by rw [hlog, hsub]; exact hI.sub
  pq := by
    intro u v q h
    rw [hpc] at h
    by_cases hu : u = t
    · subst hu; rw [upd_same] at h; exact h5 v q h
    · rw [upd_ne _ _ hu] at h; exact hI.pq u v q h
  cq := by
    intro u q h
    rw [hpc] at h
    by_cases hu : u = t
    · subst hu; rw [upd_same] at h; exact h6 q h
    · rw [upd_ne _ _ hu] at h; exact hI.cq u q h
  qp := by rw [hlog]; exact hI.qp
  qt := by rw [hlog]; exact hI.qt

/-- A step with an event. -/
theorem Inv.event {n : Nat} {s s' : S} (hI : Inv n s) (t : Nat) (c : Pc) (e : Ev)
    (hpc : s'.pc = upd s.pc t c) (hlog : s'.log = e :: s.log)
    (hcnt : s'.cnt = s.cnt + ((eCnt e).toList.length : Int) - ((eDct e).toList.length : Int))
    (hsub : ∀ q, at_ q (qTook e).toList ++ s'.sub q = s.sub q ++ at_ q (qPut e).toList)
    (h1 : ∀ u v, one (eCall e) u v + (if u = t then (if (s.pc t).toPut = some v then 1 else 0) else 0) =
      one (ePut e) u v + (if u = t then (if c.toPut = some v then 1 else 0) else 0))
    (h2 : ∀ u v, one (ePut e) u v + (if u = t then (if (s.pc t).toCnt = some v then 1 else 0) else 0) =
      one (eCnt e) u v + (if u = t then (if c.toCnt = some v then 1 else 0) else 0))
    (h3 : ∀ u v, one (eTook e) u v + (if u = t then (if (s.pc t).toDec = some v then 1 else 0) else 0) =
      one (eDct e) u v + (if u = t then (if c.toDec = some v then 1 else 0) else 0))
    (h4 : ∀ u v, one (eTook e) u v + (if u = t then (if (s.pc t).toRet = some v then 1 else 0) else 0) =
      one (ePop e) u v + (if u = t then (if c.toRet = some v then 1 else 0) else 0))
    (h5 : ∀ v q, c = .pPut v q → q < n) (h6 : ∀ q, c = .cTake q → q < n)
    (h7 : ∀ x, qPut e = some x → x.1 < n) (h8 : ∀ x, qTook e = some x → x.1 < n) :
    Inv n s' where
  put := hI.put.ev t c e hpc hlog h1
  cntd := hI.cntd.ev t c e hpc hlog h2
  dct := hI.dct.ev t c e hpc hlog h3
  ret := hI.ret.ev t c e hpc hlog h4
  cnt := by
    rw [hlog, hcnt, hI.cnt]
    simp only [List.filterMap_cons]
    cases eCnt e <;> cases eDct e <;> simp <;> omega
  sub := by
    intro q
    rw [hlog]
    have h := hsub q
    have k := hI.sub q
    rw [at_log, at_log, k, List.append_assoc, List.append_assoc, h]
  pq := by
    intro u v q h
    rw [hpc] at h
    by_cases hu : u = t
    · subst hu; rw [upd_same] at h; exact h5 v q h
    · rw [upd_ne _ _ hu] at h; exact hI.pq u v q h
  cq := by
    intro u q h
    rw [hpc] at h
    by_cases hu : u = t
    · subst hu; rw [upd_same] at h; exact h6 q h
    · rw [upd_ne _ _ hu] at h; exact hI.cq u q h
  qp := by
    rw [hlog]
    intro x hx
    simp only [List.filterMap_cons] at hx
    cases hp : qPut e with
    | none => rw [hp] at hx; exact hI.qp x hx
    | some y =>
      rw [hp] at hx
      rcases List.mem_cons.1 hx with h | h
      · subst h; exact h7 _ hp
      · exact hI.qp x h
  qt := by
    rw [hlog]
    intro x hx
    simp only [List.filterMap_cons] at hx
    cases hp : qTook e with
    | none => rw [hp] at hx; exact hI.qt x hx
    | some y =>
      rw [hp] at hx
      rcases List.mem_cons.1 hx with h | h
      · subst h; exact h8 _ hp
      · exact hI.qt x h

theorem step_inv {k : Kind} {n : Nat} (hn : 0 < n) {s s' : S} {act : Act} (hI : Inv n s)
    (hs : step k n s act = some s') : Inv n s' := by
  cases act with
  | callPush t v =>
    simp only [step] at hs
    split at hs <;> cases hs
    rename_i ht
    refine hI.event t _ _ rfl rfl ?_ ?_ ?_ ?_ ?_ ?_ ?_ ?_ ?_ ?_
    all_goals simp [ht, eCall, ePut, eCnt, eTook, eDct, ePop, qPut, qTook, Pc.toPut, Pc.toCnt, Pc.toDec, Pc.toRet,
      at_, one]
    intro u w
    by_cases hu : u = t <;> by_cases hw : v = w <;> simp [hu, hw, eq_comm] <;> simp_all [eq_comm]
  | callPop t =>
    simp only [step] at hs
    split at hs <;> cases hs
    rename_i ht
    refine hI.event t _ _ rfl rfl ?_ ?_ ?_ ?_ ?_ ?_ ?_ ?_ ?_ ?_
    all_goals simp [ht, eCall, ePut, eCnt, eTook, eDct, ePop, qPut, qTook, Pc.toPut, Pc.toCnt, Pc.toDec, Pc.toRet,
      at_, one]
  | go t =>
    simp only [step, go] at hs
    cases ht : s.pc t <;> rw [ht] at hs <;> simp only at hs
    case idle => cases hs
    case cCnt =>
      cases hs
      refine hI.move t _ rfl rfl rfl rfl ?_ ?_ ?_ ?_ ?_ ?_ <;> (try rw [ht])
      all_goals split <;> (try split) <;> simp [Pc.toPut, Pc.toCnt, Pc.toDec, Pc.toRet]
    case cDeq =>
      cases hs
      refine hI.move t _ rfl rfl rfl rfl ?_ ?_ ?_ ?_ ?_ ?_
      all_goals simp [ht, Pc.toPut, Pc.toCnt, Pc.toDec, Pc.toRet]
    case cEnq q =>
      cases hs
      refine hI.move t _ rfl rfl rfl rfl ?_ ?_ ?_ ?_ ?_ ?_ <;> (try rw [ht])
      all_goals split <;> simp [Pc.toPut, Pc.toCnt, Pc.toDec, Pc.toRet]
    case cCas q =>
      split at hs <;> cases hs
      · refine hI.event t _ _ rfl rfl ?_ ?_ ?_ ?_ ?_ ?_ ?_ ?_ ?_ ?_
        all_goals simp [ht, eCall, ePut, eCnt, eTook, eDct, ePop, qPut, qTook, Pc.toPut, Pc.toCnt, Pc.toDec,
          Pc.toRet, at_, one]
        exact Nat.mod_lt _ hn
      · refine hI.move t _ rfl rfl rfl rfl ?_ ?_ ?_ ?_ ?_ ?_
        all_goals simp [ht, Pc.toPut, Pc.toCnt, Pc.toDec, Pc.toRet]
    case cTake q =>
      have hq := hI.cq t q ht
      cases hl : s.sub q with
      | nil =>
        rw [hl] at hs
        cases hs
        refine hI.move t _ rfl rfl rfl rfl ?_ ?_ ?_ ?_ ?_ ?_
        all_goals simp [ht, Pc.toPut, Pc.toCnt, Pc.toDec, Pc.toRet]
      | cons w l =>
        rw [hl] at hs
        cases hs
        refine hI.event t _ _ rfl rfl ?_ ?_ ?_ ?_ ?_ ?_ ?_ ?_ ?_ ?_
        case refine_2 =>
          intro i
          by_cases hi : i = q
          · subst hi; simp [qTook, qPut, at_, hl]
          · simp [qTook, qPut, at_, upd_ne _ _ hi, Ne.symm hi]
        all_goals simp [ht, eCall, ePut, eCnt, eTook, eDct, ePop, qPut, qTook, Pc.toPut, Pc.toCnt, Pc.toDec,
          Pc.toRet, at_, one, hq]
        all_goals
          intro u v
          by_cases hu : u = t <;> by_cases hw : w = v <;> simp [hu, hw, eq_comm] <;> simp_all [eq_comm]
    case pPut v q =>
      have hq := hI.pq t v q ht
      cases hs
      refine hI.event t _ _ rfl rfl ?_ ?_ ?_ ?_ ?_ ?_ ?_ ?_ ?_ ?_
      case refine_2 =>
        intro i
        by_cases hi : i = q
        · subst hi; simp [qTook, qPut, at_]
        · simp [qTook, qPut, at_, upd_ne _ _ hi, Ne.symm hi]
      all_goals simp [ht, eCall, ePut, eCnt, eTook, eDct, ePop, qPut, qTook, Pc.toPut, Pc.toCnt, Pc.toDec,
        Pc.toRet, at_, one, hq]
      all_goals
        intro u w
        by_cases hu : u = t <;> by_cases hw : v = w <;> simp [hu, hw, eq_comm] <;> simp_all [eq_comm]
    case cRet r =>
      cases hs
      cases r with
      | none =>
        refine hI.event t _ _ rfl rfl ?_ ?_ ?_ ?_ ?_ ?_ ?_ ?_ ?_ ?_
        all_goals simp [ht, eCall, ePut, eCnt, eTook, eDct, ePop, qPut, qTook, Pc.toPut, Pc.toCnt, Pc.toDec,
          Pc.toRet, at_, one]
      | some x =>
        refine hI.event t _ _ rfl rfl ?_ ?_ ?_ ?_ ?_ ?_ ?_ ?_ ?_ ?_
        all_goals simp [ht, eCall, ePut, eCnt, eTook, eDct, ePop, qPut, qTook, Pc.toPut, Pc.toCnt, Pc.toDec,
          Pc.toRet, at_, one]
        all_goals
          intro u w
          by_cases hu : u = t <;> by_cases hw : x = w <;> simp [hu, hw, eq_comm] <;> simp_all [eq_comm]
    all_goals
      cases hs
      refine hI.event t _ _ rfl rfl ?_ ?_ ?_ ?_ ?_ ?_ ?_ ?_ ?_ ?_
      all_goals simp [ht, eCall, ePut, eCnt, eTook, eDct, ePop, qPut, qTook, Pc.toPut, Pc.toCnt, Pc.toDec,
        Pc.toRet, at_, one]
      all_goals first
        | exact Nat.mod_lt _ hn
        | (rintro v q _ rfl; exact Nat.mod_lt _ hn)
        | omega
        | (intro u w
           by_cases hu : u = t <;> by_cases hw : ‹Nat› = w <;> simp [hu, hw, eq_comm] <;> simp_all [eq_comm])
        | skip

theorem reach_inv {k : Kind} {n : Nat} (hn : 0 < n) {s : S} (h : Reach (step k n) (init k) s) : Inv n s :=
  h.inv (init_inv k n) (fun _ _ _ ih hs => step_inv hn ih hs)

end FF.Pool
