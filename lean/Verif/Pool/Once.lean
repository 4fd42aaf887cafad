/-
The queues made of several queues lose and duplicate nothing (C62).
-/
import Verif.Pool.Inv
import Mathlib.Data.List.Perm.Basic
import Mathlib.Data.List.Perm.Subperm
import Mathlib.Data.List.Count

namespace FF.Pool

theorem pushed_eq (l : List Ev) : pushed l = (l.filterMap eCall).map Prod.snd := by
  induction l with
  | nil => rfl
  | cons e l ih => cases e <;> simp [pushed, List.filterMap_cons, eCall, ih]

theorem popped_eq (l : List Ev) : popped l = (l.filterMap ePop).map Prod.snd := by
  induction l with
  | nil => rfl
  | cons e l ih =>
    cases e with
    | retPop t r => cases r <;> simp [popped, List.filterMap_cons, ePop, ih]
    | _ => simp [popped, List.filterMap_cons, ePop, ih]

theorem put_vals (l : List Ev) : (l.filterMap ePut).map Prod.snd = (l.filterMap qPut).map Prod.snd := by
  induction l with
  | nil => rfl
  | cons e l ih => cases e <;> simp [List.filterMap_cons, ePut, qPut, ih]

theorem took_vals (l : List Ev) : (l.filterMap eTook).map Prod.snd = (l.filterMap qTook).map Prod.snd := by
  induction l with
  | nil => rfl
  | cons e l ih => cases e <;> simp [List.filterMap_cons, eTook, qTook, ih]

/-- Adding an element to one of the parts. -/
theorem flatMap_one {l : List Nat} (hl : l.Nodup) (f g : Nat → List Nat) (q v : Nat) (hq : q ∈ l)
    (h1 : g q = v :: f q) (h2 : ∀ i, i ≠ q → g i = f i) : (l.flatMap g).Perm (v :: l.flatMap f) := by
  induction l with
  | nil => simp at hq
  | cons i l ih =>
    rw [List.nodup_cons] at hl
    by_cases hi : i = q
    · subst hi
      have : l.flatMap g = l.flatMap f := by
        apply List.flatMap_congr
        intro x hx
        apply h2
        rintro rfl
        exact hl.1 hx
      simp [h1, this]
    · have hq' : q ∈ l := by
        rcases List.mem_cons.1 hq with h | h
        · exact absurd h.symm hi
        · exact h
      simp only [List.flatMap_cons, h2 i hi]
      exact ((ih hl.2 hq').append_left (f i)).trans List.perm_middle

theorem parts {n : Nat} (l : List (Nat × Nat)) (h : ∀ x ∈ l, x.1 < n) :
    (l.map Prod.snd).Perm ((List.range n).flatMap (fun q => at_ q l)) := by
  induction l with
  | nil => simp [at_]
  | cons x l ih =>
    refine ((ih (fun y hy => h y (by simp [hy]))).cons x.2).trans (List.Perm.symm ?_)
    refine flatMap_one List.nodup_range (fun q => at_ q l) _ x.1 x.2 (List.mem_range.2 (h x (by simp))) ?_ ?_
    · simp [at_]
    · intro i hi
      simp [at_, List.filter_cons, Ne.symm hi]

/-- What the inner queues contain. -/
def stored (n : Nat) (s : S) : List Nat := (List.range n).flatMap s.sub

theorem put_perm {n : Nat} {s : S} (hI : Inv n s) :
    ((s.log.filterMap ePut).map Prod.snd).Perm ((s.log.filterMap eTook).map Prod.snd ++ stored n s) := by
  rw [put_vals, took_vals]
  refine (parts _ hI.qp).trans (List.Perm.trans ?_ ((parts _ hI.qt).symm.append_right _))
  have h : ∀ q, (at_ q (s.log.filterMap qPut)).Perm (at_ q (s.log.filterMap qTook) ++ s.sub q) := by
    intro q
    refine (List.reverse_perm _).symm.trans ?_
    rw [hI.sub q]
    exact (List.reverse_perm _).append_right _
  unfold stored
  generalize List.range n = l
  induction l with
  | nil => simp
  | cons i l ih =>
    simp only [List.flatMap_cons]
    refine (List.Perm.append (h i) ih).trans ?_
    rw [List.append_assoc, List.append_assoc]
    refine List.Perm.append_left _ ?_
    rw [← List.append_assoc, ← List.append_assoc]
    exact List.perm_append_comm.append_right _

theorem bal_quiet {f g : Ev → Option (Nat × Nat)} {h : Pc → Option Nat} {s : S} (hI : Bal f g h s)
    (hq : ∀ t, h (s.pc t) = none) : (s.log.filterMap f).Perm (s.log.filterMap g) := by
  rw [List.perm_iff_count]
  rintro ⟨u, v⟩
  have := hI u v
  rw [hq u] at this
  simpa using this

theorem bal_sub {f g : Ev → Option (Nat × Nat)} {h : Pc → Option Nat} {s : S} (hI : Bal f g h s) :
    (s.log.filterMap g).Subperm (s.log.filterMap f) := by
  rw [List.subperm_ext_iff]
  rintro ⟨u, v⟩ _
  have := hI u v
  omega

theorem subperm_map {l m : List (Nat × Nat)} (h : l.Subperm m) :
    (l.map Prod.snd).Subperm (m.map Prod.snd) := by
  obtain ⟨x, hp, hs⟩ := h
  exact ⟨x.map Prod.snd, hp.map _, hs.map _⟩

/-- **C62, nothing is invented or returned twice**: at any moment, for every kind of pool and any schedule, what the
pops have returned is part of what was pushed (with multiplicities). -/
theorem C62_no_duplicates (k : Kind) {n : Nat} (hn : 0 < n) (s : S) (h : Reach (step k n) (init k) s) :
    (popped s.log).Subperm (pushed s.log) := by
  have hI := reach_inv hn h
  rw [popped_eq, pushed_eq]
  have h1 : ((s.log.filterMap ePop).map Prod.snd).Subperm ((s.log.filterMap eTook).map Prod.snd) :=
    subperm_map (bal_sub hI.ret)
  have h2 : ((s.log.filterMap eTook).map Prod.snd).Subperm ((s.log.filterMap ePut).map Prod.snd) :=
    ((List.sublist_append_left _ _).subperm).trans (put_perm hI).symm.subperm
  have h3 : ((s.log.filterMap ePut).map Prod.snd).Subperm ((s.log.filterMap eCall).map Prod.snd) :=
    subperm_map (bal_sub hI.put)
  exact h1.trans (h2.trans h3)

/-- **C62, nothing is lost**: when nobody is inside a call, what was pushed is what was returned together with what the
inner queues contain, and the count is the number of the latter. -/
theorem C62_conserved (k : Kind) {n : Nat} (hn : 0 < n) (s : S) (h : Reach (step k n) (init k) s)
    (hq : Quiet s) :
    (pushed s.log).Perm (popped s.log ++ stored n s) ∧ s.cnt = (stored n s).length := by
  have hI := reach_inv hn h
  have e1 := (bal_quiet hI.put (fun t => by rw [hq t]; rfl)).map Prod.snd
  have e2 := (bal_quiet hI.ret (fun t => by rw [hq t]; rfl)).map Prod.snd
  have e3 := (bal_quiet hI.cntd (fun t => by rw [hq t]; rfl)).length_eq
  have e4 := (bal_quiet hI.dct (fun t => by rw [hq t]; rfl)).length_eq
  have e5 := (put_perm hI).length_eq
  constructor
  · rw [popped_eq, pushed_eq]
    exact e1.trans ((put_perm hI).trans (e2.append_right _))
  · rw [hI.cnt]
    simp only [List.length_append, List.length_map] at e5
    omega

/-- **C62, FIFO for each inner queue**: what was taken from an inner queue, oldest first, followed by its contents, is what was put
into it, oldest first. -/
theorem C62_inner_fifo (k : Kind) {n : Nat} (hn : 0 < n) (s : S) (h : Reach (step k n) (init k) s)
    (q : Nat) :
    (at_ q (s.log.filterMap qPut)).reverse = (at_ q (s.log.filterMap qTook)).reverse ++ s.sub q :=
  (reach_inv hn h).sub q

/-- Two pushes and two pops by four threads, interleaved: the pops return 8 and 7. -/
example : ∃ s, exec (step .relax 2) (init .relax)
    [.callPush 0 7, .callPush 1 8, .go 0, .go 1, .go 1, .go 1, .callPop 2, .go 0, .go 2, .go 2, .go 0, .go 0, .go 1,
      .callPop 3, .go 3, .go 3, .go 3, .go 3, .go 3, .go 2, .go 2, .go 2] = some s ∧ popped s.log = [7, 8] :=
  ⟨_, rfl, rfl⟩

/-! ### Wait-freedom -/

/-- Steps a thread still needs (`multiSWSR` and the relaxed pool), and 0 when it is idle. -/
def Pc.left : Pc → Nat
  | .idle => 0
  | .pTick _ => 4 | .pPut _ _ => 3 | .pCnt _ => 2 | .pRet _ => 1
  | .cCnt => 5 | .cTick => 4 | .cTake _ => 3 | .cDec _ => 2 | .cRet _ => 1
  | .cDeq | .cEnq _ | .cCas _ => 0

def Pc.loops : Pc → Bool
  | .cDeq | .cEnq _ | .cCas _ => true
  | _ => false

/-- **C62, every call ends**: with the relaxed pool (and `multiSWSR`, apart from waiting for its locks) a call finishes
after at most five steps of its own, whatever the others do: every step of a thread decreases what it has left, and nobody
else's step changes it. -/
theorem C62_wait_free {k : Kind} (hk : k ≠ .fifo) (n : Nat) (s s' : S)
    (h : Reach (step k n) (init k) s) (act : Act) (hs : step k n s act = some s') (t : Nat) :
    (act = .go t → (s'.pc t).left < (s.pc t).left) ∧
    ((∀ v, act ≠ .callPush t v) → act ≠ .callPop t → act ≠ .go t → s'.pc t = s.pc t) ∧
    (s.pc t).left ≤ 5 ∧ ((s.pc t).left = 0 → s.pc t = .idle) := by
  have noloop : ∀ u, (s.pc u).loops = false := by
    refine h.inv (Inv := fun s => ∀ u, (s.pc u).loops = false) (fun u => rfl) ?_
    intro a act b ih hb u
    have mv : ∀ v c, c.loops = false → (upd a.pc v c u).loops = false := by
      intro v c hc
      by_cases hu : u = v
      · subst hu; rw [upd_same]; exact hc
      · rw [upd_ne _ _ hu]; exact ih u
    cases act with
    | callPush v x => simp only [step] at hb; split at hb <;> cases hb; exact mv v _ rfl
    | callPop v => simp only [step] at hb; split at hb <;> cases hb; exact mv v _ rfl
    | go v =>
      have hv := ih v
      simp only [step, go] at hb
      cases hp : a.pc v <;> rw [hp] at hb hv <;> simp only at hb
      case idle => cases hb
      case cCnt => cases hb; refine mv v _ ?_; split <;> simp [hk, Pc.loops]
      case cTake q => split at hb <;> cases hb <;> exact mv v _ rfl
      all_goals first | (simp [Pc.loops] at hv; done) | (cases hb; exact mv v _ rfl)
  refine ⟨?_, ?_, ?_, ?_⟩
  · rintro rfl
    have hv := noloop t
    simp only [step, go] at hs
    cases hp : s.pc t <;> rw [hp] at hs hv <;> simp only at hs
    case idle => cases hs
    case cCnt => cases hs; simp only [upd_same]; split <;> simp [hk, Pc.left]
    case cTake q => split at hs <;> cases hs <;> simp [Pc.left]
    all_goals first | (simp [Pc.loops] at hv; done) | (cases hs; simp [Pc.left])
  · intro h1 h2 h3
    cases act with
    | callPush u v =>
      have hu : t ≠ u := fun e => h1 v (by rw [e])
      simp only [step] at hs
      split at hs <;> cases hs
      simp only [upd_ne _ _ hu]
    | callPop u =>
      have hu : t ≠ u := fun e => h2 (by rw [e])
      simp only [step] at hs
      split at hs <;> cases hs
      simp only [upd_ne _ _ hu]
    | go u =>
      have hu : t ≠ u := fun e => h3 (by rw [e])
      simp only [step, go] at hs
      cases hp : s.pc u <;> rw [hp] at hs <;> simp only at hs
      case idle => cases hs
      case cTake q => split at hs <;> cases hs <;> simp only [upd_ne _ _ hu]
      case cCas q => split at hs <;> cases hs <;> simp only [upd_ne _ _ hu]
      all_goals cases hs; simp only [upd_ne _ _ hu]
  · cases s.pc t <;> simp [Pc.left]
  · intro h0
    have hv := noloop t
    cases hp : s.pc t <;> rw [hp] at h0 hv <;> simp [Pc.left, Pc.loops] at h0 hv ⊢

end FF.Pool
