import Verif.Msq.Thm
import Verif.Parfor.Range
/-!
# C59: lock-freedom of the list based queue

A retry of one thread is always the consequence of a step by which some other operation took effect
or `tail` moved on.  Counting these gives a bound on the number of steps of all threads together.
-/
namespace FF.Msq
open FF FF.Farm

/-- steps a thread still makes in its operation if no other thread interferes, plus what it has yet
to discover about interference that has already happened -/
def rank (next : Addr → Option Addr) (head tail : Addr) : Pc → Nat
  | .idle => 0
  | .crash => 0
  | .pAlloc _ => 11
  | .pTail _ => 10
  | .pNext _ tl => if tl = tail then 9 else 12
  | .pChk _ tl nx =>
    if tl = tail then
      match nx with
      | none => if next tl = none then 4 else 12
      | some _ => 8
    else 11
  | .pLink _ tl => if next tl = none then 3 else 11
  | .pHelp _ tl _ => if tl = tail then 7 else 11
  | .pSwing _ _ => 2
  | .pRet => 1
  | .cHead => 10
  | .cTail h => if h = head then 9 else 14
  | .cNext h tl => if h = head then (if tl = h ∧ tl ≠ tail then 13 else 8) else 12
  | .cChk h tl nx =>
    if h = head then
      if h = tl then
        match nx with
        | none => 2
        | some _ => if tl = tail then 7 else 12
      else 6
    else 11
  | .cHelp tl _ => if tl = tail then 6 else 11
  | .cData h _ => if h = head then 5 else 12
  | .cCas h _ _ => if h = head then 4 else 11
  | .cFree _ _ => 2
  | .cRet _ => 1

theorem rank_le (next : Addr → Option Addr) (head tail : Addr) (p : Pc) : rank next head tail p ≤ 14 := by
  cases p <;> simp only [rank] <;> (repeat' split) <;> omega

/-- how often an operation can still interfere with others: a push links its node and moves `tail`,
a pop moves `head` -/
def inter : Pc → Nat
  | .pAlloc _ | .pTail _ | .pNext _ _ | .pChk _ _ _ | .pLink _ _ | .pHelp _ _ _ => 2
  | .cHead | .cTail _ | .cNext _ _ | .cChk _ _ _ | .cHelp _ _ | .cData _ _ | .cCas _ _ _ => 1
  | _ => 0

/-- `tail` has to be moved on -/
def lag (s : S) : Nat := if s.next s.tail = none then 0 else 1

def left (n : Nat) (s : S) : Nat := sumN (fun u => inter (s.pc u)) n + lag s
def ranks (n : Nat) (s : S) : Nat := sumN (fun u => rank s.next s.head s.tail (s.pc u)) n
def potential (n : Nat) (s : S) : Nat := (14 * n + 15) * left n s + ranks n s

theorem ranks_le (n : Nat) (s : S) : ranks n s ≤ 14 * n := by
  unfold ranks
  induction n with
  | zero => simp [sumN]
  | succ n ih =>
    simp only [sumN]
    have := rank_le s.next s.head s.tail (s.pc n)
    omega

/-- a step by which an operation takes effect, or `tail` is moved on -/
theorem potential_change {n t : Nat} {s s' : S} {p : Pc} (htn : t < n) (hp : s'.pc = upd s.pc t p)
    (h : inter p + lag s' + 1 ≤ inter (s.pc t) + lag s) : potential n s' < potential n s := by
  have h1 := ranks_le n s'
  have h2 := Parfor.sumN_change (f := fun u => inter (s'.pc u)) (g := fun u => inter (s.pc u)) htn
    (fun j _ hj => by simp only [hp, upd_other _ _ hj])
  simp only [hp, upd_same] at h2
  have h3 : left n s' + 1 ≤ left n s := by
    unfold left
    rw [hp]
    omega
  have h4 : (14 * n + 15) * (left n s' + 1) ≤ (14 * n + 15) * left n s := Nat.mul_le_mul_left _ h3
  rw [Nat.mul_add] at h4
  unfold potential
  omega

/-- a step by which a thread only comes closer to its end, or discovers interference -/
theorem potential_quiet {n t : Nat} {s s' : S} {p : Pc} (htn : t < n) (hp : s'.pc = upd s.pc t p)
    (hr : rank s'.next s'.head s'.tail p < rank s.next s.head s.tail (s.pc t))
    (hoth : ∀ u, u ≠ t → rank s'.next s'.head s'.tail (s.pc u) = rank s.next s.head s.tail (s.pc u))
    (hi : inter p ≤ inter (s.pc t)) (hl : lag s' ≤ lag s) : potential n s' < potential n s := by
  have h2 := Parfor.sumN_change (f := fun u => inter (s'.pc u)) (g := fun u => inter (s.pc u)) htn
    (fun j _ hj => by simp only [hp, upd_other _ _ hj])
  simp only [hp, upd_same] at h2
  have h3 : left n s' ≤ left n s := by
    unfold left
    rw [hp]
    omega
  have h4 : (14 * n + 15) * left n s' ≤ (14 * n + 15) * left n s := Nat.mul_le_mul_left _ h3
  have h5 : ranks n s' < ranks n s := by
    unfold ranks
    refine sumN_lt htn ?_ fun j hj => ?_
    · simp only [hp, upd_same]; exact hr
    · simp only [hp, upd_other _ _ hj]; exact hoth j hj
  unfold potential
  omega

/-- the common case: only the program counter and the ghosts change -/
theorem potential_pc {n t : Nat} {s s' : S} {p : Pc} (htn : t < n) (hp : s'.pc = upd s.pc t p)
    (hn : s'.next = s.next) (hh : s'.head = s.head) (ht : s'.tail = s.tail)
    (hr : rank s.next s.head s.tail p < rank s.next s.head s.tail (s.pc t))
    (hi : inter p ≤ inter (s.pc t)) : potential n s' < potential n s :=
  potential_quiet htn hp (by rw [hn, hh, ht]; exact hr) (fun u _ => by rw [hn, hh, ht]) hi
    (by unfold lag; rw [hn, ht])

theorem Linked.snoc {f : Addr → Option Addr} {p : List Addr} {a : Addr} (h : Linked f (p ++ [a])) :
    f a = none := by
  induction p with
  | nil => exact h
  | cons b p ih =>
    cases p with
    | nil => exact h.2
    | cons c p => exact ih h.2

/-- moving `tail` on -/
theorem potential_swing {n t : Nat} {s : S} {ch : List Addr} {p : Pc} {x : Addr} (h : Inv n s ch)
    (htn : t < n) (hx : s.next s.tail = some x) (hi : inter p ≤ inter (s.pc t)) :
    potential n { s with tail := x, pc := upd s.pc t p } < potential n s := by
  refine potential_change htn rfl ?_
  have h1 : lag s = 1 := by unfold lag; rw [hx]; rfl
  have h2 : lag { s with tail := x, pc := upd s.pc t p } = 0 := by
    unfold lag
    simp only
    rcases h.g.tl.split h.g.linked h.g.nodup with ⟨q, hq⟩ | ⟨q, y, hq, hy⟩
    · exfalso
      have hl := h.g.linked
      rw [hq] at hl
      have := hl.snoc
      rw [hx] at this; simp at this
    · rw [hx] at hy
      simp only [Option.some.injEq] at hy
      subst hy
      have hl := h.g.linked
      rw [hq] at hl
      rw [hl.snoc]; rfl
  omega

theorem potential_go {n t : Nat} {s s' : S} {ch : List Addr} (h : Inv n s ch) (htn : t < n)
    (hs : goStep s t = some s') : potential n s' < potential n s := by
  have hT := h.t t
  unfold T at hT
  unfold goStep at hs
  cases hpc : s.pc t with
  | idle => rw [hpc] at hs; simp at hs
  | pAlloc v => rw [hpc] at hs; simp at hs
  | crash => rw [hpc] at hs; simp at hs
  | pTail node =>
    rw [hpc] at hs; simp only [Option.some.injEq] at hs; subst hs
    exact potential_pc htn rfl rfl rfl rfl (by simp [hpc, rank]) (by simp [hpc, inter])
  | pNext node tl =>
    rw [hpc] at hs; simp only [Option.some.injEq] at hs; subst hs
    refine potential_pc htn rfl rfl rfl rfl ?_ (by simp [hpc, inter])
    rw [hpc]; simp only [rank]
    by_cases h1 : tl = s.tail
    · simp only [h1, if_true]
      cases hx : s.next s.tail <;> simp
    · simp [h1]
  | pChk node tl nx =>
    rw [hpc] at hs; simp only at hs
    split at hs
    · rename_i h1
      cases nx with
      | none =>
        simp only [Option.some.injEq] at hs; subst hs
        refine potential_pc htn rfl rfl rfl rfl ?_ (by simp [hpc, inter])
        rw [hpc]; simp only [rank, h1, if_true]
        split <;> omega
      | some x =>
        simp only [Option.some.injEq] at hs; subst hs
        refine potential_pc htn rfl rfl rfl rfl ?_ (by simp [hpc, inter])
        rw [hpc]; simp [rank, h1]
    · rename_i h1
      simp only [Option.some.injEq] at hs; subst hs
      refine potential_pc htn rfl rfl rfl rfl ?_ (by simp [hpc, inter])
      rw [hpc]; simp [rank, Ne.symm h1]
  | pLink node tl =>
    rw [hpc] at hs hT; simp only at hs
    obtain ⟨ho, ht⟩ := hT
    split at hs
    · rename_i h1
      simp only [Option.some.injEq] at hs; subst hs
      refine potential_change htn rfl ?_
      rw [hpc]
      have h2 := ht.last h1
      have h3 : lag s = 0 := by unfold lag; rw [h2, h1]; rfl
      have h4 : lag { s with next := upd s.next tl (some node), role := upd s.role node .inq
                             pc := upd s.pc t (.pSwing node tl)
                             full := .effPush t (s.data node) :: s.full } = 1 := by
        unfold lag
        simp only [h2, upd_same]; rfl
      rw [h3, h4]; simp [inter]
    · rename_i h1
      simp only [Option.some.injEq] at hs; subst hs
      refine potential_pc htn rfl rfl rfl rfl ?_ (by simp [hpc, inter])
      rw [hpc]; simp [rank, h1]
  | pHelp node tl x =>
    rw [hpc] at hs hT; simp only at hs
    obtain ⟨ho, hsn, hx⟩ := hT
    split at hs
    · rename_i h1
      simp only [Option.some.injEq] at hs; subst hs
      exact potential_swing h htn (by rw [h1]; exact hx) (by rw [hpc]; simp [inter])
    · rename_i h1
      simp only [Option.some.injEq] at hs; subst hs
      refine potential_pc htn rfl rfl rfl rfl ?_ (by simp [hpc, inter])
      rw [hpc]; simp [rank, Ne.symm h1]
  | pSwing node tl =>
    rw [hpc] at hs hT; simp only at hs
    obtain ⟨hsn, hx, _⟩ := hT
    split at hs
    · rename_i h1
      simp only [Option.some.injEq] at hs; subst hs
      exact potential_swing h htn (by rw [h1]; exact hx) (by simp [inter])
    · simp only [Option.some.injEq] at hs; subst hs
      exact potential_pc htn rfl rfl rfl rfl (by simp [hpc, rank]) (by simp [inter])
  | pRet =>
    rw [hpc] at hs; simp only [Option.some.injEq] at hs; subst hs
    exact potential_pc htn rfl rfl rfl rfl (by simp [hpc, rank]) (by simp [inter])
  | cHead =>
    rw [hpc] at hs; simp only [Option.some.injEq] at hs; subst hs
    exact potential_pc htn rfl rfl rfl rfl (by simp [hpc, rank]) (by simp [hpc, inter])
  | cTail a =>
    rw [hpc] at hs; simp only [Option.some.injEq] at hs; subst hs
    refine potential_pc htn rfl rfl rfl rfl ?_ (by simp [hpc, inter])
    rw [hpc]; simp only [rank]
    by_cases h1 : a = s.head <;> simp [h1]
  | cNext a tl =>
    rw [hpc] at hs; simp only [Option.some.injEq] at hs; subst hs
    refine potential_pc htn rfl rfl rfl rfl ?_ (by simp [hpc, inter])
    rw [hpc]; simp only [rank]
    by_cases h1 : a = s.head
    · simp only [h1, if_true]
      by_cases h2 : tl = s.head
      · simp only [h2, if_true, true_and]
        by_cases h3 : s.head = s.tail <;> cases s.next s.head <;> simp [h3]
      · simp [h2, Ne.symm h2]
    · simp [h1]
  | cChk a tl nx =>
    rw [hpc] at hs; simp only at hs
    split at hs
    · rename_i h1
      split at hs
      · rename_i h2
        cases nx with
        | none =>
          simp only [Option.some.injEq] at hs; subst hs
          refine potential_pc htn rfl rfl rfl rfl ?_ (by simp [inter])
          rw [hpc]; simp [rank, h1, h2.symm]
        | some x =>
          simp only [Option.some.injEq] at hs; subst hs
          refine potential_pc htn rfl rfl rfl rfl ?_ (by simp [hpc, inter])
          rw [hpc]; simp only [rank, h1.symm, h2.symm, if_true]
          split <;> omega
      · rename_i h2
        simp only [Option.some.injEq] at hs; subst hs
        refine potential_pc htn rfl rfl rfl rfl ?_ (by simp [hpc, inter])
        rw [hpc]; simp [rank, h1, h2]
    · rename_i h1
      simp only [Option.some.injEq] at hs; subst hs
      refine potential_pc htn rfl rfl rfl rfl ?_ (by simp [hpc, inter])
      rw [hpc]; simp [rank, Ne.symm h1]
  | cHelp tl x =>
    rw [hpc] at hs hT; simp only at hs
    split at hs
    · rename_i h1
      simp only [Option.some.injEq] at hs; subst hs
      exact potential_swing h htn (by rw [h1]; exact hT.2.1) (by rw [hpc]; simp [inter])
    · rename_i h1
      simp only [Option.some.injEq] at hs; subst hs
      refine potential_pc htn rfl rfl rfl rfl ?_ (by simp [hpc, inter])
      rw [hpc]; simp [rank, Ne.symm h1]
  | cData a nx =>
    rw [hpc] at hs; simp only at hs
    cases nx with
    | none =>
      simp only [Option.some.injEq] at hs; subst hs
      refine potential_pc htn rfl rfl rfl rfl ?_ (by simp [inter])
      rw [hpc]; simp only [rank]; split <;> omega
    | some x =>
      simp only [Option.some.injEq] at hs; subst hs
      refine potential_pc htn rfl rfl rfl rfl ?_ (by simp [hpc, inter])
      rw [hpc]; simp only [rank]; split <;> omega
  | cCas a x d =>
    rw [hpc] at hs; simp only at hs
    split at hs
    · rename_i h1
      simp only [Option.some.injEq] at hs; subst hs
      refine potential_change htn rfl ?_
      rw [hpc]
      simp only [inter, lag]
      omega
    · rename_i h1
      simp only [Option.some.injEq] at hs; subst hs
      refine potential_pc htn rfl rfl rfl rfl ?_ (by simp [hpc, inter])
      rw [hpc]; simp [rank, Ne.symm h1]
  | cFree a d =>
    rw [hpc] at hs; simp only [Option.some.injEq] at hs; subst hs
    exact potential_pc htn rfl rfl rfl rfl (by simp [hpc, rank]) (by simp [inter])
  | cRet r =>
    rw [hpc] at hs; simp only [Option.some.injEq] at hs; subst hs
    exact potential_pc htn rfl rfl rfl rfl (by simp [hpc, rank]) (by simp [inter])

/-- calls of `push` and `pop` in a schedule -/
def Act.isCall : Act → Bool
  | .callPush _ _ | .callPop _ => true
  | _ => false

theorem rank_holds {nx nx' : Addr → Option Addr} {hd tl : Addr} {p : Pc}
    (h : ∀ a, p.holds = some a → nx a = nx' a) : rank nx hd tl p = rank nx' hd tl p := by
  cases p with
  | pChk node t x => simp only [rank]; rw [h t rfl]
  | pLink node t => simp only [rank]; rw [h t rfl]
  | _ => rfl

theorem potential_step {n : Nat} {s s' : S} {ch : List Addr} {a : Act} (h : Inv n s ch)
    (hs : qstep n s a = some s') (ha : a.isCall = false) : potential n s' < potential n s := by
  cases a with
  | callPush t v => simp [Act.isCall] at ha
  | callPop t => simp [Act.isCall] at ha
  | go t =>
    simp only [qstep, mstep] at hs
    split at hs
    · rename_i htn; exact potential_go h htn hs
    · simp at hs
  | alloc t x =>
    simp only [qstep, mstep] at hs
    split at hs
    · rename_i hq
      rw [List.all_eq_true] at hq
      split at hs
      · rename_i v hpc
        have htn : t < n := by
          apply Classical.byContradiction
          intro hc
          rw [h.out t (by omega)] at hpc; simp at hpc
        split at hs
        · rename_i hr
          simp only [Option.some.injEq] at hs; subst hs
          have hne : s.tail ≠ x := by
            rintro rfl
            rw [(h.g.role _).1 h.g.tl.mem] at hr; simp at hr
          refine potential_quiet htn rfl ?_ (fun u _ => ?_) (by rw [hpc]; simp [inter]) ?_
          · rw [hpc]; simp [rank]
          · refine rank_holds fun b hb => ?_
            show upd s.next x none b = s.next b
            by_cases hbx : b = x
            · exfalso
              subst hbx
              by_cases hu : u < n
              · have := hq u (by simpa using hu)
                simp only [ne_eq, decide_eq_true_eq] at this
                exact this hb
              · rw [h.out u (by omega)] at hb; simp [Pc.holds] at hb
            · exact upd_other _ _ hbx
          · unfold lag
            simp only [upd_other _ _ hne]
            exact Nat.le_refl _
        · simp at hs
      · simp at hs
    · simp at hs

theorem potential_call {n : Nat} {s s' : S} {a : Act}
    (hs : qstep n s a = some s') (ha : a.isCall = true) :
    potential n s' ≤ potential n s + (28 * n + 41) := by
  have key : ∀ t p, t < n → s.pc t = .idle → s'.pc = upd s.pc t p → s'.next = s.next → s'.head = s.head →
      s'.tail = s.tail → inter p ≤ 2 → (∀ nx hd tl, rank nx hd tl p ≤ 11) →
      potential n s' ≤ potential n s + (28 * n + 41) := by
    intro t p htn hpc hp hn hh ht hi hr
    have h2 := Parfor.sumN_change (f := fun u => inter (s'.pc u)) (g := fun u => inter (s.pc u)) htn
      (fun j _ hj => by simp only [hp, upd_other _ _ hj])
    simp only [hp, upd_same, hpc, show inter .idle = 0 from rfl] at h2
    have h3 := Parfor.sumN_change (f := fun u => rank s.next s.head s.tail (s'.pc u))
      (g := fun u => rank s.next s.head s.tail (s.pc u)) htn
      (fun j _ hj => by simp only [hp, upd_other _ _ hj])
    simp only [hp, upd_same, hpc, show rank s.next s.head s.tail .idle = 0 from rfl] at h3
    have h4 := hr s.next s.head s.tail
    have h5 : left n s' ≤ left n s + 2 := by
      unfold left lag
      rw [hp, hn, ht]
      omega
    have h6 : ranks n s' ≤ ranks n s + 11 := by
      unfold ranks
      rw [hp, hn, ht, hh]
      omega
    have h7 : (14 * n + 15) * left n s' ≤ (14 * n + 15) * (left n s + 2) := Nat.mul_le_mul_left _ h5
    rw [Nat.mul_add] at h7
    unfold potential
    omega
  cases a with
  | callPush t v =>
    simp only [qstep, mstep] at hs
    split at hs
    · rename_i hc
      simp only [Option.some.injEq] at hs; subst hs
      exact key t _ hc.1 hc.2 rfl rfl rfl rfl (by simp [inter]) (by simp [rank])
    · simp at hs
  | callPop t =>
    simp only [qstep, mstep] at hs
    split at hs
    · rename_i hc
      simp only [Option.some.injEq] at hs; subst hs
      exact key t _ hc.1 hc.2 rfl rfl rfl rfl (by simp [inter]) (by simp [rank])
    · simp at hs
  | go t => simp [Act.isCall] at ha
  | alloc t x => simp [Act.isCall] at ha

theorem potential_exec {n : Nat} {s s' : S} {ch : List Addr} (h : Inv n s ch) {acts : List Act}
    (hx : exec (qstep n) s acts = some s') :
    potential n s' + acts.length ≤ potential n s + (28 * n + 42) * acts.countP Act.isCall := by
  induction acts generalizing s ch with
  | nil => simp only [exec, Option.some.injEq] at hx; subst hx; simp
  | cons a acts ih =>
    simp only [exec] at hx
    cases hs : qstep n s a with
    | none => rw [hs] at hx; simp at hx
    | some s1 =>
      rw [hs] at hx
      obtain ⟨ch1, h1⟩ := h.step hs
      have := ih h1 hx
      rw [List.countP_cons, List.length_cons]
      cases ha : a.isCall with
      | true =>
        have h2 := potential_call hs ha
        simp only [if_true, Nat.mul_add, Nat.mul_one]
        omega
      | false =>
        have h2 := potential_step h hs ha
        simp only [Bool.false_eq_true, if_false, Nat.add_zero]
        omega

/-- **C59, lock-freedom** (partial: same allocator as `C59_linearizable_partial`).  In every execution,
the number of steps of all threads together is at most a constant (`28·threads + 42`) times the number
of calls: whatever the schedule, threads that retry cannot prevent each other from completing. -/
theorem C59_lock_free_partial (n : Nat) (s : S) (acts : List Act)
    (hx : exec (qstep n) S.init acts = some s) :
    acts.length ≤ (28 * n + 42) * acts.countP Act.isCall := by
  have := potential_exec (Inv.init n) hx
  have h0 : potential n S.init = 0 := by
    unfold potential left ranks lag
    have h1 : sumN (fun u => inter (S.init.pc u)) n = 0 := Parfor.sumN_zero fun i _ => rfl
    have h2 : sumN (fun u => rank S.init.next S.init.head S.init.tail (S.init.pc u)) n = 0 :=
      Parfor.sumN_zero fun i _ => rfl
    rw [h1, h2]; rfl
  omega

/-- a reachable state uses finitely many addresses -/
theorem fresh {n : Nat} {s : S} (hr : Reach (qstep n) S.init s) : ∃ N : Nat, ∀ a : Nat, N ≤ a → s.role a = .unused := by
  refine hr.inv (Inv := fun x => ∃ N : Nat, ∀ a : Nat, N ≤ a → x.role a = .unused) ⟨1, fun a ha => ?_⟩ ?_
  · have : a ≠ 0 := by omega
    simp [S.init, this]
  · intro z a z' ⟨N, hN⟩ hs
    have key : ∀ (b : Nat) r, z'.role = upd z.role b r → ∃ N : Nat, ∀ a : Nat, N ≤ a → z'.role a = .unused := by
      intro b r hb
      refine ⟨N + b + 1, fun c hc => ?_⟩
      rw [hb, upd_other _ _ (by omega)]
      exact hN c (by omega)
    cases a with
    | callPush t v =>
      simp only [qstep, mstep] at hs
      split at hs
      · simp only [Option.some.injEq] at hs; subst hs; exact ⟨N, hN⟩
      · simp at hs
    | callPop t =>
      simp only [qstep, mstep] at hs
      split at hs
      · simp only [Option.some.injEq] at hs; subst hs; exact ⟨N, hN⟩
      · simp at hs
    | alloc t x =>
      simp only [qstep, mstep] at hs
      split at hs
      · split at hs
        · split at hs
          · simp only [Option.some.injEq] at hs; subst hs; exact key x _ rfl
          · simp at hs
        · simp at hs
      · simp at hs
    | go t =>
      simp only [qstep, mstep] at hs
      split at hs
      · unfold goStep at hs
        cases hpc : z.pc t <;> simp only [hpc, Option.some.injEq, reduceCtorEq] at hs <;>
          (try split at hs) <;> (try split at hs) <;> (try split at hs) <;>
          (try simp only [Option.some.injEq] at hs) <;>
          (try subst hs) <;>
          first
            | contradiction
            | exact ⟨N, hN⟩
            | exact key _ _ rfl
      · simp at hs

/-- **C59, a thread inside an operation is never stuck**: as long as it has not returned, some action
of it is possible. -/
theorem C59_never_stuck (n : Nat) (s : S) (hr : Reach (qstep n) S.init s) (t : Nat) (ht : s.pc t ≠ .idle) :
    (∃ s', qstep n s (.go t) = some s') ∨ ∃ a s', qstep n s (.alloc t a) = some s' := by
  obtain ⟨ch, h⟩ := Inv.reach hr
  obtain ⟨N, hN⟩ := fresh hr
  have htn : t < n := by
    apply Classical.byContradiction
    intro hc
    exact ht (h.out t (by omega))
  cases hpc : s.pc t with
  | idle => exact absurd hpc ht
  | crash => exact absurd hpc ((C59_safe_partial n s hr).1 t)
  | pAlloc v =>
    refine Or.inr ⟨N, ?_⟩
    simp only [qstep, mstep, hpc]
    rw [if_pos, if_pos (Or.inl (hN N (Nat.le_refl _)))]
    · exact ⟨_, rfl⟩
    · rw [List.all_eq_true]
      intro u _
      simp only [ne_eq, decide_eq_true_eq]
      intro hh
      have := held_seen h hh
      unfold Seen at this
      rw [hN N (Nat.le_refl _)] at this; simp at this
  | _ =>
    left
    simp only [qstep, mstep, if_pos htn]
    unfold goStep
    simp only [hpc]
    (repeat' split) <;> exact ⟨_, rfl⟩

/-- **C59, all calls return** (partial: same allocator): if no further call is made, every schedule
ends, and it can only end when every operation has returned. -/
theorem C59_returns_partial (n : Nat) (s : S) (hr : Reach (qstep n) S.init s) :
    ∃ B, ∀ acts s', exec (qstep n) s acts = some s' → acts.countP Act.isCall = 0 →
      acts.length ≤ B ∧ ((∀ a s'', qstep n s' a = some s'' → a.isCall = true) → ∀ t, s'.pc t = .idle) := by
  obtain ⟨ch, h⟩ := Inv.reach hr
  refine ⟨potential n s, fun acts s' hx hc => ⟨?_, fun hstop t => ?_⟩⟩
  · have := potential_exec h hx
    rw [hc] at this; omega
  · apply Classical.byContradiction
    intro ht
    rcases C59_never_stuck n s' (hr.trans ⟨acts, hx⟩) t ht with ⟨s2, h2⟩ | ⟨a, s2, h2⟩
    · have := hstop _ _ h2; simp [Act.isCall] at this
    · have := hstop _ _ h2; simp [Act.isCall] at this

end FF.Msq
