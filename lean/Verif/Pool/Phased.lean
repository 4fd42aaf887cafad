/-
The FIFO pool used in phases: calls of `push` may overlap each other, and calls of `pop` may overlap each other, but no push overlaps a
pop (C62).
-/
import Verif.Pool.SeqUse

namespace FF.Pool

variable {n : Nat}

/-- The thread is inside `push`. -/
def Pc.pushes : Pc → Bool
  | .pTick _ | .pPut _ _ | .pCnt _ | .pRet _ => true
  | _ => false

/-- The thread is inside `pop`. -/
def Pc.pops : Pc → Bool
  | .idle | .pTick _ | .pPut _ _ | .pCnt _ | .pRet _ => false
  | _ => true

/-- No push overlaps a pop. -/
def Apart (s : S) : Prop := ∀ t u, ¬ ((s.pc t).pushes = true ∧ (s.pc u).pops = true)

/-- Executions of the FIFO pool in which this holds at every moment. -/
inductive Phased (n : Nat) : S → S → Prop
  | refl (s : S) : Phased n s s
  | tail {s s1 s2 : S} (act : Act) : Phased n s s1 → step .fifo n s1 act = some s2 → Apart s2 → Phased n s s2

/-- … in which moreover nobody calls `push`. -/
inductive Popping (n : Nat) : S → S → Prop
  | refl (s : S) : Popping n s s
  | tail {s s1 s2 : S} (act : Act) : Popping n s s1 → (∀ t v, act ≠ .callPush t v) →
      step .fifo n s1 act = some s2 → Apart s2 → Popping n s s2

theorem Phased.reach {s s' : S} (h : Phased n s s') : Reach (step .fifo n) s s' := by
  induction h with
  | refl => exact Reach.refl _ _
  | tail act _ hs _ ih => exact ih.tail hs

theorem Popping.phased {s s' : S} (h : Popping n s s') : Phased n s s' := by
  induction h with
  | refl => exact .refl _
  | tail act _ _ hs ha ih => exact .tail act ih hs ha

/-! ### Tickets -/

def eTick : Ev → Option (Nat × Nat)
  | .tick t q => some (t, q)
  | _ => none
def ePutQ : Ev → Option (Nat × Nat)
  | .put t q _ => some (t, q)
  | _ => none
def eClaim : Ev → Option (Nat × Nat)
  | .claim t q => some (t, q)
  | _ => none
def eTookQ : Ev → Option (Nat × Nat)
  | .took t q _ => some (t, q)
  | _ => none
def Pc.putQ : Pc → Option Nat
  | .pPut _ q => some q
  | _ => none
def Pc.takeQ : Pc → Option Nat
  | .cTake q => some q
  | _ => none

/-- The inner queues of the first `m` tickets. -/
def tickets (n m : Nat) : List Nat := (List.range m).map (fun p => (p + 1) % n)

theorem tickets_succ (n m : Nat) : tickets n (m + 1) = tickets n m ++ [(m + 1) % n] := by
  simp [tickets, List.range_succ]

theorem tickets_prefix (n : Nat) {a b : Nat} (h : a ≤ b) : tickets n a <+: tickets n b := by
  obtain ⟨m, rfl⟩ := Nat.exists_eq_add_of_le h
  unfold tickets
  rw [List.range_add, List.map_append]
  exact List.prefix_append _ _

structure J (n : Nat) (s : S) : Prop where
  inv : Inv n s
  apart : Apart s
  put : Bal eTick ePutQ Pc.putQ s
  take : Bal eClaim eTookQ Pc.takeQ s
  tick : ((s.log.filterMap eTick).map Prod.snd).reverse = tickets n s.enq
  claim : ((s.log.filterMap eClaim).map Prod.snd).reverse = tickets n (s.deq - 1)
  d1 : 1 ≤ s.deq
  de : s.deq ≤ s.enq + 1
  cas : ∀ t q, s.pc t = .cCas q → q ≤ s.enq
  enq : ∀ t q, s.pc t = .cEnq q → q ≤ s.deq
  fls : ∀ t, s.pc t = .cRet none → s.deq = s.enq + 1
  nt : ∀ t, s.pc t ≠ .cTick

theorem one_some (t x u w : Nat) :
    one (some (t, x)) u w = if u = t then (if some x = some w then 1 else 0) else 0 := by
  unfold one
  by_cases hu : t = u
  · subst hu
    by_cases hw : x = w
    · subst hw; simp
    · simp [hw]
  · simp [hu, Ne.symm hu]

theorem one_none (u w : Nat) : one none u w = 0 := by simp [one]

theorem init_J : J n (init .fifo) where
  inv := init_inv _ _
  apart := by intro t u h; simp [init, Pc.pushes] at h
  put := by intro u v; simp [init, Pc.putQ]
  take := by intro u v; simp [init, Pc.takeQ]
  tick := by simp [init, tickets]
  claim := by simp [init, tickets]
  d1 := by simp [init]
  de := by simp [init]
  cas := by intro t q h; simp [init] at h
  enq := by intro t q h; simp [init] at h
  fls := by intro t h; simp [init] at h
  nt := by intro t h; simp [init] at h

theorem putQ_len (l : List Ev) (q : Nat) :
    ((l.filterMap ePutQ).map Prod.snd).count q = (at_ q (l.filterMap qPut)).length := by
  induction l with
  | nil => rfl
  | cons e l ih =>
    cases e with
    | put t i v => by_cases h : i = q <;> simp [List.filterMap_cons, ePutQ, qPut, at_, h] at ih ⊢ <;> omega
    | _ => simpa [List.filterMap_cons, ePutQ, qPut, at_] using ih

theorem tookQ_len (l : List Ev) (q : Nat) :
    ((l.filterMap eTookQ).map Prod.snd).count q = (at_ q (l.filterMap qTook)).length := by
  induction l with
  | nil => rfl
  | cons e l ih =>
    cases e with
    | took t i v => by_cases h : i = q <;> simp [List.filterMap_cons, eTookQ, qTook, at_, h] at ih ⊢ <;> omega
    | _ => simpa [List.filterMap_cons, eTookQ, qTook, at_] using ih

theorem no_putQ {s : S} (h : ∀ t, (s.pc t).pushes = false) (t : Nat) : (s.pc t).putQ = none := by
  have := h t
  cases hp : s.pc t <;> rw [hp] at this <;> simp [Pc.pushes, Pc.putQ] at this ⊢

theorem no_push {s : S} (ha : Apart s) {u : Nat} (hu : (s.pc u).pops = true) (t : Nat) :
    (s.pc t).pushes = false := by
  cases h : (s.pc t).pushes with
  | false => rfl
  | true => exact absurd ⟨h, hu⟩ (ha t u)

theorem sub_len {s : S} (hI : Inv n s) (q : Nat) :
    ((s.log.filterMap ePutQ).map Prod.snd).count q =
      ((s.log.filterMap eTookQ).map Prod.snd).count q + (s.sub q).length := by
  have := congrArg List.length (hI.sub q)
  simp only [List.length_reverse, List.length_append] at this
  rw [putQ_len, tookQ_len]
  exact this

theorem count_tick {s : S} (hJ : J n s) (q : Nat) :
    ((s.log.filterMap eTick).map Prod.snd).count q = (tickets n s.enq).count q := by
  rw [← hJ.tick, List.count_reverse]

theorem count_claim {s : S} (hJ : J n s) (q : Nat) :
    ((s.log.filterMap eClaim).map Prod.snd).count q = (tickets n (s.deq - 1)).count q := by
  rw [← hJ.claim, List.count_reverse]

/-- A pop that has a ticket finds something. -/
theorem no_miss {s : S} (hJ : J n s) {t q : Nat} (ht : s.pc t = .cTake q) : s.sub q ≠ [] := by
  have hnp := no_push hJ.apart (u := t) (by rw [ht]; rfl)
  have h1 := ((bal_quiet hJ.put (no_putQ hnp)).map Prod.snd).count_eq q
  have h2 := sub_len hJ.inv q
  have h3 := count_tick hJ q
  have h4 := count_claim hJ q
  have h5 : (tickets n (s.deq - 1)).count q ≤ (tickets n s.enq).count q :=
    (tickets_prefix n (by have := hJ.de; omega)).sublist.count_le q
  have h6 : ((t, q) :: s.log.filterMap eTookQ).Subperm (s.log.filterMap eClaim) := by
    rw [List.subperm_ext_iff]
    rintro ⟨u, i⟩ _
    have := hJ.take u i
    rw [List.count_cons]
    by_cases h : (t, q) = (u, i)
    · cases h; simp [ht, Pc.takeQ] at this ⊢; omega
    · simp [h]; omega
  have h7 := (subperm_map h6).count_le q
  simp at h7
  intro he
  rw [he] at h2
  simp at h2
  omega

/-- When nobody pushes and the count is zero, all tickets have been claimed. -/
theorem zero_all {s : S} (hJ : J n s) (hnp : ∀ t, (s.pc t).pushes = false) (hc : s.cnt = 0) :
    s.deq = s.enq + 1 := by
  have h1 := (bal_quiet hJ.put (no_putQ hnp)).length_eq
  have h2 := (bal_quiet hJ.inv.cntd (fun t => by
    have := hnp t
    cases hp : s.pc t <;> rw [hp] at this <;> simp [Pc.pushes, Pc.toCnt] at this ⊢)).length_eq
  have h3 := (bal_sub hJ.inv.dct).length_le
  have h4 := (bal_sub hJ.take).length_le
  have h5 := congrArg List.length hJ.tick
  have h6 := congrArg List.length hJ.claim
  have h7 := hJ.inv.cnt
  have e1 : (s.log.filterMap ePutQ).length = (s.log.filterMap ePut).length := by
    have : ∀ l : List Ev, (l.filterMap ePutQ).length = (l.filterMap ePut).length := by
      intro l
      induction l with
      | nil => rfl
      | cons e l ih => cases e <;> simp [List.filterMap_cons, ePutQ, ePut, ih]
    exact this _
  have e2 : (s.log.filterMap eTookQ).length = (s.log.filterMap eTook).length := by
    have : ∀ l : List Ev, (l.filterMap eTookQ).length = (l.filterMap eTook).length := by
      intro l
      induction l with
      | nil => rfl
      | cons e l ih => cases e <;> simp [List.filterMap_cons, eTookQ, eTook, ih]
    exact this _
  simp [tickets] at h5 h6
  have := hJ.de
  have := hJ.d1
  omega

/-- A step that moves a thread, with at most one event that is no ticket, keeps the part about tickets. -/
theorem J.step {s s' : S} {act : Act} (hn : 0 < n) (hJ : J n s) (hs : step .fifo n s act = some s')
    (ha : Apart s') : J n s' := by
  have hI := step_inv hn hJ.inv hs
  have pcs : ∀ (t : Nat) (c : Pc) (P : Nat → Prop) (f : Pc → Nat → Prop), (∀ q, f c q → P q) →
      (∀ u q, f (s.pc u) q → P q) → ∀ u q, f (upd s.pc t c u) q → P q := by
    intro t c P f h1 h2 u q h
    by_cases hu : u = t
    · subst hu; rw [upd_same] at h; exact h1 q h
    · rw [upd_ne _ _ hu] at h; exact h2 u q h
  have fl : ∀ (t : Nat) (c : Pc) (P : Prop), (c = .cRet none → P) → (∀ u, s.pc u = .cRet none → P) →
      ∀ u, upd s.pc t c u = .cRet none → P := by
    intro t c P h1 h2 u h
    by_cases hu : u = t
    · subst hu; rw [upd_same] at h; exact h1 h
    · rw [upd_ne _ _ hu] at h; exact h2 u h
  have nt : ∀ (t : Nat) (c : Pc), c ≠ .cTick → ∀ u, upd s.pc t c u ≠ .cTick := by
    intro t c hc u
    by_cases hu : u = t
    · subst hu; rw [upd_same]; exact hc
    · rw [upd_ne _ _ hu]; exact hJ.nt u
  cases act with
  | callPush t v =>
    simp only [Pool.step] at hs
    split at hs <;> cases hs
    rename_i ht
    refine ⟨hI, ha, ?_, ?_, ?_, ?_, hJ.d1, hJ.de, ?_, ?_, ?_, ?_⟩
    · exact hJ.put.ev t _ _ rfl rfl (by simp [eTick, ePutQ, one, ht, Pc.putQ])
    · exact hJ.take.ev t _ _ rfl rfl (by simp [eClaim, eTookQ, one, ht, Pc.takeQ])
    · simpa [List.filterMap_cons, eTick] using hJ.tick
    · simpa [List.filterMap_cons, eClaim] using hJ.claim
    · exact pcs t _ _ (fun c q => c = .cCas q) (by simp) hJ.cas
    · exact pcs t _ _ (fun c q => c = .cEnq q) (by simp) hJ.enq
    · exact fl t _ _ (by simp) hJ.fls
    · exact nt t _ (by first | (simp; done) | (split <;> simp))
  | callPop t =>
    simp only [Pool.step] at hs
    split at hs <;> cases hs
    rename_i ht
    refine ⟨hI, ha, ?_, ?_, ?_, ?_, hJ.d1, hJ.de, ?_, ?_, ?_, ?_⟩
    · exact hJ.put.ev t _ _ rfl rfl (by simp [eTick, ePutQ, one, ht, Pc.putQ])
    · exact hJ.take.ev t _ _ rfl rfl (by simp [eClaim, eTookQ, one, ht, Pc.takeQ])
    · simpa [List.filterMap_cons, eTick] using hJ.tick
    · simpa [List.filterMap_cons, eClaim] using hJ.claim
    · exact pcs t _ _ (fun c q => c = .cCas q) (by simp) hJ.cas
    · exact pcs t _ _ (fun c q => c = .cEnq q) (by simp) hJ.enq
    · exact fl t _ _ (by simp) hJ.fls
    · exact nt t _ (by first | (simp; done) | (split <;> simp))
  | go t =>
    simp only [Pool.step, go] at hs
    cases ht : s.pc t <;> rw [ht] at hs <;> simp only at hs
    case idle => cases hs
    case pTick v =>
      cases hs
      refine ⟨hI, ha, ?_, ?_, ?_, ?_, hJ.d1, ?_, ?_, ?_, ?_, ?_⟩
      · refine hJ.put.ev t _ _ rfl rfl ?_
        intro u w
        simp only [eTick, ePutQ, ht, Pc.putQ, one_some, one_none]
        simp
      · exact hJ.take.ev t _ _ rfl rfl (by simp [eClaim, eTookQ, one, ht, Pc.takeQ])
      · have := hJ.tick
        simp [List.filterMap_cons, eTick, tickets_succ] at this ⊢
        rw [this]
      · simpa [List.filterMap_cons, eClaim] using hJ.claim
      · have := hJ.de; simp only; omega
      · refine pcs t _ _ (fun c q => c = .cCas q) (by simp) ?_
        intro u q h; have := hJ.cas u q h; simp only; omega
      · exact pcs t _ _ (fun c q => c = .cEnq q) (by simp) hJ.enq
      · refine fl t _ _ (by simp) ?_
        intro u hu
        exact absurd ⟨by rw [ht]; rfl, by rw [hu]; rfl⟩ (hJ.apart t u)
      · exact nt t _ (by first | (simp; done) | (split <;> simp))
    case pPut v q =>
      cases hs
      refine ⟨hI, ha, ?_, ?_, ?_, ?_, hJ.d1, hJ.de, ?_, ?_, ?_, ?_⟩
      · refine hJ.put.ev t _ _ rfl rfl ?_
        intro u w
        simp only [eTick, ePutQ, ht, Pc.putQ, one_some, one_none]
        simp
      · exact hJ.take.ev t _ _ rfl rfl (by simp [eClaim, eTookQ, one, ht, Pc.takeQ])
      · simpa [List.filterMap_cons, eTick] using hJ.tick
      · simpa [List.filterMap_cons, eClaim] using hJ.claim
      · exact pcs t _ _ (fun c q => c = .cCas q) (by simp) hJ.cas
      · exact pcs t _ _ (fun c q => c = .cEnq q) (by simp) hJ.enq
      · exact fl t _ _ (by simp) hJ.fls
      · exact nt t _ (by first | (simp; done) | (split <;> simp))
    case cCnt =>
      have hnp := no_push hJ.apart (u := t) (by rw [ht]; rfl)
      cases hs
      refine ⟨hI, ha, ?_, ?_, hJ.tick, hJ.claim, hJ.d1, hJ.de, ?_, ?_, ?_, ?_⟩
      · exact hJ.put.quiet t _ rfl rfl (by rw [ht]; split <;> simp [Pc.putQ])
      · exact hJ.take.quiet t _ rfl rfl (by rw [ht]; split <;> simp [Pc.takeQ])
      · exact pcs t _ _ (fun c q => c = .cCas q) (by intro q; split <;> simp) hJ.cas
      · exact pcs t _ _ (fun c q => c = .cEnq q) (by intro q; split <;> simp) hJ.enq
      · refine fl t _ _ ?_ hJ.fls
        split
        · rename_i hc; intro _; exact zero_all (s := s) hJ hnp hc
        · simp
      · exact nt t _ (by first | (simp; done) | (split <;> simp))
    case cTick => exact absurd ht (hJ.nt t)
    case cDeq =>
      cases hs
      refine ⟨hI, ha, ?_, ?_, hJ.tick, hJ.claim, hJ.d1, hJ.de, ?_, ?_, ?_, ?_⟩
      · exact hJ.put.quiet t _ rfl rfl (by rw [ht]; rfl)
      · exact hJ.take.quiet t _ rfl rfl (by rw [ht]; rfl)
      · exact pcs t _ _ (fun c q => c = .cCas q) (by simp) hJ.cas
      · exact pcs t _ _ (fun c q => c = .cEnq q) (by simp) hJ.enq
      · exact fl t _ _ (by simp) hJ.fls
      · exact nt t _ (by first | (simp; done) | (split <;> simp))
    case cEnq q =>
      cases hs
      refine ⟨hI, ha, ?_, ?_, hJ.tick, hJ.claim, hJ.d1, hJ.de, ?_, ?_, ?_, ?_⟩
      · exact hJ.put.quiet t _ rfl rfl (by rw [ht]; split <;> simp [Pc.putQ])
      · exact hJ.take.quiet t _ rfl rfl (by rw [ht]; split <;> simp [Pc.takeQ])
      · refine pcs t _ _ (fun c q => c = .cCas q) ?_ hJ.cas
        intro i h
        split at h
        · cases h
        · cases h; simp only; omega
      · exact pcs t _ _ (fun c q => c = .cEnq q) (by intro q; split <;> simp) hJ.enq
      · refine fl t _ _ ?_ hJ.fls
        split
        · intro _
          have := hJ.enq t q ht
          have := hJ.de
          simp only
          omega
        · simp
      · exact nt t _ (by first | (simp; done) | (split <;> simp))
    case cCas q =>
      split at hs <;> cases hs
      · rename_i hd
        have hq := hJ.cas t q ht
        have h1 := hJ.d1
        refine ⟨hI, ha, ?_, ?_, ?_, ?_, ?_, ?_, hJ.cas |> fun h => pcs t _ _ (fun c q => c = .cCas q) (by simp) h, ?_, ?_, ?_⟩
        · exact hJ.put.ev t _ _ rfl rfl (by simp [eTick, ePutQ, one, ht, Pc.putQ])
        · refine hJ.take.ev t _ _ rfl rfl ?_
          intro u w
          simp only [eClaim, eTookQ, ht, Pc.takeQ, one_some, one_none]
          simp
        · simpa [List.filterMap_cons, eTick] using hJ.tick
        · have := hJ.claim
          have e : q = (q - 1) + 1 := by omega
          simp [List.filterMap_cons, eClaim] at this ⊢
          rw [this, hd]
          conv_rhs => rw [e, tickets_succ, ← e]
        · simp only; omega
        · simp only; omega
        · refine pcs t _ _ (fun c q => c = .cEnq q) (by simp) ?_
          intro u i h; have := hJ.enq u i h; simp only; omega
        · refine fl t _ _ (by simp) ?_
          intro u hu
          have := hJ.fls u hu
          omega
        · exact nt t _ (by first | (simp; done) | (split <;> simp))
      · refine ⟨hI, ha, ?_, ?_, hJ.tick, hJ.claim, hJ.d1, hJ.de, ?_, ?_, ?_, ?_⟩
        · exact hJ.put.quiet t _ rfl rfl (by rw [ht]; rfl)
        · exact hJ.take.quiet t _ rfl rfl (by rw [ht]; rfl)
        · exact pcs t _ _ (fun c q => c = .cCas q) (by simp) hJ.cas
        · exact pcs t _ _ (fun c q => c = .cEnq q) (by simp) hJ.enq
        · exact fl t _ _ (by simp) hJ.fls
        · exact nt t _ (by first | (simp; done) | (split <;> simp))
    case cTake q =>
      have hne := no_miss hJ ht
      cases hl : s.sub q with
      | nil => exact absurd hl hne
      | cons w l =>
        rw [hl] at hs
        cases hs
        refine ⟨hI, ha, ?_, ?_, ?_, ?_, hJ.d1, hJ.de, ?_, ?_, ?_, ?_⟩
        · exact hJ.put.ev t _ _ rfl rfl (by simp [eTick, ePutQ, one, ht, Pc.putQ])
        · refine hJ.take.ev t _ _ rfl rfl ?_
          intro u w
          simp only [eClaim, eTookQ, ht, Pc.takeQ, one_some, one_none]
          simp
        · simpa [List.filterMap_cons, eTick] using hJ.tick
        · simpa [List.filterMap_cons, eClaim] using hJ.claim
        · exact pcs t _ _ (fun c q => c = .cCas q) (by simp) hJ.cas
        · exact pcs t _ _ (fun c q => c = .cEnq q) (by simp) hJ.enq
        · exact fl t _ _ (by simp) hJ.fls
        · exact nt t _ (by first | (simp; done) | (split <;> simp))
    all_goals
      cases hs
      refine ⟨hI, ha, ?_, ?_, ?_, ?_, hJ.d1, hJ.de, ?_, ?_, ?_, ?_⟩
      · exact hJ.put.ev t _ _ rfl rfl (by simp [eTick, ePutQ, one, ht, Pc.putQ])
      · exact hJ.take.ev t _ _ rfl rfl (by simp [eClaim, eTookQ, one, ht, Pc.takeQ])
      · simpa [List.filterMap_cons, eTick] using hJ.tick
      · simpa [List.filterMap_cons, eClaim] using hJ.claim
      · exact pcs t _ _ (fun c q => c = .cCas q) (by simp) hJ.cas
      · exact pcs t _ _ (fun c q => c = .cEnq q) (by simp) hJ.enq
      · exact fl t _ _ (by simp) hJ.fls
      · exact nt t _ (by first | (simp; done) | (split <;> simp))

theorem phased_J (hn : 0 < n) {s : S} (h : Phased n (init .fifo) s) : J n s := by
  have key : ∀ a b, Phased n a b → J n a → J n b := by
    intro a b h ha
    induction h with
    | refl => exact ha
    | tail act _ hs hap ih => exact ih.step hn hs hap
  exact key _ _ h init_J

theorem sub_count {s : S} (hJ : J n s) (hq : Quiet s) (q : Nat) :
    (tickets n s.enq).count q = (tickets n (s.deq - 1)).count q + (s.sub q).length := by
  have h1 := ((bal_quiet hJ.put (fun t => by rw [hq t]; rfl)).map Prod.snd).count_eq q
  have h2 := ((bal_quiet hJ.take (fun t => by rw [hq t]; rfl)).map Prod.snd).count_eq q
  have h3 := sub_len hJ.inv q
  have h4 := count_tick hJ q
  have h5 := count_claim hJ q
  omega

theorem all_claimed {s : S} (hJ : J n s) (hq : Quiet s) (h : s.deq = s.enq + 1) : stored n s = [] := by
  unfold stored
  rw [List.flatMap_eq_nil_iff]
  intro q _
  have := sub_count hJ hq q
  have e : s.deq - 1 = s.enq := by omega
  rw [e] at this
  exact List.eq_nil_of_length_eq_zero (by omega)

/-- **C62, phased use of the FIFO pool is exact**: if no push overlaps a pop (pushes may overlap pushes, pops may overlap pops), then whenever nobody
is inside a call a pop that runs alone returns an element exactly if something is stored. -/
theorem C62_phased_pop (hn : 0 < n) (s : S) (h : Phased n (init .fifo) s) (hq : Quiet s) (t : Nat) :
    (stored n s ≠ [] → ∃ v s', v ∈ stored n s ∧ Alone .fifo n s t (.pop (some v)) s') ∧
    (stored n s = [] → ∃ s', Alone .fifo n s t (.pop none) s') := by
  have hJ := phased_J hn h
  have hcnt := (C62_conserved .fifo hn s h.reach hq).2
  constructor
  · intro hne
    have hlen := List.length_pos_iff.2 hne
    have hle : s.deq ≤ s.enq := by
      rcases Nat.lt_or_ge s.enq s.deq with h | h
      · exact absurd (all_claimed hJ hq (by have := hJ.de; omega)) hne
      · exact h
    have h1 := sub_count hJ hq (s.deq % n)
    have h2 : (tickets n s.deq).count (s.deq % n) ≤ (tickets n s.enq).count (s.deq % n) :=
      (tickets_prefix n hle).sublist.count_le _
    have e : s.deq = (s.deq - 1) + 1 := by have := hJ.d1; omega
    have h3 : (tickets n s.deq).count (s.deq % n) = (tickets n (s.deq - 1)).count (s.deq % n) + 1 := by
      conv_lhs => rw [e, tickets_succ, ← e]
      simp
    cases hs : s.sub (s.deq % n) with
    | nil => rw [hs] at h1; simp at h1; omega
    | cons v l =>
      refine ⟨v, _, ?_, lone_pop_fifo s t (hq t) (by omega) (by omega) v l hs⟩
      exact List.mem_flatMap.2 ⟨_, List.mem_range.2 (Nat.mod_lt _ hn), by rw [hs]; simp⟩
  · intro he
    rw [he] at hcnt
    exact ⟨_, lone_pop_zero s t (hq t) hcnt⟩

/-- No thread is inside `push` and all tickets are claimed: this lasts until the next call of `push`. -/
theorem done_step {s s' : S} {act : Act} (hJ : J n s) (hJ' : J n s')
    (hp : ∀ t, (s.pc t).pushes = false) (hd : s.deq = s.enq + 1) (hc : ∀ t v, act ≠ .callPush t v)
    (hs : step .fifo n s act = some s') :
    (∀ t, (s'.pc t).pushes = false) ∧ s'.deq = s'.enq + 1 := by
  have mv : ∀ t c, c.pushes = false → ∀ u, (upd s.pc t c u).pushes = false := by
    intro t c h u
    by_cases hu : u = t
    · subst hu; rw [upd_same]; exact h
    · rw [upd_ne _ _ hu]; exact hp u
  cases act with
  | callPush t v => exact absurd rfl (hc t v)
  | callPop t =>
    simp only [Pool.step] at hs
    split at hs <;> cases hs
    exact ⟨mv t _ rfl, hd⟩
  | go t =>
    have ht := hp t
    simp only [Pool.step, go] at hs
    cases hpc : s.pc t <;> rw [hpc] at hs ht <;> simp only at hs
    case idle => cases hs
    case cCnt => cases hs; exact ⟨mv t _ (by split <;> rfl), hd⟩
    case cTick => exact absurd hpc (hJ.nt t)
    case cEnq q => cases hs; exact ⟨mv t _ (by split <;> rfl), hd⟩
    case cCas q =>
      split at hs <;> cases hs
      · have := hJ'.de
        simp only at this
        omega
      · exact ⟨mv t _ rfl, hd⟩
    case cTake q => split at hs <;> cases hs <;> exact ⟨mv t _ rfl, hd⟩
    case cDeq => cases hs; exact ⟨mv t _ rfl, hd⟩
    case cDec v => cases hs; exact ⟨mv t _ rfl, hd⟩
    case cRet r => cases hs; exact ⟨mv t _ rfl, hd⟩
    all_goals cases ht

/-- **C62, in phased use false means empty**: if a pop returns false, and nobody calls `push` afterwards, then when all pops have returned nothing
is stored: everything pushed has been returned by some pop. -/
theorem C62_phased_false (hn : 0 < n) (s1 s2 s3 : S) (h1 : Phased n (init .fifo) s1) (t : Nat)
    (hs : step .fifo n s1 (.go t) = some s2) (hl : s2.log = .retPop t none :: s1.log)
    (ha : Apart s2) (h3 : Popping n s2 s3) (hq : Quiet s3) :
    stored n s3 = [] ∧ (pushed s3.log).Perm (popped s3.log) := by
  have hJ1 := phased_J hn h1
  have hpc : s1.pc t = .cRet none := by
    have hne : ∀ (e : Ev), s1.log ≠ e :: s1.log := fun e hh => by
      have := congrArg List.length hh; simp at this
    simp only [Pool.step, go] at hs
    cases hp : s1.pc t <;> rw [hp] at hs <;> simp only at hs
    case idle => cases hs
    case cRet r => cases hs; simp at hl; rw [hl]
    case cCas q => split at hs <;> cases hs <;> simp at hl
    case cTake q => split at hs <;> cases hs <;> simp at hl
    all_goals cases hs; simp at hl
  have hd := hJ1.fls t hpc
  have hp := no_push hJ1.apart (u := t) (by rw [hpc]; rfl)
  have h2 : Phased n (init .fifo) s2 := .tail _ h1 hs ha
  have d2 := done_step hJ1 (phased_J hn h2) hp hd (by simp) hs
  have d3 : Phased n (init .fifo) s3 ∧ (∀ t, (s3.pc t).pushes = false) ∧ s3.deq = s3.enq + 1 := by
    clear hq hl hs
    induction h3 with
    | refl => exact ⟨h2, d2⟩
    | tail act _ hc hst hap ih =>
      obtain ⟨i1, i2, i3⟩ := ih
      exact ⟨.tail act i1 hst hap, done_step (phased_J hn i1) (phased_J hn (.tail act i1 hst hap)) i2 i3 hc hst⟩
  have he := all_claimed (phased_J hn d3.1) hq d3.2.2
  refine ⟨he, ?_⟩
  have := (C62_conserved .fifo hn s3 d3.1.reach hq).1
  rw [he, List.append_nil] at this
  exact this

/-- A phase of two overlapping pushes is `Phased`. -/
example : ∃ s, Phased 2 (init .fifo) s ∧ s.log.length = 5 ∧ pushed s.log = [8, 7] := by
  have ap : ∀ s : S, (∀ t, (s.pc t).pops = false) → Apart s := by
    intro s h t u hh
    rw [h u] at hh
    cases hh.2
  refine ⟨_, .tail (.go 0) (.tail (.go 1) (.tail (.go 0) (.tail (.callPush 1 8) (.tail (.callPush 0 7) (.refl _) rfl
    (ap _ ?_)) rfl (ap _ ?_)) rfl (ap _ ?_)) rfl (ap _ ?_)) rfl (ap _ ?_), rfl, rfl⟩
  all_goals
    intro t
    simp only [upd, init]
    repeat' split
    all_goals rfl

end FF.Pool
