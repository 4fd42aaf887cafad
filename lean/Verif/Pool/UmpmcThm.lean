/-
Theorems about `uMPMC_Ptr_Queue` (C61).
-/
import Verif.Pool.UmpmcStep

namespace FF.Umpmc

variable {T A : Type} [DecidableEq T]

theorem pushing_pos {n : Nat} {c : Pc A} {i : Nat} (h : c.pushing n = some i) :
    ∃ p, c.posP = some p ∧ p % n = i := by
  cases c <;> simp_all [Pc.pushing, Pc.posP]

theorem popping_pos {n : Nat} {c : Pc A} {i : Nat} (h : c.popping n = some i) :
    ∃ p, c.posC = some p ∧ p % n = i := by
  cases c <;> simp_all [Pc.popping, Pc.posC]

omit [DecidableEq T] in
theorem Inv.posP {n : Nat} {s : St T A} {w r : Nat → Nat} (hI : Inv n s w r) {t : T} {p : Nat}
    (h : (s.pc t).posP = some p) : p < s.preadP ∧ s.seqP (p % n) = p := by
  have := hI.pc t
  revert this h
  cases s.pc t with
  | pIn a q => rintro h ⟨g1, g2, _⟩; cases h; exact ⟨g1, g2⟩
  | pSt a q => rintro h ⟨g1, g2, _⟩; cases h; exact ⟨g1, g2⟩
  | _ => intro h; cases h

omit [DecidableEq T] in
theorem Inv.posC {n : Nat} {s : St T A} {w r : Nat → Nat} (hI : Inv n s w r) {t : T} {p : Nat}
    (h : (s.pc t).posC = some p) : p < s.preadC ∧ s.seqC (p % n) = p := by
  have := hI.pc t
  revert this h
  cases s.pc t with
  | cIn q => rintro h ⟨g1, g2, _⟩; cases h; exact ⟨g1, g2⟩
  | cSt q x => rintro h ⟨g1, g2, _⟩; cases h; exact ⟨g1, g2⟩
  | _ => intro h; cases h

/-- **C61, the inner queues are used by one producer and one consumer at a time**, whatever the number of
threads: two threads are never inside `push` (nor inside `pop`) of the same inner queue. -/
theorem C61_exclusive {n : Nat} (hn : 0 < n) (s : St T A) (h : Reach (step n) (init T A) s)
    (t t' : T) (i : Nat) :
    ((s.pc t).pushing n = some i → (s.pc t').pushing n = some i → t = t') ∧
    ((s.pc t).popping n = some i → (s.pc t').popping n = some i → t = t') := by
  obtain ⟨w, r, hI⟩ := reach_inv hn h
  constructor
  · intro h1 h2
    obtain ⟨p, h1, e1⟩ := pushing_pos h1
    obtain ⟨q, h2, e2⟩ := pushing_pos h2
    have k1 := (hI.posP h1).2
    have k2 := (hI.posP h2).2
    rw [e1] at k1
    rw [e2, k1] at k2
    exact hI.uP t t' p h1 (by rw [k2]; exact h2)
  · intro h1 h2
    obtain ⟨p, h1, e1⟩ := popping_pos h1
    obtain ⟨q, h2, e2⟩ := popping_pos h2
    have k1 := (hI.posC h1).2
    have k2 := (hI.posC h2).2
    rw [e1] at k1
    rw [e2, k1] at k2
    exact hI.uC t t' p h1 (by rw [k2]; exact h2)

/-- **C61, values and order**: a pop that returns true and took position `p` returns the value whose push took
position `p`, and that push has returned. -/
theorem C61_order {n : Nat} (hn : 0 < n) (s : St T A) (h : Reach (step n) (init T A) s)
    (p : Nat) (x : Option A) (hx : (p, x) ∈ popped s.log) :
    ∃ a, x = some a ∧ s.tickets[p]? = some a ∧ (p, a) ∈ accepted s.log := by
  obtain ⟨w, r, hI⟩ := reach_inv hn h
  obtain ⟨t, ht⟩ := mem_popped.1 hx
  obtain ⟨h1, _, h3⟩ := hI.evC t p x ht
  obtain ⟨a, ha⟩ := hI.cvP p h3
  obtain ⟨u, hu⟩ := mem_accepted.1 ha
  have h4 := (hI.evP u p a hu).1
  exact ⟨a, by rw [h1, h4], h4, ha⟩

/-- **C61, exactly once**: no two pushes and no two pops share a position; a push that took position `p` stored
its own value there. -/
theorem C61_once {n : Nat} (hn : 0 < n) (s : St T A) (h : Reach (step n) (init T A) s) :
    ((accepted s.log).map Prod.fst).Nodup ∧ ((popped s.log).map Prod.fst).Nodup ∧
    (∀ p a, (p, a) ∈ accepted s.log → s.tickets[p]? = some a) := by
  obtain ⟨w, r, hI⟩ := reach_inv hn h
  refine ⟨hI.ndP, hI.ndC, fun p a ha => ?_⟩
  obtain ⟨u, hu⟩ := mem_accepted.1 ha
  exact (hI.evP u p a hu).1

/-- **C61, real time**: positions are handed out in increasing order, so pushes that do not overlap get their
positions in the order of the calls; likewise for pops. -/
theorem C61_positions_monotone (n : Nat) (s s' : St T A) (h' : Reach (step n) s s') :
    s.tickets <+: s'.tickets ∧ s.preadC ≤ s'.preadC := by
  refine h'.inv (Inv := fun s' => s.tickets <+: s'.tickets ∧ s.preadC ≤ s'.preadC)
    ⟨List.prefix_refl _, Nat.le_refl _⟩ ?_
  intro a act b ih hs
  cases act with
  | push t x =>
    simp only [step] at hs
    split at hs <;> cases hs
    exact ih
  | pop t =>
    simp only [step] at hs
    split at hs <;> cases hs
    exact ih
  | go t =>
    simp only [step, go] at hs
    cases ht : a.pc t <;> rw [ht] at hs <;> simp only at hs
    case pCas x pw =>
      split at hs <;> cases hs
      · exact ⟨ih.1.trans (List.prefix_append _ _), ih.2⟩
      · exact ih
    case cTest pr => split at hs <;> cases hs <;> exact ih
    case cCas pr =>
      split at hs <;> cases hs
      · rename_i e; exact ⟨ih.1, by have := ih.2; simp only; omega⟩
      · exact ih
    case cIn pr => split at hs <;> cases hs <;> exact ih
    all_goals first | cases hs; exact ih | cases hs

/-- **C61, push completes alone**: if no thread is stopped inside the insertion, a thread that runs `push(a)`
without interference finishes in six steps and takes the next position. -/
theorem C61_push_completes {n : Nat} (hn : 0 < n) (s : St T A) (h : Reach (step n) (init T A) s)
    (hq : ∀ u, (s.pc u).pushing n = none) (t : T) (ht : s.pc t = .idle) (a : A) :
    ∃ s', exec (step n) s (.push t a :: List.replicate 5 (.go t)) = some s' ∧ s'.pc t = .idle ∧
      s'.tickets = s.tickets ++ [a] ∧ s'.log = .pushed t s.tickets.length a :: s.log := by
  obtain ⟨w, r, hI⟩ := reach_inv hn h
  have hlt : s.preadP % n < n := Nat.mod_lt _ hn
  have h1 : s.seqP (s.preadP % n) = s.preadP := by
    rcases Nat.lt_or_ge (s.seqP (s.preadP % n)) s.preadP with h | h
    · obtain ⟨u, hu⟩ := hI.eP _ hlt h
      have := hq u
      revert this hu
      cases s.pc u <;> simp [Pc.posP, Pc.pushing]
    · rcases Nat.lt_or_ge s.preadP (s.seqP (s.preadP % n)) with h' | h'
      · have := apart (n := n) (by rw [hI.mP _ hlt]) h'
        have := (hI.bP _ hlt).1
        omega
      · omega
  simp [exec, step, go, ht, upd, h1, hI.len]

/-- The push that took position `p` has returned exactly if `seqP` says so. -/
theorem accepted_iff {n : Nat} {s : St T A} {w r : Nat → Nat} (hI : Inv n s w r) {p : Nat} :
    p < s.seqP (p % n) ↔ ∃ a, (p, a) ∈ accepted s.log := by
  constructor
  · exact hI.cvP p
  · rintro ⟨a, ha⟩
    obtain ⟨u, hu⟩ := mem_accepted.1 ha
    exact (hI.evP u p a hu).2

/-- **C61, pop completes alone**: if no thread is stopped inside the extraction, a thread that runs `pop` without
interference finishes in at most six steps.  It returns the value of the oldest position not yet popped if the
push that took this position has returned, and false otherwise. -/
theorem C61_pop_completes {n : Nat} (hn : 0 < n) (s : St T A) (h : Reach (step n) (init T A) s)
    (hq : ∀ u, (s.pc u).popping n = none) (t : T) (ht : s.pc t = .idle) :
    (∀ a, (s.preadC, a) ∈ accepted s.log →
      ∃ s', exec (step n) s (.pop t :: List.replicate 6 (.go t)) = some s' ∧ s'.pc t = .idle ∧
        s'.log = .popped t s.preadC (some a) :: s.log) ∧
    ((¬ ∃ a, (s.preadC, a) ∈ accepted s.log) →
      ∃ s', exec (step n) s (.pop t :: List.replicate 3 (.go t)) = some s' ∧ s'.pc t = .idle ∧
        s'.log = .empty t :: s.log) := by
  obtain ⟨w, r, hI⟩ := reach_inv hn h
  have hlt : s.preadC % n < n := Nat.mod_lt _ hn
  have h1 : s.seqC (s.preadC % n) = s.preadC := by
    rcases Nat.lt_or_ge (s.seqC (s.preadC % n)) s.preadC with h | h
    · obtain ⟨u, hu⟩ := hI.eC _ hlt h
      have := hq u
      revert this hu
      cases s.pc u <;> simp [Pc.posC, Pc.popping]
    · rcases Nat.lt_or_ge s.preadC (s.seqC (s.preadC % n)) with h' | h'
      · have := apart (n := n) (by rw [hI.mC _ hlt]) h'
        have := (hI.bC _ hlt).1
        omega
      · omega
  rw [← accepted_iff hI]
  constructor
  · intro a ha
    have h2 : s.preadC < s.seqP (s.preadC % n) := (accepted_iff hI).2 ⟨a, ha⟩
    obtain ⟨u, hu⟩ := mem_accepted.1 ha
    have h3 := (hI.evP u _ a hu).1
    have h4 : r (s.preadC % n) = s.preadC := by
      rcases hI.hr _ hlt with h | h <;> omega
    have h5 : ∃ l, s.sub (s.preadC % n) = a :: l := by
      have hl := hI.ln _ hlt
      have hw : s.preadC < w (s.preadC % n) := by
        rcases hI.hw _ hlt with h | h <;> omega
      cases hs : s.sub (s.preadC % n) with
      | nil => rw [hs, h4] at hl; simp at hl; omega
      | cons b l =>
        have := hI.el _ hlt 0 (by rw [hs]; simp)
        rw [hs, h4] at this
        simp at this
        rw [h3] at this
        cases this
        exact ⟨l, rfl⟩
    obtain ⟨l, h5⟩ := h5
    have h6 : ¬ s.seqP (s.preadC % n) ≤ s.preadC := by omega
    simp [exec, step, go, ht, upd, h1, h6, h5]
  · intro h2
    have h6 : s.seqP (s.preadC % n) ≤ s.preadC := by omega
    simp [exec, step, go, ht, upd, h1, h6]

/-- A pop looks at positions that have not been passed over. -/
theorem read_inv {n : Nat} (s : St T A) (h : Reach (step n) (init T A) s) (t : T) (pr : Nat) :
    s.pc t = .cSeq pr ∨ s.pc t = .cTest pr → pr ≤ s.preadC := by
  have key : ∀ u q, s.pc u = .cSeq q ∨ s.pc u = .cTest q → q ≤ s.preadC := by
    refine h.inv (Inv := fun s => ∀ u q, s.pc u = .cSeq q ∨ s.pc u = .cTest q → q ≤ s.preadC) ?_ ?_
    · intro u q h; simp [init] at h
    · intro a act b ih hs
      have move : ∀ (v : T) (c : Pc A), (∀ q, c = .cSeq q ∨ c = .cTest q → q ≤ a.preadC) →
          ∀ u q, upd a.pc v c u = .cSeq q ∨ upd a.pc v c u = .cTest q → q ≤ a.preadC := by
        intro v c hc u q h
        by_cases hu : u = v
        · subst hu; rw [upd_same] at h; exact hc q h
        · rw [upd_ne _ _ hu] at h; exact ih u q h
      cases act with
      | push v x =>
        simp only [step] at hs
        split at hs <;> cases hs
        exact move v _ (by simp)
      | pop v =>
        simp only [step] at hs
        split at hs <;> cases hs
        exact move v _ (by simp)
      | go v =>
        simp only [step, go] at hs
        cases hv : a.pc v <;> rw [hv] at hs <;> simp only at hs
        case idle => cases hs
        case pCas x pw => split at hs <;> cases hs <;> exact move v _ (by simp)
        case pSeq x pw => cases hs; exact move v _ (by intro q h; split at h <;> simp at h)
        case cTop => cases hs; exact move v _ (by intro q h; simp at h; omega)
        case cSeq pr =>
          cases hs
          have := ih v pr (Or.inl hv)
          refine move v _ ?_
          intro q h
          split at h <;> simp at h
          omega
        case cTest pr => split at hs <;> cases hs <;> exact move v _ (by simp)
        case cCas pr =>
          split at hs <;> cases hs
          · rename_i e
            intro u q h
            have := move v (.cIn pr) (by simp) u q h
            simp only
            omega
          · exact move v _ (by simp)
        case cIn pr => split at hs <;> cases hs <;> exact move v _ (by simp)
        all_goals cases hs; exact move v _ (by simp)
  exact key t pr

/-- **C61, what false means**: at the instant a pop decides to return false, the push of the oldest position not yet
taken by a pop has not returned.  If no push is in progress at that instant the queue is
empty: every position handed out to a push has been taken by a pop. -/
theorem C61_false {n : Nat} (hn : 0 < n) (s s' : St T A) (h : Reach (step n) (init T A) s) (t : T)
    (hs : step n s (.go t) = some s') (he : s'.log = .empty t :: s.log) :
    (¬ ∃ a, (s.preadC, a) ∈ accepted s.log) ∧
    ((∀ u, (s.pc u).pushing n = none) → s.preadC = s.tickets.length) := by
  obtain ⟨w, r, hI⟩ := reach_inv hn h
  have hne : ∀ (e : Ev T A), s.log ≠ e :: s.log := fun e hh => by
    have := congrArg List.length hh; simp at this
  have main : ∃ pr, s.pc t = .cTest pr ∧ s.seqP (pr % n) ≤ pr := by
    simp only [step, go] at hs
    cases ht : s.pc t <;> rw [ht] at hs <;> simp only at hs
    case idle => cases hs
    case cTest pr =>
      split at hs
      · rename_i hle; exact ⟨pr, rfl, hle⟩
      · cases hs; exact absurd he (hne _)
    case pCas x pw => split at hs <;> cases hs <;> exact absurd he (hne _)
    case cCas pr => split at hs <;> cases hs <;> exact absurd he (hne _)
    case cIn pr => split at hs <;> cases hs <;> exact absurd he (hne _)
    case pSt a pw => cases hs; simp at he
    case cSt pr x => cases hs; simp at he
    all_goals cases hs; exact absurd he (hne _)
  obtain ⟨pr, hpc, hle⟩ := main
  have h1 : pr ≤ s.preadC := read_inv s h t pr (Or.inr hpc)
  have hlt : pr % n < n := Nat.mod_lt _ hn
  -- positions taken by pops had been published
  have pub : ∀ p, p < s.preadC → p < s.seqP (p % n) := by
    intro p hp
    have hpl : p % n < n := Nat.mod_lt _ hn
    by_cases hc : p < s.seqC (p % n)
    · obtain ⟨x, hx⟩ := hI.cvC p hc
      obtain ⟨u, hu⟩ := mem_popped.1 hx
      exact (hI.evC u p x hu).2.2
    · have hb := (hI.bC _ hpl).2
      have e : s.seqC (p % n) = p := by
        rcases Nat.lt_or_ge (s.seqC (p % n)) p with h' | h'
        · have := apart (n := n) (hI.mC _ hpl) h'
          omega
        · omega
      obtain ⟨u, hu⟩ := hI.eC _ hpl (by omega)
      rw [e] at hu
      have := hI.pc u
      revert this hu
      cases s.pc u with
      | cIn q => rintro hu ⟨_, _, _, g⟩; cases hu; exact g
      | cSt q x => rintro hu ⟨_, _, _, g, _⟩; cases hu; exact g
      | _ => intro hu; cases hu
  have e : pr = s.preadC := by
    rcases Nat.lt_or_ge pr s.preadC with h' | h'
    · have := pub pr h'; omega
    · omega
  subst e
  refine ⟨fun hh => ?_, fun hq => ?_⟩
  · have := (accepted_iff hI).2 hh; omega
  · rw [hI.len]
    have h2 : s.preadP ≤ s.seqP (s.preadC % n) := by
      rcases Nat.lt_or_ge (s.seqP (s.preadC % n)) s.preadP with h | h
      · obtain ⟨u, hu⟩ := hI.eP _ hlt h
        have := hq u
        revert this hu
        cases s.pc u <;> simp [Pc.posP, Pc.pushing]
      · exact h
    have h3 : s.preadC ≤ s.preadP := by
      rcases Nat.eq_zero_or_pos s.preadC with h0 | h0
      · omega
      · have h4 := pub (s.preadC - 1) (by omega)
        have hl' : (s.preadC - 1) % n < n := Nat.mod_lt _ hn
        have := apart (n := n) (by rw [hI.mP _ hl']) h4
        have := (hI.bP _ hl').1
        omega
    omega

/-- **C61, conservation**: when nobody is inside a call, the positions pushed are exactly the ones handed out, the
positions popped are exactly the first ones, and every value not yet popped is still inside. -/
theorem C61_conserved {n : Nat} (hn : 0 < n) (s : St T A) (h : Reach (step n) (init T A) s)
    (hq : ∀ u, s.pc u = .idle) :
    s.preadC ≤ s.tickets.length ∧
    (∀ p, (∃ a, (p, a) ∈ accepted s.log) ↔ p < s.tickets.length) ∧
    (∀ p, (∃ x, (p, x) ∈ popped s.log) ↔ p < s.preadC) := by
  obtain ⟨w, r, hI⟩ := reach_inv hn h
  have hP : ∀ i < n, s.preadP ≤ s.seqP i := by
    intro i hi
    rcases Nat.lt_or_ge (s.seqP i) s.preadP with h | h
    · obtain ⟨u, hu⟩ := hI.eP i hi h
      rw [hq u] at hu; cases hu
    · exact h
  have hC : ∀ i < n, s.preadC ≤ s.seqC i := by
    intro i hi
    rcases Nat.lt_or_ge (s.seqC i) s.preadC with h | h
    · obtain ⟨u, hu⟩ := hI.eC i hi h
      rw [hq u] at hu; cases hu
    · exact h
  have small : ∀ p, p < s.seqP (p % n) → p < s.preadP := by
    intro p h
    have hp : p % n < n := Nat.mod_lt _ hn
    have := apart (n := n) (by rw [hI.mP _ hp]) h
    have := (hI.bP _ hp).1
    omega
  have smallC : ∀ p, p < s.seqC (p % n) → p < s.preadC := by
    intro p h
    have hp : p % n < n := Nat.mod_lt _ hn
    have := apart (n := n) (by rw [hI.mC _ hp]) h
    have := (hI.bC _ hp).1
    omega
  have popd : ∀ p, (∃ x, (p, x) ∈ popped s.log) ↔ p < s.preadC := by
    intro p
    constructor
    · rintro ⟨x, hx⟩
      obtain ⟨u, hu⟩ := mem_popped.1 hx
      exact smallC p (hI.evC u p x hu).2.1
    · intro h
      exact hI.cvC p (Nat.lt_of_lt_of_le h (hC _ (Nat.mod_lt _ hn)))
  refine ⟨?_, ?_, popd⟩
  · rw [hI.len]
    rcases Nat.eq_zero_or_pos s.preadC with h0 | h0
    · omega
    · obtain ⟨x, hx⟩ := (popd (s.preadC - 1)).2 (by omega)
      obtain ⟨u, hu⟩ := mem_popped.1 hx
      have := small _ (hI.evC u _ x hu).2.2
      omega
  · intro p
    rw [← accepted_iff hI, hI.len]
    exact ⟨small p, fun h => Nat.lt_of_lt_of_le h (hP _ (Nat.mod_lt _ hn))⟩

/-- The thread of an action. -/
def Act.thread : Act T A → T
  | .push t _ | .pop t | .go t => t

/-- **C61, not non-blocking**: `push` is documented as non-blocking, but if a thread stops inside its insertion at position
`p`, the others, whatever they do and however long, take at most the positions below `p + n`: all further pushes
spin for ever. -/
theorem C61_push_blocks_counterexample {n : Nat} (hn : 0 < n) (s : St T A)
    (h : Reach (step n) (init T A) s) (t : T) (p : Nat) (hp : (s.pc t).posP = some p)
    (as : List (Act T A)) (ha : ∀ a ∈ as, a.thread ≠ t) (s' : St T A)
    (hs : exec (step n) s as = some s') : s'.tickets.length ≤ p + n := by
  have stay : (s'.pc t).posP = some p := by
    clear h
    induction as generalizing s with
    | nil => cases hs; exact hp
    | cons a as ih =>
      simp only [exec] at hs
      cases h1 : step n s a with
      | none => rw [h1] at hs; cases hs
      | some s1 =>
        rw [h1] at hs
        refine ih s1 ?_ (fun b hb => ha b (by simp [hb])) hs
        have hne := ha a (by simp)
        have keep : ∀ (v : T) (c : Pc A), t ≠ v → upd s.pc v c t = s.pc t := fun v c hv => upd_ne _ _ hv
        cases a with
        | push v x =>
          simp only [step] at h1
          split at h1 <;> cases h1
          simp only [keep v _ (Ne.symm hne)]; exact hp
        | pop v =>
          simp only [step] at h1
          split at h1 <;> cases h1
          simp only [keep v _ (Ne.symm hne)]; exact hp
        | go v =>
          have hne' : t ≠ v := Ne.symm hne
          simp only [step, go] at h1
          split at h1
          case h_1 => cases h1
          case h_4 => split at h1 <;> cases h1 <;> (simp only [keep v _ hne']; exact hp)
          case h_9 => split at h1 <;> cases h1 <;> (simp only [keep v _ hne']; exact hp)
          case h_10 => split at h1 <;> cases h1 <;> (simp only [keep v _ hne']; exact hp)
          case h_11 => split at h1 <;> cases h1 <;> (simp only [keep v _ hne']; exact hp)
          all_goals cases h1; simp only [keep v _ hne']; exact hp
  obtain ⟨w, r, hI⟩ := reach_inv hn (h.trans ⟨as, hs⟩)
  have h1 := (hI.posP stay).2
  have h2 := (hI.bP _ (Nat.mod_lt p hn)).2
  rw [hI.len]
  omega

/-- The hypotheses of `C61_push_blocks_counterexample` are met: a thread stops inside its first push. -/
example : ∃ s : St Nat Nat, Reach (step 4) (init Nat Nat) s ∧ (s.pc 0).posP = some 0 :=
  ⟨_, ⟨[.push 0 7, .go 0, .go 0, .go 0], rfl⟩, rfl⟩

/-- **C61, not linearizable**: a pop can return false although a push has returned before it was called and nothing has been popped:
the value waits behind the one of a slower push.  For every number of inner queues from 2. -/
theorem C61_linearizable_counterexample (n : Nat) (hn : 2 ≤ n) :
    ∃ s1 s2 : St Nat Nat,
      Reach (step n) (init Nat Nat) s1 ∧ (1, 8) ∈ accepted s1.log ∧ popped s1.log = [] ∧
      exec (step n) s1 [.pop 2, .go 2, .go 2, .go 2] = some s2 ∧ s2.log = .empty 2 :: s1.log := by
  have h1 : 1 % n = 1 := Nat.mod_eq_of_lt (by omega)
  refine ⟨{ preadP := 2, preadC := 0, seqP := upd id 1 (1 + n), seqC := id
            sub := upd (fun _ => []) 1 [8], pc := upd (fun _ => .idle) 0 (.pIn 7 0)
            tickets := [7, 8], log := [.pushed 1 1 8] },
    { preadP := 2, preadC := 0, seqP := upd id 1 (1 + n), seqC := id
      sub := upd (fun _ => []) 1 [8], pc := upd (fun _ => .idle) 0 (.pIn 7 0)
      tickets := [7, 8], log := [.empty 2, .pushed 1 1 8] },
    ⟨[.push 0 7, .go 0, .go 0, .go 0, .push 1 8, .go 1, .go 1, .go 1, .go 1, .go 1], ?_⟩, ?_, ?_, ?_, ?_⟩
  · simp only [exec, step, go, init]
    simp [upd, h1]
    funext t
    simp only [upd]
    repeat' split
    all_goals first | rfl | omega
  · simp [accepted]
  · simp [popped]
  · simp [exec, step, go, upd]
    funext t
    simp only [upd]
    repeat' split
    all_goals first | rfl | omega
  · rfl

/-- Three threads: two push at the same time, the third pops both values in the order of the positions. -/
example : ∃ s : St Nat Nat, exec (step 2) (init Nat Nat)
    ([.push 0 7, .push 1 8] ++ [.go 0, .go 1, .go 0, .go 1, .go 1, .go 0, .go 0, .go 1, .go 0, .go 1,
      .go 0, .go 0, .go 0] ++ [.pop 2, .go 2, .go 2, .go 2, .go 2, .go 2, .go 2] ++
      [.pop 2, .go 2, .go 2, .go 2, .go 2, .go 2, .go 2]) = some s ∧
    popped s.log = [(1, some 7), (0, some 8)] := ⟨_, rfl, rfl⟩

end FF.Umpmc
