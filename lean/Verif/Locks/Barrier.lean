import Verif.Locks.Tas
/-!
# The spinning barrier

Source: `/repo/ff/barrier.hpp` 169-210 (`barrierSetup` 182-189, `doBarrier` 191-204).

`N` threads with distinct identifiers, each calling `doBarrier(tid)` any number of times.
`barArray[tid]` is only accessed by its own thread; `B[0]`, `B[1]` are `std::atomic<long>` with
sequentially consistent operations, so interleaving of the individual accesses is exact.
Simplification: `long` as natural number (it never exceeds `N`).
Ghost: `entered t`, `left t` count the calls of `doBarrier` started and returned from; `round` counts
the resets of a counter.
-/
namespace FF.Locks.Barrier
open FF.Locks.Tas (upd)

inductive Pc where
  | out
  /-- `whichBar` computed -/
  | toggled (w : Bool)
  /-- `++B[w]` gave `c ≠ _barrier`; in the `while` -/
  | spin (w : Bool)
  /-- `++B[w]` gave `_barrier`; about to reset the counter -/
  | last (w : Bool)
deriving DecidableEq, Repr

structure St (N : Nat) where
  bar : Fin N → Bool
  B : Bool → Nat
  pc : Fin N → Pc
  entered : Fin N → Nat
  left : Fin N → Nat
  round : Nat

/-- After `barrierSetup(N)` (barrier.hpp 182-189). -/
def init (N : Nat) : St N :=
  { bar := fun _ => false, B := fun _ => 0, pc := fun _ => .out, entered := fun _ => 0
    left := fun _ => 0, round := 0 }

inductive Act (N : Nat) where
  /-- call; `whichBar = (barArray[tid] ^= true)` -/
  | enter (t : Fin N)
  /-- `c = ++B[whichBar]` and the comparison with `_barrier` -/
  | inc (t : Fin N)
  /-- `B[whichBar] = 0; return` -/
  | reset (t : Fin N)
  /-- one iteration of the spin loop -/
  | look (t : Fin N)

def step {N : Nat} (s : St N) : Act N → Option (St N)
  -- barrier.hpp 193
  | .enter t =>
    match s.pc t with
    | .out => some { s with
        bar := upd s.bar t (!s.bar t)
        pc := upd s.pc t (.toggled (!s.bar t))
        entered := upd s.entered t (s.entered t + 1) }
    | _ => none
  -- barrier.hpp 194-195
  | .inc t =>
    match s.pc t with
    | .toggled w => some { s with
        B := upd s.B w (s.B w + 1)
        pc := upd s.pc t (if s.B w + 1 = N then .last w else .spin w) }
    | _ => none
  -- barrier.hpp 196-197
  | .reset t =>
    match s.pc t with
    | .last w => some { s with
        B := upd s.B w 0
        pc := upd s.pc t .out
        left := upd s.left t (s.left t + 1)
        round := s.round + 1 }
    | _ => none
  -- barrier.hpp 200-203
  | .look t =>
    match s.pc t with
    | .spin w =>
      if s.B w = 0 then some { s with
        pc := upd s.pc t .out
        left := upd s.left t (s.left t + 1) }
      else some s
    | _ => none

/-- Has executed `++B` in the round `r`. -/
def counted (r : Nat) (pc : Pc) (entered : Nat) : Bool :=
  match pc with
  | .spin _ => entered = r
  | .last _ => entered = r
  | _ => false

/-- Parity of the `r`-th call. -/
def par (r : Nat) : Bool := r % 2 = 1

theorem par_succ (r : Nat) : par (r + 1) = !par r := by
  simp only [par]
  rcases Nat.mod_two_eq_zero_or_one r with h | h <;> simp [Nat.add_mod, h]

/-- What is true of one thread when `round = R`. -/
def TOk (R : Nat) (bar : Bool) (entered left : Nat) : Pc → Prop
  | .out => entered = R ∧ left = R ∧ bar = par R
  | .toggled w => entered = R + 1 ∧ left = R ∧ bar = par (R + 1) ∧ w = bar
  | .spin w => bar = w ∧ w = par entered ∧ entered = left + 1 ∧ (entered = R + 1 ∨ entered = R)
  | .last w => bar = w ∧ w = par entered ∧ entered = left + 1 ∧ entered = R + 1

def cnt {N : Nat} (r : Nat) (pc : Fin N → Pc) (entered : Fin N → Nat) : Nat :=
  (List.finRange N).countP fun t => counted r (pc t) (entered t)

structure Inv {N : Nat} (s : St N) : Prop where
  th : ∀ t, TOk s.round (s.bar t) (s.entered t) (s.left t) (s.pc t)
  old : s.B (par s.round) = 0
  new : s.B (par (s.round + 1)) = cnt (s.round + 1) s.pc s.entered
  full : ∀ t w, s.pc t = .last w → cnt (s.round + 1) s.pc s.entered = N
  ex : cnt (s.round + 1) s.pc s.entered = N → 0 < N → ∃ t w, s.pc t = .last w
  uniq : ∀ t t' w w', s.pc t = .last w → s.pc t' = .last w' → t = t'

theorem countP_upd {N : Nat} (p p' : Fin N → Bool) (t : Fin N) (h : ∀ t', t' ≠ t → p' t' = p t')
    (h1 : p t = false) (h2 : p' t = true) :
    (List.finRange N).countP p' = (List.finRange N).countP p + 1 := by
  have key : ∀ l : List (Fin N), l.Nodup →
      l.countP p' = l.countP p + (if t ∈ l then 1 else 0) := by
    intro l hl
    induction l with
    | nil => simp
    | cons a l ih =>
      obtain ⟨ha, hl⟩ := List.nodup_cons.1 hl
      rw [List.countP_cons, List.countP_cons, ih hl]
      by_cases e : a = t
      · subst e
        simp [h1, h2, ha]
      · have e' : ¬ t = a := fun x => e x.symm
        simp only [h a e, List.mem_cons, e', false_or]; omega
  rw [key _ (List.nodup_finRange N)]
  simp

theorem countP_all {N : Nat} {p : Fin N → Bool} (h : (List.finRange N).countP p = N) (t : Fin N) :
    p t = true := by
  have : (List.finRange N).countP p = (List.finRange N).length := by simpa using h
  rw [List.countP_eq_length] at this
  exact this t (List.mem_finRange t)

theorem cnt_congr {N : Nat} {r : Nat} {pc pc' : Fin N → Pc} {en en' : Fin N → Nat}
    (h : ∀ t, counted r (pc' t) (en' t) = counted r (pc t) (en t)) : cnt r pc' en' = cnt r pc en := by
  unfold cnt
  congr 1
  funext t
  exact h t

theorem cnt_le {N : Nat} (r : Nat) (pc : Fin N → Pc) (en : Fin N → Nat) : cnt r pc en ≤ N := by
  have := List.countP_le_length (p := fun t => counted r (pc t) (en t)) (l := List.finRange N)
  simpa [cnt] using this

theorem init_inv (N : Nat) : Inv (init N) where
  th := fun _ => ⟨rfl, rfl, rfl⟩
  old := rfl
  new := by simp [init, cnt, counted]
  full := by simp [init]
  ex := by
    intro h hN
    simp [init, cnt, counted] at h
    omega
  uniq := by simp [init]

theorem Inv.step {N : Nat} {s s' : St N} {act : Act N} (h : Inv s)
    (hs : Barrier.step s act = some s') : Inv s' := by
  cases act with
  | enter t =>
    simp only [Barrier.step] at hs
    split at hs <;> simp only [Option.some.injEq, reduceCtorEq] at hs
    rename_i hpc
    subst hs
    have ht := h.th t
    rw [hpc] at ht
    obtain ⟨h1, h2, h3⟩ := ht
    have hc : cnt (s.round + 1) (upd s.pc t (.toggled (!s.bar t)))
        (upd s.entered t (s.entered t + 1)) = cnt (s.round + 1) s.pc s.entered := by
      apply cnt_congr
      intro t'
      simp only [upd]; split
      · rename_i e; subst e; rw [hpc]; rfl
      · rfl
    exact
    { th := by
        intro t'
        simp only [upd]; split
        · rename_i e; subst e
          exact ⟨by omega, h2, by rw [h3, par_succ], rfl⟩
        · exact h.th t'
      old := h.old
      new := by simp only [hc]; exact h.new
      full := by
        simp only [hc]
        intro t' w
        simp only [upd]; split
        · simp
        · exact h.full t' w
      ex := by
        simp only [hc]
        intro he hN
        obtain ⟨t', w, hw⟩ := h.ex he hN
        refine ⟨t', w, ?_⟩
        have : t' ≠ t := by rintro rfl; rw [hpc] at hw; simp at hw
        simp [upd, this, hw]
      uniq := by
        intro a b w w'
        simp only [upd]; split <;> split <;> try simp
        exact h.uniq a b w w' }
  | inc t =>
    simp only [Barrier.step] at hs
    split at hs <;> simp only [Option.some.injEq, reduceCtorEq] at hs
    rename_i w hpc
    subst hs
    have ht := h.th t
    rw [hpc] at ht
    obtain ⟨h1, h2, h3, h4⟩ := ht
    have hw : w = par (s.round + 1) := by rw [h4, h3]
    have hBw : s.B w = cnt (s.round + 1) s.pc s.entered := by rw [hw]; exact h.new
    have hcn : ∀ c, (c = Pc.last w ∨ c = Pc.spin w) →
        cnt (s.round + 1) (upd s.pc t c) s.entered = cnt (s.round + 1) s.pc s.entered + 1 := by
      intro c hc
      unfold cnt
      apply countP_upd _ _ t
      · intro t' ht'; simp [upd, ht']
      · rw [hpc]; rfl
      · rcases hc with rfl | rfl <;> simp [upd, counted, h1]
    have hcn' := hcn (if s.B w + 1 = N then .last w else .spin w) (by split <;> simp)
    have hnl : ∀ t' w', s.pc t' ≠ .last w' := by
      intro t' w' hl
      have := countP_all (h.full t' w' hl) t
      rw [hpc] at this
      simp [counted] at this
    exact
    { th := by
        intro t'
        simp only [upd]; split
        · rename_i e; subst e
          split
          · exact ⟨h4.symm, by rw [hw, h1], by omega, h1⟩
          · exact ⟨h4.symm, by rw [hw, h1], by omega, Or.inl h1⟩
        · exact h.th t'
      old := by
        have : par s.round ≠ w := by rw [hw, par_succ]; cases par s.round <;> simp
        simp only [upd]; rw [if_neg this]; exact h.old
      new := by
        simp only [hcn']
        rw [← hw]
        simp [upd, hBw]
      full := by
        simp only [hcn']
        intro t' w'
        simp only [upd]; split
        · split
          · intro _; omega
          · simp
        · intro hl; exact absurd hl (hnl t' w')
      ex := by
        simp only [hcn']
        intro he hN
        exact ⟨t, w, by simp only [upd, if_true]; rw [if_pos (by omega)]⟩
      uniq := by
        intro a b w1 w2
        intro h5 h6
        have ha : a = t := by
          apply Classical.byContradiction
          intro e; simp only [upd, e, if_false] at h5; exact hnl a w1 h5
        have hb : b = t := by
          apply Classical.byContradiction
          intro e; simp only [upd, e, if_false] at h6; exact hnl b w2 h6
        rw [ha, hb] }
  | reset t =>
    simp only [Barrier.step] at hs
    split at hs <;> simp only [Option.some.injEq, reduceCtorEq] at hs
    rename_i w hpc
    subst hs
    have ht := h.th t
    rw [hpc] at ht
    obtain ⟨h1, h2, h3, h4⟩ := ht
    have hw : w = par (s.round + 1) := by rw [h2, h4]
    have hfull := h.full t w hpc
    have hall : ∀ t', counted (s.round + 1) (s.pc t') (s.entered t') = true := countP_all hfull
    have hone : ∀ t', t' ≠ t → ∃ w', s.pc t' = .spin w' := by
      intro t' hne
      have h5 := hall t'
      cases hp : s.pc t' with
      | out => rw [hp] at h5; simp [counted] at h5
      | toggled _ => rw [hp] at h5; simp [counted] at h5
      | spin w' => exact ⟨w', rfl⟩
      | last w' => exact absurd (h.uniq t' t w' w hp hpc) hne
    have hen : ∀ t', s.entered t' = s.round + 1 := by
      intro t'
      have h5 := hall t'
      by_cases e : t' = t
      · rw [e]; exact h4
      · obtain ⟨w', hw'⟩ := hone t' e
        rw [hw'] at h5
        simpa [counted] using h5
    have hcz : ∀ pc' : Fin N → Pc, cnt (s.round + 1 + 1) pc' s.entered = 0 := by
      intro pc'
      unfold cnt
      rw [List.countP_eq_zero]
      intro t' _
      have := hen t'
      simp only [counted]
      cases pc' t' <;> simp <;> omega
    have hnl : ∀ t' w', upd s.pc t .out t' ≠ .last w' := by
      intro t' w'
      simp only [upd]; split
      · simp
      · rename_i e
        obtain ⟨w'', hw''⟩ := hone t' e
        rw [hw'']; simp
    have hNpos : 0 < N := Nat.lt_of_le_of_lt (Nat.zero_le _) t.isLt
    exact
    { th := by
        intro t'
        have ht' := h.th t'
        simp only [upd]; split
        · rename_i e; subst e
          exact ⟨h4, by omega, by rw [h1, hw]⟩
        · rename_i e
          obtain ⟨w', hw'⟩ := hone t' e
          rw [hw'] at ht' ⊢
          exact ⟨ht'.1, ht'.2.1, ht'.2.2.1, Or.inr (hen t')⟩
      old := by simp [upd, hw]
      new := by
        simp only [hcz]
        have : par (s.round + 1 + 1) ≠ w := by rw [par_succ, hw]; cases par (s.round + 1) <;> simp
        simp only [upd]; rw [if_neg this]
        have : par (s.round + 1 + 1) = par s.round := by rw [par_succ, par_succ]; simp
        rw [this]; exact h.old
      full := fun t' w' hl => absurd hl (hnl t' w')
      ex := by
        simp only [hcz]
        intro he; omega
      uniq := fun a b w1 w2 h1 => absurd h1 (hnl a w1) }
  | look t =>
    simp only [Barrier.step] at hs
    split at hs <;> try simp only [reduceCtorEq] at hs
    rename_i w hpc
    split at hs <;> simp only [Option.some.injEq] at hs <;> subst hs
    · rename_i hB
      have ht := h.th t
      rw [hpc] at ht
      obtain ⟨h1, h2, h3, h4⟩ := ht
      have hR : s.entered t = s.round := by
        rcases h4 with h4 | h4
        · exfalso
          have h5 := h.new
          rw [← h4, ← h2, hB] at h5
          have h6 := List.countP_eq_zero.1 h5.symm t (List.mem_finRange t)
          rw [hpc] at h6
          simp [counted] at h6
        · exact h4
      have hc : cnt (s.round + 1) (upd s.pc t .out) s.entered =
          cnt (s.round + 1) s.pc s.entered := by
        apply cnt_congr
        intro t'
        simp only [upd]; split
        · rename_i e; subst e; rw [hpc]; simp [counted, hR]
        · rfl
      exact
      { th := by
          intro t'
          simp only [upd]; split
          · rename_i e; subst e
            exact ⟨hR, by omega, by rw [h1, h2, hR]⟩
          · exact h.th t'
        old := h.old
        new := by simp only [hc]; exact h.new
        full := by
          simp only [hc]
          intro t' w
          simp only [upd]; split
          · simp
          · exact h.full t' w
        ex := by
          simp only [hc]
          intro he hN
          obtain ⟨t', w, hw⟩ := h.ex he hN
          refine ⟨t', w, ?_⟩
          have : t' ≠ t := by rintro rfl; rw [hpc] at hw; simp at hw
          simp [upd, this, hw]
        uniq := by
          intro a b w w'
          simp only [upd]; split <;> split <;> try simp
          exact h.uniq a b w w' }
    · exact h

theorem reach_inv {N : Nat} {s : St N} (h : Reach step (init N) s) : Inv s :=
  h.inv (init_inv N) fun _ _ _ hI hs => hI.step hs

/-- **C15, separation of phases**: when a thread has returned from its `k`-th `doBarrier`, every
thread of the group has entered its `k`-th `doBarrier`. -/
theorem C15_separation (N : Nat) (s : St N) (h : Reach step (init N) s) (t t' : Fin N) (k : Nat)
    (hk : k ≤ s.left t) : k ≤ s.entered t' := by
  have hI := reach_inv h
  have h1 := hI.th t
  have h2 := hI.th t'
  have a : s.left t ≤ s.round := by
    revert h1; cases s.pc t <;> simp only [TOk] <;> omega
  have b : s.round ≤ s.entered t' := by
    revert h2; cases s.pc t' <;> simp only [TOk] <;> omega
  omega

/-- Number of actions the threads inside still have to do. -/
def work : Pc → Nat
  | .out => 0
  | .toggled _ => 2
  | .spin _ => 1
  | .last _ => 1

def isEnter {N : Nat} : Act N → Bool
  | .enter _ => true
  | _ => false

theorem sum_upd_lt {N : Nat} (f g : Fin N → Nat) (t : Fin N) (h : ∀ t', t' ≠ t → g t' = f t')
    (hlt : g t < f t) : ((List.finRange N).map g).sum < ((List.finRange N).map f).sum := by
  have key : ∀ l : List (Fin N), l.Nodup →
      (l.map g).sum + (if t ∈ l then f t else 0) = (l.map f).sum + (if t ∈ l then g t else 0) := by
    intro l hl
    induction l with
    | nil => simp
    | cons a l ih =>
      obtain ⟨ha, hl⟩ := List.nodup_cons.1 hl
      have := ih hl
      by_cases e : a = t
      · subst e
        simp [ha] at this ⊢
        omega
      · have e' : ¬ t = a := fun x => e x.symm
        simp only [List.map_cons, List.sum_cons, h a e, List.mem_cons, e', false_or]; omega
  have := key _ (List.nodup_finRange N)
  simp at this
  omega

/-- **C15, every thread can return**: from any state in which all threads have entered their `k`-th
call (and whatever else they did), the threads inside can all return without anybody entering
again. -/
theorem C15_all_return (N : Nat) (s : St N) (h : Reach step (init N) s) (k : Nat)
    (hk : ∀ t, s.entered t = k) :
    ∃ as s', exec step s as = some s' ∧ (∀ a ∈ as, isEnter a = false) ∧
      (∀ t, s'.pc t = .out ∧ s'.left t = k) := by
  generalize hm : ((List.finRange N).map fun t => work (s.pc t)).sum = m
  induction m using Nat.strongRecOn generalizing s with
  | ind m ih =>
  have hI := reach_inv h
  by_cases hall : ∀ t, s.pc t = .out
  · refine ⟨[], s, rfl, by simp, fun t => ⟨hall t, ?_⟩⟩
    have := hI.th t
    rw [hall t] at this
    have := hk t
    simp only [TOk] at *; omega
  · -- some action other than `enter` makes progress
    have hstep : ∃ a s1, step s a = some s1 ∧ isEnter a = false ∧
        ((List.finRange N).map fun t => work (s1.pc t)).sum < m ∧ ∀ t, s1.entered t = k := by
      have hN : 0 < N := by
        rcases Nat.eq_zero_or_pos N with h0 | h0
        · subst h0; exact absurd (fun t => t.elim0) hall
        · exact h0
      by_cases htog : ∃ t w, s.pc t = .toggled w
      · obtain ⟨t, w, hw⟩ := htog
        refine ⟨.inc t, { s with
          B := upd s.B w (s.B w + 1)
          pc := upd s.pc t (if s.B w + 1 = N then .last w else .spin w) }, by simp only [step, hw], rfl, ?_, hk⟩
        rw [← hm]
        apply sum_upd_lt _ _ t
        · intro t' ht'; simp [upd, ht']
        · simp only [upd, if_true, hw]
          split <;> simp [work]
      by_cases hlast : ∃ t w, s.pc t = .last w
      · obtain ⟨t, w, hw⟩ := hlast
        refine ⟨.reset t, { s with
          B := upd s.B w 0
          pc := upd s.pc t .out
          left := upd s.left t (s.left t + 1)
          round := s.round + 1 }, by simp only [step, hw], rfl, ?_, hk⟩
        rw [← hm]
        apply sum_upd_lt _ _ t
        · intro t' ht'; simp [upd, ht']
        · simp [upd, hw, work]
      have hspin : ∃ t w, s.pc t = .spin w := by
        apply Classical.byContradiction
        intro hc
        apply hall
        intro t
        cases hp : s.pc t with
        | out => rfl
        | toggled w => exact absurd ⟨t, w, hp⟩ htog
        | spin w => exact absurd ⟨t, w, hp⟩ hc
        | last w => exact absurd ⟨t, w, hp⟩ hlast
      obtain ⟨t, w, hw⟩ := hspin
      have ht := hI.th t
      rw [hw] at ht
      obtain ⟨h1, h2, h3, h4⟩ := ht
      have hkt := hk t
      have hB : s.B w = 0 := by
        rcases h4 with h4 | h4
        · exfalso
          apply hlast
          apply hI.ex _ hN
          have : ∀ t', counted (s.round + 1) (s.pc t') (s.entered t') = true := by
            intro t'
            have h5 := hI.th t'
            have h6 := hk t'
            cases hp : s.pc t' with
            | out => rw [hp] at h5; simp only [TOk] at h5; omega
            | toggled w => exact absurd ⟨t', w, hp⟩ htog
            | spin w => simp only [counted, decide_eq_true_eq]; omega
            | last w => simp only [counted, decide_eq_true_eq]; omega
          unfold cnt
          rw [List.countP_eq_length.2 (fun t' _ => this t')]
          simp
        · rw [h2, h4]; exact hI.old
      refine ⟨.look t, { s with
          pc := upd s.pc t .out
          left := upd s.left t (s.left t + 1) }, by simp only [step, hw, hB, if_true], rfl, ?_, hk⟩
      rw [← hm]
      apply sum_upd_lt _ _ t
      · intro t' ht'; simp [upd, ht']
      · simp [upd, hw, work]
    obtain ⟨a, s1, h1, h2, h3, h4⟩ := hstep
    obtain ⟨as, s', h5, h6, h7⟩ := ih _ h3 s1 (h.tail h1) h4 rfl
    refine ⟨a :: as, s', by simp [exec, h1, h5], ?_, h7⟩
    intro b hb
    rcases List.mem_cons.1 hb with rfl | hb
    · exact h2
    · exact h6 b hb

/-- **C15, no premature exit and no lost exit, thread by thread**: a spinning thread's next look
succeeds exactly when all threads of the group have arrived at its round and the last of them has
reset the counter, i.e. when the number of completed rounds has reached the thread's own round. -/
theorem C15_exit_iff (N : Nat) (s : St N) (h : Reach step (init N) s) (t : Fin N) (w : Bool)
    (hw : s.pc t = .spin w) : s.B w = 0 ↔ s.entered t = s.round := by
  have hI := reach_inv h
  have ht := hI.th t
  rw [hw] at ht
  obtain ⟨h1, h2, h3, h4⟩ := ht
  constructor
  · intro hB
    rcases h4 with h4 | h4
    · exfalso
      have h5 := hI.new
      rw [← h4, ← h2, hB] at h5
      have h6 := List.countP_eq_zero.1 h5.symm t (List.mem_finRange t)
      rw [hw] at h6
      simp [counted] at h6
    · exact h4
  · intro he
    rw [h2, he]; exact hI.old

/-! Non-vacuity: two threads, thread 0 enters the second round while thread 1 is still in the
first one. -/
def demo : List (Act 2) :=
  [.enter 0, .inc 0, .look 0, .enter 1, .inc 1, .reset 1, .enter 1, .inc 1, .look 1, .look 0, .enter 0]

example : (exec step (init 2) demo).map (fun s => (s.entered 0, s.entered 1, s.left 0, s.left 1)) =
    some (2, 2, 1, 1) := by decide

end FF.Locks.Barrier
