/-
The queues made of several queues, used by one thread at a time, are FIFO queues (C62); and what a lone consumer
gets.
-/
import Verif.Pool.Once

namespace FF.Pool

variable {k : Kind} {n : Nat}

/-- A call that runs alone has one outcome. -/
theorem run_det {s s1 s2 : S} {t a b : Nat}
    (h1 : exec (step k n) s (List.replicate a (.go t)) = some s1) (i1 : s1.pc t = .idle)
    (h2 : exec (step k n) s (List.replicate b (.go t)) = some s2) (i2 : s2.pc t = .idle) : s1 = s2 := by
  have stuck : ∀ (x y : S) (m : Nat), x.pc t = .idle →
      exec (step k n) x (List.replicate m (.go t)) = some y → y = x := by
    intro x y m hx h
    cases m with
    | zero => simp [exec] at h; exact h.symm
    | succ m => simp [List.replicate_succ, exec, step, go, hx] at h
  rcases Nat.le_total a b with h | h
  · obtain ⟨m, rfl⟩ := Nat.exists_eq_add_of_le h
    rw [List.replicate_add, exec_append, h1] at h2
    exact (stuck s1 s2 m i1 h2).symm
  · obtain ⟨m, rfl⟩ := Nat.exists_eq_add_of_le h
    rw [List.replicate_add, exec_append, h2] at h1
    exact stuck s2 s1 m i2 h1

/-- The outcome of a call is the one found by running it. -/
theorem Alone.det {s s1 s2 : S} {t : Nat} {o o' : Op} (hc : o.call t = o'.call t)
    (h1 : Alone k n s t o s1) (h2 : Alone k n s t o' s2) : s1 = s2 := by
  obtain ⟨a, e1, i1, _⟩ := h1
  obtain ⟨b, e2, i2, _⟩ := h2
  rw [← hc] at e2
  simp only [exec] at e1 e2
  cases h : step k n s (o.call t) with
  | none => rw [h] at e1; cases e1
  | some x =>
    rw [h] at e1 e2
    exact run_det e1 i1 e2 i2

theorem upd_upd {β : Type} (f : Nat → β) (i : Nat) (x y : β) : upd (upd f i x) i y = upd f i y := by
  funext j; by_cases h : j = i <;> simp [upd, h]

theorem upd_self {β : Type} (f : Nat → β) (i : Nat) (x : β) (h : f i = x) : upd f i x = f := by
  funext j; by_cases hj : j = i
  · subst hj; simp [upd, h]
  · simp [upd, hj]

/-- The state after a lone push. -/
def afterPush (n : Nat) (s : S) (t v : Nat) : S :=
  { enq := s.enq + 1, deq := s.deq, cnt := s.cnt + 1
    sub := upd s.sub ((s.enq + 1) % n) (s.sub ((s.enq + 1) % n) ++ [v]), pc := s.pc
    log := .retPush t v :: .counted t v :: .put t ((s.enq + 1) % n) v :: .tick t ((s.enq + 1) % n) ::
      .callPush t v :: s.log }

theorem lone_push (s : S) (t v : Nat) (ht : s.pc t = .idle) :
    Alone k n s t (.push v) (afterPush n s t v) := by
  refine ⟨4, ?_, ht, rfl⟩
  simp [Op.call, exec, step, go, ht, List.replicate, upd_upd, afterPush, upd_self _ _ _ ht]

/-- A lone pop of a queue whose count is 0. -/
theorem lone_pop_zero (s : S) (t : Nat) (ht : s.pc t = .idle) (hc : s.cnt = 0) :
    Alone k n s t (.pop none) { s with log := .retPop t none :: .callPop t :: s.log } := by
  refine ⟨2, ?_, ht, rfl⟩
  simp [Op.call, exec, step, go, ht, List.replicate, upd_upd, upd_self _ _ _ ht, hc]

/-- A lone pop (relaxed) that hits an empty inner queue. -/
theorem lone_pop_miss (hk : k ≠ .fifo) (s : S) (t : Nat) (ht : s.pc t = .idle) (hc : s.cnt ≠ 0)
    (hs : s.sub ((s.deq + 1) % n) = []) :
    Alone k n s t (.pop none)
      { s with deq := s.deq + 1
               log := .retPop t none :: .claim t ((s.deq + 1) % n) :: .callPop t :: s.log } := by
  refine ⟨4, ?_, ht, rfl⟩
  simp [Op.call, exec, step, go, ht, List.replicate, upd_upd, upd_self _ _ _ ht, hc, hk, hs]

/-- The state after a lone pop that takes `v` from the inner queue `q`, leaving `l` there. -/
def afterPop (s : S) (t q v : Nat) (l : List Nat) : S :=
  { enq := s.enq, deq := s.deq + 1, cnt := s.cnt - 1, sub := upd s.sub q l, pc := s.pc
    log := .retPop t (some v) :: .discounted t v :: .took t q v :: .claim t q :: .callPop t :: s.log }

theorem lone_pop_hit (hk : k ≠ .fifo) (s : S) (t : Nat) (ht : s.pc t = .idle) (hc : s.cnt ≠ 0)
    (v : Nat) (l : List Nat) (hs : s.sub ((s.deq + 1) % n) = v :: l) :
    Alone k n s t (.pop (some v)) (afterPop s t ((s.deq + 1) % n) v l) := by
  refine ⟨5, ?_, ht, rfl⟩
  simp [Op.call, exec, step, go, ht, List.replicate, upd_upd, upd_self _ _ _ ht, hc, hk, hs, afterPop]

theorem lone_pop_over (s : S) (t : Nat) (ht : s.pc t = .idle) (hc : s.cnt ≠ 0) (hq : s.enq < s.deq) :
    Alone .fifo n s t (.pop none) { s with log := .retPop t none :: .callPop t :: s.log } := by
  refine ⟨4, ?_, ht, rfl⟩
  simp [Op.call, exec, step, go, ht, List.replicate, upd_upd, upd_self _ _ _ ht, hc, hq]

theorem lone_pop_fifo (s : S) (t : Nat) (ht : s.pc t = .idle) (hc : s.cnt ≠ 0) (hq : ¬ s.enq < s.deq)
    (v : Nat) (l : List Nat) (hs : s.sub (s.deq % n) = v :: l) :
    Alone .fifo n s t (.pop (some v)) (afterPop s t (s.deq % n) v l) := by
  refine ⟨7, ?_, ht, rfl⟩
  simp [Op.call, exec, step, go, ht, List.replicate, upd_upd, upd_self _ _ _ ht, hc, hq, hs, afterPop]

/-! ### Sequential use -/

/-- The contents of inner queue `q` when the values `l` have consecutive positions from `d`. -/
def slots (n : Nat) : Nat → List Nat → Nat → List Nat
  | _, [], _ => []
  | d, x :: l, q => if d % n = q then x :: slots n (d + 1) l q else slots n (d + 1) l q

theorem slots_snoc (d : Nat) (l : List Nat) (v : Nat) :
    slots n d (l ++ [v]) = upd (slots n d l) ((d + l.length) % n) (slots n d l ((d + l.length) % n) ++ [v]) := by
  funext q
  induction l generalizing d with
  | nil => by_cases h : q = d % n <;> simp [slots, upd, h, eq_comm]
  | cons x l ih =>
    have e : d + 1 + l.length = d + (x :: l).length := by simp; omega
    have := ih (d + 1)
    rw [e] at this
    simp only [List.cons_append, slots, this]
    by_cases h : q = (d + (x :: l).length) % n
    · subst h
      simp only [upd_same]
      split <;> rfl
    · simp only [upd_ne _ _ h]

/-- The first position to be extracted next. -/
def base (k : Kind) (s : S) : Nat := if k = .fifo then s.deq else s.deq + 1

/-- The state represents the queue `l`. -/
structure Rep (k : Kind) (n : Nat) (s : S) (l : List Nat) : Prop where
  quiet : Quiet s
  cnt : s.cnt = l.length
  enq : s.enq + 1 = base k s + l.length
  sub : s.sub = slots n (base k s) l

theorem init_rep : Rep k n (init k) [] where
  quiet := fun _ => rfl
  cnt := rfl
  enq := by cases k <;> simp [init, base]
  sub := by funext q; simp [init, slots]

theorem push_rep {s : S} {l : List Nat} (h : Rep k n s l) (t v : Nat) :
    Rep k n (afterPush n s t v) (l ++ [v]) where
  quiet := h.quiet
  cnt := by simp [afterPush, h.cnt]
  enq := by have := h.enq; simp only [afterPush, base, List.length_append, List.length_cons, List.length_nil] at *; omega
  sub := by
    have e : base k (afterPush n s t v) = base k s := rfl
    rw [e, slots_snoc, ← h.sub, ← h.enq]
    rfl

theorem pop_rep {s : S} {x : Nat} {l : List Nat} (h : Rep k n s (x :: l)) (t : Nat) :
    s.sub (base k s % n) = x :: slots n (base k s + 1) l (base k s % n) ∧
    Rep k n (afterPop s t (base k s % n) x (slots n (base k s + 1) l (base k s % n))) l := by
  constructor
  · rw [h.sub]; simp [slots]
  · have e : base k (afterPop s t (base k s % n) x (slots n (base k s + 1) l (base k s % n))) = base k s + 1 := by
      simp only [base, afterPop]; split <;> omega
    refine ⟨h.quiet, ?_, ?_, ?_⟩
    · have := h.cnt; simp [afterPop] at *; omega
    · rw [e]; have := h.enq; simp only [afterPop, List.length_cons] at *; omega
    · rw [e]
      funext q
      simp only [afterPop]
      by_cases hq : q = base k s % n
      · subst hq; simp
      · rw [upd_ne _ _ hq, h.sub]; simp [slots, Ne.symm hq]

theorem base_lt {s : S} {x : Nat} {l : List Nat} (h : Rep .fifo n s (x :: l)) : ¬ s.enq < s.deq := by
  have := h.enq
  simp only [base, if_true, List.length_cons] at this
  omega

theorem rep_pop {s : S} {x : Nat} {l : List Nat} (h : Rep k n s (x :: l)) (t : Nat) :
    ∃ s', Alone k n s t (.pop (some x)) s' ∧ Rep k n s' l := by
  have hc : s.cnt ≠ 0 := by have := h.cnt; simp at this; omega
  obtain ⟨e, hr⟩ := pop_rep h t
  refine ⟨_, ?_, hr⟩
  by_cases hk : k = .fifo
  · subst hk
    exact lone_pop_fifo s t (h.quiet t) hc (base_lt h) _ _ e
  · have hb : base k s = s.deq + 1 := by simp [base, hk]
    rw [hb] at e ⊢
    exact lone_pop_hit hk s t (h.quiet t) hc _ _ e

theorem rep_pop_nil {s : S} (h : Rep k n s []) (t : Nat) :
    ∃ s', Alone k n s t (.pop none) s' ∧ Rep k n s' [] :=
  ⟨_, lone_pop_zero s t (h.quiet t) h.cnt, ⟨h.quiet, h.cnt, h.enq, h.sub⟩⟩

/-- The answer is determined. -/
theorem Alone.ans {s s1 s2 : S} {t : Nat} {o o' : Op} (hc : o.call t = o'.call t)
    (h1 : Alone k n s t o s1) (h2 : Alone k n s t o' s2) : o = o' := by
  have e := Alone.det hc h1 h2
  subst e
  obtain ⟨_, _, _, h1⟩ := h1
  obtain ⟨_, _, _, h2⟩ := h2
  rw [h1] at h2
  cases o <;> cases o' <;> simp_all [Op.ret, Op.call]

theorem seq_fifo {s s' : S} {os : List Op} (h : Seq k n s os s') (l : List Nat) (hr : Rep k n s l) :
    ∃ l', fifo l os = some l' ∧ Rep k n s' l' := by
  induction h generalizing l with
  | nil s => exact ⟨l, rfl, hr⟩
  | @cons s s1 s2 t o os ha _ ih =>
    cases o with
    | push v =>
      have e := Alone.det rfl (lone_push (k := k) (n := n) s t v (hr.quiet t)) ha
      subst e
      exact ih _ (push_rep hr t v)
    | pop r =>
      cases l with
      | nil =>
        obtain ⟨s3, h3, r3⟩ := rep_pop_nil hr t
        have e := Alone.det (o := .pop none) (o' := .pop r) rfl h3 ha
        subst e
        have e := Alone.ans (o := .pop none) (o' := .pop r) rfl h3 ha
        cases e
        simpa [fifo] using ih _ r3
      | cons x l =>
        obtain ⟨s3, h3, r3⟩ := rep_pop hr t
        have e := Alone.det (o := .pop (some x)) (o' := .pop r) rfl h3 ha
        subst e
        have e := Alone.ans (o := .pop (some x)) (o' := .pop r) rfl h3 ha
        cases e
        simpa [fifo] using ih _ r3

/-- **C62, sequential use is FIFO**: if calls do not overlap, whatever threads make them, the answers are those of a FIFO
queue, for every kind of pool and any number of inner queues. -/
theorem C62_sequential_fifo (k : Kind) (n : Nat) (os : List Op) (s : S)
    (h : Seq k n (init k) os s) : ∃ l, fifo [] os = some l := by
  obtain ⟨l, hl, _⟩ := seq_fifo h [] init_rep
  exact ⟨l, hl⟩

/-- **C62, sequential calls return**: after any calls that do not overlap, every further call has an outcome. -/
theorem C62_sequential_total (k : Kind) (n : Nat) (os : List Op) (s : S)
    (h : Seq k n (init k) os s) (t : Nat) :
    (∀ v, ∃ s', Alone k n s t (.push v) s') ∧ (∃ r s', Alone k n s t (.pop r) s') := by
  obtain ⟨l, _, hr⟩ := seq_fifo h [] init_rep
  refine ⟨fun v => ⟨_, lone_push s t v (hr.quiet t)⟩, ?_⟩
  cases l with
  | nil => obtain ⟨s', h, _⟩ := rep_pop_nil hr t; exact ⟨_, s', h⟩
  | cons x l => obtain ⟨s', h, _⟩ := rep_pop hr t; exact ⟨_, s', h⟩

/-- Three threads take turns. -/
example : ∃ s, Seq .fifo 2 (init .fifo) [.push 7, .push 8, .pop (some 7), .push 9, .pop (some 8), .pop (some 9), .pop none] s := by
  have go : ∀ {s : S} {l : List Nat} (os : List Op), Rep .fifo 2 s l → fifo l os ≠ none → ∃ s', Seq .fifo 2 s os s' := by
    intro s l os
    induction os generalizing s l with
    | nil => intro _ _; exact ⟨s, .nil s⟩
    | cons o os ih =>
      intro hr hf
      cases o with
      | push v =>
        obtain ⟨s', h'⟩ := ih (push_rep hr 0 v) hf
        exact ⟨s', .cons (lone_push s 0 v (hr.quiet 0)) h'⟩
      | pop r =>
        cases l with
        | nil =>
          obtain ⟨s1, h1, r1⟩ := rep_pop_nil hr 1
          simp only [fifo] at hf
          split at hf
          · rename_i e; subst e
            obtain ⟨s', h'⟩ := ih r1 hf
            exact ⟨s', .cons h1 h'⟩
          · exact absurd rfl hf
        | cons x l =>
          obtain ⟨s1, h1, r1⟩ := rep_pop hr 2
          simp only [fifo] at hf
          split at hf
          · rename_i e; subst e
            obtain ⟨s', h'⟩ := ih r1 hf
            exact ⟨s', .cons h1 h'⟩
          · exact absurd rfl hf
  exact go _ init_rep (by decide)

/-! ### A lone consumer gets everything -/

theorem drain_aux (hk : k ≠ .fifo) (hn : 0 < n) (s : S) (hq : Quiet s) (t : Nat) (hc : s.cnt ≠ 0) (j : Nat)
    (hs : s.sub ((s.deq + 1 + j) % n) ≠ []) :
    ∃ i v s', i ≤ j ∧ v ∈ stored n s ∧ Seq k n s (List.replicate i (.pop none) ++ [.pop (some v)]) s' := by
  have hit : ∀ (s : S) (hq : Quiet s) (hc : s.cnt ≠ 0) (j v : Nat) (l : List Nat),
      s.sub ((s.deq + 1) % n) = v :: l →
      ∃ i v s', i ≤ j ∧ v ∈ stored n s ∧ Seq k n s (List.replicate i (.pop none) ++ [.pop (some v)]) s' := by
    intro s hq hc j v l e
    refine ⟨0, v, _, Nat.zero_le _, ?_, .cons (lone_pop_hit hk s t (hq t) hc v l e) (.nil _)⟩
    exact List.mem_flatMap.2 ⟨_, List.mem_range.2 (Nat.mod_lt _ hn), by rw [e]; simp⟩
  induction j generalizing s with
  | zero =>
    cases e : s.sub ((s.deq + 1) % n) with
    | nil => rw [Nat.add_zero] at hs; exact absurd e hs
    | cons v l => exact hit s hq hc _ v l e
  | succ j ih =>
    cases e : s.sub ((s.deq + 1) % n) with
    | cons v l => exact hit s hq hc _ v l e
    | nil =>
      have hm := lone_pop_miss hk s t (hq t) hc e
      have e' : s.deq + 1 + (j + 1) = s.deq + 1 + 1 + j := by omega
      rw [e'] at hs
      obtain ⟨i, v, s', hi, hv, hseq⟩ := ih
        { s with deq := s.deq + 1, log := .retPop t none :: .claim t ((s.deq + 1) % n) :: .callPop t :: s.log }
        hq hc hs
      exact ⟨i + 1, v, s', by omega, hv, .cons hm hseq⟩

/-- **C62, draining (relaxed pools)**: when nobody is inside a call and something is stored, a consumer that runs alone gets an
element after fewer than `n` calls that return false. -/
theorem C62_drain (hk : k ≠ .fifo) (hn : 0 < n) (s : S) (h : Reach (step k n) (init k) s) (hq : Quiet s)
    (hne : stored n s ≠ []) (t : Nat) :
    ∃ j v s', j < n ∧ v ∈ stored n s ∧ Seq k n s (List.replicate j (.pop none) ++ [.pop (some v)]) s' := by
  have hc : s.cnt ≠ 0 := by
    have h1 := (C62_conserved k hn s h hq).2
    have h2 := List.length_pos_iff.2 hne
    omega
  -- the distance to the next inner queue with something in it
  have hex : ∃ j, j < n ∧ s.sub ((s.deq + 1 + j) % n) ≠ [] := by
    obtain ⟨v, hv⟩ := List.exists_mem_of_ne_nil _ hne
    obtain ⟨q, hq1, hq2⟩ := List.mem_flatMap.1 hv
    have hqn := List.mem_range.1 hq1
    refine ⟨(q + n - (s.deq + 1) % n) % n, Nat.mod_lt _ hn, ?_⟩
    have : (s.deq + 1 + (q + n - (s.deq + 1) % n) % n) % n = q := by
      have hlt : (s.deq + 1) % n < n := Nat.mod_lt _ hn
      rw [Nat.add_mod_mod]
      have e : (s.deq + 1) % n + (q + n - (s.deq + 1) % n) = q + n := by omega
      rw [← Nat.mod_add_mod, e, Nat.add_mod_right, Nat.mod_eq_of_lt hqn]
    rw [this]
    intro e
    rw [e] at hq2
    cases hq2
  obtain ⟨j, hj, hs⟩ := hex
  obtain ⟨i, v, s', hi, hv, h'⟩ := drain_aux hk hn s hq t hc j hs
  exact ⟨i, v, s', by omega, hv, h'⟩

end FF.Pool
