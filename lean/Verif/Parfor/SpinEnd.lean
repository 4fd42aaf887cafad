import Verif.Farm.Gatherer
import Verif.Common.Trans
/-!
# The end of the loops of spinning workers (C82)

A `ParallelFor` whose workers spin between the loops (`spinwait`), with the spinning barrier (`spinbarrier`),
executes loops one after the other, each with its own number of workers.  Models, for loops without scheduler
thread, `ff_forall_farm::run_then_freeze` (ff/parallel_for_internals.hpp 1089-1099), `wait_freezing`
(1149-1157), the end of `forallreduce_W::svc` (887-890) and `spinBarrier` (ff/barrier.hpp 169-210).

The tasks of a loop are left out (C29, C30): a worker that has been woken up executes its part and then enters
the barrier.  Simplifications: `++B[k]`, the comparison with `_barrier` and, for the last thread, `B[k]=0` are one
action.  As long as `_barrier` does not change while a thread is in between, the others that have entered can only
spin in the meantime.  `Parfor/SpinFine` has the single accesses and shows what happens when `_barrier` changes.
Reads of `B` that do not end the spinning are not actions.
-/
namespace FF.Parfor.SpinEnd
open FF FF.Node

/-- a worker: waiting for a task, executing its part of the loop, spinning on `B[k]` (barrier.hpp 199-202) -/
inductive WPC where
  | idle
  | run
  | spin (k : Bool)
  deriving DecidableEq, Repr

/-- the caller: between two loops, before `doBarrier`, spinning -/
inductive CPC where
  | out
  | wait
  | spin (k : Bool)
  deriving DecidableEq, Repr

structure S where
  /-- `barArray` (barrier.hpp 208) -/
  par : Nat → Bool
  /-- `B` (209) -/
  b : Bool → Nat
  /-- `_barrier` (207) -/
  size : Nat
  /-- `getnw()` of the current or last loop -/
  n : Nat
  /-- wake-ups in the queue of each worker -/
  q : Nat → Nat
  w : Nat → WPC
  c : CPC
  /-- ghost: wake-ups sent to each worker, and parts of loops it has completed -/
  sent : Nat → Nat
  done : Nat → Nat
  /-- ghost: the value of `barArray` of a thread that has not yet entered the barrier of this loop -/
  p : Bool

inductive Act where
  /-- the caller starts a loop with `n` workers -/
  | start (n : Nat)
  /-- the caller enters the barrier, with number `getnw()` (1153) -/
  | callerEnter
  /-- the caller reads `B[k] = 0` -/
  | callerLook
  /-- worker `w` takes its wake-up -/
  | take (w : Nat)
  /-- worker `w` has completed its part and enters the barrier -/
  | enter (w : Nat)
  /-- worker `w` reads `B[k] = 0` -/
  | look (w : Nat)
  deriving DecidableEq, Repr

/-- `barrierSetup(init)` (barrier.hpp 182-189) -/
def S.setup (s : S) (init : Nat) : S :=
  if init = s.size then { s with p := !s.p }
  else { s with par := fun _ => false, b := fun _ => 0, size := init, p := false }

/-- `doBarrier(tid)` (191-203) up to the spinning: the new state, and the index to spin on unless the thread is the
last one -/
def S.enter (s : S) (tid : Nat) : S × Option Bool :=
  let k := !s.par tid
  let c := s.b k + 1
  if c = s.size then ({ s with par := upd s.par tid k, b := fun i => if i = k then 0 else s.b i }, none)
  else ({ s with par := upd s.par tid k, b := fun i => if i = k then c else s.b i }, some k)

/-- no worker is spinning in the barrier -/
def S.quiet (N : Nat) (s : S) : Prop := ∀ v, v < N → ∀ k, s.w v ≠ .spin k

instance (N : Nat) (s : S) : Decidable (s.quiet N) :=
  decidable_of_iff (∀ v, v < N → s.w v = .idle ∨ s.w v = .run) (by
    constructor
    · intro h v hv k hk
      rcases h v hv with h | h <;> rw [hk] at h <;> simp at h
    · intro h v hv
      cases hw : s.w v with
      | idle => simp
      | run => simp
      | spin k => exact absurd hw (h v hv k))

/-- `N` workers; with `careful` a loop with another number of workers than the one before is only started when all
workers have left the barrier (the code does not look) -/
def step (N : Nat) (careful : Bool) (s : S) : Act → Option S
  | .start n =>
    if s.c = .out ∧ 1 ≤ n ∧ n ≤ N ∧ (careful = true → n + 1 ≠ s.size → s.quiet N) then
      -- 1092, 1095
      some { s.setup (n + 1) with
        n := n
        q := fun v => if v < n then s.q v + 1 else s.q v
        sent := fun v => if v < n then s.sent v + 1 else s.sent v
        c := .wait }
    else none
  | .callerEnter =>
    if s.c = .wait then
      match s.enter s.n with
      | (s', none) => some { s' with c := .out }
      | (s', some k) => some { s' with c := .spin k }
    else none
  | .callerLook =>
    match s.c with
    | .spin k => if s.b k = 0 then some { s with c := .out } else none
    | _ => none
  | .take v =>
    if v < N ∧ s.w v = .idle ∧ 0 < s.q v then
      some { s with q := upd s.q v (s.q v - 1), w := upd s.w v .run }
    else none
  | .enter v =>
    if v < N ∧ s.w v = .run then
      match s.enter v with
      | (s', none) => some { s' with w := upd s.w v .idle, done := upd s.done v (s.done v + 1) }
      | (s', some k) => some { s' with w := upd s.w v (.spin k), done := upd s.done v (s.done v + 1) }
    else none
  | .look v =>
    if v < N then
      match s.w v with
      | .spin k => if s.b k = 0 then some { s with w := upd s.w v .idle } else none
      | _ => none
    else none

/-- a new object: `barArray` and `B` have any values (the constructor does not set them), `_barrier` is 0 (172) -/
def S.new (par : Nat → Bool) (b : Bool → Nat) : S :=
  { par := par, b := b, size := 0, n := 0, q := fun _ => 0, w := fun _ => .idle, c := .out,
    sent := fun _ => 0, done := fun _ => 0, p := false }

/-! ## Invariant -/

/-- the threads that have entered the barrier of the current loop -/
def S.arr (s : S) (t : Nat) : Bool := s.par t != s.p

def S.cnt (s : S) : Nat := Farm.offCount (s.n + 1) s.arr

structure I (s : S) : Prop where
  size : s.size = s.n + 1
  b0 : s.b s.p = 0
  b1 : s.b (!s.p) = if s.cnt = s.n + 1 then 0 else s.cnt
  idle : ∀ v, v < s.n → s.w v = .idle → (s.q v = 1 ∧ s.arr v = false) ∨ (s.q v = 0 ∧ s.arr v = true)
  run : ∀ v, v < s.n → s.w v = .run → s.q v = 0 ∧ s.arr v = false
  spin : ∀ v k, v < s.n → s.w v = .spin k → (k = !s.p ∧ s.arr v = true ∧ s.q v = 0) ∨ (s.arr v = false ∧ s.q v = 1)
  rest : ∀ v, s.n ≤ v → s.q v = 0 ∧ s.w v ≠ .run
  count : ∀ v, s.sent v = s.done v + if v < s.n ∧ s.arr v = false then 1 else 0
  cout : s.c = .out → s.cnt = s.n + 1
  cwait : s.c = .wait → s.arr s.n = false
  cspin : ∀ k, s.c = .spin k → k = !s.p ∧ s.arr s.n = true

structure Fresh (s : S) : Prop where
  size : s.size = 0
  q : ∀ v, s.q v = 0
  w : ∀ v, s.w v = .idle
  c : s.c = .out
  count : ∀ v, s.sent v = s.done v

theorem cnt_all {s : S} : s.cnt = s.n + 1 ↔ ∀ t, t < s.n + 1 → s.arr t = true := by
  have : s.cnt = s.n + 1 ↔ (List.range (s.n + 1)).countP s.arr = (List.range (s.n + 1)).length := by
    simp [S.cnt, Farm.offCount]
  rw [this, List.countP_eq_length]
  simp

theorem arr_true {s : S} {t : Nat} : s.arr t = true ↔ s.par t = !s.p := by
  unfold S.arr; cases s.par t <;> cases s.p <;> simp

theorem arr_false {s : S} {t : Nat} : s.arr t = false ↔ s.par t = s.p := by
  unfold S.arr; cases s.par t <;> cases s.p <;> simp

/-- what `doBarrier` does to the barrier -/
theorem enter_spec {s : S} (hs : s.size = s.n + 1) (h0 : s.b s.p = 0)
    (h1 : s.b (!s.p) = if s.cnt = s.n + 1 then 0 else s.cnt) {t : Nat} (ht : t < s.n + 1) (ha : s.arr t = false) :
    ∃ s' o, s.enter t = (s', o) ∧ s'.size = s.size ∧ s'.n = s.n ∧ s'.q = s.q ∧ s'.w = s.w ∧ s'.c = s.c ∧
      s'.sent = s.sent ∧ s'.done = s.done ∧ s'.p = s.p ∧ s'.arr = upd s.arr t true ∧ s'.b s.p = 0 ∧
      s'.cnt = s.cnt + 1 ∧ s'.b (!s.p) = (if s'.cnt = s.n + 1 then 0 else s'.cnt) ∧
      (o = none ↔ s'.cnt = s.n + 1) ∧ (∀ k, o = some k → k = !s.p) := by
  have hp : s.par t = s.p := arr_false.1 ha
  have hcnt : Farm.offCount (s.n + 1) (upd s.arr t true) = s.cnt + 1 := Farm.offCount_upd ht ha
  have hle : s.cnt ≠ s.n + 1 := by
    intro hc
    have := cnt_all.1 hc t ht
    rw [ha] at this; simp at this
  rw [if_neg hle] at h1
  have harr : ∀ (s' : S), s'.par = upd s.par t (!s.p) → s'.p = s.p → s'.arr = upd s.arr t true := by
    intro s' h2 h3
    funext x
    by_cases hx : x = t
    · subst hx; simp [S.arr, h2, h3, upd]
    · simp [S.arr, h2, h3, upd, hx]
  have hne : ¬ s.p = !s.p := by cases s.p <;> simp
  unfold S.enter
  simp only [hp]
  by_cases hc : s.b (!s.p) + 1 = s.size
  · rw [if_pos hc]
    have ha' := harr { s with par := upd s.par t (!s.p), b := fun i => if i = !s.p then 0 else s.b i } rfl rfl
    have hcn : S.cnt { s with par := upd s.par t (!s.p), b := fun i => if i = !s.p then 0 else s.b i } = s.cnt + 1 := by
      rw [S.cnt, ha']; exact hcnt
    refine ⟨_, _, rfl, rfl, rfl, rfl, rfl, rfl, rfl, rfl, rfl, ha', ?_, hcn, ?_, ?_, by simp⟩
    · simp only [hne, if_false]; exact h0
    · rw [hcn, if_pos (by omega)]; simp
    · rw [hcn]; simp; omega
  · rw [if_neg hc]
    have ha' := harr { s with par := upd s.par t (!s.p), b := fun i => if i = !s.p then s.b (!s.p) + 1 else s.b i } rfl rfl
    have hcn : S.cnt { s with par := upd s.par t (!s.p), b := fun i => if i = !s.p then s.b (!s.p) + 1 else s.b i } = s.cnt + 1 := by
      rw [S.cnt, ha']; exact hcnt
    refine ⟨_, _, rfl, rfl, rfl, rfl, rfl, rfl, rfl, rfl, rfl, ha', ?_, hcn, ?_, ?_, ?_⟩
    · simp only [hne, if_false]; exact h0
    · rw [hcn, if_neg (by omega)]; simp; omega
    · rw [hcn]; simp; omega
    · intro k hk; exact (Option.some.inj hk).symm

theorem start_inv {N : Nat} {careful : Bool} {s s' : S} {n : Nat} (h : Fresh s ∨ I s)
    (hs : step N careful s (.start n) = some s') : I s' := by
  simp only [step] at hs
  split at hs
  · rename_i hc
    simp only [Option.some.injEq] at hs
    subst hs
    obtain ⟨hout, hn, _, _⟩ := hc
    -- before: nothing under way
    have before : ∀ v, s.q v = 0 ∧ s.w v ≠ .run ∧ s.sent v = s.done v := by
      rcases h with h | h
      · exact fun v => ⟨h.q v, by rw [h.w v]; simp, h.count v⟩
      · have hall := cnt_all.1 (h.cout hout)
        intro v
        by_cases hv : v < s.n
        · have ha := hall v (by omega)
          have hcnt := h.count v
          refine ⟨?_, ?_, by rw [hcnt]; simp [ha]⟩
          · cases hw : s.w v with
            | idle => rcases h.idle v hv hw with h1 | h1
                      · rw [ha] at h1; simp at h1
                      · exact h1.1
            | run => exact (h.run v hv hw).1
            | spin k => rcases h.spin v k hv hw with h1 | h1
                        · exact h1.2.2
                        · rw [ha] at h1; simp at h1
          · intro hw
            have := (h.run v hv hw).2
            rw [ha] at this; simp at this
        · obtain ⟨h1, h2⟩ := h.rest v (by omega)
          refine ⟨h1, h2, ?_⟩
          have := h.count v
          simp [hv] at this; exact this
    -- the barrier of the new loop: nobody has entered
    obtain ⟨f1, f2, f3, f4, f5⟩ : (s.setup (n + 1)).size = n + 1 ∧ (∀ t, t < n + 1 → (s.setup (n + 1)).par t = (s.setup (n + 1)).p) ∧
        (∀ i, (s.setup (n + 1)).b i = 0) ∧ (s.setup (n + 1)).w = s.w ∧ (s.setup (n + 1)).done = s.done := by
      unfold S.setup
      split
      · rename_i heq
        rcases h with h | h
        · have := h.size; omega
        · have hsz := h.size
          have hall := cnt_all.1 (h.cout hout)
          have hb1 := h.b1
          rw [if_pos (h.cout hout)] at hb1
          refine ⟨heq.symm, fun t ht => arr_true.1 (hall t (by omega)), fun i => ?_, rfl, rfl⟩
          simp only
          by_cases hi : i = s.p
          · rw [hi]; exact h.b0
          · have : i = !s.p := by cases i <;> cases hp : s.p <;> simp_all
            rw [this]; exact hb1
      · exact ⟨rfl, fun _ _ => rfl, fun _ => rfl, rfl, rfl⟩
    have hcnt0 : ∀ (x : S), x.n = n → x.par = (s.setup (n + 1)).par → x.p = (s.setup (n + 1)).p →
        x.cnt = 0 ∧ ∀ t, t < n + 1 → x.arr t = false := by
      intro x h1 h2 h3
      have ha : ∀ t, t < n + 1 → x.arr t = false := fun t ht => arr_false.2 (by rw [h2, h3]; exact f2 t ht)
      refine ⟨?_, ha⟩
      rw [S.cnt, h1, Farm.offCount, List.countP_eq_zero]
      intro t ht
      rw [ha t (by simpa using ht)]; simp
    obtain ⟨g1, g2⟩ := hcnt0 { s.setup (n + 1) with
        n := n
        q := fun v => if v < n then s.q v + 1 else s.q v
        sent := fun v => if v < n then s.sent v + 1 else s.sent v
        c := .wait } rfl rfl rfl
    refine ⟨f1, f3 _, ?_, ?_, ?_, ?_, ?_, ?_, ?_, ?_, ?_⟩
    · rw [g1, f3]; simp
    · intro v hv _
      left
      have hv' : v < n := hv
      exact ⟨by simp only [hv', if_true]; rw [(before v).1], g2 v (by omega)⟩
    · intro v _ hw
      exact absurd (by rw [← f4]; exact hw) (before v).2.1
    · intro v k hv _
      have hv' : v < n := hv
      exact Or.inr ⟨g2 v (by omega), by simp only [hv', if_true]; rw [(before v).1]⟩
    · intro v hv
      have hv' : ¬ v < n := by have : n ≤ v := hv; omega
      refine ⟨by simp only [hv', if_false]; exact (before v).1, ?_⟩
      simp only [f4]; exact (before v).2.1
    · intro v
      simp only [f5]
      by_cases hv : v < n
      · rw [if_pos hv, if_pos ⟨hv, g2 v (by omega)⟩, (before v).2.2]
      · rw [if_neg hv, if_neg (fun hh => hv hh.1), (before v).2.2]; rfl
    · simp
    · intro _; exact g2 n (by omega)
    · simp
  · simp at hs

theorem I.step {N : Nat} {careful : Bool} {s s' : S} {a : Act} (h : I s) (hs : step N careful s a = some s') : I s' := by
  cases a with
  | start n => exact start_inv (Or.inr h) hs
  | callerEnter =>
    simp only [SpinEnd.step] at hs
    split at hs
    · rename_i hc
      have ha := h.cwait hc
      obtain ⟨x, o, e0, e1, e2, e3, e4, e5, e6, e7, e8, e9, e10, e11, e12, e13, e14⟩ :=
        enter_spec h.size h.b0 h.b1 (t := s.n) (by omega) ha
      rw [e0] at hs
      have key : ∀ c : CPC, (c = .out → x.cnt = s.n + 1) → c ≠ .wait → (∀ k, c = .spin k → k = !s.p) →
          I { x with c := c } := by
        intro c h1 h2 h3
        have hsame : ∀ v, v < s.n → x.arr v = s.arr v := by
          intro v hv
          have : v ≠ s.n := by omega
          rw [e9]; simp [upd, this]
        refine ⟨by show x.size = x.n + 1; rw [e1, e2, h.size], by show x.b x.p = 0; rw [e8]; exact e10,
          ?_, ?_, ?_, ?_, ?_, ?_, ?_, ?_, ?_⟩
        · show x.b (!x.p) = if x.cnt = x.n + 1 then 0 else x.cnt
          rw [e8, e2]; exact e12
        · intro v (hv : v < x.n) (hw : x.w v = .idle)
          show (x.q v = 1 ∧ x.arr v = false) ∨ (x.q v = 0 ∧ x.arr v = true)
          rw [e2] at hv; rw [e4] at hw
          rw [e3, hsame v hv]; exact h.idle v hv hw
        · intro v (hv : v < x.n) (hw : x.w v = .run)
          show x.q v = 0 ∧ x.arr v = false
          rw [e2] at hv; rw [e4] at hw
          rw [e3, hsame v hv]; exact h.run v hv hw
        · intro v k (hv : v < x.n) (hw : x.w v = .spin k)
          show (k = !x.p ∧ x.arr v = true ∧ x.q v = 0) ∨ (x.arr v = false ∧ x.q v = 1)
          rw [e2] at hv; rw [e4] at hw
          rw [e3, e8, hsame v hv]; exact h.spin v k hv hw
        · intro v (hv : x.n ≤ v)
          show x.q v = 0 ∧ x.w v ≠ .run
          rw [e2] at hv; rw [e3, e4]
          exact h.rest v hv
        · intro v
          show x.sent v = x.done v + if v < x.n ∧ x.arr v = false then 1 else 0
          rw [e2, e6, e7]
          by_cases hv : v < s.n
          · rw [hsame v hv]; exact h.count v
          · have := h.count v
            simp only [hv, false_and, if_false] at this ⊢; exact this
        · intro hh
          show x.cnt = x.n + 1
          rw [e2]; exact h1 hh
        · intro hh; exact absurd hh h2
        · intro k hk
          show k = !x.p ∧ x.arr x.n = true
          refine ⟨by rw [e8]; exact h3 k hk, ?_⟩
          rw [e2, e9]; simp [upd]
      cases o with
      | none =>
        simp only [Option.some.injEq] at hs
        subst hs
        exact key .out (fun _ => e13.1 rfl) (by simp) (by simp)
      | some k =>
        simp only [Option.some.injEq] at hs
        subst hs
        exact key (.spin k) (by simp) (by simp) (fun k' hk => by
          simp only [CPC.spin.injEq] at hk; subst hk; exact e14 _ rfl)
    · simp at hs
  | callerLook =>
    simp only [SpinEnd.step] at hs
    split at hs
    · rename_i k hc
      split at hs
      · rename_i hb
        simp only [Option.some.injEq] at hs
        subst hs
        obtain ⟨rfl, ha⟩ := h.cspin k hc
        have hfull : s.cnt = s.n + 1 := by
          have hb1 := h.b1
          rw [hb] at hb1
          refine Classical.byContradiction fun hne => ?_
          rw [if_neg hne] at hb1
          have : s.arr s.n = false := by
            have h0 : (List.range (s.n + 1)).countP s.arr = 0 := hb1.symm
            rw [List.countP_eq_zero] at h0
            have := h0 s.n (by simp)
            simpa using this
          rw [ha] at this; simp at this
        exact ⟨h.size, h.b0, h.b1, h.idle, h.run, h.spin, h.rest, h.count, fun _ => hfull, by simp, by simp⟩
      · simp at hs
    · simp at hs
  | take v =>
    simp only [SpinEnd.step] at hs
    split at hs
    · rename_i hc
      obtain ⟨_, hw, hq⟩ := hc
      simp only [Option.some.injEq] at hs
      subst hs
      have hv : v < s.n := by
        refine Classical.byContradiction fun hv => ?_
        have := (h.rest v (by omega)).1
        omega
      have hold : s.q v = 1 ∧ s.arr v = false := by
        rcases h.idle v hv hw with h1 | h1
        · exact h1
        · omega
      refine ⟨h.size, h.b0, h.b1, ?_, ?_, ?_, ?_, h.count, h.cout, h.cwait, h.cspin⟩
      · intro x hx hxw
        by_cases hxv : x = v
        · subst hxv; simp [upd] at hxw
        · simp only [upd, hxv, if_false] at hxw ⊢; exact h.idle x hx hxw
      · intro x hx hxw
        by_cases hxv : x = v
        · subst hxv; exact ⟨by simp only [upd, if_true]; omega, hold.2⟩
        · simp only [upd, hxv, if_false] at hxw ⊢; exact h.run x hx hxw
      · intro x k hx hxw
        by_cases hxv : x = v
        · subst hxv; simp [upd] at hxw
        · simp only [upd, hxv, if_false] at hxw ⊢; exact h.spin x k hx hxw
      · intro x hx
        have hx' : s.n ≤ x := hx
        have hxv : x ≠ v := by omega
        simp only [upd, hxv, if_false]; exact h.rest x hx
    · simp at hs
  | enter v =>
    simp only [SpinEnd.step] at hs
    split at hs
    · rename_i hc
      have hv : v < s.n := by
        refine Classical.byContradiction fun hv => ?_
        exact (h.rest v (by omega)).2 hc.2
      obtain ⟨hq, ha⟩ := h.run v hv hc.2
      obtain ⟨x, o, e0, e1, e2, e3, e4, e5, e6, e7, e8, e9, e10, e11, e12, e13, e14⟩ :=
        enter_spec h.size h.b0 h.b1 (t := v) (by omega) ha
      rw [e0] at hs
      have key : ∀ p : WPC, p ≠ .run → (∀ k, p = .spin k → k = !s.p) →
          I { x with w := upd s.w v p, done := upd s.done v (s.done v + 1) } := by
        intro p h2 h3
        have hsame : ∀ y, y ≠ v → x.arr y = s.arr y := by
          intro y hy
          rw [e9]; simp [upd, hy]
        have hnow : x.arr v = true := by rw [e9]; simp [upd]
        have hvn : s.n ≠ v := by omega
        have hnf : s.cnt ≠ s.n + 1 := fun hh => by
          have := cnt_all.1 hh v (by omega)
          rw [ha] at this; simp at this
        refine ⟨by show x.size = x.n + 1; rw [e1, e2, h.size], by show x.b x.p = 0; rw [e8]; exact e10,
          ?_, ?_, ?_, ?_, ?_, ?_, ?_, ?_, ?_⟩
        · show x.b (!x.p) = if x.cnt = x.n + 1 then 0 else x.cnt
          rw [e8, e2]; exact e12
        · intro y (hy : y < x.n) (hw : upd s.w v p y = .idle)
          show (x.q y = 1 ∧ x.arr y = false) ∨ (x.q y = 0 ∧ x.arr y = true)
          rw [e2] at hy; rw [e3]
          by_cases hyv : y = v
          · subst hyv; exact Or.inr ⟨hq, hnow⟩
          · simp only [upd, hyv, if_false] at hw
            rw [hsame y hyv]; exact h.idle y hy hw
        · intro y (hy : y < x.n) (hw : upd s.w v p y = .run)
          show x.q y = 0 ∧ x.arr y = false
          rw [e2] at hy; rw [e3]
          by_cases hyv : y = v
          · subst hyv; simp only [upd, if_true] at hw; exact absurd hw h2
          · simp only [upd, hyv, if_false] at hw
            rw [hsame y hyv]; exact h.run y hy hw
        · intro y k (hy : y < x.n) (hw : upd s.w v p y = .spin k)
          show (k = !x.p ∧ x.arr y = true ∧ x.q y = 0) ∨ (x.arr y = false ∧ x.q y = 1)
          rw [e2] at hy; rw [e3, e8]
          by_cases hyv : y = v
          · subst hyv; simp only [upd, if_true] at hw; exact Or.inl ⟨h3 k hw, hnow, hq⟩
          · simp only [upd, hyv, if_false] at hw
            rw [hsame y hyv]; exact h.spin y k hy hw
        · intro y (hy : x.n ≤ y)
          show x.q y = 0 ∧ upd s.w v p y ≠ .run
          rw [e2] at hy; rw [e3]
          have hyv : y ≠ v := by omega
          simp only [upd, hyv, if_false]; exact h.rest y hy
        · intro y
          show x.sent y = upd s.done v (s.done v + 1) y + if y < x.n ∧ x.arr y = false then 1 else 0
          rw [e2, e6]
          by_cases hyv : y = v
          · subst hyv
            have := h.count y
            rw [if_pos ⟨hv, ha⟩] at this
            simp [upd, hnow, this]
          · rw [hsame y hyv]; simp only [upd, hyv, if_false]; exact h.count y
        · intro (hh : x.c = .out)
          rw [e5] at hh; exact absurd (h.cout hh) hnf
        · intro (hh : x.c = .wait)
          show x.arr x.n = false
          rw [e5] at hh; rw [e2, hsame _ hvn]; exact h.cwait hh
        · intro k (hk : x.c = .spin k)
          show k = !x.p ∧ x.arr x.n = true
          rw [e5] at hk; rw [e2, e8, hsame _ hvn]; exact h.cspin k hk
      cases o with
      | none =>
        simp only [Option.some.injEq] at hs
        subst hs
        exact key .idle (by simp) (by simp)
      | some k =>
        simp only [Option.some.injEq] at hs
        subst hs
        exact key (.spin k) (by simp) (fun k' hk => by
          simp only [WPC.spin.injEq] at hk; subst hk; exact e14 _ rfl)
    · simp at hs
  | look v =>
    simp only [SpinEnd.step] at hs
    split at hs
    · split at hs
      · rename_i k hw
        split at hs
        · simp only [Option.some.injEq] at hs
          subst hs
          refine ⟨h.size, h.b0, h.b1, ?_, ?_, ?_, ?_, h.count, h.cout, h.cwait, h.cspin⟩
          · intro x hx hxw
            by_cases hxv : x = v
            · subst hxv
              rcases h.spin x k hx hw with h1 | h1
              · exact Or.inr ⟨h1.2.2, h1.2.1⟩
              · exact Or.inl ⟨h1.2, h1.1⟩
            · simp only [upd, hxv, if_false] at hxw; exact h.idle x hx hxw
          · intro x hx hxw
            by_cases hxv : x = v
            · subst hxv; simp [upd] at hxw
            · simp only [upd, hxv, if_false] at hxw; exact h.run x hx hxw
          · intro x k' hx hxw
            by_cases hxv : x = v
            · subst hxv; simp [upd] at hxw
            · simp only [upd, hxv, if_false] at hxw; exact h.spin x k' hx hxw
          · intro x hx
            refine ⟨(h.rest x hx).1, ?_⟩
            by_cases hxv : x = v
            · subst hxv; simp [upd]
            · simp only [upd, hxv, if_false]; exact (h.rest x hx).2
        · simp at hs
      · simp at hs
    · simp at hs

theorem inv_reach {N : Nat} {careful : Bool} {par : Nat → Bool} {b : Bool → Nat} {s : S}
    (hr : Reach (step N careful) (S.new par b) s) : Fresh s ∨ I s := by
  refine hr.inv (Inv := fun s => Fresh s ∨ I s)
    (Or.inl ⟨rfl, fun _ => rfl, fun _ => rfl, rfl, fun _ => rfl⟩) ?_
  intro s a s' h hs
  right
  rcases h with h | h
  · cases a with
    | start n => exact start_inv (Or.inl h) hs
    | callerEnter => simp [step, h.c] at hs
    | callerLook => simp [step, h.c] at hs
    | take v => simp [step, h.q v] at hs
    | enter v => simp [step, h.w v] at hs
    | look v => simp [step, h.w v] at hs
  · exact h.step hs

end FF.Parfor.SpinEnd
