import Verif.Parfor.SpinEndC
import Verif.Parfor.SpinFine
/-!
# The spinning barrier access by access: loops that do not change the number of workers too early (C82)

The system of `SpinFine` with a caller that changes the number of workers only when all workers have left the barrier
is simulated by the system of `SpinEnd`.
-/
namespace FF.Parfor.SpinFine
open FF FF.Node
open FF.Parfor.SpinEnd (I J Fresh cnt_all enter_spec can_go)

/-- a caller that starts a loop with another number of workers only when no worker is in the barrier -/
def cstep (N : Nat) (f : S) (a : Act) : Option S :=
  match a with
  | .start n => if n + 1 = f.size ∨ ∀ v, v < N → f.w v = .out then step N f (.start n) else none
  | a => step N f a

/-- the position of a thread; `none` is the caller -/
def S.pos (f : S) : Option Nat → Pos
  | none => f.c
  | some v => f.w v

/-- the thread that has entered last and has not yet set the counter `k` to 0 -/
def S.lastAt (f : S) (k : Bool) (t : Option Nat) : Prop := f.pos t = .cmp k f.size ∨ f.pos t = .zero k

structure R (N : Nat) (f : S) (s : SpinEnd.S) : Prop where
  i : Fresh s ∨ I s
  j : J N s
  par : f.par = s.par
  size : f.size = s.size
  n : f.n = s.n
  q : f.q = s.q
  sent : f.sent = s.sent
  done : f.done = s.done
  b : ∀ k, s.b k = if f.b k = f.size then 0 else f.b k
  busy : ∀ v, f.busy v = true → f.w v = .out ∧ s.w v = .run
  out : ∀ v, f.busy v = false → f.w v = .out → s.w v = .idle
  cmp : ∀ v k c, f.w v = .cmp k c → c ≠ f.size → s.w v = .spin k
  spin : ∀ v k, f.w v = .spin k → s.w v = .spin k
  lastw : ∀ v k, f.lastAt k (some v) → s.w v = .idle
  free : f.inLoop = false → f.c = .out ∧ s.c = .out
  cout : f.inLoop = true → f.c = .out → s.c = .wait
  ccmp : ∀ k c, f.c = .cmp k c → c ≠ f.size → s.c = .spin k
  cspin : ∀ k, f.c = .spin k → s.c = .spin k
  lastc : ∀ k, f.lastAt k none → s.c = .out
  last : ∀ k t, f.lastAt k t → f.b k = f.size ∧ f.inLoop = true ∧ k = !s.p ∧ s.cnt = s.n + 1
  uniq : ∀ k k' t t', f.lastAt k t → f.lastAt k' t' → t = t'
  ex : ∀ k, f.size ≠ 0 → f.b k = f.size → ∃ t, f.lastAt k t
  sizepos : f.inLoop = true → f.size ≠ 0

theorem next {N : Nat} {s s' : SpinEnd.S} {a : SpinEnd.Act} (h1 : Fresh s ∨ I s) (h2 : J N s)
    (hs : SpinEnd.step N true s a = some s') : I s' ∧ J N s' := by
  refine ⟨?_, h2.step h1 hs⟩
  rcases h1 with h | h
  · cases a with
    | start n => exact SpinEnd.start_inv (Or.inl h) hs
    | callerEnter => simp [SpinEnd.step, h.c] at hs
    | callerLook => simp [SpinEnd.step, h.c] at hs
    | take v => simp [SpinEnd.step, h.q v] at hs
    | enter v => simp [SpinEnd.step, h.w v] at hs
    | look v => simp [SpinEnd.step, h.w v] at hs
  · exact h.step hs

theorem new_R (N : Nat) (par : Nat → Bool) (b : Bool → Nat) : R N (S.new par b) (SpinEnd.S.new par b) := by
  have nl : ∀ k t, ¬ (S.new par b).lastAt k t := by
    intro k t h
    cases t <;> simp [S.lastAt, S.pos, S.new] at h
  refine { i := Or.inl ⟨rfl, fun _ => rfl, fun _ => rfl, rfl, fun _ => rfl⟩,
           j := ⟨Nat.zero_le _, fun _ _ => rfl, by simp [SpinEnd.S.new]⟩,
           par := rfl, size := rfl, n := rfl, q := rfl, sent := rfl, done := rfl, b := ?_,
           busy := by simp [S.new], out := fun _ _ _ => rfl, cmp := by simp [S.new], spin := by simp [S.new],
           lastw := fun v k h => absurd h (nl _ _), free := fun _ => ⟨rfl, rfl⟩, cout := by simp [S.new],
           ccmp := by simp [S.new], cspin := by simp [S.new], lastc := fun k h => absurd h (nl _ _),
           last := fun k t h => absurd h (nl _ _), uniq := fun k _ t _ h => absurd h (nl _ _),
           ex := by simp [S.new], sizepos := by simp [S.new] }
  intro k
  show b k = if b k = 0 then 0 else b k
  split <;> simp_all

/-- a worker that is out of the barrier has the position `out` in every state between loops with another number -/
theorem R.nolast {N : Nat} {f : S} {s : SpinEnd.S} (h : R N f s) (hin : f.inLoop = false) (k : Bool) (t : Option Nat) :
    ¬ f.lastAt k t := by
  intro hl
  have := (h.last k t hl).2.1
  rw [hin] at this; simp at this

theorem sim_start {N n : Nat} {f f' : S} {s : SpinEnd.S} (h : R N f s) (hs : cstep N f (.start n) = some f') :
    ∃ s', R N f' s' := by
  simp only [cstep] at hs
  split at hs
  · rename_i hcare
    simp only [step] at hs
    split at hs
    · rename_i hc
      simp only [Option.some.injEq] at hs
      obtain ⟨hin, hn1, hnN⟩ := hc
      obtain ⟨hfc, hsc⟩ := h.free hin
      have nol := h.nolast hin
      have hq : s.size ≠ n + 1 → ∀ v, f.w v = .out := by
        intro hne v
        rcases hcare with h1 | h1
        · rw [h.size] at h1; exact absurd h1.symm hne
        · by_cases hv : v < N
          · exact h1 v hv
          · have hi := h.j.idle v (by omega)
            cases hw : f.w v with
            | out => rfl
            | cmp k c =>
              by_cases hcs : c = f.size
              · exact absurd (Or.inl (by rw [← hcs]; exact hw)) (nol k (some v))
              · rw [h.cmp v k c hw hcs] at hi; simp at hi
            | zero k => exact absurd (Or.inr hw) (nol k (some v))
            | spin k => rw [h.spin v k hw] at hi; simp at hi
      have hst : ∃ s', SpinEnd.step N true s (.start n) = some s' ∧ s' = { s.setup (n + 1) with
          n := n
          q := fun v => if v < n then s.q v + 1 else s.q v
          sent := fun v => if v < n then s.sent v + 1 else s.sent v
          c := .wait } := by
        refine ⟨_, ?_, rfl⟩
        simp only [SpinEnd.step]
        rw [if_pos]
        refine ⟨hsc, hn1, hnN, fun _ hne v _ k hk => ?_⟩
        have ho := hq (fun hh => hne hh.symm) v
        cases hb : f.busy v with
        | true => rw [(h.busy v hb).2] at hk; simp at hk
        | false => rw [h.out v hb ho] at hk; simp at hk
      obtain ⟨s', hst, hs'⟩ := hst
      obtain ⟨hi', hj'⟩ := next h.i h.j hst
      have fw : (f.setup (n + 1)).w = f.w ∧ (f.setup (n + 1)).busy = f.busy ∧ (f.setup (n + 1)).c = f.c ∧
          (f.setup (n + 1)).done = f.done := by
        unfold S.setup; split <;> simp
      have sw : (s.setup (n + 1)).w = s.w ∧ (s.setup (n + 1)).done = s.done := by
        unfold SpinEnd.S.setup; split <;> simp
      have hps : (f.setup (n + 1)).par = (s.setup (n + 1)).par ∧ (f.setup (n + 1)).size = n + 1 ∧
          (s.setup (n + 1)).size = n + 1 ∧
          (∀ k, (s.setup (n + 1)).b k = if (f.setup (n + 1)).b k = n + 1 then 0 else (f.setup (n + 1)).b k) ∧
          (∀ k, (f.setup (n + 1)).b k ≠ n + 1) := by
        unfold S.setup SpinEnd.S.setup
        rw [h.size]
        by_cases he : n + 1 = s.size
        · rw [if_pos he, if_pos he]
          refine ⟨h.par, by rw [h.size]; exact he.symm, he.symm, ?_, ?_⟩
          · intro k; show s.b k = _; rw [h.b k, h.size, he]
          · intro k hk
            obtain ⟨t, ht⟩ := h.ex k (by rw [h.size]; omega) (by rw [h.size, ← he]; exact hk)
            exact nol k t ht
        · rw [if_neg he, if_neg he]
          refine ⟨rfl, rfl, rfl, ?_, ?_⟩
          · intro k; simp
          · intro k; simp
      obtain ⟨p1, p2, p3, p4, p5⟩ := hps
      -- no thread is the last one in the new state
      have nl : ∀ k t, ¬ f'.lastAt k t := by
        intro k t hl
        subst hs
        have hpos : ∀ t, S.pos { f.setup (n + 1) with
            n := n
            q := fun v => if v < n then f.q v + 1 else f.q v
            sent := fun v => if v < n then f.sent v + 1 else f.sent v
            inLoop := true } t = f.pos t := by
          intro t
          cases t with
          | none => exact fw.2.2.1
          | some v => show (f.setup (n + 1)).w v = f.w v; rw [fw.1]
        unfold S.lastAt at hl
        rw [hpos t] at hl
        rcases hl with hl | hl
        · have hl : f.pos t = .cmp k (f.setup (n + 1)).size := hl
          rw [p2] at hl
          by_cases he : s.size = n + 1
          · exact nol k t (Or.inl (by rw [hl, h.size, he]))
          · cases t with
            | none => rw [show f.pos none = f.c from rfl, hfc] at hl; simp at hl
            | some v => rw [show f.pos (some v) = f.w v from rfl, hq he v] at hl; simp at hl
        · exact nol k t (Or.inr hl)
      refine ⟨s', ?_⟩
      have b1 : f'.w = f.w := by rw [← hs]; exact fw.1
      have b2 : f'.busy = f.busy := by rw [← hs]; exact fw.2.1
      have b3 : f'.c = .out := by rw [← hs]; show (f.setup (n + 1)).c = _; rw [fw.2.2.1, hfc]
      have b4 : s'.w = s.w := by rw [hs']; exact sw.1
      have b5 : f'.size = n + 1 := by rw [← hs]; exact p2
      have b6 : f'.inLoop = true := by rw [← hs]
      have b7 : f'.b = (f.setup (n + 1)).b := by rw [← hs]
      exact {
        i := Or.inr hi', j := hj',
        par := by rw [← hs, hs']; exact p1
        size := by rw [b5, hs']; exact p3.symm
        n := by rw [← hs, hs']
        q := by rw [← hs, hs']; simp only [h.q]
        sent := by rw [← hs, hs']; simp only [h.sent]
        done := by rw [← hs, hs']; show (f.setup (n + 1)).done = (s.setup (n + 1)).done; rw [fw.2.2.2, sw.2, h.done]
        b := by intro k; rw [b7, b5, hs']; exact p4 k
        busy := by intro v hv; rw [b2] at hv; rw [b1, b4]; exact h.busy v hv
        out := by intro v hv hw; rw [b2] at hv; rw [b1] at hw; rw [b4]; exact h.out v hv hw
        cmp := by
          intro v k c hw hne
          rw [b1] at hw
          rw [b4]
          by_cases he : s.size = n + 1
          · exact h.cmp v k c hw (by rw [h.size, he, ← b5]; exact hne)
          · rw [hq he v] at hw; simp at hw
        spin := by intro v k hw; rw [b1] at hw; rw [b4]; exact h.spin v k hw
        lastw := fun v k hl => absurd hl (nl _ _)
        free := by rw [b6]; simp
        cout := by intro _ _; rw [hs']
        ccmp := by rw [b3]; simp
        cspin := by rw [b3]; simp
        lastc := fun k hl => absurd hl (nl _ _)
        last := fun k t hl => absurd hl (nl _ _)
        uniq := fun k _ t _ hl => absurd hl (nl _ _)
        ex := by intro k _ hk; rw [b7, b5] at hk; exact absurd hk (p5 k)
        sizepos := by intro _; rw [b5]; omega }
    · simp at hs
  · simp at hs

/-- while some thread of the loop has not entered the barrier, nobody is the last one and the counters agree -/
theorem R.open_ {N : Nat} {f : S} {s : SpinEnd.S} (h : R N f s) (hi : I s) {t : Nat} (ht : t < s.n + 1)
    (ha : s.arr t = false) : (∀ k t, ¬ f.lastAt k t) ∧ (∀ k, f.b k ≠ f.size) ∧ (∀ k, s.b k = f.b k) ∧ f.inLoop = true := by
  have hnf : s.cnt ≠ s.n + 1 := fun hh => by
    have := cnt_all.1 hh t ht
    rw [ha] at this; simp at this
  have h1 : ∀ k t, ¬ f.lastAt k t := fun k t hl => hnf (h.last k t hl).2.2.2
  have h2 : ∀ k, f.b k ≠ f.size := fun k hk => by
    obtain ⟨t, ht⟩ := h.ex k (by rw [h.size, hi.size]; omega) hk
    exact h1 k t ht
  refine ⟨h1, h2, fun k => by rw [h.b k, if_neg (h2 k)], ?_⟩
  cases hin : f.inLoop with
  | true => rfl
  | false => exact absurd (hi.cout (h.free hin).2) hnf

/-- `doBarrier` in the two systems -/
theorem enter_eq {N : Nat} {f : S} {s : SpinEnd.S} (h : R N f s) (hi : I s) {t : Nat} (ht : t < s.n + 1)
    (ha : s.arr t = false) : ∃ x o, s.enter t = (x, o) ∧ x.par = upd f.par t (!f.par t) ∧
      (f.b (!f.par t) + 1 = f.size → o = none) ∧ (f.b (!f.par t) + 1 ≠ f.size → o = some (!f.par t)) ∧
      (∀ i, x.b i = if i = !f.par t then (if f.b (!f.par t) + 1 = f.size then 0 else f.b (!f.par t) + 1) else f.b i) ∧
      x.size = s.size ∧ x.n = s.n ∧ x.q = s.q ∧ x.w = s.w ∧ x.c = s.c ∧ x.sent = s.sent ∧ x.done = s.done ∧ x.p = s.p ∧
      (!f.par t) = !s.p ∧ (o = none → x.cnt = s.n + 1) := by
  obtain ⟨_, _, hb, _⟩ := h.open_ hi ht ha
  obtain ⟨x, o, e0, e1, e2, e3, e4, e5, e6, e7, e8, e9, e10, e11, e12, e13, e14⟩ :=
    enter_spec hi.size hi.b0 hi.b1 ht ha
  have hp : s.par t = s.p := SpinEnd.arr_false.1 ha
  have e0' := e0
  unfold SpinEnd.S.enter at e0'
  simp only [hb] at e0'
  rw [h.par, h.size]
  refine ⟨x, o, e0, ?_, ?_, ?_, ?_, e1, e2, e3, e4, e5, e6, e7, e8, by rw [hp], e13.1⟩
  · split at e0' <;> (simp only [Prod.mk.injEq] at e0'; rw [← e0'.1])
  · intro hh
    rw [if_pos hh] at e0'
    simp only [Prod.mk.injEq] at e0'; exact e0'.2.symm
  · intro hh
    rw [if_neg hh] at e0'
    simp only [Prod.mk.injEq] at e0'; exact e0'.2.symm
  · intro i
    split at e0' <;> rename_i hh <;> simp only [Prod.mk.injEq] at e0' <;> rw [← e0'.1]
    · simp only [hh, if_true]
    · simp only [hh, if_false]

theorem sim_enter {N v : Nat} {f f' : S} {s : SpinEnd.S} (h : R N f s) (hs : step N f (.enter v) = some f') :
    ∃ s', R N f' s' := by
  simp only [step] at hs
  split at hs
  · rename_i hc
    obtain ⟨hvN, hbz⟩ := hc
    obtain ⟨hfw, hsw⟩ := h.busy v hbz
    have hi : I s := by
      rcases h.i with hi | hi
      · rw [hi.w v] at hsw; simp at hsw
      · exact hi
    have hv : v < s.n := Classical.byContradiction fun hv => (hi.rest v (by omega)).2 hsw
    have ha := (hi.run v hv hsw).2
    obtain ⟨nol, nfull, _, hin⟩ := h.open_ hi (t := v) (by omega) ha
    obtain ⟨x, o, e0, e1, e2, e3, e4, e5, e6, e7, e8, e9, e10, e11, e12, e13, e14⟩ := enter_eq h hi (t := v) (by omega) ha
    simp only [Option.some.injEq] at hs
    have hpn : f.c = .out ∨ ∃ k c, f.c = .cmp k c ∧ c ≠ f.size ∨ f.c = .spin k := by
      cases hfc : f.c with
      | out => exact Or.inl rfl
      | cmp k c =>
        refine Or.inr ⟨k, c, Or.inl ⟨rfl, fun hh => nol k none (Or.inl ?_)⟩⟩
        show f.c = _; rw [hfc, hh]
      | zero k => exact absurd (Or.inr hfc) (nol k none)
      | spin k => exact Or.inr ⟨k, 0, Or.inr rfl⟩
    -- the new state of the other system
    generalize hk : (!f.par v) = k at *
    have hst : ∃ s', SpinEnd.step N true s (.enter v) = some s' ∧
        s' = { x with w := upd s.w v (if f.b k + 1 = f.size then .idle else .spin k), done := upd s.done v (s.done v + 1) } := by
      refine ⟨_, ?_, rfl⟩
      simp only [SpinEnd.step]
      rw [if_pos ⟨hvN, hsw⟩, e0]
      by_cases hl : f.b k + 1 = f.size
      · rw [e2 hl, if_pos hl]
      · rw [e3 hl, if_neg hl]
    obtain ⟨s', hst, hs'⟩ := hst
    obtain ⟨hi', hj'⟩ := next h.i h.j hst
    have b1 : f'.w = upd f.w v (.cmp k (f.b k + 1)) := by rw [← hs]
    have b2 : f'.busy = upd f.busy v false := by rw [← hs]
    have b3 : f'.c = f.c := by rw [← hs]
    have b4 : s'.w = upd s.w v (if f.b k + 1 = f.size then .idle else .spin k) := by rw [hs']
    have b5 : f'.size = f.size := by rw [← hs]
    have b6 : f'.inLoop = true := by rw [← hs]; exact hin
    have b7 : ∀ i, f'.b i = if i = k then f.b k + 1 else f.b i := by intro i; rw [← hs]
    have b8 : s'.c = s.c := by rw [hs']; exact e9
    have only : ∀ k' t, f'.lastAt k' t → t = some v ∧ k' = k ∧ f.b k + 1 = f.size := by
      intro k' t hl
      unfold S.lastAt at hl
      rw [b5] at hl
      cases t with
      | none => rw [show f'.pos none = f.pos none from b3] at hl; exact absurd hl (nol k' none)
      | some y =>
        by_cases hy : y = v
        · subst hy
          have hp : f'.pos (some y) = .cmp k (f.b k + 1) := by show f'.w y = _; rw [b1]; simp [upd]
          rw [hp] at hl
          simp only [Pos.cmp.injEq, reduceCtorEq, or_false] at hl
          exact ⟨rfl, hl.1.symm, hl.2⟩
        · have hp : f'.pos (some y) = f.pos (some y) := by show f'.w y = f.w y; rw [b1]; simp [upd, hy]
          rw [hp] at hl
          exact absurd hl (nol k' (some y))
    refine ⟨s', ?_⟩
    exact {
      i := Or.inr hi', j := hj'
      par := by rw [← hs, hs']; exact e1.symm
      size := by rw [b5, hs']; show f.size = x.size; rw [e5, h.size]
      n := by rw [← hs, hs']; show f.n = x.n; rw [e6, h.n]
      q := by rw [← hs, hs']; show f.q = x.q; rw [e7, h.q]
      sent := by rw [← hs, hs']; show f.sent = x.sent; rw [e10, h.sent]
      done := by rw [← hs, hs']; show upd f.done v (f.done v + 1) = _; rw [h.done]
      b := by
        intro i
        rw [b7, b5, hs']
        show x.b i = _
        rw [e4 i]
        by_cases hik : i = k
        · simp only [hik, if_true]
        · simp only [hik, if_false]; rw [if_neg (nfull i)]
      busy := by
        intro y hy
        by_cases hyv : y = v
        · subst hyv; rw [b2] at hy; simp [upd] at hy
        · rw [b2] at hy; rw [b1, b4]
          simp only [upd, hyv, if_false] at hy ⊢; exact h.busy y hy
      out := by
        intro y hy hw
        by_cases hyv : y = v
        · subst hyv; rw [b1] at hw; simp [upd] at hw
        · rw [b2] at hy; rw [b1] at hw; rw [b4]
          simp only [upd, hyv, if_false] at hy hw ⊢; exact h.out y hy hw
      cmp := by
        intro y k' c hw hne
        rw [b5] at hne
        by_cases hyv : y = v
        · subst hyv
          rw [b1] at hw; simp only [upd, if_true, Pos.cmp.injEq] at hw
          obtain ⟨rfl, rfl⟩ := hw
          rw [b4]; simp only [upd, if_true]; rw [if_neg hne]
        · rw [b1] at hw; rw [b4]
          simp only [upd, hyv, if_false] at hw ⊢; exact h.cmp y k' c hw hne
      spin := by
        intro y k' hw
        by_cases hyv : y = v
        · subst hyv; rw [b1] at hw; simp [upd] at hw
        · rw [b1] at hw; rw [b4]
          simp only [upd, hyv, if_false] at hw ⊢; exact h.spin y k' hw
      lastw := by
        intro y k' hl
        obtain ⟨hy, _, hfull⟩ := only k' (some y) hl
        simp only [Option.some.injEq] at hy
        rw [b4, hy]; simp only [upd, if_true]; rw [if_pos hfull]
      free := by rw [b6]; simp
      cout := by intro _ hc; rw [b3] at hc; rw [b8]; exact h.cout hin hc
      ccmp := by intro k' c hc hne; rw [b3] at hc; rw [b5] at hne; rw [b8]; exact h.ccmp k' c hc hne
      cspin := by intro k' hc; rw [b3] at hc; rw [b8]; exact h.cspin k' hc
      lastc := by
        intro k' hl
        have := (only k' none hl).1
        simp at this
      last := by
        intro k' t hl
        obtain ⟨_, rfl, hfull⟩ := only k' t hl
        refine ⟨by rw [b7, b5]; simp [hfull], b6, ?_, ?_⟩
        · rw [hs']; show k' = !x.p; rw [e12]; exact e13
        · rw [hs']; show x.cnt = x.n + 1; rw [e6]; exact e14 (e2 hfull)
      uniq := by intro k1 k2 t t' h1 h2; rw [(only k1 t h1).1, (only k2 t' h2).1]
      ex := by
        intro i _ hb
        rw [b7, b5] at hb
        by_cases hik : i = k
        · subst hik
          simp only [if_true] at hb
          exact ⟨some v, Or.inl (by show f'.w v = _; rw [b1, b5, ← hb]; simp [upd])⟩
        · simp only [hik, if_false] at hb; exact absurd hb (nfull i)
      sizepos := by intro _; rw [b5]; exact h.sizepos hin }
  · simp at hs

theorem sim_callerEnter {N : Nat} {f f' : S} {s : SpinEnd.S} (h : R N f s) (hs : step N f .callerEnter = some f') :
    ∃ s', R N f' s' := by
  simp only [step] at hs
  split at hs
  · rename_i hc
    obtain ⟨hin, hfc⟩ := hc
    have hsc := h.cout hin hfc
    have hi : I s := by
      rcases h.i with hi | hi
      · rw [hi.c] at hsc; simp at hsc
      · exact hi
    have ha := hi.cwait hsc
    obtain ⟨nol, nfull, _, _⟩ := h.open_ hi (t := s.n) (by omega) ha
    obtain ⟨x, o, e0, e1, e2, e3, e4, e5, e6, e7, e8, e9, e10, e11, e12, e13, e14⟩ := enter_eq h hi (t := s.n) (by omega) ha
    simp only [Option.some.injEq] at hs
    rw [h.n] at hs
    generalize hk : (!f.par s.n) = k at *
    have hst : ∃ s', SpinEnd.step N true s .callerEnter = some s' ∧
        s' = { x with c := if f.b k + 1 = f.size then .out else .spin k } := by
      refine ⟨_, ?_, rfl⟩
      simp only [SpinEnd.step]
      rw [if_pos hsc, e0]
      by_cases hl : f.b k + 1 = f.size
      · rw [e2 hl, if_pos hl]
      · rw [e3 hl, if_neg hl]
    obtain ⟨s', hst, hs'⟩ := hst
    obtain ⟨hi', hj'⟩ := next h.i h.j hst
    have b1 : f'.w = f.w := by rw [← hs]
    have b2 : f'.busy = f.busy := by rw [← hs]
    have b3 : f'.c = .cmp k (f.b k + 1) := by rw [← hs]
    have b4 : s'.w = s.w := by rw [hs']; exact e8
    have b5 : f'.size = f.size := by rw [← hs]
    have b6 : f'.inLoop = true := by rw [← hs]; exact hin
    have b7 : ∀ i, f'.b i = if i = k then f.b k + 1 else f.b i := by intro i; rw [← hs]
    have b8 : s'.c = if f.b k + 1 = f.size then .out else .spin k := by rw [hs']
    have only : ∀ k' t, f'.lastAt k' t → t = none ∧ k' = k ∧ f.b k + 1 = f.size := by
      intro k' t hl
      unfold S.lastAt at hl
      rw [b5] at hl
      cases t with
      | none =>
        rw [show f'.pos none = _ from b3] at hl
        simp only [Pos.cmp.injEq, reduceCtorEq, or_false] at hl
        exact ⟨rfl, hl.1.symm, hl.2⟩
      | some y =>
        have hp : f'.pos (some y) = f.pos (some y) := by show f'.w y = f.w y; rw [b1]
        rw [hp] at hl
        exact absurd hl (nol k' (some y))
    refine ⟨s', ?_⟩
    exact {
      i := Or.inr hi', j := hj'
      par := by rw [← hs, hs']; exact e1.symm
      size := by rw [b5, hs']; show f.size = x.size; rw [e5, h.size]
      n := by rw [hs']; show f'.n = x.n; rw [e6, ← hs]
      q := by rw [← hs, hs']; show f.q = x.q; rw [e7, h.q]
      sent := by rw [← hs, hs']; show f.sent = x.sent; rw [e10, h.sent]
      done := by rw [← hs, hs']; show f.done = x.done; rw [e11, h.done]
      b := by
        intro i
        rw [b7, b5, hs']
        show x.b i = _
        rw [e4 i]
        by_cases hik : i = k
        · simp only [hik, if_true]
        · simp only [hik, if_false]; rw [if_neg (nfull i)]
      busy := by intro y hy; rw [b2] at hy; rw [b1, b4]; exact h.busy y hy
      out := by intro y hy hw; rw [b2] at hy; rw [b1] at hw; rw [b4]; exact h.out y hy hw
      cmp := by intro y k' c hw hne; rw [b1] at hw; rw [b5] at hne; rw [b4]; exact h.cmp y k' c hw hne
      spin := by intro y k' hw; rw [b1] at hw; rw [b4]; exact h.spin y k' hw
      lastw := by
        intro y k' hl
        have := (only k' (some y) hl).1
        simp at this
      free := by rw [b6]; simp
      cout := by rw [b3]; simp
      ccmp := by
        intro k' c hc hne
        rw [b3] at hc; simp only [Pos.cmp.injEq] at hc
        rw [b5] at hne
        obtain ⟨rfl, rfl⟩ := hc
        rw [b8, if_neg hne]
      cspin := by rw [b3]; simp
      lastc := by
        intro k' hl
        rw [b8, if_pos (only k' none hl).2.2]
      last := by
        intro k' t hl
        obtain ⟨_, rfl, hfull⟩ := only k' t hl
        refine ⟨by rw [b7, b5]; simp [hfull], b6, ?_, ?_⟩
        · rw [hs']; show k' = !x.p; rw [e12]; exact e13
        · rw [hs']; show x.cnt = x.n + 1; rw [e6]; exact e14 (e2 hfull)
      uniq := by intro k1 k2 t t' h1 h2; rw [(only k1 t h1).1, (only k2 t' h2).1]
      ex := by
        intro i _ hb
        rw [b7, b5] at hb
        by_cases hik : i = k
        · subst hik
          simp only [if_true] at hb
          exact ⟨none, Or.inl (by show f'.c = _; rw [b3, b5, ← hb])⟩
        · simp only [hik, if_false] at hb; exact absurd hb (nfull i)
      sizepos := by intro _; rw [b5]; exact h.sizepos hin }
  · simp at hs

/-- the comparison with `_barrier`: the other system does not move -/
theorem sim_cmp {N v : Nat} {f f' : S} {s : SpinEnd.S} (h : R N f s) (hs : step N f (.cmp v) = some f') : R N f' s := by
  simp only [step] at hs
  split at hs
  · rename_i k c hw
    simp only [Option.some.injEq] at hs
    have hnb : f.busy v = false := by
      cases hb : f.busy v with
      | false => rfl
      | true => rw [(h.busy v hb).1] at hw; simp at hw
    have b1 : f'.w = upd f.w v (if c = f.size then .zero k else .spin k) := by rw [← hs]
    have la : ∀ k' t, f'.lastAt k' t ↔ f.lastAt k' t := by
      intro k' t
      subst hs
      cases t with
      | none => exact Iff.rfl
      | some y =>
        by_cases hy : y = v
        · subst hy
          simp only [S.lastAt, S.pos, upd, if_true, hw]
          by_cases hc : c = f.size
          · simp [hc, eq_comm]
          · simp [hc]
        · simp only [S.lastAt, S.pos, upd, hy, if_false]
    have same : f' = { f with w := upd f.w v (if c = f.size then .zero k else .spin k) } := hs.symm
    exact {
      i := h.i, j := h.j
      par := by rw [same]; exact h.par
      size := by rw [same]; exact h.size
      n := by rw [same]; exact h.n
      q := by rw [same]; exact h.q
      sent := by rw [same]; exact h.sent
      done := by rw [same]; exact h.done
      b := by rw [same]; exact h.b
      busy := by
        intro y hy
        have hy : f.busy y = true := by rw [same] at hy; exact hy
        have hyv : y ≠ v := by intro e; rw [e, hnb] at hy; simp at hy
        rw [b1]; simp only [upd, hyv, if_false]; exact h.busy y hy
      out := by
        intro y hy hyw
        have hy : f.busy y = false := by rw [same] at hy; exact hy
        by_cases hyv : y = v
        · subst hyv; rw [b1] at hyw; simp only [upd, if_true] at hyw; split at hyw <;> simp at hyw
        · rw [b1] at hyw; simp only [upd, hyv, if_false] at hyw; exact h.out y hy hyw
      cmp := by
        intro y k' c' hyw hne
        have hne : c' ≠ f.size := by rw [same] at hne; exact hne
        by_cases hyv : y = v
        · subst hyv; rw [b1] at hyw; simp only [upd, if_true] at hyw; split at hyw <;> simp at hyw
        · rw [b1] at hyw; simp only [upd, hyv, if_false] at hyw; exact h.cmp y k' c' hyw hne
      spin := by
        intro y k' hyw
        by_cases hyv : y = v
        · subst hyv; rw [b1] at hyw; simp only [upd, if_true] at hyw
          split at hyw
          · simp at hyw
          · rename_i hne
            simp only [Pos.spin.injEq] at hyw
            subst hyw
            exact h.cmp y k c hw hne
        · rw [b1] at hyw; simp only [upd, hyv, if_false] at hyw; exact h.spin y k' hyw
      lastw := fun y k' hl => h.lastw y k' ((la _ _).1 hl)
      free := by rw [same]; exact h.free
      cout := by rw [same]; exact h.cout
      ccmp := by rw [same]; exact h.ccmp
      cspin := by rw [same]; exact h.cspin
      lastc := fun k' hl => h.lastc k' ((la _ _).1 hl)
      last := by intro k' t hl; have := h.last k' t ((la _ _).1 hl); rw [same]; exact this
      uniq := fun k1 k2 t t' h1 h2 => h.uniq k1 k2 t t' ((la _ _).1 h1) ((la _ _).1 h2)
      ex := by
        intro i h0 hb
        rw [same] at h0 hb
        obtain ⟨t, ht⟩ := h.ex i h0 hb
        exact ⟨t, (la _ _).2 ht⟩
      sizepos := by rw [same]; exact h.sizepos }
  · simp at hs

theorem sim_callerCmp {N : Nat} {f f' : S} {s : SpinEnd.S} (h : R N f s) (hs : step N f .callerCmp = some f') : R N f' s := by
  simp only [step] at hs
  split at hs
  · rename_i k c hw
    simp only [Option.some.injEq] at hs
    have b1 : f'.c = if c = f.size then .zero k else .spin k := by rw [← hs]
    have la : ∀ k' t, f'.lastAt k' t ↔ f.lastAt k' t := by
      intro k' t
      subst hs
      cases t with
      | some y => exact Iff.rfl
      | none =>
        simp only [S.lastAt, S.pos, hw]
        by_cases hc : c = f.size
        · simp [hc, eq_comm]
        · simp [hc]
    have same : f' = { f with c := if c = f.size then .zero k else .spin k } := hs.symm
    have hin : f.inLoop = true := by
      cases hb : f.inLoop with
      | true => rfl
      | false => rw [(h.free hb).1] at hw; simp at hw
    exact {
      i := h.i, j := h.j
      par := by rw [same]; exact h.par
      size := by rw [same]; exact h.size
      n := by rw [same]; exact h.n
      q := by rw [same]; exact h.q
      sent := by rw [same]; exact h.sent
      done := by rw [same]; exact h.done
      b := by rw [same]; exact h.b
      busy := by rw [same]; exact h.busy
      out := by rw [same]; exact h.out
      cmp := by rw [same]; exact h.cmp
      spin := by rw [same]; exact h.spin
      lastw := fun y k' hl => h.lastw y k' ((la _ _).1 hl)
      free := by
        intro hf
        have : f.inLoop = false := by rw [same] at hf; exact hf
        rw [hin] at this; simp at this
      cout := by intro _ hc; rw [b1] at hc; split at hc <;> simp at hc
      ccmp := by intro k' c' hc; rw [b1] at hc; split at hc <;> simp at hc
      cspin := by
        intro k' hc
        rw [b1] at hc
        split at hc
        · simp at hc
        · rename_i hne
          simp only [Pos.spin.injEq] at hc
          subst hc
          exact h.ccmp k c hw hne
      lastc := fun k' hl => h.lastc k' ((la _ _).1 hl)
      last := by intro k' t hl; have := h.last k' t ((la _ _).1 hl); rw [same]; exact this
      uniq := fun k1 k2 t t' h1 h2 => h.uniq k1 k2 t t' ((la _ _).1 h1) ((la _ _).1 h2)
      ex := by
        intro i h0 hb
        rw [same] at h0 hb
        obtain ⟨t, ht⟩ := h.ex i h0 hb
        exact ⟨t, (la _ _).2 ht⟩
      sizepos := by rw [same]; exact h.sizepos }
  · simp at hs

theorem R.isI {N : Nat} {f : S} {s : SpinEnd.S} (h : R N f s) (hin : f.inLoop = true) : I s := by
  rcases h.i with hi | hi
  · exfalso
    have hsz : f.size = 0 := by rw [h.size, hi.size]
    cases hc : f.c with
    | out => have := h.cout hin hc; rw [hi.c] at this; simp at this
    | cmp k c =>
      by_cases hcs : c = f.size
      · have hl : f.lastAt k none := Or.inl (by show f.c = _; rw [hc, hcs])
        exact absurd hsz (h.sizepos hin)
      · have := h.ccmp k c hc hcs; rw [hi.c] at this; simp at this
    | zero k => exact absurd hsz (h.sizepos hin)
    | spin k => have := h.cspin k hc; rw [hi.c] at this; simp at this
  · exact hi

/-- the last thread sets its counter to 0: the other system does not move -/
theorem R.zeroed {N : Nat} {f : S} {s : SpinEnd.S} (h : R N f s) {k : Bool} {t : Option Nat} (ht : f.pos t = .zero k) :
    (∀ i, s.b i = if (if i = k then 0 else f.b i) = f.size then 0 else (if i = k then 0 else f.b i)) ∧
    (∀ i, f.size ≠ 0 → (if i = k then 0 else f.b i) ≠ f.size) ∧
    (∀ k' t', f.lastAt k' t' → t' = t) := by
  have hl : f.lastAt k t := Or.inr ht
  have hfull := (h.last k t hl).1
  refine ⟨?_, ?_, fun k' t' h' => h.uniq k' k t' t h' hl⟩
  · intro i
    by_cases hik : i = k
    · subst hik; rw [h.b i, if_pos hfull]; simp
    · simp only [hik, if_false]; exact h.b i
  · intro i h0 hb
    by_cases hik : i = k
    · subst hik; simp only [if_true] at hb; exact h0 hb.symm
    · simp only [hik, if_false] at hb
      obtain ⟨t', ht'⟩ := h.ex i h0 hb
      have := h.uniq i k t' t ht' hl
      subst this
      unfold S.lastAt at ht'
      rw [ht] at ht'
      simp only [reduceCtorEq, false_or, Pos.zero.injEq] at ht'
      exact hik ht'.symm

theorem sim_zero {N v : Nat} {f f' : S} {s : SpinEnd.S} (h : R N f s) (hs : step N f (.zero v) = some f') : R N f' s := by
  simp only [step] at hs
  split at hs
  · rename_i k hw
    simp only [Option.some.injEq] at hs
    obtain ⟨z1, z2, z3⟩ := h.zeroed (t := some v) hw
    have hsw : s.w v = .idle := h.lastw v k (Or.inr hw)
    have same : f' = { f with b := fun i => if i = k then 0 else f.b i, w := upd f.w v .out } := hs.symm
    have hnb : f.busy v = false := by
      cases hb : f.busy v with
      | false => rfl
      | true => rw [(h.busy v hb).1] at hw; simp at hw
    have b1 : f'.w = upd f.w v .out := by rw [same]
    have nl : ∀ k' t, ¬ f'.lastAt k' t := by
      intro k' t hl
      subst hs
      cases t with
      | none => exact absurd (z3 k' none hl) (by simp)
      | some y =>
        by_cases hy : y = v
        · subst hy; simp [S.lastAt, S.pos, upd] at hl
        · simp only [S.lastAt, S.pos, upd, hy, if_false] at hl
          exact absurd (z3 k' (some y) hl) (by simp [hy])
    exact {
      i := h.i, j := h.j
      par := by rw [same]; exact h.par
      size := by rw [same]; exact h.size
      n := by rw [same]; exact h.n
      q := by rw [same]; exact h.q
      sent := by rw [same]; exact h.sent
      done := by rw [same]; exact h.done
      b := by rw [same]; exact z1
      busy := by
        intro y hy
        have hy : f.busy y = true := by rw [same] at hy; exact hy
        have hyv : y ≠ v := by intro e; rw [e, hnb] at hy; simp at hy
        rw [b1]; simp only [upd, hyv, if_false]; exact h.busy y hy
      out := by
        intro y hy hyw
        have hy : f.busy y = false := by rw [same] at hy; exact hy
        by_cases hyv : y = v
        · rw [hyv]; exact hsw
        · rw [b1] at hyw; simp only [upd, hyv, if_false] at hyw; exact h.out y hy hyw
      cmp := by
        intro y k' c' hyw hne
        have hne : c' ≠ f.size := by rw [same] at hne; exact hne
        by_cases hyv : y = v
        · subst hyv; rw [b1] at hyw; simp [upd] at hyw
        · rw [b1] at hyw; simp only [upd, hyv, if_false] at hyw; exact h.cmp y k' c' hyw hne
      spin := by
        intro y k' hyw
        by_cases hyv : y = v
        · subst hyv; rw [b1] at hyw; simp [upd] at hyw
        · rw [b1] at hyw; simp only [upd, hyv, if_false] at hyw; exact h.spin y k' hyw
      lastw := fun y k' hl => absurd hl (nl _ _)
      free := by rw [same]; exact h.free
      cout := by rw [same]; exact h.cout
      ccmp := by rw [same]; exact h.ccmp
      cspin := by rw [same]; exact h.cspin
      lastc := fun k' hl => absurd hl (nl _ _)
      last := fun k' t hl => absurd hl (nl _ _)
      uniq := fun k1 k2 t t' h1 h2 => absurd h1 (nl _ _)
      ex := by intro i h0 hb; rw [same] at h0 hb; exact absurd hb (z2 i h0)
      sizepos := by rw [same]; exact h.sizepos }
  · simp at hs

theorem sim_callerZero {N : Nat} {f f' : S} {s : SpinEnd.S} (h : R N f s) (hs : step N f .callerZero = some f') : R N f' s := by
  simp only [step] at hs
  split at hs
  · rename_i k hw
    simp only [Option.some.injEq] at hs
    obtain ⟨z1, z2, z3⟩ := h.zeroed (t := none) hw
    have hsc : s.c = .out := h.lastc k (Or.inr hw)
    have same : f' = { f with b := fun i => if i = k then 0 else f.b i, c := .out, inLoop := false } := hs.symm
    have nl : ∀ k' t, ¬ f'.lastAt k' t := by
      intro k' t hl
      subst hs
      cases t with
      | none => simp [S.lastAt, S.pos] at hl
      | some y => exact absurd (z3 k' (some y) hl) (by simp)
    exact {
      i := h.i, j := h.j
      par := by rw [same]; exact h.par
      size := by rw [same]; exact h.size
      n := by rw [same]; exact h.n
      q := by rw [same]; exact h.q
      sent := by rw [same]; exact h.sent
      done := by rw [same]; exact h.done
      b := by rw [same]; exact z1
      busy := by rw [same]; exact h.busy
      out := by rw [same]; exact h.out
      cmp := by rw [same]; exact h.cmp
      spin := by rw [same]; exact h.spin
      lastw := fun y k' hl => absurd hl (nl _ _)
      free := by rw [same]; exact fun _ => ⟨rfl, hsc⟩
      cout := by rw [same]; simp
      ccmp := by rw [same]; simp
      cspin := by rw [same]; simp
      lastc := fun k' hl => absurd hl (nl _ _)
      last := fun k' t hl => absurd hl (nl _ _)
      uniq := fun k1 k2 t t' h1 h2 => absurd h1 (nl _ _)
      ex := by intro i h0 hb; rw [same] at h0 hb; exact absurd hb (z2 i h0)
      sizepos := by rw [same]; simp }
  · simp at hs

theorem sim_callerLook {N : Nat} {f f' : S} {s : SpinEnd.S} (h : R N f s) (hs : step N f .callerLook = some f') :
    ∃ s', R N f' s' := by
  simp only [step] at hs
  split at hs
  · rename_i k hw
    split at hs
    · rename_i hb
      simp only [Option.some.injEq] at hs
      have hin : f.inLoop = true := by
        cases hb : f.inLoop with
        | true => rfl
        | false => rw [(h.free hb).1] at hw; simp at hw
      have hi := h.isI hin
      have hsc := h.cspin k hw
      have hsb : s.b k = 0 := by rw [h.b k, hb]; simp
      have hst : SpinEnd.step N true s .callerLook = some { s with c := .out } := by simp [SpinEnd.step, hsc, hsb]
      obtain ⟨hi', hj'⟩ := next h.i h.j hst
      have same : f' = { f with c := .out, inLoop := false } := hs.symm
      have nol : ∀ k' t, ¬ f.lastAt k' t := by
        intro k' t hl
        obtain ⟨h1, _, h3, _⟩ := h.last k' t hl
        rw [h3, ← (hi.cspin k hsc).1, hb] at h1
        exact h.sizepos hin h1.symm
      have nl : ∀ k' t, ¬ f'.lastAt k' t := by
        intro k' t hl
        subst hs
        cases t with
        | none => simp [S.lastAt, S.pos] at hl
        | some y => exact nol k' (some y) hl
      refine ⟨{ s with c := .out }, ?_⟩
      exact {
        i := Or.inr hi', j := hj'
        par := by rw [same]; exact h.par
        size := by rw [same]; exact h.size
        n := by rw [same]; exact h.n
        q := by rw [same]; exact h.q
        sent := by rw [same]; exact h.sent
        done := by rw [same]; exact h.done
        b := by rw [same]; exact h.b
        busy := by rw [same]; exact h.busy
        out := by rw [same]; exact h.out
        cmp := by rw [same]; exact h.cmp
        spin := by rw [same]; exact h.spin
        lastw := fun y k' hl => absurd hl (nl _ _)
        free := by rw [same]; exact fun _ => ⟨rfl, rfl⟩
        cout := by rw [same]; simp
        ccmp := by rw [same]; simp
        cspin := by rw [same]; simp
        lastc := fun k' hl => absurd hl (nl _ _)
        last := fun k' t hl => absurd hl (nl _ _)
        uniq := fun k1 k2 t t' h1 h2 => absurd h1 (nl _ _)
        ex := by
          intro i h0 hb
          rw [same] at h0 hb
          obtain ⟨t, ht⟩ := h.ex i h0 hb
          exact absurd ht (nol _ _)
        sizepos := by rw [same]; simp }
    · simp at hs
  · simp at hs

theorem sim_take {N v : Nat} {f f' : S} {s : SpinEnd.S} (h : R N f s) (hs : step N f (.take v) = some f') :
    ∃ s', R N f' s' := by
  simp only [step] at hs
  split at hs
  · rename_i hc
    obtain ⟨hvN, hnb, hfw, hq⟩ := hc
    simp only [Option.some.injEq] at hs
    have hsw := h.out v hnb hfw
    have hst : SpinEnd.step N true s (.take v) = some { s with q := upd s.q v (s.q v - 1), w := upd s.w v .run } := by
      simp only [SpinEnd.step]
      rw [if_pos ⟨hvN, hsw, by rw [← h.q]; exact hq⟩]
    obtain ⟨hi', hj'⟩ := next h.i h.j hst
    have same : f' = { f with q := upd f.q v (f.q v - 1), busy := upd f.busy v true } := hs.symm
    have b1 : f'.w = f.w := by rw [same]
    have b2 : f'.busy = upd f.busy v true := by rw [same]
    have la : ∀ k' t, f'.lastAt k' t ↔ f.lastAt k' t := by
      intro k' t
      subst hs
      cases t <;> exact Iff.rfl
    refine ⟨{ s with q := upd s.q v (s.q v - 1), w := upd s.w v .run }, ?_⟩
    exact {
      i := Or.inr hi', j := hj'
      par := by rw [same]; exact h.par
      size := by rw [same]; exact h.size
      n := by rw [same]; exact h.n
      q := by rw [same]; simp only [h.q]
      sent := by rw [same]; exact h.sent
      done := by rw [same]; exact h.done
      b := by rw [same]; exact h.b
      busy := by
        intro y hy
        rw [b1]
        by_cases hyv : y = v
        · subst hyv; exact ⟨hfw, by simp [upd]⟩
        · rw [b2] at hy; simp only [upd, hyv, if_false] at hy ⊢; exact h.busy y hy
      out := by
        intro y hy hyw
        rw [b1] at hyw
        by_cases hyv : y = v
        · subst hyv; rw [b2] at hy; simp [upd] at hy
        · rw [b2] at hy; simp only [upd, hyv, if_false] at hy ⊢; exact h.out y hy hyw
      cmp := by
        intro y k' c' hyw hne
        have hne : c' ≠ f.size := by rw [same] at hne; exact hne
        rw [b1] at hyw
        have hyv : y ≠ v := by intro e; rw [e, hfw] at hyw; simp at hyw
        simp only [upd, hyv, if_false]; exact h.cmp y k' c' hyw hne
      spin := by
        intro y k' hyw
        rw [b1] at hyw
        have hyv : y ≠ v := by intro e; rw [e, hfw] at hyw; simp at hyw
        simp only [upd, hyv, if_false]; exact h.spin y k' hyw
      lastw := by
        intro y k' hl
        have hl := (la _ _).1 hl
        have hyv : y ≠ v := by
          intro e
          unfold S.lastAt at hl
          rw [e, show f.pos (some v) = f.w v from rfl, hfw] at hl
          simp at hl
        simp only [upd, hyv, if_false]; exact h.lastw y k' hl
      free := by rw [same]; exact h.free
      cout := by rw [same]; exact h.cout
      ccmp := by rw [same]; exact h.ccmp
      cspin := by rw [same]; exact h.cspin
      lastc := fun k' hl => h.lastc k' ((la _ _).1 hl)
      last := by intro k' t hl; have := h.last k' t ((la _ _).1 hl); rw [same]; exact this
      uniq := fun k1 k2 t t' h1 h2 => h.uniq k1 k2 t t' ((la _ _).1 h1) ((la _ _).1 h2)
      ex := by
        intro i h0 hb
        rw [same] at h0 hb
        obtain ⟨t, ht⟩ := h.ex i h0 hb
        exact ⟨t, (la _ _).2 ht⟩
      sizepos := by rw [same]; exact h.sizepos }
  · simp at hs

theorem sim_look {N v : Nat} {f f' : S} {s : SpinEnd.S} (h : R N f s) (hs : step N f (.look v) = some f') :
    ∃ s', R N f' s' := by
  simp only [step] at hs
  split at hs
  · rename_i k hw
    split at hs
    · rename_i hb
      simp only [Option.some.injEq] at hs
      have hsw := h.spin v k hw
      have hsb : s.b k = 0 := by rw [h.b k, hb]; simp
      have hvN : v < N := by
        rcases Nat.lt_or_ge v N with h1 | h1
        · exact h1
        · rw [h.j.idle v h1] at hsw; simp at hsw
      have hnb : f.busy v = false := by
        cases hb : f.busy v with
        | false => rfl
        | true => rw [(h.busy v hb).1] at hw; simp at hw
      have hst : SpinEnd.step N true s (.look v) = some { s with w := upd s.w v .idle } := by
        simp [SpinEnd.step, hvN, hsw, hsb]
      obtain ⟨hi', hj'⟩ := next h.i h.j hst
      have same : f' = { f with w := upd f.w v .out } := hs.symm
      have b1 : f'.w = upd f.w v .out := by rw [same]
      have la : ∀ k' t, f'.lastAt k' t ↔ f.lastAt k' t := by
        intro k' t
        subst hs
        cases t with
        | none => exact Iff.rfl
        | some y =>
          by_cases hy : y = v
          · subst hy; simp [S.lastAt, S.pos, upd, hw]
          · simp only [S.lastAt, S.pos, upd, hy, if_false]
      refine ⟨{ s with w := upd s.w v .idle }, ?_⟩
      exact {
        i := Or.inr hi', j := hj'
        par := by rw [same]; exact h.par
        size := by rw [same]; exact h.size
        n := by rw [same]; exact h.n
        q := by rw [same]; exact h.q
        sent := by rw [same]; exact h.sent
        done := by rw [same]; exact h.done
        b := by rw [same]; exact h.b
        busy := by
          intro y hy
          have hy : f.busy y = true := by rw [same] at hy; exact hy
          have hyv : y ≠ v := by intro e; rw [e, hnb] at hy; simp at hy
          rw [b1]; simp only [upd, hyv, if_false]; exact h.busy y hy
        out := by
          intro y hy hyw
          have hy : f.busy y = false := by rw [same] at hy; exact hy
          by_cases hyv : y = v
          · subst hyv; simp [upd]
          · rw [b1] at hyw; simp only [upd, hyv, if_false] at hyw ⊢; exact h.out y hy hyw
        cmp := by
          intro y k' c' hyw hne
          have hne : c' ≠ f.size := by rw [same] at hne; exact hne
          by_cases hyv : y = v
          · subst hyv; rw [b1] at hyw; simp [upd] at hyw
          · rw [b1] at hyw; simp only [upd, hyv, if_false] at hyw ⊢; exact h.cmp y k' c' hyw hne
        spin := by
          intro y k' hyw
          by_cases hyv : y = v
          · subst hyv; rw [b1] at hyw; simp [upd] at hyw
          · rw [b1] at hyw; simp only [upd, hyv, if_false] at hyw ⊢; exact h.spin y k' hyw
        lastw := by
          intro y k' hl
          have := h.lastw y k' ((la _ _).1 hl)
          by_cases hyv : y = v
          · subst hyv; simp [upd]
          · simp only [upd, hyv, if_false]; exact this
        free := by rw [same]; exact h.free
        cout := by rw [same]; exact h.cout
        ccmp := by rw [same]; exact h.ccmp
        cspin := by rw [same]; exact h.cspin
        lastc := fun k' hl => h.lastc k' ((la _ _).1 hl)
        last := by intro k' t hl; have := h.last k' t ((la _ _).1 hl); rw [same]; exact this
        uniq := fun k1 k2 t t' h1 h2 => h.uniq k1 k2 t t' ((la _ _).1 h1) ((la _ _).1 h2)
        ex := by
          intro i h0 hb
          rw [same] at h0 hb
          obtain ⟨t, ht⟩ := h.ex i h0 hb
          exact ⟨t, (la _ _).2 ht⟩
        sizepos := by rw [same]; exact h.sizepos }
    · simp at hs
  · simp at hs

theorem sim_reach {N : Nat} {par : Nat → Bool} {b : Bool → Nat} {f : S} (hr : Reach (cstep N) (S.new par b) f) :
    ∃ s, R N f s := by
  refine hr.inv (Inv := fun f => ∃ s, R N f s) ⟨_, new_R N par b⟩ ?_
  intro f a f' ⟨s, h⟩ hs
  cases a with
  | start n => exact sim_start h hs
  | callerEnter => exact sim_callerEnter h hs
  | callerCmp => exact ⟨s, sim_callerCmp h hs⟩
  | callerZero => exact ⟨s, sim_callerZero h hs⟩
  | callerLook => exact sim_callerLook h hs
  | take v => exact sim_take h hs
  | enter v => exact sim_enter h hs
  | cmp v => exact ⟨s, sim_cmp h hs⟩
  | zero v => exact ⟨s, sim_zero h hs⟩
  | look v => exact sim_look h hs

/-- **C82** (separation, access by access; partial: of a caller that changes the number of workers only when no worker is
in the barrier).  Whenever the caller is between two loops, every worker has completed as many parts of loops as it
has been woken up for, and none is executing one. -/
theorem C82_fine_separation_partial {N : Nat} {par : Nat → Bool} {b : Bool → Nat} {f : S}
    (hr : Reach (cstep N) (S.new par b) f) (hc : f.inLoop = false) (v : Nat) :
    f.done v = f.sent v ∧ f.busy v = false := by
  obtain ⟨s, h⟩ := sim_reach hr
  have hsc := (h.free hc).2
  have key : s.done v = s.sent v ∧ s.w v ≠ .run := by
    rcases h.i with hi | hi
    · exact ⟨(hi.count v).symm, by rw [hi.w v]; simp⟩
    · have hall := cnt_all.1 (hi.cout hsc)
      have hcnt := hi.count v
      by_cases hv : v < s.n
      · have ha := hall v (by omega)
        refine ⟨by rw [hcnt]; simp [ha], fun hw => ?_⟩
        have := (hi.run v hv hw).2
        rw [ha] at this; simp at this
      · exact ⟨by simp [hv] at hcnt; exact hcnt.symm, (hi.rest v (by omega)).2⟩
  refine ⟨by rw [h.done, h.sent]; exact key.1, ?_⟩
  cases hb : f.busy v with
  | false => rfl
  | true => exact absurd (h.busy v hb).2 key.2

/-- **C82** (no deadlock, access by access; partial as above).  Whenever the caller is in a loop some thread can go on. -/
theorem C82_fine_progress_partial {N : Nat} {par : Nat → Bool} {b : Bool → Nat} {f : S}
    (hr : Reach (cstep N) (S.new par b) f) (hc : f.inLoop = true) :
    ∃ a f', (∀ n, a ≠ .start n) ∧ step N f a = some f' := by
  obtain ⟨s, h⟩ := sim_reach hr
  have hi := h.isI hc
  cases hfc : f.c with
  | out =>
    exact ⟨.callerEnter, _, by simp, by simp only [step]; rw [if_pos ⟨hc, hfc⟩]⟩
  | cmp k c => exact ⟨.callerCmp, _, by simp, by simp only [step, hfc]; rfl⟩
  | zero k => exact ⟨.callerZero, _, by simp, by simp only [step, hfc]; rfl⟩
  | spin k =>
    by_cases hin : ∃ v, (∃ k c, f.w v = .cmp k c) ∨ ∃ k, f.w v = .zero k
    · obtain ⟨v, ⟨k, c, hw⟩ | ⟨k, hw⟩⟩ := hin
      · exact ⟨.cmp v, _, by simp, by simp only [step, hw]; rfl⟩
      · exact ⟨.zero v, _, by simp, by simp only [step, hw]; rfl⟩
    · have nol : ∀ k t, ¬ f.lastAt k t := by
        intro k' t hl
        cases t with
        | none =>
          unfold S.lastAt at hl
          rw [show f.pos none = f.c from rfl, hfc] at hl
          simp at hl
        | some v =>
          rcases hl with hl | hl
          · exact hin ⟨v, Or.inl ⟨_, _, hl⟩⟩
          · exact hin ⟨v, Or.inr ⟨_, hl⟩⟩
      have hb : ∀ i, s.b i = f.b i := by
        intro i
        rw [h.b i, if_neg]
        intro hh
        obtain ⟨t, ht⟩ := h.ex i (h.sizepos hc) hh
        exact nol i t ht
      have hsc := h.cspin k hfc
      obtain ⟨a, s', ha, hs⟩ := can_go hi h.j true (by rw [hsc]; simp)
      cases a with
      | start n => exact absurd rfl (ha n)
      | callerEnter => simp [SpinEnd.step, hsc] at hs
      | callerLook =>
        simp only [SpinEnd.step, hsc] at hs
        split at hs
        · rename_i h0
          exact ⟨.callerLook, _, by simp, by simp only [step, hfc]; rw [if_pos (by rw [← hb]; exact h0)]⟩
        · simp at hs
      | take v =>
        simp only [SpinEnd.step] at hs
        split at hs
        · rename_i h0
          obtain ⟨hvN, hw, hq⟩ := h0
          have hnb : f.busy v = false := by
            cases hbz : f.busy v with
            | false => rfl
            | true => rw [(h.busy v hbz).2] at hw; simp at hw
          have hfw : f.w v = .out := by
            cases hfw : f.w v with
            | out => rfl
            | cmp k c => exact absurd ⟨v, Or.inl ⟨_, _, hfw⟩⟩ hin
            | zero k => exact absurd ⟨v, Or.inr ⟨_, hfw⟩⟩ hin
            | spin k => rw [h.spin v k hfw] at hw; simp at hw
          exact ⟨.take v, _, by simp, by simp only [step]; rw [if_pos ⟨hvN, hnb, hfw, by rw [h.q]; exact hq⟩]⟩
        · simp at hs
      | enter v =>
        simp only [SpinEnd.step] at hs
        split at hs
        · rename_i h0
          obtain ⟨hvN, hw⟩ := h0
          have hbz : f.busy v = true := by
            cases hbz : f.busy v with
            | true => rfl
            | false =>
              cases hfw : f.w v with
              | out => rw [h.out v hbz hfw] at hw; simp at hw
              | cmp k c => exact absurd ⟨v, Or.inl ⟨_, _, hfw⟩⟩ hin
              | zero k => exact absurd ⟨v, Or.inr ⟨_, hfw⟩⟩ hin
              | spin k => rw [h.spin v k hfw] at hw; simp at hw
          exact ⟨.enter v, _, by simp, by simp only [step]; rw [if_pos ⟨hvN, hbz⟩]⟩
        · simp at hs
      | look v =>
        simp only [SpinEnd.step] at hs
        split at hs
        · split at hs
          · rename_i k' hw
            split at hs
            · rename_i h0
              have hfw : f.w v = .spin k' := by
                cases hfw : f.w v with
                | out =>
                  cases hbz : f.busy v with
                  | true => rw [(h.busy v hbz).2] at hw; simp at hw
                  | false => rw [h.out v hbz hfw] at hw; simp at hw
                | cmp k c => exact absurd ⟨v, Or.inl ⟨_, _, hfw⟩⟩ hin
                | zero k => exact absurd ⟨v, Or.inr ⟨_, hfw⟩⟩ hin
                | spin k2 =>
                  have := h.spin v k2 hfw
                  rw [hw] at this
                  simp only [SpinEnd.WPC.spin.injEq] at this
                  rw [this]
              exact ⟨.look v, _, by simp, by simp only [step, hfw]; rw [if_pos (by rw [← hb]; exact h0)]⟩
            · simp at hs
          · simp at hs
        · simp at hs

/-- the loops of the example of `SpinFine` without delay are those of a careful caller; in the middle of the second one
the caller is inside -/
example : ((exec (cstep 3) (S.new (fun _ => true) (fun _ => 5))
    [.start 3, .take 0, .take 1, .take 2, .enter 0, .enter 1, .enter 2, .callerEnter, .callerCmp, .callerZero,
     .cmp 0, .look 0, .cmp 1, .look 1, .cmp 2, .look 2,
     .start 2, .callerEnter, .callerCmp, .take 0]).map fun s => (s.inLoop, s.busy 0, s.c)) =
    some (true, true, .spin true) := by decide

end FF.Parfor.SpinFine
