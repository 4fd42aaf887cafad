import Verif.Common.Trans
import Verif.Node.Model
import Verif.Parfor.For
import Verif.Lamport.Inv
/-!
# The descriptors of submitted tasks (C49)

`AddTask` stores the task in an element of a ring of descriptors and sends a pointer to the element.

* `ff_mdf` (ff/mdf.hpp 92-97): ring of `outstandingTasks + 16` elements (222), the queue to the scheduler
  has `outstandingTasks` elements (220); the scheduler copies the function and the parameters from the
  descriptor (151-160, ff/task_internals.hpp 222-317) before it takes the next one.
* `ff_taskf` (ff/taskf.hpp 55-60): ring of `outstandingTasks` elements (123-125), the input queue of the
  farm has `outstandingTasks` elements (118-121); the descriptor itself goes through the queue of a worker
  (`ondemand` = 1 element, farm.hpp 1083-1090) and back to the scheduler, which deletes the function (87).

A task is its submission number.  Simplification: `ntasks` does not wrap around at 2^64.
-/
namespace FF.Mdf.Ring
open FF.Node (upd)

/-! ## ff_mdf -/

/-- `R` elements in the ring, `cap` in the queue -/
structure Cfg where
  R : Nat
  cap : Nat

structure S where
  /-- `ntasks` -/
  nt : Nat
  ring : Nat → Nat
  /-- the descriptor has been written and not yet sent -/
  pend : Bool
  q : List Nat
  /-- element that the scheduler works on -/
  hold : Option Nat
  /-- ghost: number of descriptors received; (number of the descriptor, value read) -/
  nr : Nat
  reads : List (Nat × Nat)

def S.init : S := ⟨0, fun _ => 0, false, [], none, 0, []⟩

inductive Act where
  | write | send | get | read | next

/-- mdf.hpp 93-95; 96; lb.hpp (the scheduler receives a pointer); mdf.hpp 151-160 -/
def step (G : Cfg) (s : S) : Act → Option S
  | .write => if s.pend = false then some { s with ring := upd s.ring (s.nt % G.R) s.nt, nt := s.nt + 1, pend := true } else none
  | .send => if s.pend = true ∧ s.q.length < G.cap then some { s with pend := false, q := s.q ++ [(s.nt - 1) % G.R] } else none
  | .get =>
    match s.hold, s.q with
    | none, e :: q => some { s with hold := some e, q := q, nr := s.nr + 1 }
    | _, _ => none
  | .read => s.hold.map fun e => { s with reads := s.reads ++ [(s.nr - 1, s.ring e)] }
  | .next => if s.hold.isSome then some { s with hold := none } else none

structure Inv (G : Cfg) (s : S) : Prop where
  cap : s.q.length ≤ G.cap
  q : s.q = (List.range s.q.length).map fun i => (s.nr + i) % G.R
  num : s.nr + s.q.length + s.pend.toNat = s.nt
  hold : ∀ e, s.hold = some e → 1 ≤ s.nr ∧ e = (s.nr - 1) % G.R
  ring : ∀ k, (s.nr ≤ k ∨ (s.hold.isSome ∧ s.nr = k + 1)) → k < s.nt → s.ring (k % G.R) = k
  reads : ∀ x ∈ s.reads, x.1 = x.2 ∧ x.1 < s.nr

theorem range_map_cons (a n : Nat) (f : Nat → Nat) :
    (List.range (n + 1)).map (fun i => f (a + i)) = f a :: (List.range n).map (fun i => f (a + 1 + i)) := by
  rw [List.range_succ_eq_map, List.map_cons, List.map_map]
  simp only [Nat.add_zero]
  congr 1
  apply List.map_congr_left
  intro i _
  show f (a + (i + 1)) = f (a + 1 + i)
  congr 1; omega

theorem Inv.step {G : Cfg} (hR : G.cap + 2 ≤ G.R) {s s' : S} {a : Act} (h : Inv G s) (hs : step G s a = some s') : Inv G s' := by
  cases a with
  | write =>
    simp only [Ring.step] at hs
    split at hs
    · rename_i hp
      simp only [Option.some.injEq] at hs
      subst hs
      refine ⟨h.cap, h.q, ?_, h.hold, ?_, h.reads⟩
      · have := h.num; rw [hp] at this; simp at this ⊢; omega
      · intro k hk hlt
        dsimp only at hk hlt ⊢
        by_cases e : k = s.nt
        · subst e; simp only [upd, if_true]
        · have hne : k % G.R ≠ s.nt % G.R := by
            intro hm
            have h1 := h.num
            have h2 := h.cap
            rw [hp] at h1
            simp only [Bool.toNat_false, Nat.add_zero] at h1
            have : k = s.nt := Lamport.mod_inj_window (c := s.nr - 1) (n := G.R) (by rcases hk with hk | ⟨_, hk⟩ <;> omega)
              (by omega) (by omega) (by omega) hm
            exact e this
          simp only [upd, if_neg hne]
          exact h.ring k hk (by omega)
    · cases hs
  | send =>
    simp only [Ring.step] at hs
    split at hs
    · rename_i hp
      simp only [Option.some.injEq] at hs
      subst hs
      have h1 := h.num
      rw [hp.1] at h1
      simp only [Bool.toNat_true] at h1
      refine ⟨by simp; omega, ?_, by simp; omega, h.hold, h.ring, h.reads⟩
      simp only [List.length_append, List.length_singleton]
      rw [List.range_succ, List.map_append, ← h.q]
      simp only [List.map_cons, List.map_nil]
      congr 3
      omega
    · cases hs
  | get =>
    simp only [Ring.step] at hs
    split at hs
    · rename_i e q hh hq
      simp only [Option.some.injEq] at hs
      subst hs
      have h2 := h.q
      have h1 := h.num
      have h3 := h.cap
      rw [hq] at h1 h2 h3
      simp only [List.length_cons] at h1 h2 h3
      rw [range_map_cons s.nr q.length (fun x => x % G.R)] at h2
      simp only [List.cons.injEq] at h2
      refine ⟨by dsimp only; omega, h2.2, by dsimp only; omega, ?_, ?_, ?_⟩
      · intro e' he
        simp only [Option.some.injEq] at he
        subst he
        refine ⟨by dsimp only; omega, ?_⟩
        dsimp only
        rw [Nat.add_sub_cancel]; exact h2.1
      · intro k hk hlt
        dsimp only at hk hlt ⊢
        apply h.ring k _ hlt
        rcases hk with hk | ⟨_, hk⟩
        · left; omega
        · left; omega
      · intro x hx
        have := h.reads x hx
        exact ⟨this.1, by dsimp only; omega⟩
    · cases hs
  | read =>
    simp only [Ring.step] at hs
    cases hh : s.hold with
    | none => rw [hh] at hs; cases hs
    | some e =>
      rw [hh] at hs
      simp only [Option.map_some, Option.some.injEq] at hs
      subst hs
      obtain ⟨h1, h2⟩ := h.hold e hh
      refine ⟨h.cap, h.q, h.num, ?_, ?_, ?_⟩
      · intro e' he; rw [← hh] at he; exact h.hold e' he
      · intro k hk; rw [← hh] at hk; exact h.ring k hk
      · intro x hx
        rw [List.mem_append, List.mem_singleton] at hx
        rcases hx with hx | hx
        · exact h.reads x hx
        · subst hx
          have hn := h.num
          have := h.ring (s.nr - 1) (Or.inr ⟨by rw [hh]; rfl, by omega⟩) (by omega)
          dsimp only
          rw [h2, this]
          exact ⟨rfl, by omega⟩
  | next =>
    simp only [Ring.step] at hs
    split at hs
    · simp only [Option.some.injEq] at hs
      subst hs
      refine ⟨h.cap, h.q, h.num, (by intro e he; cases he), ?_, h.reads⟩
      intro k hk
      apply h.ring k
      rcases hk with hk | ⟨hk, _⟩
      · exact Or.inl hk
      · simp at hk
    · cases hs

theorem Inv.init (G : Cfg) : Inv G S.init := by
  constructor <;> simp [S.init]

/-- **C49, ff_mdf.** What the scheduler reads in the `k`-th descriptor that it receives is what `AddTask`
stored for the `k`-th task: the element is not reused before the scheduler has copied it.  The queue has at
most `outstandingTasks + 14` elements (mdf.hpp: `outstandingTasks`). -/
theorem C49_mdf_descriptor {o cap : Nat} (hc : cap ≤ o + 14) {s : S}
    (hr : Reach (step ⟨o + 16, cap⟩) S.init s) : ∀ x ∈ s.reads, x.2 = x.1 := by
  have h : Inv ⟨o + 16, cap⟩ s := Reach.inv hr (Inv.init _) (fun _ _ _ hi hs => hi.step (by show cap + 2 ≤ o + 16; omega) hs)
  intro x hx
  exact (h.reads x hx).1.symm

def demoS : S := (exec (step ⟨17, 1⟩) S.init
  [.write, .send, .get, .write, .send, .write, .read, .next, .get, .read]).get (by decide +kernel)

/-- Non-vacuity: two descriptors are read while a third one is written. -/
example : (1 : Nat) ≤ 1 + 14 ∧ Reach (step ⟨1 + 16, 1⟩) S.init demoS ∧ demoS.reads = [(0, 0), (1, 1)] ∧ demoS.nt = 3 :=
  ⟨by decide, Parfor.exec_get _, by decide +kernel, by decide +kernel⟩

/-! ## ff_taskf -/

/-- a pointer to an element of the ring; ghost: the number of the task for which it has been sent -/
structure El where
  slot : Nat
  num : Nat
  deriving DecidableEq

/-- ghost: where a task is -/
inductive Pl where
  | no | pend | inq | wq (w : Nat) | cur (w : Nat) | back (w : Nat) | del
  deriving DecidableEq

structure T where
  nt : Nat
  ring : Nat → Nat
  pend : Bool
  inq : List El
  wq : Nat → List El
  cur : Nat → Option El
  back : Nat → List El
  /-- functions called and deleted, in this order -/
  called : List Nat
  deleted : List Nat
  loc : Nat → Pl

def T.init : T := ⟨0, fun _ => 0, false, [], fun _ => [], fun _ => none, fun _ => [], [], [], fun _ => .no⟩

inductive TAct where
  | write | send | sched (w : Nat) | call (w : Nat) | done (w : Nat) | recv (w : Nat)

/-- taskf.hpp 56-58; 157; 83-86 (a task goes to any worker with room in its queue, of 1 element); 65; 66; 87.
`N` is `outstandingTasks`. -/
def tstep (N : Nat) (s : T) : TAct → Option T
  | .write =>
    if s.pend = false then
      some { s with ring := upd s.ring (s.nt % N) s.nt, nt := s.nt + 1, pend := true, loc := upd s.loc s.nt .pend }
    else none
  | .send =>
    if s.pend = true ∧ s.inq.length < N then
      some { s with pend := false, inq := s.inq ++ [⟨(s.nt - 1) % N, s.nt - 1⟩], loc := upd s.loc (s.nt - 1) .inq }
    else none
  | .sched w =>
    match s.inq, s.wq w with
    | e :: q, [] => some { s with inq := q, wq := upd s.wq w [e], loc := upd s.loc e.num (.wq w) }
    | _, _ => none
  | .call w =>
    match s.cur w, s.wq w with
    | none, e :: q =>
      some { s with wq := upd s.wq w q, cur := upd s.cur w (some e), called := s.called ++ [s.ring e.slot],
                    loc := upd s.loc e.num (.cur w) }
    | _, _ => none
  | .done w =>
    match s.cur w with
    | some e => some { s with cur := upd s.cur w none, back := upd s.back w (s.back w ++ [e]), loc := upd s.loc e.num (.back w) }
    | none => none
  | .recv w =>
    match s.back w with
    | e :: q => some { s with back := upd s.back w q, deleted := s.deleted ++ [s.ring e.slot], loc := upd s.loc e.num .del }
    | [] => none

/-- the schedules where `AddTask` stores task `k` only after task `k - N` has been deleted -/
def wstep (N : Nat) (s : T) : TAct → Option T
  | .write => if N ≤ s.nt ∧ s.nt - N ∉ s.deleted then none else tstep N s .write
  | a => tstep N s a

/-- the tasks in a place -/
def T.nums (s : T) : Pl → List Nat
  | .no => []
  | .pend => if s.pend then [s.nt - 1] else []
  | .inq => s.inq.map El.num
  | .wq w => (s.wq w).map El.num
  | .cur w => (s.cur w).toList.map El.num
  | .back w => (s.back w).map El.num
  | .del => s.deleted

structure TInv (N : Nat) (s : T) : Prop where
  sl : ∀ e, e ∈ s.inq ∨ (∃ w, e ∈ s.wq w) ∨ (∃ w, s.cur w = some e) ∨ (∃ w, e ∈ s.back w) → e.slot = e.num % N
  lnt : ∀ k, s.loc k ≠ .no ↔ k < s.nt
  pl : ∀ l, l ≠ .no → (s.nums l).Nodup ∧ ∀ k, k ∈ s.nums l ↔ s.loc k = l
  lcall : ∀ k, k ∈ s.called ↔ ((∃ w, s.loc k = .cur w) ∨ (∃ w, s.loc k = .back w) ∨ s.loc k = .del)
  ncall : s.called.Nodup
  ring : ∀ k, s.loc k ≠ .no → s.loc k ≠ .del → s.ring (k % N) = k ∧ s.nt ≤ k + N
  lone : s.pend = true → 1 ≤ s.nt

/-- a task goes from place `A` to place `B` -/
theorem move {s s' : T} (h : ∀ l, l ≠ .no → (s.nums l).Nodup ∧ ∀ k, k ∈ s.nums l ↔ s.loc k = l) {x : Nat} {A B : Pl}
    (hAB : A ≠ B) (hA : A ≠ .no) (hB : B ≠ .no) (h1 : (s.nums A).Perm (x :: s'.nums A)) (h2 : (s'.nums B).Perm (x :: s.nums B))
    (h3 : ∀ l, l ≠ .no → l ≠ A → l ≠ B → s'.nums l = s.nums l) (h4 : s'.loc = upd s.loc x B) :
    s.loc x = A ∧ ∀ l, l ≠ .no → (s'.nums l).Nodup ∧ ∀ k, k ∈ s'.nums l ↔ s'.loc k = l := by
  have hx : s.loc x = A := ((h A hA).2 x).1 (h1.symm.subset (by simp))
  refine ⟨hx, ?_⟩
  intro l hl
  by_cases eA : l = A
  · subst eA
    have hn := h1.nodup_iff.1 (h l hl).1
    rw [List.nodup_cons] at hn
    refine ⟨hn.2, fun k => ?_⟩
    rw [h4]
    by_cases e : k = x
    · subst e
      simp only [upd, if_true]
      exact ⟨fun y => absurd y hn.1, fun y => absurd y.symm hAB⟩
    · simp only [upd, if_neg e]
      rw [← (h l hl).2 k, h1.mem_iff]; simp [e]
  · by_cases eB : l = B
    · subst eB
      refine ⟨h2.nodup_iff.2 (List.nodup_cons.2 ⟨?_, (h l hl).1⟩), fun k => ?_⟩
      · intro y
        have := ((h l hl).2 x).1 y
        rw [hx] at this; exact hAB this
      · rw [h4, h2.mem_iff]
        by_cases e : k = x
        · subst e; simp [upd]
        · simp only [upd, if_neg e]
          rw [← (h l hl).2 k]; simp [e]
    · rw [h3 l hl eA eB]
      refine ⟨(h l hl).1, fun k => ?_⟩
      rw [(h l hl).2 k, h4]
      by_cases e : k = x
      · subst e
        simp only [upd, if_true, hx]
        exact ⟨fun y => absurd y.symm eA, fun y => absurd y.symm eB⟩
      · simp only [upd, if_neg e]

/-- a move of a task that is in flight -/
theorem TInv.moved {N : Nat} {s s' : T} (h : TInv N s) {x : Nat} {A B : Pl}
    (hAB : A ≠ B) (hA : A ≠ .no) (hB : B ≠ .no) (h1 : (s.nums A).Perm (x :: s'.nums A)) (h2 : (s'.nums B).Perm (x :: s.nums B))
    (h3 : ∀ l, l ≠ .no → l ≠ A → l ≠ B → s'.nums l = s.nums l) (h4 : s'.loc = upd s.loc x B)
    (hnt : s'.nt = s.nt) (hr : s'.ring = s.ring) (hA2 : A ≠ .del) (hp : s'.pend = true → s.pend = true)
    (hsl : ∀ e, e ∈ s'.inq ∨ (∃ w, e ∈ s'.wq w) ∨ (∃ w, s'.cur w = some e) ∨ (∃ w, e ∈ s'.back w) → e.slot = e.num % N)
    (hc : (∀ w, A ≠ .cur w) ∧ (∀ w, A ≠ .back w) ∧ (∀ w, B ≠ .cur w) ∧ (∀ w, B ≠ .back w) ∧ B ≠ .del ∧ s'.called = s.called ∨
      ((∃ w, A = .cur w) ∨ (∃ w, A = .back w)) ∧ ((∃ w, B = .cur w) ∨ (∃ w, B = .back w) ∨ B = .del) ∧ s'.called = s.called ∨
      (∀ w, A ≠ .cur w) ∧ (∀ w, A ≠ .back w) ∧ ((∃ w, B = .cur w) ∨ (∃ w, B = .back w) ∨ B = .del) ∧ s'.called = s.called ++ [x]) :
    TInv N s' := by
  obtain ⟨hx, hpl⟩ := move h.pl hAB hA hB h1 h2 h3 h4
  have hlt : x < s.nt := (h.lnt x).1 (by rw [hx]; exact hA)
  refine ⟨hsl, ?_, hpl, ?_, ?_, ?_, ?_⟩
  · intro k
    rw [h4, hnt]
    by_cases e : k = x
    · subst e; simp only [upd, if_true]; exact ⟨fun _ => hlt, fun _ => hB⟩
    · simp only [upd, if_neg e]; exact h.lnt k
  · intro k
    rw [h4]
    by_cases e : k = x
    · subst e
      simp only [upd, if_true]
      rcases hc with ⟨c1, c2, c3, c4, c5, c6⟩ | ⟨c1, c2, c3⟩ | ⟨c1, c2, c3, c4⟩
      · rw [c6, h.lcall, hx]
        constructor
        · rintro (⟨w, e⟩ | ⟨w, e⟩ | e)
          · exact absurd e (c1 w)
          · exact absurd e (c2 w)
          · exact absurd e hA2
        · rintro (⟨w, e⟩ | ⟨w, e⟩ | e)
          · exact absurd e (c3 w)
          · exact absurd e (c4 w)
          · exact absurd e c5
      · rw [c3, h.lcall, hx]
        refine ⟨fun _ => c2, fun _ => ?_⟩
        rcases c1 with c1 | c1
        · exact Or.inl c1
        · exact Or.inr (Or.inl c1)
      · rw [c4]
        exact ⟨fun _ => c3, fun _ => by simp⟩
    · simp only [upd, if_neg e]
      rcases hc with ⟨_, _, _, _, _, c⟩ | ⟨_, _, c⟩ | ⟨_, _, _, c⟩
      · rw [c]; exact h.lcall k
      · rw [c]; exact h.lcall k
      · rw [c, ← h.lcall k]; simp [e]
  · rcases hc with ⟨_, _, _, _, _, c⟩ | ⟨_, _, c⟩ | ⟨c1, c2, _, c⟩
    · rw [c]; exact h.ncall
    · rw [c]; exact h.ncall
    · rw [c, List.nodup_append]
      refine ⟨h.ncall, by simp, ?_⟩
      intro a ha b hb
      rw [List.mem_singleton] at hb
      subst hb
      rintro rfl
      have := (h.lcall a).1 ha
      rw [hx] at this
      rcases this with ⟨w, e⟩ | ⟨w, e⟩ | e
      · exact c1 w e
      · exact c2 w e
      · exact hA2 e
  · intro k g1 g2
    rw [hr, hnt]
    rw [h4] at g1 g2
    by_cases e : k = x
    · subst e; exact h.ring k (by rw [hx]; exact hA) (by rw [hx]; exact hA2)
    · simp only [upd, if_neg e] at g1 g2; exact h.ring k g1 g2
  · intro y; rw [hnt]; exact h.lone (hp y)

theorem TInv.step {N : Nat} (hN : 1 ≤ N) {s s' : T} {a : TAct} (h : TInv N s) (hs : wstep N s a = some s') : TInv N s' := by
  have hring : ∀ e, e ∈ s.inq ∨ (∃ w, e ∈ s.wq w) ∨ (∃ w, s.cur w = some e) ∨ (∃ w, e ∈ s.back w) →
      s.loc e.num ≠ .no ∧ s.loc e.num ≠ .del → s.ring e.slot = e.num := by
    intro e he hl
    rw [h.sl e he]
    exact (h.ring _ hl.1 hl.2).1
  cases a with
  | write =>
    simp only [wstep] at hs
    split at hs
    · cases hs
    · rename_i hg
      simp only [tstep] at hs
      split at hs
      · rename_i hp
        simp only [Option.some.injEq] at hs
        subst hs
        have h0 : s.loc s.nt = .no := by
          by_cases e : s.loc s.nt = .no
          · exact e
          · have := (h.lnt _).1 e; omega
        have key : ∀ k (l : Pl), l ≠ .no → l ≠ .pend → (upd s.loc s.nt Pl.pend k = l ↔ s.loc k = l) := by
          intro k l h1 h2
          by_cases e : k = s.nt
          · subst e
            simp only [upd, if_true, h0]
            exact ⟨fun x => absurd x.symm h2, fun x => absurd x.symm h1⟩
          · simp only [upd, if_neg e]
        refine ⟨h.sl, ?_, ?_, ?_, h.ncall, ?_, fun _ => by simp⟩
        · intro k
          dsimp only
          by_cases e : k = s.nt
          · subst e; simp [upd]
          · simp only [upd, if_neg e]; rw [h.lnt]; omega
        · intro l hl
          by_cases el : l = .pend
          · subst el
            refine ⟨by simp [T.nums], fun k => ?_⟩
            simp only [T.nums, if_true, List.mem_singleton, Nat.add_sub_cancel]
            by_cases e : k = s.nt
            · subst e; simp [upd]
            · simp only [upd, if_neg e]
              refine ⟨fun x => absurd x e, fun x => ?_⟩
              have := ((h.pl _ hl).2 k).2 x
              simp [T.nums, hp] at this
          · have hl2 := h.pl l hl
            cases l <;> first
              | exact absurd rfl hl
              | exact absurd rfl el
              | exact ⟨hl2.1, fun k => (hl2.2 k).trans (key k _ hl el).symm⟩
        · intro k
          dsimp only
          rw [h.lcall, key k .del (by simp) (by simp)]
          have a1 : ∀ w, (upd s.loc s.nt Pl.pend k = .cur w ↔ s.loc k = .cur w) := fun w => key k _ (by simp) (by simp)
          have a2 : ∀ w, (upd s.loc s.nt Pl.pend k = .back w ↔ s.loc k = .back w) := fun w => key k _ (by simp) (by simp)
          simp only [a1, a2]
        · intro k h1 h2
          dsimp only at h1 h2 ⊢
          by_cases e : k = s.nt
          · subst e; simp only [upd, if_true]; exact ⟨trivial, by omega⟩
          · simp only [upd, if_neg e] at h1 h2
            obtain ⟨r1, r2⟩ := h.ring k h1 h2
            have hk := (h.lnt k).1 h1
            have hne : s.nt ≠ k + N := by
              intro e2
              apply hg
              refine ⟨by omega, ?_⟩
              have : s.nt - N = k := by omega
              rw [this]
              intro hd
              exact h2 (((h.pl .del (by simp)).2 k).1 hd)
            have hm : k % N ≠ s.nt % N := by
              intro hm
              exact e (Lamport.mod_inj_window (c := k) (n := N) (by omega) (by omega) (by omega) (by omega) hm)
            simp only [upd, if_neg hm]
            exact ⟨r1, by omega⟩
      · cases hs
  | send =>
    simp only [wstep, tstep] at hs
    split at hs
    · rename_i hp
      simp only [Option.some.injEq] at hs
      subst hs
      refine h.moved (x := s.nt - 1) (A := .pend) (B := .inq) (by simp) (by simp) (by simp) ?_ ?_ ?_ rfl rfl rfl (by simp)
        (by intro x; cases x) ?_ ?_
      · simp [T.nums, hp.1]
      · simp only [T.nums, List.map_append]
        exact List.perm_append_comm
      · intro l h1 h2 h3; cases l <;> simp_all [T.nums]
      · intro e he
        dsimp only at he
        rw [List.mem_append, List.mem_singleton] at he
        rcases he with (he | he) | he
        · exact h.sl e (Or.inl he)
        · subst he; rfl
        · exact h.sl e (Or.inr he)
      · left; simp
    · cases hs
  | sched w =>
    simp only [wstep, tstep] at hs
    split at hs
    · rename_i e q hq hw
      simp only [Option.some.injEq] at hs
      subst hs
      refine h.moved (x := e.num) (A := .inq) (B := .wq w) (by simp) (by simp) (by simp) ?_ ?_ ?_ rfl rfl rfl (by simp)
        id ?_ ?_
      · simp [T.nums, hq]
      · simp [T.nums, hw, upd]
      · intro l h1 h2 h3
        cases l with
        | wq v =>
          have : v ≠ w := by rintro rfl; exact h3 rfl
          simp only [T.nums, upd, if_neg this]
        | _ => simp_all [T.nums]
      · intro e' he
        dsimp only at he
        rcases he with he | ⟨v, he⟩ | he
        · exact h.sl e' (Or.inl (by rw [hq]; exact List.mem_cons_of_mem _ he))
        · by_cases ev : v = w
          · subst ev
            simp only [upd, if_true, List.mem_singleton] at he
            subst he
            exact h.sl e' (Or.inl (by rw [hq]; simp))
          · simp only [upd, if_neg ev] at he
            exact h.sl e' (Or.inr (Or.inl ⟨v, he⟩))
        · exact h.sl e' (Or.inr (Or.inr he))
      · left; simp
    · cases hs
  | call w =>
    simp only [wstep, tstep] at hs
    split at hs
    · rename_i e q hc hw
      simp only [Option.some.injEq] at hs
      have hm : e ∈ s.wq w := by rw [hw]; simp
      have hl : s.loc e.num = .wq w := ((h.pl (.wq w) (by simp)).2 _).1 (by simp only [T.nums]; exact List.mem_map_of_mem hm)
      have hre : s.ring e.slot = e.num := hring e (Or.inr (Or.inl ⟨w, hm⟩)) (by rw [hl]; simp)
      rw [hre] at hs
      subst hs
      refine h.moved (x := e.num) (A := .wq w) (B := .cur w) (by simp) (by simp) (by simp) ?_ ?_ ?_ rfl rfl rfl (by simp)
        id ?_ ?_
      · simp [T.nums, hw, upd]
      · simp [T.nums, hc, upd]
      · intro l h1 h2 h3
        cases l with
        | wq v =>
          have : v ≠ w := by rintro rfl; exact h2 rfl
          simp only [T.nums, upd, if_neg this]
        | cur v =>
          have : v ≠ w := by rintro rfl; exact h3 rfl
          simp only [T.nums, upd, if_neg this]
        | _ => simp_all [T.nums]
      · intro e' he
        dsimp only at he
        rcases he with he | ⟨v, he⟩ | ⟨v, he⟩ | he
        · exact h.sl e' (Or.inl he)
        · refine h.sl e' (Or.inr (Or.inl ⟨v, ?_⟩))
          by_cases ev : v = w
          · subst ev
            simp only [upd, if_true] at he
            rw [hw]; exact List.mem_cons_of_mem _ he
          · simp only [upd, if_neg ev] at he; exact he
        · by_cases ev : v = w
          · subst ev
            simp only [upd, if_true, Option.some.injEq] at he
            subst he
            exact h.sl e (Or.inr (Or.inl ⟨v, hm⟩))
          · simp only [upd, if_neg ev] at he
            exact h.sl e' (Or.inr (Or.inr (Or.inl ⟨v, he⟩)))
        · exact h.sl e' (Or.inr (Or.inr (Or.inr he)))
      · right; right; simp
    · cases hs
  | done w =>
    simp only [wstep, tstep] at hs
    split at hs
    · rename_i e hc
      simp only [Option.some.injEq] at hs
      subst hs
      refine h.moved (x := e.num) (A := .cur w) (B := .back w) (by simp) (by simp) (by simp) ?_ ?_ ?_ rfl rfl rfl (by simp)
        id ?_ ?_
      · simp [T.nums, hc, upd]
      · simp only [T.nums, upd, if_true, List.map_append]
        exact List.perm_append_comm
      · intro l h1 h2 h3
        cases l with
        | cur v =>
          have : v ≠ w := by rintro rfl; exact h2 rfl
          simp only [T.nums, upd, if_neg this]
        | back v =>
          have : v ≠ w := by rintro rfl; exact h3 rfl
          simp only [T.nums, upd, if_neg this]
        | _ => simp_all [T.nums]
      · intro e' he
        dsimp only at he
        rcases he with he | he | ⟨v, he⟩ | ⟨v, he⟩
        · exact h.sl e' (Or.inl he)
        · exact h.sl e' (Or.inr (Or.inl he))
        · by_cases ev : v = w
          · subst ev
            simp only [upd, if_true] at he; cases he
          · simp only [upd, if_neg ev] at he
            exact h.sl e' (Or.inr (Or.inr (Or.inl ⟨v, he⟩)))
        · by_cases ev : v = w
          · subst ev
            simp only [upd, if_true, List.mem_append, List.mem_singleton] at he
            rcases he with he | he
            · exact h.sl e' (Or.inr (Or.inr (Or.inr ⟨v, he⟩)))
            · subst he; exact h.sl e' (Or.inr (Or.inr (Or.inl ⟨v, hc⟩)))
          · simp only [upd, if_neg ev] at he
            exact h.sl e' (Or.inr (Or.inr (Or.inr ⟨v, he⟩)))
      · right; left; simp
    · cases hs
  | recv w =>
    simp only [wstep, tstep] at hs
    split at hs
    · rename_i e q hw
      simp only [Option.some.injEq] at hs
      have hm : e ∈ s.back w := by rw [hw]; simp
      have hl : s.loc e.num = .back w := ((h.pl (.back w) (by simp)).2 _).1 (by simp only [T.nums]; exact List.mem_map_of_mem hm)
      have hre : s.ring e.slot = e.num := hring e (Or.inr (Or.inr (Or.inr ⟨w, hm⟩))) (by rw [hl]; simp)
      rw [hre] at hs
      subst hs
      refine h.moved (x := e.num) (A := .back w) (B := .del) (by simp) (by simp) (by simp) ?_ ?_ ?_ rfl rfl rfl (by simp)
        id ?_ ?_
      · simp [T.nums, hw, upd]
      · simp only [T.nums]
        exact List.perm_append_comm
      · intro l h1 h2 h3
        cases l with
        | back v =>
          have : v ≠ w := by rintro rfl; exact h2 rfl
          simp only [T.nums, upd, if_neg this]
        | _ => simp_all [T.nums]
      · intro e' he
        dsimp only at he
        rcases he with he | he | he | ⟨v, he⟩
        · exact h.sl e' (Or.inl he)
        · exact h.sl e' (Or.inr (Or.inl he))
        · exact h.sl e' (Or.inr (Or.inr (Or.inl he)))
        · refine h.sl e' (Or.inr (Or.inr (Or.inr ⟨v, ?_⟩)))
          by_cases ev : v = w
          · subst ev
            simp only [upd, if_true] at he
            rw [hw]; exact List.mem_cons_of_mem _ he
          · simp only [upd, if_neg ev] at he; exact he
      · right; left; simp
    · cases hs

theorem TInv.init (N : Nat) : TInv N T.init := by
  refine ⟨by simp [T.init], by simp [T.init], ?_, by simp [T.init], by simp [T.init], by simp [T.init], by simp [T.init]⟩
  intro l hl
  refine ⟨by cases l <;> simp [T.init, T.nums], ?_⟩
  intro k
  cases l <;> simp_all [T.init, T.nums]

/-- **C49, ff_taskf, partial.** If `AddTask` stores task `k` only after task `k - N` has been executed and
deleted, where `N` is the number of descriptors (for example if at most `N` tasks are submitted), then every
function is called at most once and deleted at most once, after its call, and nothing else is called or
deleted.  Missing: this is not guaranteed by `AddTask`; see the counterexample. -/
theorem C49_taskf_descriptor_partial {N : Nat} (hN : 1 ≤ N) {s : T} (hr : Reach (wstep N) T.init s) :
    s.called.Nodup ∧ s.deleted.Nodup ∧ (∀ k ∈ s.deleted, k ∈ s.called) ∧ (∀ k ∈ s.called, k < s.nt) ∧
    (s.inq = [] ∧ (∀ w, s.wq w = [] ∧ s.cur w = none ∧ s.back w = []) ∧ s.pend = false →
      ∀ k, k < s.nt → k ∈ s.called ∧ k ∈ s.deleted) := by
  have h : TInv N s := Reach.inv hr (TInv.init N) (fun _ _ _ hi hs => hi.step hN hs)
  have hd := h.pl .del (by simp)
  refine ⟨h.ncall, hd.1, ?_, ?_, ?_⟩
  · intro k hk
    exact (h.lcall k).2 (Or.inr (Or.inr ((hd.2 k).1 hk)))
  · intro k hk
    apply (h.lnt k).1
    rcases (h.lcall k).1 hk with ⟨w, e⟩ | ⟨w, e⟩ | e <;> rw [e] <;> simp
  · rintro ⟨h1, h2, h3⟩ k hk
    have hl : s.loc k = .del := by
      have hne := (h.lnt k).2 hk
      cases hl : s.loc k with
      | no => exact absurd hl hne
      | del => rfl
      | pend => have := ((h.pl .pend (by simp)).2 k).2 hl; simp [T.nums, h3] at this
      | inq => have := ((h.pl .inq (by simp)).2 k).2 hl; simp [T.nums, h1] at this
      | wq w => have := ((h.pl (.wq w) (by simp)).2 k).2 hl; simp [T.nums, (h2 w).1] at this
      | cur w => have := ((h.pl (.cur w) (by simp)).2 k).2 hl; simp [T.nums, (h2 w).2.1] at this
      | back w => have := ((h.pl (.back w) (by simp)).2 k).2 hl; simp [T.nums, (h2 w).2.2] at this
    exact ⟨(h.lcall k).2 (Or.inr (Or.inr hl)), (hd.2 k).2 hl⟩

def demoT : T := (exec (wstep 2) T.init
  [.write, .send, .sched 0, .call 0, .write, .send, .sched 1, .call 1, .done 1, .recv 1, .done 0, .recv 0, .write, .send,
   .sched 1, .call 1, .done 1, .recv 1]).get (by decide +kernel)

/-- Non-vacuity: three tasks with a ring of two descriptors. -/
example : Reach (wstep 2) T.init demoT ∧ demoT.called = [0, 1, 2] ∧ demoT.deleted = [1, 0, 2] ∧ demoT.inq = [] ∧
    demoT.pend = false :=
  ⟨Parfor.exec_get _, by decide +kernel, by decide +kernel, by decide +kernel, by decide +kernel⟩

/-- the task 0 is executed for a long time, while the others come and go -/
def longRun (N : Nat) : List TAct :=
  [.write, .send, .sched 0, .call 0] ++ (List.replicate (N - 1) [.write, .send, .sched 1, .call 1, .done 1, .recv 1]).flatten ++
  [.write, .done 0, .recv 0]

/-- state after `k + 1` tasks, when only task 0 is unfinished -/
theorem long_mid (N k : Nat) (hk : k + 1 ≤ N) : ∃ s, exec (tstep N) T.init
    ([.write, .send, .sched 0, .call 0] ++ (List.replicate k [TAct.write, .send, .sched 1, .call 1, .done 1, .recv 1]).flatten)
      = some s ∧ s.nt = k + 1 ∧ s.pend = false ∧ s.inq = [] ∧ s.wq 1 = [] ∧ s.cur 1 = none ∧ s.back 1 = [] ∧ s.back 0 = [] ∧
      s.cur 0 = some ⟨0, 0⟩ := by
  induction k with
  | zero =>
    have hN : 0 < N := by omega
    simp [exec, tstep, T.init, hN, upd]
  | succ k ih =>
    obtain ⟨s, h1, h2, h3, h4, h5, h6, h7, h8, h9⟩ := ih (by omega)
    rw [List.replicate_succ', List.flatten_append, ← List.append_assoc, exec_append, h1]
    have hN : 0 < N := by omega
    simp [exec, tstep, h2, h3, h4, h5, h6, h7, h8, h9, hN, upd]

/-- **C49, counterexample.** `ff_taskf` with any number `N` of descriptors: while task 0 is executed, the
descriptor is reused for task `N`; at the end of task 0 the scheduler deletes the function of task `N`,
which has not been called yet (and the function of task 0 is never deleted).  At no time more than two
tasks are unfinished. -/
theorem C49_taskf_counterexample {N : Nat} (hN : 1 ≤ N) : ∃ s, exec (tstep N) T.init (longRun N) = some s ∧
    N ∈ s.deleted ∧ s.pend = true ∧ s.nt = N + 1 := by
  obtain ⟨s, h1, h2, h3, h4, h5, h6, h7, h8, h9⟩ := long_mid N (N - 1) (by omega)
  unfold longRun
  rw [exec_append, h1]
  have : s.nt = N := by omega
  simp [exec, tstep, this, h3, h9, h8, upd]

end FF.Mdf.Ring
