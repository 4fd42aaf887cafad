import Verif.Farm.AccelLive
/-!
# C66: a farm used in rounds returns, in each round, the results of the tasks of that round
-/
namespace FF.Farm
open FF.Node
variable {D : Type} {w : Nat → RNode D} {c : RNode D}

section
variable {N : Nat} {em : List (Msg D) → Msg D → List (Cmd D)} {ci co : Nat → Nat} {cap : Nat}
  {rounds : List (Option Nat × List D)} {s : FA w c}

theorem Acc.reach (hg : Good N w c em rounds)
    (hr : Reach (fastep N ci co cap em) (FA.start w c rounds) s) : Acc N w c em rounds s :=
  hr.inv (Acc.start N w c em rounds) fun _ _ _ h hs => h.step hg hs

/-- **C66, results.** For every farm, capacities, number of workers per round and schedule: whenever
`wait_freezing` has returned, each finished round has returned what the tasks of that round, and
nothing else, make (`Runs`), the state of the nodes being carried over; no message is left in any
queue, and all threads sleep. -/
theorem C66_rounds (hg : Good N w c em rounds)
    (hr : Reach (fastep N ci co cap em) (FA.start w c rounds) s) (hpc : s.mpc = .wakeE) :
    Runs N w c em true [] (fun i => (w i).init) c.init (rounds.take s.got.length) s.got ∧
    s.todo = rounds.drop s.got.length ∧
    s.inp = [] ∧ s.res = [] ∧ s.f.g.exited = true ∧
    ∀ i, s.f.inq i = [] ∧ s.f.pending i = [] ∧ s.f.outq i = [] ∧ s.up i = false := by
  obtain ⟨done, prev, h0, st0, cst, h1, h2, h3, h4⟩ := Acc.reach hg hr
  rcases h4 with ⟨-, hq, hgot⟩ | ⟨nw, ts, rs, -, hp⟩
  · have hl : done.length = s.got.length := by rw [hgot, h2]
    refine ⟨?_, ?_, hq.inp, hq.res, hq.gx, fun i => ⟨hq.inq i, hq.pending i, hq.outq i, hq.up i⟩⟩
    · have := h3 [] [] rfl
      rw [List.append_nil, List.append_nil, ← hgot] at this
      rw [h1, ← hl, List.take_left]
      exact this
    · rw [h1, ← hl, List.drop_left]
  · exfalso
    cases hp with
    | wakeW j pc => rw [hpc] at pc; simp at pc
    | wakeG pc => rw [hpc] at pc; simp at pc
    | off ms pc => rw [hpc] at pc; simp at pc
    | load pc => rw [hpc] at pc; simp at pc
    | wait pc => rw [hpc] at pc; simp at pc
    | waitG pc => rw [hpc] at pc; simp at pc

/-- **C66, no result is seen in the wrong round.** At every moment of a round, what the main thread
has loaded in this round is the beginning of what the collector has put out since it was woken for
this round. -/
theorem C66_loaded (hg : Good N w c em rounds)
    (hr : Reach (fastep N ci co cap em) (FA.start w c rounds) s) (hpc : s.mpc = .load) :
    s.cur ++ s.res = s.f.g.out ∧ Msg.eos ∉ s.cur := by
  obtain ⟨done, prev, h0, st0, cst, h1, h2, h3, h4⟩ := Acc.reach hg hr
  rcases h4 with ⟨pc, -⟩ | ⟨nw, ts, rs, -, hp⟩
  · rw [hpc] at pc; simp at pc
  · cases hp with
    | load pc run out cur got => exact ⟨out.symm, cur⟩
    | wakeW j pc => rw [hpc] at pc; simp at pc
    | wakeG pc => rw [hpc] at pc; simp at pc
    | off ms pc => rw [hpc] at pc; simp at pc
    | wait pc => rw [hpc] at pc; simp at pc
    | waitG pc => rw [hpc] at pc; simp at pc

/-- **C66, only the workers that were asked for run.** In every reachable state, a worker that is in its
loop is one of the first `running` workers of the current round: in a later round with
`run_then_freeze(k)` the workers from `k` on sleep, and nothing is in their queues. -/
theorem C66_subset (hg : Good N w c em rounds)
    (hr : Reach (fastep N ci co cap em) (FA.start w c rounds) s) {nw : Option Nat} {ts : List D}
    {rs : List (Option Nat × List D)} (ht : s.todo = (nw, ts) :: rs) (i : Nat)
    (hi : running N s.first nw ≤ i) : s.up i = false ∧ s.f.pending i = [] ∧ s.f.outq i = [] := by
  obtain ⟨done, prev, h0, st0, cst, h1, h2, h3, h4⟩ := Acc.reach hg hr
  have hrun : ∀ {rest : List (Msg D)} {ts : List D},
      Run N (running N s.first nw) em st0 cst h0 ts s rest →
      s.up i = false ∧ s.f.pending i = [] ∧ s.f.outq i = [] := by
    intro rest ts h
    refine ⟨(h.off i hi).1, (h.off i hi).2, ?_⟩
    have := h.inv.outq i
    have h2' : (hat (running N s.first nw) (emAll em s.hist rest) s.f).pushed i = [] := by
      simp [hat, show ¬ i < running N s.first nw by omega]
    rw [h2'] at this
    exact (List.append_eq_nil_iff.1 this.symm).2
  rcases h4 with ⟨-, hq, -⟩ | ⟨nw', ts', rs', ht', hp⟩
  · exact ⟨hq.up i, hq.pending i, hq.outq i⟩
  · rw [ht] at ht'
    simp only [List.cons.injEq, Prod.mk.injEq] at ht'
    obtain ⟨⟨rfl, rfl⟩, rfl⟩ := ht'
    cases hp with
    | wakeW j pc hj hw => exact ⟨(hw.asleep i (by omega)).1, hw.pending i, hw.outq i⟩
    | wakeG pc hw => exact ⟨(hw.asleep i (by omega)).1, hw.pending i, hw.outq i⟩
    | off ms pc run => exact hrun run
    | load pc run => exact hrun run
    | wait pc run => exact hrun run
    | waitG pc run => exact hrun run

/-- **C66, every round ends.** From every reachable state, with queues of capacity at least one, the
end of the last round is reachable, whatever happened so far; there every round has returned what
`Runs` says. -/
theorem C66_completes (hg : Good N w c em rounds) (hci : ∀ i, i < N → 0 < ci i)
    (hco : ∀ i, i < N → 0 < co i) (hcap : 0 < cap)
    (hr : Reach (fastep N ci co cap em) (FA.start w c rounds) s) :
    ∃ s', Reach (fastep N ci co cap em) s s' ∧ s'.todo = [] ∧ s'.mpc = .wakeE ∧
      Runs N w c em true [] (fun i => (w i).init) c.init rounds s'.got := by
  have key : ∀ (n : Nat) (s : FA w c), s.todo.length = n →
      Reach (fastep N ci co cap em) (FA.start w c rounds) s →
      ∃ s', Reach (fastep N ci co cap em) s s' ∧ s'.todo = [] ∧ s'.mpc = .wakeE := by
    intro n
    induction n with
    | zero =>
      intro s hl hr
      obtain ⟨done, prev, h0, st0, cst, h1, h2, h3, h4⟩ := Acc.reach hg hr
      rcases h4 with ⟨pc, -⟩ | ⟨nw, ts, rs, ht, hp⟩
      · exact ⟨s, Reach.refl _ _, List.length_eq_zero_iff.1 hl, pc⟩
      · rw [ht] at hl; simp at hl
    | succ n ih =>
      intro s hl hr
      -- the round can be begun, if it has not been
      obtain ⟨s1, r1, hl1, done, prev, h0, st0, cst, nw, ts, rs, h1, ht, hp⟩ : ∃ s1,
          Reach (fastep N ci co cap em) s s1 ∧ s1.todo.length = n + 1 ∧
          ∃ done prev h0 st0 cst nw ts rs, rounds = done ++ s1.todo ∧ s1.todo = (nw, ts) :: rs ∧
            APh N (running N s1.first nw) em h0 st0 cst ts prev s1 := by
        obtain ⟨done, prev, h0, st0, cst, h1, h2, h3, h4⟩ := Acc.reach hg hr
        rcases h4 with ⟨pc, hq, hgot⟩ | ⟨nw, ts, rs, ht, hp⟩
        · cases ht : s.todo with
          | nil => rw [ht] at hl; simp at hl
          | cons r rs =>
            obtain ⟨nw, ts⟩ := r
            obtain ⟨s1, e, e1, e2, e3, e4, e5⟩ := hq.wake (cap := cap) pc ht
            refine ⟨s1, (Reach.refl _ _).tail (a := .user) e, by rw [e1, hl], done, prev, h0, st0, cst, nw,
              ts, rs, by rw [e1, h1], by rw [e1, ht], ?_⟩
            rw [e2]
            exact .wakeW 0 e3 (Nat.zero_le _) e5 (by rw [e4, hgot])
        · exact ⟨s, Reach.refl _ _, hl, done, prev, h0, st0, cst, nw, ts, rs, h1, ht, hp⟩
      have hmem : (nw, ts) ∈ rounds := by rw [h1, ht]; simp
      have H : Hyp N w c ci co cap em nw s1.first :=
        ⟨running_pos hg.pos _ (hg.some_ _ hmem), hg.w, hg.c, hg.em.data,
          fun h m => hg.em.valid h m _ hmem s1.first, hci, hco, hcap⟩
      obtain ⟨s2, r2, t2, -⟩ := APh.ends H ht rfl hp
      have hl2 : s2.todo.length = n := by
        rw [t2]; rw [ht] at hl1; simpa using hl1
      obtain ⟨s3, r3, q⟩ := ih s2 hl2 ((hr.trans r1).trans r2)
      exact ⟨s3, (r1.trans r2).trans r3, q⟩
  obtain ⟨s', h1, h2, h3⟩ := key _ s rfl hr
  refine ⟨s', h1, h2, h3, ?_⟩
  obtain ⟨q1, q2, -⟩ := C66_rounds hg (hr.trans h1) h3
  rw [h2] at q2
  have : rounds.length ≤ s'.got.length := List.drop_eq_nil_iff.1 q2.symm
  rw [List.take_of_length_le this] at q1
  exact q1

end

/-! ## The plain reading -/

/-- a worker that applies `f` to each task, in all rounds -/
def fnR (f : D → D) : RNode D := { fnNode f with renew := id }
/-- no filter in the collector -/
def idR : RNode D := { idNode with renew := id }
/-- the default emitter: each task is scheduled -/
def emDef : List (Msg D) → Msg D → List (Cmd D)
  | _, .data d => [.sched (.data d)]
  | _, _ => []

theorem emAll_def (h : List (Msg D)) (ts : List D) :
    emAll emDef h (ts.map .data ++ [.eos]) = ts.map (fun t => Cmd.sched (.data t)) ++ [.bcast .eos] := by
  induction ts generalizing h with
  | nil => rfl
  | cons t ts ih => simp [emAll, emOne, emDef, ih]

theorem idR_filter : Filter (idR (D := D)).toNode :=
  ⟨fun _ _ m hm => by simp [idR, idNode] at hm, fun _ m hm => by simp [idR, idNode] at hm, idNode_stays⟩

theorem emDef_good (N : Nat) (rounds : List (Option Nat × List D)) : GoodEm N rounds emDef :=
  ⟨fun h m x hx => by cases m <;> simp [emDef] at hx; subst hx; rfl,
   fun h m r _ first i x hx => by cases m <;> simp [emDef] at hx⟩

theorem good_map {N : Nat} (hN : 0 < N) (f : D → D) (rounds : List (Option Nat × List D))
    (hr : ∀ r ∈ rounds, r.1 ≠ some 0) : Good N (fun _ => fnR f) idR emDef rounds :=
  ⟨hN, hr, fun _ _ => fnNode_steady f, idR_filter, emDef_good N rounds⟩

theorem collected_id (ms : List (Msg D)) (h : ∀ m ∈ ms, m.isData = true ∨ m = .eos) :
    collected idNode () ms = (tasks ms).map .data := by
  induction ms with
  | nil => rfl
  | cons m ms ih =>
    have ih' := ih fun x hx => h x (by simp [hx])
    rcases h m (by simp) with hm | rfl
    · cases m <;> simp [Msg.isData] at hm
      rename_i d
      have e1 : collected idNode () (.data d :: ms) = .data d :: collected idNode () ms := rfl
      have e2 : tasks (.data d :: ms) = d :: tasks ms := rfl
      rw [e1, e2, ih']; rfl
    · exact ih'

theorem Runs.map {N : Nat} {f : D → D} : ∀ (rounds : List (Option Nat × List D)) (first : Bool)
    (h : List (Msg D)) (st : (i : Nat) → (fnR f).σ) (cst : (idR (D := D)).σ)
    (outs : List (List (Msg D))), Runs N (fun _ => fnR f) idR emDef first h st cst rounds outs →
    ∀ (i : Nat) (o : List (Msg D)), outs[i]? = some o → ∃ r, rounds[i]? = some r ∧
      o.Perm (r.2.map fun t => .data (f t)) := by
  intro rounds
  induction rounds with
  | nil => intro first h st cst outs hR i o ho; simp only [Runs] at hR; subst hR; simp at ho
  | cons r rs ih =>
    intro first h st cst outs hR i o ho
    obtain ⟨nw, ts⟩ := r
    obtain ⟨log, rec, o1, outs', rfl, h1, h2, h3, rfl, h4⟩ := hR
    cases i with
    | succ i => simpa using ih _ _ _ _ _ h4 i o (by simpa using ho)
    | zero =>
      simp only [List.getElem?_cons_zero, Option.some.injEq] at ho
      refine ⟨(nw, ts), rfl, ?_⟩
      rw [emAll_def] at h1
      have hp := map_perm f ts h1 h2 h3
      have hde : ∀ x ∈ rec.map Prod.snd, x.isData = true ∨ x = .eos := by
        intro x hx
        obtain ⟨⟨i, m⟩, hm, rfl⟩ := List.mem_map.1 hx
        have hi := h2 i m hm
        have hm' := mem_from.2 hm
        rw [h3 i hi] at hm'
        refine Steady.run_deos (fnNode_steady f) _ (L.start _ 1) rfl rfl ?_ m hm'
        intro y hy
        obtain ⟨cm, hc1, rfl⟩ := h1.mem (mem_from.1 hy)
        rcases List.mem_append.1 hc1 with hc | hc
        · obtain ⟨t, -, rfl⟩ := List.mem_map.1 hc; exact Or.inl rfl
        · simp only [List.mem_singleton] at hc; subst hc; exact Or.inr rfl
      rw [← ho]
      have e : collected (idR (D := D)).toNode cst (rec.map Prod.snd) =
          (tasks (rec.map Prod.snd)).map .data := collected_id _ hde
      rw [e]
      have := hp.map Msg.data
      rw [List.map_map] at this
      exact this

/-- **C66, the plain reading.** A farm of `N` workers computing `f`, used in rounds with any number of
workers in each: whenever all is quiet, each finished round has returned exactly the results `f t` of
its own tasks `t`, each as often as `t` occurs in it. -/
theorem C66_map {N : Nat} (hN : 0 < N) (f : D → D) {ci co : Nat → Nat} {cap : Nat}
    {rounds : List (Option Nat × List D)} (hz : ∀ r ∈ rounds, r.1 ≠ some 0)
    {s : FA (fun _ => fnR f) (idR (D := D))}
    (hr : Reach (fastep N ci co cap emDef) (FA.start _ _ rounds) s) (hpc : s.mpc = .wakeE) :
    ∀ (i : Nat) (o : List (Msg D)), s.got[i]? = some o → ∃ r, rounds[i]? = some r ∧
      o.Perm (r.2.map fun t => .data (f t)) := by
  intro i o ho
  have := (C66_rounds (good_map hN f rounds hz) hr hpc).1
  obtain ⟨r, h1, h2⟩ := Runs.map _ _ _ _ _ _ this i o ho
  refine ⟨r, ?_, h2⟩
  rw [List.getElem?_take] at h1
  split at h1
  · exact h1
  · simp at h1

/-! ## Concrete uses -/

/-- a worker that adds to each task the number of tasks it has seen, in all rounds -/
def cntR : RNode Nat where
  σ := Nat
  init := 0
  comp := false
  src := false
  svc := fun s t => match t with
    | .data d => (s + 1, [], .data (d + s))
    | _ => (s, [], .goon)
  eosn := fun s => (s, [])
  renew := fun s => s + 100

theorem cntR_steady : Steady cntR.toNode where
  sends s t _ := by cases t <;> intro m hm <;> simp [cntR] at hm
  eosn s := by intro m hm; simp [cntR] at hm
  leaf _ s t _ := by cases t <;> simp [cntR]
  comp h := by simp [cntR] at h

-- two workers, two rounds, one worker in the second: worker 0 starts it in its renewed state
example : Good 2 (fun _ => cntR) idR emDef [(none, [10, 20]), (some 1, [30, 40])] :=
  ⟨by decide, by decide, fun _ _ => cntR_steady, idR_filter, emDef_good _ _⟩

example : ∃ s : FA (fun _ => cntR) idR, Reach (fastep 2 (fun _ => 2) (fun _ => 2) 2 emDef)
    (FA.start _ _ [(none, [10, 20]), (some 1, [30, 40])]) s ∧ s.mpc = .wakeE ∧ s.todo = [] ∧
    s.got = [[.data 10, .data 20], [.data 131, .data 142]] :=
  ⟨_, ⟨[.user, .user, .user, .user, .user, .user, .take, .farm .emit, .farm .emit, .farm (.pop 0),
    .farm (.push 0), .farm .gather, .user, .take, .farm .emit, .farm .emit, .farm (.pop 1), .farm
    (.push 1), .farm .gather, .user, .take, .farm .emit, .farm .emit, .farm .emit, .farm .emit,
    .farm .emit, .farm (.pop 0), .farm (.push 0), .farm (.pop 1), .farm (.push 1), .farm .gather,
    .farm .gather, .user, .user, .user, .user, .user, .user, .user, .user, .user, .user, .user,
    .user, .user, .user, .take, .farm .emit, .farm .emit, .farm (.pop 0), .farm (.push 0), .farm
    .gather, .user, .take, .farm .emit, .farm .emit, .farm (.pop 0), .farm (.push 0), .farm
    .gather, .user, .take, .farm .emit, .farm .emit, .farm .emit, .farm .emit, .farm (.pop 0),
    .farm (.push 0), .farm .gather, .user, .user, .user, .user, .user, .user, .user, .user, .user], rfl⟩, rfl, rfl, rfl⟩

-- the hypotheses of the plain reading
example : ∀ r ∈ [((none : Option Nat), [1, 2]), (some 1, [3])], r.1 ≠ some 0 := by decide

/-! ## Where it fails -/

/-- a filter of the collector that ends the stream after the first result -/
def onceR : RNode Nat where
  σ := Unit
  init := ()
  comp := false
  src := false
  svc := fun s t => match t with
    | .data d => (s, [.data d], .eos)
    | _ => (s, [], .goon)
  eosn := fun s => (s, [])
  renew := id

/-- **C66, counterexample.** A collector whose filter ends the stream leaves the other results of the
round in the queues (nothing empties them, `gt.hpp` 537-556, 655-675): they are returned in the next
round.  One worker that adds 10; the first round has the tasks 1 and 2, the second the task 3 alone;
the second round returns 12. -/
theorem C66_early_end_counterexample :
    ∃ s : FA (fun _ => fnR (· + 10)) onceR, Reach (fastep 1 (fun _ => 4) (fun _ => 4) 4 emDef)
      (FA.start _ _ [(none, [1, 2]), (none, [3])]) s ∧ s.mpc = .wakeE ∧ s.todo = [] ∧
      s.got = [[.data 11], [.data 12]] ∧ s.f.outq 0 = [.eos, .data 13, .eos] :=
  ⟨_, ⟨[.user, .user, .user, .user, .user, .take, .farm .emit, .farm .emit, .farm (.pop 0), .farm
    (.push 0), .farm .gather, .user, .take, .farm .emit, .farm .emit, .farm (.pop 0), .farm (.push
    0), .user, .take, .farm .emit, .farm .emit, .farm .emit, .farm .emit, .farm (.pop 0), .farm
    (.push 0), .user, .user, .user, .user, .user, .user, .user, .user, .user, .user, .user, .farm
    .gather, .user, .take, .farm .emit, .farm .emit, .farm (.pop 0), .farm (.push 0), .user,
    .take, .farm .emit, .farm .emit, .farm .emit, .farm .emit, .farm (.pop 0), .farm (.push 0),
    .user, .user, .user, .user, .user, .user, .user], rfl⟩, rfl, rfl, rfl, rfl⟩

/-- **C66, counterexample.** The first `run_then_freeze(nw)` starts all the workers, whatever `nw` is
(`farm.hpp` 1442-1444: `run(false)` does not know `nw`): a farm of two workers of which one was asked
for; the other one executes a task. -/
theorem C66_first_round_counterexample :
    ∃ s : FA (fun _ => fnR (· + 10)) idR, Reach (fastep 2 (fun _ => 4) (fun _ => 4) 4 emDef)
      (FA.start _ _ [(some 1, [1, 2])]) s ∧ s.todo = [(some 1, [1, 2])] ∧
      s.f.consumed 1 = [.data 2] :=
  ⟨_, ⟨[.user, .user, .user, .user, .user, .user, .take, .farm .emit, .farm .emit, .farm (.pop 0),
    .farm (.push 0), .farm .gather, .user, .take, .farm .emit, .farm .emit, .farm (.pop 1), .farm
    (.push 1), .farm .gather], rfl⟩, rfl, rfl⟩

end FF.Farm
