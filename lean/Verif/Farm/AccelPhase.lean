import Verif.Farm.AccelRun
/-!
# C66: from round to round
-/
namespace FF.Farm
open FF.Node
variable {D : Type} {w : Nat → RNode D} {c : RNode D}

/-- What is assumed of the farm and of its use: at least one worker; no round with zero workers
(which is a division by zero in `lb.hpp` 161); workers and filters that send tasks only and do not
end the stream by themselves. -/
structure Good (N : Nat) (w : Nat → RNode D) (c : RNode D) (em : List (Msg D) → Msg D → List (Cmd D))
    (rounds : List (Option Nat × List D)) : Prop where
  pos : 0 < N
  some_ : ∀ r ∈ rounds, r.1 ≠ some 0
  w : ∀ i, i < N → Steady (w i).toNode
  c : Filter c.toNode
  em : GoodEm N rounds em

theorem running_le (N : Nat) (first : Bool) (nw : Option Nat) : running N first nw ≤ N := by
  unfold running; split
  · exact Nat.le_refl _
  · split
    · exact Nat.le_refl _
    · split <;> omega

theorem running_pos {N : Nat} (hN : 0 < N) (first : Bool) {nw : Option Nat} (h : nw ≠ some 0) :
    0 < running N first nw := by
  unfold running; split
  · exact hN
  · split
    · exact hN
    · rename_i k
      have : k ≠ 0 := fun hh => h (by rw [hh])
      split <;> omega

/-- all threads sleep and all queues are empty -/
structure Quiet (N : Nat) (h0 : List (Msg D)) (st0 : (i : Nat) → (w i).σ) (cst : c.σ) (s : FA w c) :
    Prop where
  inp : s.inp = []
  res : s.res = []
  cur : s.cur = []
  inq : ∀ i, s.f.inq i = []
  pending : ∀ i, s.f.pending i = []
  outq : ∀ i, s.f.outq i = []
  pc : s.f.e.pc = .idle
  cmds : s.f.e.cmds = []
  eos : s.eEos = true
  hist : s.hist = h0
  up : ∀ i, s.up i = false
  next : ∀ i, i < N → s.next i = st0 i
  gx : s.f.g.exited = true
  gst : (G.rewake s.first s.rg s.f.g).st = cst
  gneos : (G.rewake s.first s.rg s.f.g).neos = 0
  gnf : (G.rewake s.first s.rg s.f.g).neosnf = 0

/-- the emitter and the first `j` of the `k` workers of the round are awake -/
structure Waking (N k j : Nat) (h0 : List (Msg D)) (st0 : (i : Nat) → (w i).σ) (cst : c.σ)
    (s : FA w c) : Prop where
  inp : s.inp = []
  res : s.res = []
  cur : s.cur = []
  inq : ∀ i, s.f.inq i = []
  pending : ∀ i, s.f.pending i = []
  outq : ∀ i, s.f.outq i = []
  pc : s.f.e.pc = .idle
  cmds : s.f.e.cmds = []
  log : s.f.e.log = []
  dn : s.f.e.dn = []
  eos : s.eEos = false
  hist : s.hist = h0
  rl : s.rl = k
  awake : ∀ i, i < j → s.up i = true ∧ s.st i = st0 i ∧ s.f.consumed i = [] ∧ s.f.pushed i = []
  asleep : ∀ i, j ≤ i → s.up i = false ∧ (i < N → s.next i = st0 i)
  gx : s.f.g.exited = true
  gst : (G.rewake s.first s.rg s.f.g).st = cst
  gneos : (G.rewake s.first s.rg s.f.g).neos = 0
  gnf : (G.rewake s.first s.rg s.f.g).neosnf = 0

/-- where a round is, after its emitter was woken; `prev` are the results of the rounds before it -/
inductive APh (N k : Nat) (em : List (Msg D) → Msg D → List (Cmd D)) (h0 : List (Msg D))
    (st0 : (i : Nat) → (w i).σ) (cst : c.σ) (ts : List D) (prev : List (List (Msg D))) (s : FA w c) :
    Prop where
  | wakeW (j : Nat) (pc : s.mpc = .wakeW j) (hj : j ≤ k) (hw : Waking N k j h0 st0 cst s)
      (got : s.got = prev)
  | wakeG (pc : s.mpc = .wakeG) (hw : Waking N k k h0 st0 cst s) (got : s.got = prev)
  | off (ms : List (Msg D)) (pc : s.mpc = .off ms) (run : Run N k em st0 cst h0 ts s (s.inp ++ ms))
      (out : s.f.g.out = s.cur ++ s.res) (cur : s.cur = []) (got : s.got = prev)
  | load (pc : s.mpc = .load) (run : Run N k em st0 cst h0 ts s s.inp)
      (out : s.f.g.out = s.cur ++ s.res) (cur : Msg.eos ∉ s.cur) (got : s.got = prev)
  | wait (pc : (∃ j, s.mpc = .waitW j) ∨ s.mpc = .waitE) (run : Run N k em st0 cst h0 ts s s.inp)
      (gx : s.f.g.exited = true) (res : s.res = []) (cur : s.cur = [])
      (got : s.got = prev ++ [collected c.toNode cst (s.f.g.got.map Prod.snd)])
  | waitG (pc : s.mpc = .waitG) (run : Run N k em st0 cst h0 ts s s.inp)
      (gx : s.f.g.exited = true) (res : s.res = []) (cur : s.cur = [])
      (eos : s.eEos = true) (epc : s.f.e.pc = .idle) (cmds : s.f.e.cmds = [])
      (got : s.got = prev ++ [collected c.toNode cst (s.f.g.got.map Prod.snd)])

/-- The state in which each worker starts the next round. -/
def nextSt (k : Nat) (w : Nat → RNode D) (st0 : (i : Nat) → (w i).σ) (log : List (Nat × Msg D)) :
    (i : Nat) → (w i).σ :=
  fun i => if i < k then (w i).renew (after (reinit (w i).toNode (st0 i)) (from_ log i)).st else st0 i

section
variable {N k : Nat} {em : List (Msg D) → Msg D → List (Cmd D)} {st0 : (i : Nat) → (w i).σ}
  {cst : c.σ} {h0 : List (Msg D)} {ts : List D} {s s' : FA w c} {rest : List (Msg D)}
  {ci co : Nat → Nat} {cap : Nat} {prev : List (List (Msg D))}
  {rounds : List (Option Nat × List D)}

/-- a steady worker makes tasks and `EOS` of tasks and `EOS` -/
theorem Steady.run_deos {n : Node D} (hn : Steady n) (ms : List (Msg D)) (l : L n)
    (hl : l.exited = false) (hneos : l.neos = 1) (hms : ∀ m ∈ ms, m.isData = true ∨ m = .eos) :
    ∀ m ∈ (run n l ms).2, m.isData = true ∨ m = .eos := by
  induction ms generalizing l with
  | nil => intro m hm; simp [run] at hm
  | cons x xs ih =>
    have hxs : ∀ m ∈ xs, m.isData = true ∨ m = .eos := fun m hm => hms m (by simp [hm])
    rw [run_cons n l hl]
    rcases hms x (by simp) with hx | rfl
    · have hd := Steady.run_data hn [x] l hl (fun y hy => by simp at hy; rw [hy]; exact hx)
      have hb : (run n l [x]).2 = (body n l x).2 := by rw [run_cons n l hl]; simp [run]
      rw [hb] at hd
      have hex := (Steady.exited_iff hn [x] l hl hneos (fun y hy => by simp at hy; rw [hy]; exact Or.inl hx)).1
      have hr1 : (run n l [x]).1 = (body n l x).1 := by rw [run_cons n l hl]; simp [run]
      rw [hr1] at hex
      have hx' : (body n l x).1.exited = false := by
        cases hh : (body n l x).1.exited with
        | false => rfl
        | true =>
          have := hex.1 hh
          simp only [List.mem_singleton] at this
          rw [← this] at hx; simp [Msg.isData] at hx
      have hit : isTask x = true := by cases x <;> simp [Msg.isData] at hx; rfl
      intro m hm
      rcases List.mem_append.1 hm with hm | hm
      · exact Or.inl (hd m hm)
      · exact ih _ hx' (by rw [body_task n l hit]; exact hneos) hxs m hm
    · have hb : body n l .eos = (L.mk (n.eosn l.st).1 0 true l.calls, (n.eosn l.st).2 ++ [.eos]) := by
        simp [body, markBody, hneos]
      rw [hb, run_exited n _ rfl]
      intro m hm
      simp only [List.append_nil, List.mem_append, List.mem_singleton] at hm
      rcases hm with hm | hm
      · exact Or.inl (hn.eosn _ m hm)
      · exact Or.inr hm

theorem Run.steady (hw : ∀ i, i < N → Steady (w i).toNode) (hkN : k ≤ N) (s : FA w c) :
    ∀ i, i < k → Steady (s.nodes i) := fun i hi => reinit_steady (hw i (by omega)) _

/-- what the collector has put out -/
theorem Run.outIs (h : Run N k em st0 cst h0 ts s rest) (hkN : k ≤ N)
    (hw : ∀ i, i < N → Steady (w i).toNode) (hc : Filter c.toNode)
    (hd : ∀ h m, ∀ x ∈ em h m, x.msg.isData = true) (hv : ∀ h m, Valid k (em h m)) :
    s.f.g.st = cstate c.toNode cst (s.f.g.got.map Prod.snd) ∧
    s.f.g.out = collected c.toNode cst (s.f.g.got.map Prod.snd) ++
      (if s.f.g.exited then [.eos] else []) ∧
    AllData (collected c.toNode cst (s.f.g.got.map Prod.snd)) := by
  obtain ⟨us, hu, he⟩ := emAll_round hd hv h0 ts
  have hi := h.inv
  unfold msgs at hi
  rw [he] at hi
  have hde : ∀ x ∈ s.f.g.got, x.2.isData = true ∨ x.2 = .eos := by
    rintro ⟨i, m⟩ hx
    have hik := hi.g.chan i m hx
    exact Steady.run_deos (Run.steady hw hkN s i hik) _ (L.start _ 1) rfl rfl
      (hi.consumed_fits hu i) m ((hi.got_prefix hik).subset (mem_from.2 hx))
  have hcl0 := hi.clean hu (Run.steady hw hkN s)
  have hcl : Clean s.f.g.got := hcl0
  obtain ⟨h1, h2⟩ := h.gout.out hcl (fun x hx hm => by
    rcases hde x hx with h | h
    · revert hm h; cases x.2 <;> simp [Msg.isData, Msg.isMark]
    · exact h)
  refine ⟨h1, h2, collected_data hc _ _ ?_⟩
  intro m hm
  obtain ⟨x, hx, rfl⟩ := List.mem_map.1 hm
  exact hcl x hx

/-- what a round leaves behind -/
theorem Run.finish (h : Run N k em st0 cst h0 ts s []) (hkN : k ≤ N)
    (hw : ∀ i, i < N → Steady (w i).toNode) (hc : Filter c.toNode)
    (hd : ∀ h m, ∀ x ∈ em h m, x.msg.isData = true) (hv : ∀ h m, Valid k (em h m))
    (hpc : s.f.e.pc = .idle) (hcm : s.f.e.cmds = []) (hx : s.f.g.exited = true) :
    s.hist = h0 ++ msgs ts ∧
    Explains k (emAll em h0 (msgs ts)) s.f.e.log ∧
    (∀ r m, (r, m) ∈ s.f.g.got → r < k) ∧
    (∀ i, i < k → from_ s.f.g.got i = stream (reinit (w i).toNode (st0 i)) (from_ s.f.e.log i)) ∧
    (∀ i, s.f.inq i = [] ∧ s.f.pending i = [] ∧ s.f.outq i = [] ∧ s.up i = false) ∧
    (∀ i, i < k → s.f.consumed i = from_ s.f.e.log i) ∧
    k ≤ s.f.g.neos ∧ s.f.g.neosnf = 0 := by
  obtain ⟨us, hu, he⟩ := emAll_round hd hv h0 ts
  have hi := h.inv
  have hem : emAll em s.hist [] = [] := rfl
  rw [hem] at hi
  have hmsgs : emAll em h0 (msgs ts) = us ++ [.bcast .eos] := he
  rw [hmsgs] at hi ⊢
  have hst := Run.steady hw hkN s
  have hall := fun i hi' => hi.sees_all hst hu h.gend hx i hi'
  have hnodes : ∀ i, i < k → s.nodes i = reinit (w i).toNode (st0 i) := fun i hik => by
    show reinit _ (s.st i) = _
    rw [h.st i hik]
  -- the emitter has executed everything
  have hexp : s.f.e.dn = us ++ [.bcast .eos] ∧ Explains k s.f.e.dn s.f.e.log := by
    obtain ⟨l, g, h1, h2, h3⟩ := hi.e.log
    have hc' := hi.e.cmds
    have hpc' : (hat k ([] : List (Cmd D)) s.f).e.pc = .idle := hpc
    have hcm' : (hat k ([] : List (Cmd D)) s.f).e.cmds = [] := by simp [hat, hcm]
    rw [hpc'] at h3 hc'
    rw [hcm'] at hc'
    simp only [PartOk] at h3
    subst h3
    refine ⟨by simpa [EPc.cur, hat] using hc', ?_⟩
    have h1' : s.f.e.log = l := by simpa [hat] using h1
    rw [h1']; exact h2
  obtain ⟨hdn, hexp⟩ := hexp
  rw [hdn] at hexp
  have hcons : ∀ i, i < k → (hat k ([] : List (Cmd D)) s.f).consumed i = s.f.consumed i := by
    intro i hik; simp [hat, hik]
  have hchan : ∀ r m, (r, m) ∈ s.f.e.log → r < k := hexp.chan (fun i m hm => by
    rcases List.mem_append.1 hm with hm | hm
    · exact hu.valid i m hm
    · simp at hm)
  -- a queue below `k` is empty: its `EOS` was the last message
  have hinq : ∀ i, i < k → s.f.inq i = [] := by
    intro i hik
    obtain ⟨l1, l2, hl, h5, g, l3, hl2, h6, h7⟩ := hexp.append_inv
    simp only [Explains] at h7
    subst h7
    rw [List.append_nil] at hl2
    subst hl2
    have hlogi : from_ s.f.e.log i = from_ l1 i ++ [.eos] := by
      rw [hl, from_append, perm_eos h6 hik]
    have hin := hi.inq i
    rw [hcons i hik] at hin
    have hin' : from_ s.f.e.log i = s.f.consumed i ++ s.f.inq i := hin
    rcases List.eq_nil_or_concat (s.f.inq i) with hq | ⟨q, x, hq⟩
    · exact hq
    · exfalso
      rw [hlogi, hq, List.concat_eq_append, ← List.append_assoc] at hin'
      have h8 := List.append_inj_left' hin' (by simp)
      have h9 := (hall i hik).2.1
      rw [hcons i hik] at h9
      have h10 : Msg.eos ∈ from_ l1 i := by rw [h8]; exact List.mem_append_left _ h9
      obtain ⟨c', h11, h12⟩ := h5.mem (mem_from.1 h10)
      have := hu.data c' h11
      rw [← h12] at this
      simp [Msg.isData] at this
  have hconsumed : ∀ i, i < k → s.f.consumed i = from_ s.f.e.log i := by
    intro i hik
    have hin := hi.inq i
    rw [hcons i hik] at hin
    have hin' : from_ s.f.e.log i = s.f.consumed i ++ s.f.inq i := hin
    rw [hin', hinq i hik, List.append_nil]
  have hnf := hi.no_nf hu hst
  refine ⟨?_, hexp, hi.g.chan, ?_, ?_, hconsumed, ?_, hnf⟩
  · obtain ⟨t, h1, h2⟩ := h.taken
    rw [List.append_nil] at h1
    rw [h2, h1]
  · intro i hik
    rw [← hnodes i hik]
    exact (hall i hik).1
  · intro i
    by_cases hik : i < k
    · refine ⟨hinq i hik, (hall i hik).2.2.2.1, (hall i hik).2.2.2.2, ?_⟩
      have h1 := (hall i hik).2.2.1
      rw [hcons i hik] at h1
      cases hup : s.up i with
      | false => rfl
      | true => rw [(h.up i hik).1 hup] at h1; simp at h1
    · obtain ⟨h1, h2⟩ := h.off i (by omega)
      refine ⟨?_, h2, ?_, h1⟩
      · have hin := hi.inq i
        have h0' : from_ s.f.e.log i = [] := by
          apply Classical.byContradiction
          intro hne
          obtain ⟨m, hm⟩ := List.exists_mem_of_ne_nil _ hne
          exact hik (hchan i m (mem_from.1 hm))
        have h1' : from_ (hat k ([] : List (Cmd D)) s.f).e.log i = [] := h0'
        rw [h1'] at hin
        exact (List.append_eq_nil_iff.1 hin.symm).2
      · have ho := hi.outq i
        have h2' : (hat k ([] : List (Cmd D)) s.f).pushed i = [] := by simp [hat, hik]
        rw [h2'] at ho
        exact (List.append_eq_nil_iff.1 ho.symm).2
  · have hcl := hi.clean hu hst
    have h1 := (h.gend.exit hcl).1 hx
    have h2' := hi.no_nf hu hst
    have h2 : s.f.g.neosnf = 0 := h2'
    have h3 := hi.g.count
    have h4 : s.f.g.neos + s.f.g.neosnf = offCount k s.f.g.offline := h3
    have h5 := offCount_le k s.f.g.offline
    omega

/-! ## Entering a round -/

theorem Quiet.start (N : Nat) (w : Nat → RNode D) (c : RNode D) (rounds : List (Option Nat × List D)) :
    Quiet N [] (fun i => (w i).init) c.init (FA.start w c rounds) := by
  constructor <;> simp [FA.start, F.start, E.start, G.start, G.rewake, FA.next]

/-- no thread but the main one can move while all sleep -/
theorem Quiet.still (h : Quiet N h0 st0 cst s) {a : FAAct} (ha : a ≠ .user)
    (hs : fastep N ci co cap em s a = some s') : False := by
  cases a with
  | user => exact ha rfl
  | take => simp [fastep, h.eos] at hs
  | farm a =>
    cases a with
    | emit => simp [fastep, fstep, E.attempt, h.pc, h.cmds] at hs
    | pop i => simp [fastep, h.up i] at hs
    | push i => simp [fastep, fstep, h.pending i] at hs
    | gather => simp [fastep, fstep, G.attempt, h.gx] at hs

theorem Waking.still {j : Nat} (h : Waking N k j h0 st0 cst s) {a : FAAct} (ha : a ≠ .user)
    (hs : fastep N ci co cap em s a = some s') : False := by
  cases a with
  | user => exact ha rfl
  | take => simp [fastep, h.eos, h.inp] at hs
  | farm a =>
    cases a with
    | emit => simp [fastep, fstep, E.attempt, h.pc, h.cmds] at hs
    | pop i => simp [fastep, fstep, h.inq i] at hs
    | push i => simp [fastep, fstep, h.pending i] at hs
    | gather => simp [fastep, fstep, G.attempt, h.gx] at hs

/-- the main thread wakes the emitter -/
theorem Quiet.wake (h : Quiet N h0 st0 cst s) (hpc : s.mpc = .wakeE) {nw : Option Nat}
    {rs : List (Option Nat × List D)} (ht : s.todo = (nw, ts) :: rs) :
    ∃ s', fauser N cap s = some s' ∧ s'.todo = s.todo ∧ s'.first = s.first ∧
      s'.mpc = .wakeW 0 ∧ s'.got = s.got ∧
      Waking N (running N s.first nw) 0 h0 st0 cst s' := by
  have e : fauser N cap s = some { s with
      f := { s.f with e := { s.f.e with log := [], dn := [] } }
      eEos := false, rl := running N s.first nw, mpc := .wakeW 0 } := by
    simp only [fauser, ht, hpc, h.eos, h.pc, h.cmds]
  refine ⟨_, e, by simp [ht], rfl, rfl, rfl, ?_⟩
  exact { inp := h.inp, res := h.res, cur := h.cur, inq := h.inq, pending := h.pending,
          outq := h.outq, pc := h.pc, cmds := h.cmds, log := rfl, dn := rfl, eos := rfl,
          hist := h.hist, rl := rfl, awake := fun i hi => absurd hi (by omega),
          asleep := fun i _ => ⟨h.up i, h.next i⟩, gx := h.gx, gst := h.gst, gneos := h.gneos,
          gnf := h.gnf }

/-- the main thread wakes the next worker -/
theorem Waking.worker {j : Nat} {nw : Option Nat} {rs : List (Option Nat × List D)}
    (h : Waking N (running N s.first nw) j h0 st0 cst s) (hpc : s.mpc = .wakeW j)
    (ht : s.todo = (nw, ts) :: rs) (hj : j < running N s.first nw) :
    ∃ s', fauser N cap s = some s' ∧ s'.todo = s.todo ∧ s'.first = s.first ∧
      s'.mpc = .wakeW (j + 1) ∧ s'.got = s.got ∧
      Waking N (running N s.first nw) (j + 1) h0 st0 cst s' := by
  have hjN : j < N := by have := running_le N s.first nw; omega
  have e : fauser N cap s = some { s with
            f := { s.f with consumed := upd s.f.consumed j [], pushed := upd s.f.pushed j [] }
            st := fun i => if i = j then s.next i else s.st i
            up := upd s.up j true
            mpc := .wakeW (j + 1) } := by
    simp only [fauser, ht, hpc, hj, if_true, (h.asleep j (Nat.le_refl _)).1, h.pending j, and_self]
  refine ⟨_, e, by simp [ht], rfl, rfl, rfl, ?_⟩
  refine { inp := h.inp, res := h.res, cur := h.cur, inq := h.inq, pending := h.pending,
           outq := h.outq, pc := h.pc, cmds := h.cmds, log := h.log, dn := h.dn, eos := h.eos,
           hist := h.hist, rl := h.rl, awake := fun i hi => ?_,
           asleep := fun i hi => ?_, gx := h.gx, gst := h.gst, gneos := h.gneos,
           gnf := h.gnf }
  · by_cases hij : i = j
    · subst hij
      simp only [upd, if_true, and_true, true_and]
      exact (h.asleep i (Nat.le_refl _)).2 hjN
    · obtain ⟨a1, a2, a3, a4⟩ := h.awake i (by omega)
      simp only [upd, hij, if_false]
      exact ⟨a1, a2, a3, a4⟩
  · have hij : i ≠ j := by omega
    obtain ⟨a1, a2⟩ := h.asleep i (by omega)
    refine ⟨by simp only [upd, hij, if_false]; exact a1, fun hiN => ?_⟩
    rw [← a2 hiN]
    exact next_congr rfl (by simp [hij]) (by simp [upd, hij])

/-- all the workers of the round are awake -/
theorem Waking.workers {j : Nat} {nw : Option Nat} {rs : List (Option Nat × List D)}
    (h : Waking N (running N s.first nw) j h0 st0 cst s) (hpc : s.mpc = .wakeW j)
    (ht : s.todo = (nw, ts) :: rs) (hj : ¬ j < running N s.first nw) :
    ∃ s', fauser N cap s = some s' ∧ s'.todo = s.todo ∧ s'.first = s.first ∧
      s'.mpc = .wakeG ∧ s'.got = s.got ∧
      Waking N (running N s.first nw) j h0 st0 cst s' := by
  have e : fauser N cap s = some { s with mpc := .wakeG } := by
    simp only [fauser, ht, hpc, hj, if_false]
  refine ⟨_, e, by simp [ht], rfl, rfl, rfl, ?_⟩
  exact { inp := h.inp, res := h.res, cur := h.cur, inq := h.inq, pending := h.pending,
          outq := h.outq, pc := h.pc, cmds := h.cmds, log := h.log, dn := h.dn, eos := h.eos,
          hist := h.hist, rl := h.rl, awake := h.awake, asleep := h.asleep, gx := h.gx, gst := h.gst,
          gneos := h.gneos, gnf := h.gnf }

/-- the main thread wakes the collector: the round begins -/
theorem Waking.collector {nw : Option Nat} {rs : List (Option Nat × List D)}
    (hk : 0 < running N s.first nw)
    (h : Waking N (running N s.first nw) (running N s.first nw) h0 st0 cst s) (hpc : s.mpc = .wakeG)
    (ht : s.todo = (nw, ts) :: rs) :
    ∃ s', fauser N cap s = some s' ∧ s'.todo = s.todo ∧ s'.first = s.first ∧
      s'.mpc = .off (msgs ts) ∧ s'.got = s.got ∧ s'.inp = [] ∧ s'.cur = [] ∧ s'.res = [] ∧
      s'.f.g.out = [] ∧
      Run N (running N s.first nw) em st0 cst h0 ts s' (msgs ts) := by
  have e : fauser N cap s = some { s with
      f := { s.f with g := s.f.g.rewake s.first s.rg }, rg := running N s.first nw,
      mpc := .off (msgs ts) } := by
    simp only [fauser, ht, hpc, h.gx, if_true, msgs]
  refine ⟨_, e, by simp [ht], rfl, rfl, rfl, h.inp, h.cur, h.res, rfl, ?_⟩
  have hcz : ∀ i, (if i < running N s.first nw then s.f.consumed i else []) = [] := by
    intro i; split
    · rename_i hi; exact (h.awake i hi).2.2.1
    · rfl
  have hpz : ∀ i, (if i < running N s.first nw then s.f.pushed i else []) = [] := by
    intro i; split
    · rename_i hi; exact (h.awake i hi).2.2.2
    · rfl
  refine { rl := h.rl, rg := rfl, taken := ⟨[], rfl, by simp [h.hist]⟩, eos := by simp [h.eos, msgs],
           inv := ?_, gend := ⟨fun _ => ?_⟩, gout := ⟨fun _ _ => ?_⟩, up := fun i hi => ?_,
           off := fun i hi => ⟨(h.asleep i hi).1, h.pending i⟩, st := fun i hi => (h.awake i hi).2.1,
           slept := fun i hi hiN => ?_ }
  · refine { e := ⟨?_, [], [], ?_, ?_, ?_⟩, g := ⟨?_, ?_, ?_, ?_, ?_⟩, kind := ⟨fun _ => h.gnf⟩,
             inq := fun i => ?_, work := fun i hi => ?_, outq := fun i => ?_ }
    · simp [hat, h.dn, h.pc, EPc.cur, h.cmds, h.hist]
    · simp [hat, h.log]
    · simp [hat, h.dn, Explains]
    · simp [hat, h.pc, PartOk]
    · show (G.rewake s.first s.rg s.f.g).neos + (G.rewake s.first s.rg s.f.g).neosnf = _
      rw [h.gneos, h.gnf]; simp [hat, G.rewake, offCount]
    · simp [hat, G.rewake]
    · simp [hat, G.rewake, from_]
    · simp [hat, G.rewake]
    · simp [hat, G.rewake, from_]
    · simp only [hat, h.log, hcz, h.inq]; rfl
    · simp only [hat, hcz, hpz, h.pending]; rfl
    · simp only [hat, hpz, h.outq]; rfl
  · show false = true ↔ ¬ ((G.rewake s.first s.rg s.f.g).neos < _ ∧
      (G.rewake s.first s.rg s.f.g).neosnf < _)
    rw [h.gneos, h.gnf]; simp [hk]
  · exact ⟨h.gst, rfl⟩
  · simp only [(h.awake i hi).1, (h.awake i hi).2.2.1, true_iff]; rfl
  · rw [← (h.asleep i hi).2 hiN]
    exact next_congr rfl rfl rfl

/-! ## Leaving a round -/

theorem Run.mono_user (h : Run N k em st0 cst h0 ts s rest) {s' : FA w c} (e1 : s'.f = s.f)
    (e2 : s'.st = s.st) (e3 : s'.up = s.up) (e4 : s'.eEos = s.eEos) (e5 : s'.hist = s.hist)
    (e6 : s'.rl = s.rl) (e7 : s'.rg = s.rg) (e8 : s'.first = s.first) :
    Run N k em st0 cst h0 ts s' rest := by
  have hn : s'.nodes = s.nodes := by unfold FA.nodes; rw [e2]
  exact { rl := by rw [e6, h.rl], rg := by rw [e7, h.rg], taken := by rw [e5]; exact h.taken,
          eos := by rw [e4]; exact h.eos, inv := by rw [hn, e5, e1]; exact h.inv,
          gend := by rw [e1]; exact h.gend, gout := by rw [e1]; exact h.gout,
          up := fun i hi => by rw [hn, e1, e3]; exact h.up i hi,
          off := fun i hi => by rw [e3, e1]; exact h.off i hi,
          st := fun i hi => by rw [e2]; exact h.st i hi,
          slept := fun i hi hiN => by
            rw [← h.slept i hi hiN]
            exact next_congr e8 (by rw [e2]) (by rw [e1]) }

end
end FF.Farm
