import Verif.Farm.FarmLive
import Verif.Mpmc.Inv
/-!
# C23: the ordered farm (strict round-robin version)

Source: `/repo/ff/farm.hpp` 108-171 (`ofarm_lb`), 172-202 (`ofarm_gt`), with `/repo/ff/lb.hpp` 240-293,
`/repo/ff/gt.hpp` 197-218 and 563-675 underneath.

The emitter gives the tasks to the workers strictly in turn and waits for the worker whose turn it is;
the collector takes one result from each worker strictly in turn.
-/
namespace FF.Farm
open FF.Node
variable {D : Type}

/-! ## Model -/

inductive OPc (D : Type) where
  | idle
  /-- in `schedule_task` -/
  | sched (m : Msg D)
  /-- in `ff_send_out_to` -/
  | to (i : Nat) (m : Msg D)
  /-- in `broadcast_task`, after `i` puts -/
  | bc (m : Msg D) (i : Nat)

/-- State of `ofarm_lb`. -/
structure OE (D : Type) where
  cmds : List (Cmd D)
  pc : OPc D
  victim : Nat
  /-- ghost: what has been put so far, with the receiver -/
  log : List (Nat × Msg D)

/-- One attempt of the emitter (farm.hpp 112-170); `full i` is the answer of worker `i`'s queue. -/
def OE.attempt (n : Nat) (full : Nat → Bool) (e : OE D) : Option (OE D × Option (Nat × Msg D)) :=
  match e.pc with
  | .idle =>
    match e.cmds with
    | [] => none
    | .sched m :: cs => some ({ e with cmds := cs, pc := .sched m }, none)
    | .sendTo i m :: cs => some ({ e with cmds := cs, pc := .to i m }, none)
    | .bcast m :: cs => some ({ e with cmds := cs, pc := .bc m 0 }, none)
  | .sched m =>
    -- selectworker returns victim; if (s) victim = (victim+1) % getnworkers();
    if full e.victim then some (e, none)
    else some ({ e with pc := .idle, victim := (e.victim + 1) % n, log := e.log ++ [(e.victim, m)] },
      some (e.victim, m))
  | .to i m =>
    -- if (victim==id) return ff_loadbalancer::ff_send_out_to(task, id); return false;
    if e.victim = i then
      if full i then some (e, none)
      else some ({ e with pc := .idle, log := e.log ++ [(i, m)] }, some (i, m))
    else some ({ e with pc := .idle }, none)
  | .bc m i =>
    -- for(i=victim;i<nw;++i) while(!put); for(i=0;i<victim;++i) while(!put);
    if i < n then
      let r := if e.victim + i < n then e.victim + i else e.victim + i - n
      if full r then some (e, none)
      else some ({ e with pc := .bc m (i + 1), log := e.log ++ [(r, m)] }, some (r, m))
    else some ({ e with pc := .idle }, none)

/-- `updatenextone` (farm.hpp 178-183): the do-while loop; `fuel` bounds the iterations (it stops after
at most `n` of them, when it is back at `start`). -/
def nextAlive (n : Nat) (dead : Nat → Bool) (start : Nat) : Nat → Nat → Nat
  | v, 0 => v
  | v, fuel + 1 =>
    if dead ((v + 1) % n) && decide ((v + 1) % n ≠ start) then
      nextAlive n dead start ((v + 1) % n) fuel
    else (v + 1) % n

/-- State of `ofarm_gt`. -/
structure OG (c : Node D) where
  g : G c
  victim : Nat
  dead : Nat → Bool

/-- One attempt of the collector (farm.hpp 184-191, gt.hpp 563-675). -/
def OG.attempt (n : Nat) (avail : Nat → Option (Msg D)) {c : Node D} (o : OG c) :
    Option (OG c × Option Nat) :=
  if o.g.exited then none
  else
    match avail o.victim with
    | none => some (o, none)
    | some m =>
      let dead := if m.isMark then upd o.dead o.victim true else o.dead
      some ({ g := o.g.handle n o.victim m, dead, victim := nextAlive n dead o.victim o.victim n },
        some o.victim)

/-- State of an ordered farm. -/
structure O (D : Type) (c : Node D) where
  e : OE D
  inq : Nat → List (Msg D)
  consumed : Nat → List (Msg D)
  pending : Nat → List (Msg D)
  pushed : Nat → List (Msg D)
  outq : Nat → List (Msg D)
  o : OG c

/-- Start of a run; the two `victim` fields are not initialised by `svc_init`: they are 0 when the farm
is created (farm.hpp 109, 200) and after a `thaw` of all the workers. -/
def O.start (c : Node D) (cmds : List (Cmd D)) (vl vg : Nat) : O D c :=
  { e := { cmds, pc := .idle, victim := vl, log := [] }
    inq := fun _ => [], consumed := fun _ => [], pending := fun _ => [], pushed := fun _ => []
    outq := fun _ => [], o := { g := G.start c, victim := vg, dead := fun _ => false } }

/-- One action of an ordered farm: as `fstep`. -/
def ostep (n : Nat) (w : Nat → Node D) (ci co : Nat → Nat) {c : Node D} (s : O D c) :
    FAct → Option (O D c)
  | .emit =>
    match s.e.attempt n (fun i => decide (ci i ≤ (s.inq i).length)) with
    | none => none
    | some (e', none) => some { s with e := e' }
    | some (e', some (i, m)) => some { s with e := e', inq := upd s.inq i (s.inq i ++ [m]) }
  | .pop i =>
    if i < n ∧ s.pending i = [] ∧ (after (w i) (s.consumed i)).exited = false then
      match s.inq i with
      | [] => none
      | m :: ms => some { s with
          inq := upd s.inq i ms
          consumed := upd s.consumed i (s.consumed i ++ [m])
          pending := upd s.pending i (body (w i) (after (w i) (s.consumed i)) m).2 }
    else none
  | .push i =>
    if i < n ∧ (s.outq i).length < co i then
      match s.pending i with
      | [] => none
      | m :: ms => some { s with
          pending := upd s.pending i ms
          pushed := upd s.pushed i (s.pushed i ++ [m])
          outq := upd s.outq i (s.outq i ++ [m]) }
    else none
  | .gather =>
    match s.o.attempt n (fun r => (s.outq r).head?) with
    | none => none
    | some (o', none) => some { s with o := o' }
    | some (o', some r) => some { s with o := o', outq := upd s.outq r (s.outq r).tail }

/-! ## Specification -/

/-- the messages a list of commands stands for: one per scheduled task, `n` copies per broadcast -/
def flat (n : Nat) : List (Cmd D) → List (Msg D)
  | [] => []
  | .sched m :: cs => m :: flat n cs
  | .sendTo _ _ :: cs => flat n cs
  | .bcast m :: cs => List.replicate n m ++ flat n cs

/-- The sequential farm: the messages are processed one after the other, message `p` by worker
`p % n`; `hist i` is what worker `i` has processed before. -/
def seqFarm (n : Nat) (w : Nat → Node D) : (Nat → List (Msg D)) → Nat → List (Msg D) → List (Msg D)
  | _, _, [] => []
  | hist, p, m :: ms =>
    (body (w (p % n)) (after (w (p % n)) (hist (p % n))) m).2 ++
      seqFarm n w (upd hist (p % n) (hist (p % n) ++ [m])) (p + 1) ms

/-- A worker that returns (or sends) exactly one result for each task, and nothing at the end. -/
structure OneToOne (w : Node D) : Prop where
  task : ∀ s d, ∃ d', (w.svc s (.data d)).2.1 ++ visible (w.svc s (.data d)).2.2 = [.data d'] ∧
    continues (w.svc s (.data d)).2.2 = true
  eosn : ∀ s, (w.eosn s).2 = []

/-! ## Facts about one-to-one workers -/

theorem OneToOne.body_data {w : Node D} (hw : OneToOne w) (l : L w) (hl : l.exited = false) (d : D) :
    ∃ d', (body w l (.data d)).2 = [.data d'] ∧ (body w l (.data d)).1.exited = false ∧
      (body w l (.data d)).1.neos = l.neos := by
  obtain ⟨d', h1, h2⟩ := hw.task l.st d
  rw [body_task w l rfl]
  exact ⟨d', h1, by simp [svcBody, h2], rfl⟩

theorem OneToOne.body_eos {w : Node D} (hw : OneToOne w) (l : L w) (hneos : l.neos = 1) :
    (body w l .eos).2 = [.eos] ∧ (body w l .eos).1.exited = true := by
  simp [body, markBody, hneos, hw.eosn]

theorem OneToOne.run_facts {w : Node D} (hw : OneToOne w) (ms : List (Msg D)) (l : L w)
    (hl : l.exited = false) (hneos : l.neos = 1) (hms : ∀ m ∈ ms, m.isData = true ∨ m = .eos) :
    ((run w l ms).1.exited = true ↔ Msg.eos ∈ ms) ∧
    (Msg.eos ∉ ms → (run w l ms).1.neos = 1) := by
  induction ms generalizing l with
  | nil => simp [run, hl, hneos]
  | cons m ms ih =>
    rw [run_cons w l hl]
    have hms' : ∀ x ∈ ms, x.isData = true ∨ x = .eos := fun x hx => hms x (by simp [hx])
    rcases hms m (by simp) with hm | rfl
    · obtain ⟨d, rfl⟩ : ∃ d, m = .data d := by cases m <;> simp [Msg.isData] at hm; exact ⟨_, rfl⟩
      obtain ⟨d', _, h2, h3⟩ := hw.body_data l hl d
      obtain ⟨i1, i2⟩ := ih (body w l (.data d)).1 h2 (by rw [h3]; exact hneos) hms'
      refine ⟨?_, ?_⟩
      · simp only [List.mem_cons, reduceCtorEq, false_or]; exact i1
      · simp only [List.mem_cons, reduceCtorEq, false_or]; exact i2
    · have := (hw.body_eos l hneos).2
      rw [run_exited w _ this]
      simp [this]

theorem OneToOne.after_exited {w : Node D} (hw : OneToOne w) {ms : List (Msg D)}
    (hms : ∀ m ∈ ms, m.isData = true ∨ m = .eos) :
    ((after w ms).exited = true ↔ Msg.eos ∈ ms) ∧ (Msg.eos ∉ ms → (after w ms).neos = 1) :=
  hw.run_facts ms (L.start w 1) rfl rfl hms

/-! ## Positions -/

/-- message `p` with its worker `p % n` -/
def pairs (n : Nat) (X : List (Msg D)) : List (Nat × Msg D) := X.zipIdx.map fun x => (x.2 % n, x.1)

theorem pairs_snoc (n : Nat) (X : List (Msg D)) (m : Msg D) :
    pairs n (X ++ [m]) = pairs n X ++ [(X.length % n, m)] := by
  simp [pairs, List.zipIdx_append]

theorem pairs_append (n : Nat) (X Y : List (Msg D)) : pairs n X <+: pairs n (X ++ Y) := by
  simp only [pairs, List.zipIdx_append, List.map_append]
  exact List.prefix_append _ _

theorem pairs_length (n : Nat) (X : List (Msg D)) : (pairs n X).length = X.length := by
  simp [pairs]

theorem pairs_snd (n : Nat) (X : List (Msg D)) : (pairs n X).map Prod.snd = X := by
  simp only [pairs, List.map_map]
  have : (Prod.snd ∘ fun x : Msg D × Nat => (x.2 % n, x.1)) = Prod.fst := rfl
  rw [this, List.zipIdx_map_fst]

theorem mem_pairs {n : Nat} {X : List (Msg D)} {i : Nat} {m : Msg D} :
    (i, m) ∈ pairs n X ↔ ∃ q, X[q]? = some m ∧ q % n = i := by
  simp only [pairs, List.mem_map, Prod.mk.injEq, Prod.exists]
  constructor
  · rintro ⟨a, q, h1, h2, rfl⟩
    rw [List.mem_zipIdx_iff_getElem?] at h1
    exact ⟨q, h1, h2⟩
  · rintro ⟨q, h1, h2⟩
    exact ⟨m, q, List.mem_zipIdx_iff_getElem?.2 h1, h2, rfl⟩

theorem mem_from_pairs {n : Nat} {X : List (Msg D)} {i : Nat} {m : Msg D} :
    m ∈ from_ (pairs n X) i ↔ ∃ q, X[q]? = some m ∧ q % n = i := by
  rw [mem_from, mem_pairs]

theorem from_prefix {l l' : List (Nat × Msg D)} (h : l <+: l') (i : Nat) : from_ l i <+: from_ l' i := by
  obtain ⟨t, rfl⟩ := h
  rw [from_append]
  exact List.prefix_append _ _

/-- the number of messages of channel `i` depends only on the number of messages -/
theorem from_pairs_length {n : Nat} (i : Nat) : ∀ {X Y : List (Msg D)}, X.length = Y.length →
    (from_ (pairs n X) i).length = (from_ (pairs n Y) i).length := by
  have : ∀ (k : Nat) (X Y : List (Msg D)), X.length = k → Y.length = k →
      (from_ (pairs n X) i).length = (from_ (pairs n Y) i).length := by
    intro k
    induction k with
    | zero =>
      intro X Y hX hY
      rw [List.length_eq_zero_iff.1 hX, List.length_eq_zero_iff.1 hY]
    | succ k ih =>
      intro X Y hX hY
      rcases List.eq_nil_or_concat X with rfl | ⟨X', x, rfl⟩
      · simp at hX
      rcases List.eq_nil_or_concat Y with rfl | ⟨Y', y, rfl⟩
      · simp at hY
      simp only [List.concat_eq_append, List.length_append, List.length_singleton,
        Nat.add_right_cancel_iff] at hX hY
      simp only [List.concat_eq_append, pairs_snoc, from_append, from_single, hX, hY,
        List.length_append, ih X' Y' hX hY]
      split <;> rfl
  intro X Y h
  exact this _ X Y h rfl

theorem prefix_next {α : Type} {xs L : List α} {a b : α} (h1 : xs ++ [a] <+: L) (h2 : xs ++ [b] <+: L) :
    a = b := by
  have := List.prefix_of_prefix_length_le h1 h2 (by simp)
  have := this.eq_of_length (by simp)
  simpa using this

theorem mod_window {n a p q : Nat} (h1 : a ≤ p) (h2 : p < q) (h3 : q < a + n) : p % n ≠ q % n := by
  intro h
  obtain ⟨c, hc⟩ := FF.Mpmc.mod_gap h h2
  have : n ≤ (c + 1) * n := Nat.le_mul_of_pos_left n (by omega)
  omega

/-! ## The sequential farm -/

/-- the input of an ordered farm: tasks, then one `EOS` for each worker -/
def input (n : Nat) (A : List (Msg D)) : List (Msg D) := A ++ List.replicate n .eos

section
variable {n : Nat} {A : List (Msg D)}

theorem input_get (hA : AllData A) {q : Nat} {m : Msg D} (h : (input n A)[q]? = some m) :
    (q < A.length ∧ m.isData = true) ∨ (A.length ≤ q ∧ q < A.length + n ∧ m = .eos) := by
  by_cases hq : q < A.length
  · left
    rw [input, List.getElem?_append_left hq] at h
    exact ⟨hq, hA m (List.mem_of_getElem? h)⟩
  · right
    rw [input, List.getElem?_append_right (by omega), List.getElem?_replicate] at h
    split at h
    · simp only [Option.some.injEq] at h
      exact ⟨by omega, by omega, h.symm⟩
    · simp at h

theorem input_length : (input n A).length = A.length + n := by simp [input]

theorem prefix_get {X S : List (Msg D)} (h : X <+: S) {q : Nat} {m : Msg D} (hm : X[q]? = some m) :
    S[q]? = some m := by
  obtain ⟨t, rfl⟩ := h
  have hq : q < X.length := by
    rw [List.getElem?_eq_some_iff] at hm; exact hm.1
  rw [List.getElem?_append_left hq]; exact hm

theorem fits_pairs (hA : AllData A) {X : List (Msg D)} (hX : X <+: input n A) (i : Nat) :
    ∀ m ∈ from_ (pairs n X) i, m.isData = true ∨ m = .eos := by
  intro m hm
  obtain ⟨q, hq, _⟩ := mem_from_pairs.1 hm
  rcases input_get hA (prefix_get hX hq) with h | h
  · exact Or.inl h.2
  · exact Or.inr h.2.2

/-- the worker whose turn it is has not been given its `EOS` -/
theorem turn_alive (hA : AllData A) {X : List (Msg D)} (hX : X <+: input n A)
    (hlt : X.length < (input n A).length) : Msg.eos ∉ from_ (pairs n X) (X.length % n) := by
  intro hm
  obtain ⟨q, hq, hmod⟩ := mem_from_pairs.1 hm
  rw [input_length] at hlt
  have hqX : q < X.length := by rw [List.getElem?_eq_some_iff] at hq; exact hq.1
  rcases input_get hA (prefix_get hX hq) with h | h
  · simp [Msg.isData] at h
  · exact mod_window h.1 hqX hlt hmod

/-- result `q` of the sequential farm is a task exactly if message `q` is one -/
def KindOk (a : Nat) (R : List (Msg D)) : Prop :=
  ∀ q m, R[q]? = some m → (q < a ∧ m.isData = true) ∨ (a ≤ q ∧ m = .eos)

theorem seqFarm_spec (hn : 0 < n) (hA : AllData A) {w : Nat → Node D}
    (hw : ∀ i, i < n → OneToOne (w i)) :
    ∀ (Y X RX : List (Msg D)), X ++ Y = input n A → RX.length = X.length → KindOk A.length RX →
      (∀ i, i < n → from_ (pairs n RX) i = stream (w i) (from_ (pairs n X) i)) →
      let R := RX ++ seqFarm n w (fun i => from_ (pairs n X) i) X.length Y
      R.length = (input n A).length ∧ KindOk A.length R ∧
      ∀ i, i < n → from_ (pairs n R) i = stream (w i) (from_ (pairs n (input n A)) i) := by
  intro Y
  induction Y with
  | nil =>
    intro X RX hXY hlen hkind hst
    rw [List.append_nil] at hXY
    subst hXY
    simp only [seqFarm, List.append_nil]
    exact ⟨hlen, hkind, hst⟩
  | cons m Y ih =>
    intro X RX hXY hlen hkind hst
    have hX : X <+: input n A := ⟨_, hXY⟩
    have hlt : X.length < (input n A).length := by rw [← hXY]; simp
    have hi : X.length % n < n := Nat.mod_lt _ hn
    have halive := turn_alive hA hX hlt
    have hfits := fits_pairs hA hX (X.length % n)
    have hwi := hw _ hi
    obtain ⟨hex, hneos⟩ := hwi.after_exited hfits
    have hnx : (after (w (X.length % n)) (from_ (pairs n X) (X.length % n))).exited = false := by
      cases hh : (after (w (X.length % n)) (from_ (pairs n X) (X.length % n))).exited with
      | false => rfl
      | true => exact absurd (hex.1 hh) halive
    have hmget : (input n A)[X.length]? = some m := by rw [← hXY]; simp
    have hr : ∃ r, (body (w (X.length % n))
        (after (w (X.length % n)) (from_ (pairs n X) (X.length % n))) m).2 = [r] ∧
        ((X.length < A.length ∧ r.isData = true) ∨ (A.length ≤ X.length ∧ r = .eos)) := by
      rcases input_get hA hmget with ⟨h1, h2⟩ | ⟨h1, _, rfl⟩
      · obtain ⟨d, rfl⟩ : ∃ d, m = .data d := by cases m <;> simp [Msg.isData] at h2; exact ⟨_, rfl⟩
        obtain ⟨d', h3, _⟩ := hwi.body_data _ hnx d
        exact ⟨_, h3, Or.inl ⟨h1, rfl⟩⟩
      · exact ⟨_, (hwi.body_eos _ (hneos halive)).1, Or.inr ⟨h1, rfl⟩⟩
    obtain ⟨r, hr, hrk⟩ := hr
    have hhist : upd (fun i => from_ (pairs n X) i) (X.length % n)
        (from_ (pairs n X) (X.length % n) ++ [m]) = fun i => from_ (pairs n (X ++ [m])) i := by
      funext i
      rw [pairs_snoc, from_append, from_single]
      by_cases h : i = X.length % n
      · subst h; simp [upd]
      · have : ¬ X.length % n = i := fun hh => h hh.symm
        simp [upd, h, this]
    have := ih (X ++ [m]) (RX ++ [r]) (by rw [← hXY]; simp) (by simp [hlen]) ?_ ?_
    · simp only [seqFarm]
      rw [hr, hhist]
      simpa using this
    · intro q x hx
      by_cases hq : q < RX.length
      · rw [List.getElem?_append_left hq] at hx; exact hkind q x hx
      · rw [List.getElem?_append_right (by omega)] at hx
        have hq0 : q - RX.length = 0 := by
          rw [List.getElem?_eq_some_iff] at hx
          obtain ⟨h, _⟩ := hx
          simpa using h
        rw [hq0] at hx
        simp only [List.getElem?_cons_zero, Option.some.injEq] at hx
        subst hx
        have : q = X.length := by omega
        rw [this]; exact hrk
    · intro i hin
      rw [pairs_snoc, pairs_snoc, from_append, from_append, from_single, from_single, hlen]
      by_cases h : X.length % n = i
      · subst h
        simp only [if_true]
        rw [stream_snoc _ _ _ hnx, hst _ hin, hr]
      · simp only [h, if_false, List.append_nil]; exact hst i hin

/-- What the ordered farm has to deliver. -/
def expected (n : Nat) (w : Nat → Node D) (A : List (Msg D)) : List (Msg D) :=
  seqFarm n w (fun _ => []) 0 (input n A)

theorem expected_spec (hn : 0 < n) (hA : AllData A) {w : Nat → Node D}
    (hw : ∀ i, i < n → OneToOne (w i)) :
    (expected n w A).length = A.length + n ∧ KindOk A.length (expected n w A) ∧
    ∀ i, i < n → from_ (pairs n (expected n w A)) i = stream (w i) (from_ (pairs n (input n A)) i) := by
  have := seqFarm_spec hn hA hw (input n A) [] [] rfl rfl (by intro q m h; simp at h) (by
    intro i _; simp [pairs, from_, stream, run])
  simp only [List.nil_append, List.length_nil] at this
  rw [input_length] at this
  exact this

end

/-! ## Invariant -/

/-- what the current command still has to put -/
def OPc.rest (n : Nat) : OPc D → List (Msg D)
  | .idle => []
  | .sched m => [m]
  | .to _ _ => []
  | .bc m i => List.replicate (n - i) m

/-- `X` has been put; the victim is the worker whose turn it is -/
def VictimOk (n : Nat) (X : List (Msg D)) (victim : Nat) : OPc D → Prop
  | .bc _ i => i ≤ n ∧ ∃ b, X.length = b + i ∧ victim = b % n
  | .to _ _ => False
  | _ => victim = X.length % n

structure OInvE (n : Nat) (S : List (Msg D)) (e : OE D) (X : List (Msg D)) : Prop where
  log : e.log = pairs n X
  rest : X ++ (e.pc.rest n ++ flat n e.cmds) = S
  victim : VictimOk n X e.victim e.pc
  nosend : ∀ i m, Cmd.sendTo i m ∉ e.cmds

/-- what the collector has taken: the first `c` results -/
structure OInvG (n a : Nat) (R : List (Msg D)) {c : Node D} (o : OG c) (k : Nat) : Prop where
  le : k ≤ a + n
  got : o.g.got = pairs n (R.take k)
  neos : o.g.neos = k - a
  nf : o.g.neosnf = 0
  exit : o.g.exited = true ↔ k = a + n
  victim : k < a + n → o.victim = k % n
  dead : ∀ i, o.dead i = true ↔ ∃ q, a ≤ q ∧ q < k ∧ q % n = i
  out : GOut o.g

structure OInv (n : Nat) (w : Nat → Node D) {c : Node D} (A : List (Msg D)) (s : O D c) : Prop where
  e : ∃ X, OInvE n (input n A) s.e X
  inq : ∀ i, from_ s.e.log i = s.consumed i ++ s.inq i
  work : ∀ i, i < n → s.pushed i ++ s.pending i = stream (w i) (s.consumed i)
  outq : ∀ i, s.pushed i = from_ s.o.g.got i ++ s.outq i
  o : ∃ k, OInvG n A.length (expected n w A) s.o k

/-- commands of the user of an ordered farm: tasks scheduled or broadcast -/
structure OCmds (us : List (Cmd D)) : Prop where
  data : ∀ c ∈ us, c.msg.isData = true
  nosend : ∀ i m, Cmd.sendTo i m ∉ us

theorem flat_data {n : Nat} {us : List (Cmd D)} (h : OCmds us) : AllData (flat n us) := by
  have h1 := h.data
  clear h
  induction us with
  | nil => intro m hm; simp [flat] at hm
  | cons c us ih =>
    have hc := h1 c (by simp)
    have := ih (fun c hc => h1 c (by simp [hc]))
    cases c with
    | sched m => intro x hx; simp only [flat, List.mem_cons] at hx; rcases hx with rfl | hx
                 · exact hc
                 · exact this _ hx
    | sendTo i m => exact this
    | bcast m =>
      intro x hx
      simp only [flat, List.mem_append, List.mem_replicate] at hx
      rcases hx with ⟨_, rfl⟩ | hx
      · exact hc
      · exact this _ hx

theorem flat_append (n : Nat) (us vs : List (Cmd D)) : flat n (us ++ vs) = flat n us ++ flat n vs := by
  induction us with
  | nil => rfl
  | cons c us ih => cases c <;> simp [flat, ih]

theorem OInv.start {n : Nat} (hn : 0 < n) (w : Nat → Node D) (c : Node D) {us : List (Cmd D)}
    (hu : OCmds us) : OInv n w (flat n us) (O.start c (us ++ [.bcast .eos]) 0 0) where
  e := ⟨[], { log := rfl
              rest := by simp [O.start, OPc.rest, input, flat_append, flat]
              victim := by simp [O.start, VictimOk]
              nosend := by
                intro i m hm
                simp only [O.start, List.mem_append, List.mem_singleton, reduceCtorEq, or_false] at hm
                exact hu.nosend i m hm }⟩
  inq i := by simp [O.start, from_]
  work i _ := by simp [O.start, stream, run]
  outq i := by simp [O.start, G.start, from_]
  o := ⟨0, { le := by omega
             got := by simp [O.start, G.start, pairs]
             neos := by simp [O.start, G.start]
             nf := rfl
             exit := by simp [O.start, G.start]; omega
             victim := by simp [O.start]
             dead := by simp [O.start]
             out := ⟨fun _ _ => ⟨rfl, by simp [O.start, G.start, collected]⟩⟩ }⟩

theorem OInvE.attempt {n : Nat} (hn : 0 < n) {S X : List (Msg D)} {e e' : OE D} {full : Nat → Bool}
    {o : Option (Nat × Msg D)} (h : OInvE n S e X) (hs : e.attempt n full = some (e', o)) :
    (∃ X', OInvE n S e' X') ∧ e'.log = e.log ++ (match o with | none => [] | some p => [p]) := by
  have hv := h.victim
  have hr := h.rest
  unfold OE.attempt at hs
  split at hs
  · rename_i hpc
    rw [hpc] at hv hr
    simp only [VictimOk] at hv
    split at hs
    · simp at hs
    · rename_i m cs hcm
      simp only [Option.some.injEq, Prod.mk.injEq] at hs
      obtain ⟨rfl, rfl⟩ := hs
      rw [hcm] at hr
      refine ⟨⟨X, ⟨h.log, by simpa [OPc.rest, flat] using hr, hv, ?_⟩⟩, by simp⟩
      intro i m' hm; exact h.nosend i m' (by rw [hcm]; simp [hm])
    · rename_i i m cs hcm
      exact absurd (by rw [hcm]; simp) (h.nosend i m)
    · rename_i m cs hcm
      simp only [Option.some.injEq, Prod.mk.injEq] at hs
      obtain ⟨rfl, rfl⟩ := hs
      rw [hcm] at hr
      refine ⟨⟨X, ⟨h.log, by simpa [OPc.rest, flat] using hr, ?_, ?_⟩⟩, by simp⟩
      · exact ⟨by omega, X.length, by omega, hv⟩
      · intro i m' hm; exact h.nosend i m' (by rw [hcm]; simp [hm])
  · rename_i m hpc
    rw [hpc] at hv hr
    simp only [VictimOk] at hv
    split at hs <;> simp only [Option.some.injEq, Prod.mk.injEq] at hs <;> obtain ⟨rfl, rfl⟩ := hs
    · exact ⟨⟨X, h⟩, by simp⟩
    · refine ⟨⟨X ++ [m], ⟨?_, ?_, ?_, h.nosend⟩⟩, by simp⟩
      · simp only [h.log, pairs_snoc, hv]
      · simpa [OPc.rest] using hr
      · simp only [VictimOk, List.length_append, List.length_singleton, hv, Nat.mod_add_mod]
  · rename_i i m hpc
    rw [hpc] at hv
    exact hv.elim
  · rename_i m i hpc
    rw [hpc] at hv hr
    obtain ⟨hi, b, hb, hv⟩ := hv
    split at hs
    · rename_i hlt
      have hbn := Nat.mod_lt b hn
      have htgt : (if e.victim + i < n then e.victim + i else e.victim + i - n) = X.length % n := by
        rw [hb, hv, Nat.add_mod, Nat.mod_eq_of_lt hlt]
        split
        · rename_i h1; rw [Nat.mod_eq_of_lt h1]
        · rename_i h1
          rw [Nat.mod_eq_sub_mod (a := b % n + i) (b := n) (by omega),
            Nat.mod_eq_of_lt (a := b % n + i - n) (by omega)]
      simp only [htgt] at hs
      split at hs <;> simp only [Option.some.injEq, Prod.mk.injEq] at hs <;> obtain ⟨rfl, rfl⟩ := hs
      · exact ⟨⟨X, h⟩, by simp⟩
      · refine ⟨⟨X ++ [m], ⟨?_, ?_, ?_, h.nosend⟩⟩, by simp⟩
        · simp only [h.log, pairs_snoc]
        · simp only [OPc.rest] at hr ⊢
          rw [show n - i = (n - (i + 1)) + 1 by omega, List.replicate_succ] at hr
          simpa using hr
        · refine ⟨hlt, b, ?_, hv⟩
          simp; omega
    · rename_i hge
      simp only [Option.some.injEq, Prod.mk.injEq] at hs
      obtain ⟨rfl, rfl⟩ := hs
      have hin : i = n := by omega
      subst hin
      refine ⟨⟨X, ⟨h.log, by simpa [OPc.rest] using hr, ?_, h.nosend⟩⟩, by simp⟩
      simp only [VictimOk, hb, hv, Nat.add_mod_right]

theorem nextAlive_stop {n : Nat} (hn : 0 < n) {dead : Nat → Bool} {v : Nat}
    (h : dead ((v + 1) % n) = false) : nextAlive n dead v v n = (v + 1) % n := by
  obtain ⟨k, rfl⟩ : ∃ k, n = k + 1 := ⟨n - 1, by omega⟩
  rw [nextAlive, h]
  simp

theorem handle_data_exited {n : Nat} {c : Node D} (hc : StaysOn c) (g : G c) (r : Nat) (d : D) :
    (g.handle n r (.data d)).exited = g.exited := by
  simp only [G.handle, G.task]
  rcases hc g.st d with ⟨d', hd⟩ | hd | hd <;> simp [hd]

theorem handle_eos_exited {n : Nat} {c : Node D} (g : G c) (r : Nat) (hx : g.exited = false) :
    (g.handle n r .eos).exited = true ↔ ¬ (g.neos + 1 < n ∧ g.neosnf < n) := by
  simp only [G.handle, G.check]
  split
  · rename_i h; simp only [hx]; simp [h]
  · rename_i h; simp only [true_iff]; exact h

/-- taking the next result -/
theorem OInvG.take {n a : Nat} (hn : 0 < n) {R : List (Msg D)} (hlen : R.length = a + n)
    (hk : KindOk a R) {c : Node D} (hc : StaysOn c) {o : OG c} {k : Nat} (h : OInvG n a R o k)
    (hx : o.g.exited = false) {m : Msg D} (hm : R[k]? = some m) (dead : Nat → Bool)
    (hdead : dead = if m.isMark then upd o.dead o.victim true else o.dead) :
    OInvG n a R (OG.mk (o.g.handle n o.victim m) (nextAlive n dead o.victim o.victim n) dead) (k + 1) := by
  have hkn : k < a + n := by
    have := h.le
    rcases Nat.lt_or_eq_of_le this with h1 | h1
    · exact h1
    · have := h.exit.2 h1
      rw [hx] at this; simp at this
  have hv := h.victim hkn
  obtain ⟨f1, _, _, f4, f5⟩ := G.handle_fields n o.g o.victim m
  have hgot : R.take (k + 1) = R.take k ++ [m] := by
    rw [List.take_add_one, hm]; rfl
  have htl : (R.take k).length = k := by rw [List.length_take]; omega
  have hnext : (o.victim + 1) % n = (k + 1) % n := by rw [hv]; simp
  have hout := h.out.handle (n := n) hc hx o.victim m
  rcases hk k m hm with ⟨h1, h2⟩ | ⟨h1, rfl⟩
  · obtain ⟨d, rfl⟩ : ∃ d, m = .data d := by cases m <;> simp [Msg.isData] at h2; exact ⟨_, rfl⟩
    have hd : dead = o.dead := by rw [hdead]; rfl
    have hdf : ∀ i, dead i = false := by
      intro i
      cases hh : dead i with
      | false => rfl
      | true =>
        rw [hd] at hh
        obtain ⟨q, h3, h4, _⟩ := (h.dead i).1 hh
        omega
    refine ⟨by omega, ?_, ?_, ?_, ?_, ?_, ?_, hout⟩
    · show (o.g.handle n o.victim _).got = _
      rw [f1, h.got, hgot, pairs_snoc, htl, hv]
    · simp only [f4, h.neos, eosInc]; omega
    · simp only [f5, h.nf, nfInc]
    · simp only [handle_data_exited hc, hx]
      simp; omega
    · intro _
      show nextAlive n dead o.victim o.victim n = (k + 1) % n
      rw [nextAlive_stop hn (hdf _), hnext]
    · intro i
      simp only [hdf i]
      simp only [Bool.false_eq_true, false_iff]
      rintro ⟨q, h3, h4, _⟩
      omega
  · have hdi : ∀ i, dead i = true ↔ ∃ q, a ≤ q ∧ q < k + 1 ∧ q % n = i := by
      intro i
      have hd : dead = upd o.dead o.victim true := hdead
      rw [hd, hv]
      unfold upd
      by_cases hi : i = k % n
      · subst hi
        simp only [if_true, true_iff]
        exact ⟨k, h1, by omega, rfl⟩
      · simp only [hi, if_false, h.dead i]
        constructor
        · rintro ⟨q, h3, h4, h5⟩; exact ⟨q, h3, by omega, h5⟩
        · rintro ⟨q, h3, h4, h5⟩
          refine ⟨q, h3, ?_, h5⟩
          have : q ≠ k := by rintro rfl; exact hi h5.symm
          omega
    refine ⟨by omega, ?_, ?_, ?_, ?_, ?_, hdi, hout⟩
    · show (o.g.handle n o.victim _).got = _
      rw [f1, h.got, hgot, pairs_snoc, htl, hv]
    · simp only [f4, h.neos, eosInc]; omega
    · simp only [f5, h.nf, nfInc]
    · simp only [handle_eos_exited _ _ hx, h.neos, h.nf]; omega
    · intro hlt
      show nextAlive n dead o.victim o.victim n = (k + 1) % n
      rw [nextAlive_stop hn, hnext]
      rw [hnext]
      cases hh : dead ((k + 1) % n) with
      | false => rfl
      | true =>
        obtain ⟨q, h3, h4, h5⟩ := (hdi _).1 hh
        exact absurd h5 (mod_window h3 h4 hlt)

section
variable {n : Nat} {w : Nat → Node D} {ci co : Nat → Nat} {c : Node D} {A : List (Msg D)}

theorem OInv.out_prefix {s : O D c} (h : OInv n w A s) {i : Nat} (hi : i < n) :
    s.pushed i <+: stream (w i) (from_ (pairs n (input n A)) i) := by
  obtain ⟨X, hX⟩ := h.e
  have h1 : s.pushed i <+: stream (w i) (s.consumed i) := ⟨_, h.work i hi⟩
  refine h1.trans (stream_mono _ ?_)
  have h2 : s.consumed i <+: from_ s.e.log i := ⟨_, (h.inq i).symm⟩
  rw [hX.log] at h2
  refine h2.trans (from_prefix ?_ i)
  rw [← hX.rest]
  exact pairs_append n X _

/-- the message the collector takes is the next expected one -/
theorem OInv.next (hn : 0 < n) (hA : AllData A) (hw : ∀ i, i < n → OneToOne (w i)) {s : O D c}
    (h : OInv n w A s) {k : Nat} (hk : OInvG n A.length (expected n w A) s.o k)
    (hlt : k < A.length + n) {m : Msg D} {ms : List (Msg D)} (hm : s.outq (k % n) = m :: ms) :
    (expected n w A)[k]? = some m := by
  obtain ⟨hlen, _, hst⟩ := expected_spec hn hA hw
  have hi : k % n < n := Nat.mod_lt _ hn
  have hR : ∃ r, (expected n w A)[k]? = some r := ⟨_, List.getElem?_eq_getElem (by omega)⟩
  obtain ⟨r, hr⟩ := hR
  rw [hr]
  congr 1
  have h1 := h.out_prefix hi
  rw [h.outq, hm, ← hst _ hi] at h1
  have h1' : from_ s.o.g.got (k % n) ++ [m] <+: from_ (pairs n (expected n w A)) (k % n) :=
    List.IsPrefix.trans ⟨ms, by simp⟩ h1
  have htl : ((expected n w A).take k).length = k := by rw [List.length_take]; omega
  have h2 : from_ s.o.g.got (k % n) ++ [r] <+: from_ (pairs n (expected n w A)) (k % n) := by
    have : pairs n ((expected n w A).take (k + 1)) <+: pairs n (expected n w A) := by
      have := pairs_append n ((expected n w A).take (k + 1)) ((expected n w A).drop (k + 1))
      rwa [List.take_append_drop] at this
    have := from_prefix this (k % n)
    rw [List.take_add_one, hr] at this
    simp only [Option.toList] at this
    rw [pairs_snoc, from_append, from_single, htl, if_pos rfl, ← hk.got] at this
    exact this
  exact (prefix_next h1' h2).symm

theorem OInv.step (hn : 0 < n) (hA : AllData A) (hw : ∀ i, i < n → OneToOne (w i)) (hc : StaysOn c)
    {s s' : O D c} {a : FAct} (h : OInv n w A s) (hs : ostep n w ci co s a = some s') :
    OInv n w A s' := by
  cases a with
  | emit =>
    obtain ⟨X, hX⟩ := h.e
    simp only [ostep] at hs
    split at hs
    · simp at hs
    · rename_i e' he
      simp only [Option.some.injEq] at hs
      subst hs
      obtain ⟨h1, h2⟩ := hX.attempt hn he
      simp only [List.append_nil] at h2
      exact { h with e := h1, inq := fun i => by simp only [h2]; exact h.inq i }
    · rename_i e' i m he
      simp only [Option.some.injEq] at hs
      subst hs
      obtain ⟨h1, h2⟩ := hX.attempt hn he
      refine { h with e := h1, inq := fun j => ?_ }
      simp only [h2, from_append, from_single]
      by_cases hj : j = i
      · subst hj; simp only [upd, if_true]; rw [h.inq j, List.append_assoc]
      · have : ¬ i = j := fun hh => hj hh.symm
        simp only [upd, hj, this, if_false, List.append_nil]; exact h.inq j
  | pop i =>
    simp only [ostep] at hs
    split at hs
    · rename_i hc
      obtain ⟨hi, hp, hx⟩ := hc
      split at hs
      · simp at hs
      · rename_i m ms hm
        simp only [Option.some.injEq] at hs
        subst hs
        refine { h with inq := fun j => ?_, work := fun j hj => ?_ }
        · by_cases hj : j = i
          · subst hj; simp only [upd, if_true]; rw [h.inq j, hm]; simp
          · simp only [upd, hj, if_false]; exact h.inq j
        · by_cases hji : j = i
          · subst hji
            simp only [upd, if_true]
            rw [stream_snoc _ _ _ hx, ← h.work j hj, hp, List.append_nil]
          · simp only [upd, hji, if_false]; exact h.work j hj
    · simp at hs
  | push i =>
    simp only [ostep] at hs
    split at hs
    · split at hs
      · simp at hs
      · rename_i m ms hm
        simp only [Option.some.injEq] at hs
        subst hs
        refine { h with work := fun j hj => ?_, outq := fun j => ?_ }
        · by_cases hji : j = i
          · subst hji; simp only [upd, if_true]; rw [← h.work j hj, hm]; simp
          · simp only [upd, hji, if_false]; exact h.work j hj
        · by_cases hji : j = i
          · subst hji; simp only [upd, if_true]; rw [h.outq j]; simp
          · simp only [upd, hji, if_false]; exact h.outq j
    · simp at hs
  | gather =>
    obtain ⟨k, hk⟩ := h.o
    simp only [ostep, OG.attempt] at hs
    split at hs
    · simp at hs
    · rename_i o' he
      split at he
      · simp at he
      · split at he <;> simp only [Option.some.injEq, Prod.mk.injEq, reduceCtorEq, and_false] at he
        obtain ⟨rfl, _⟩ := he
        simp only [Option.some.injEq] at hs
        subst hs
        exact h
    · rename_i o' r he
      split at he
      · simp at he
      · rename_i hx
        split at he
        · simp at he
        · rename_i m hm
          simp only [Option.some.injEq, Prod.mk.injEq] at he
          obtain ⟨rfl, rfl⟩ := he
          simp only [Option.some.injEq] at hs
          subst hs
          simp only [Bool.not_eq_true] at hx
          have hkn : k < A.length + n := by
            rcases Nat.lt_or_eq_of_le hk.le with h1 | h1
            · exact h1
            · have := hk.exit.2 h1
              rw [hx] at this; simp at this
          have hv := hk.victim hkn
          obtain ⟨hlen, hkind, _⟩ := expected_spec hn hA hw
          cases hq : s.outq s.o.victim with
          | nil => rw [hq] at hm; simp at hm
          | cons x xs =>
            rw [hq] at hm
            simp only [List.head?_cons, Option.some.injEq] at hm
            subst hm
            have hget := h.next hn hA hw hk hkn (by rw [← hv]; exact hq)
            refine { h with o := ⟨k + 1, hk.take hn hlen hkind hc hx hget _ rfl⟩, outq := fun i => ?_ }
            simp only [(G.handle_fields n s.o.g s.o.victim x).1, from_append, from_single]
            by_cases hi : i = s.o.victim
            · subst hi
              simp only [upd, if_true, List.tail_cons]
              rw [h.outq, hq]; simp
            · have : ¬ s.o.victim = i := fun hh => hi hh.symm
              simp only [upd, hi, this, if_false, List.append_nil]; exact h.outq i

theorem OInv.reach (hn : 0 < n) {us : List (Cmd D)} (hu : OCmds us)
    (hw : ∀ i, i < n → OneToOne (w i)) (hc : StaysOn c) {s : O D c}
    (hr : Reach (ostep n w ci co) (O.start c (us ++ [.bcast .eos]) 0 0) s) :
    OInv n w (flat n us) s :=
  hr.inv (OInv.start hn w c hu) (fun _ _ _ h hs => h.step hn (flat_data hu) hw hc hs)

/-- **C23, order**: for every number of workers, every list of tasks (scheduled, or broadcast to all
workers), queues of any capacity and every schedule, what the collector has received is at any moment
a prefix of the results of the sequential farm, which processes the messages one after the other in
the order in which they were given; and what it has sent on is what its filter makes of them. -/
theorem C23_order_partial (hn : 0 < n) {us : List (Cmd D)} (hu : OCmds us)
    (hw : ∀ i, i < n → OneToOne (w i)) (hc : StaysOn c) {s : O D c}
    (hr : Reach (ostep n w ci co) (O.start c (us ++ [.bcast .eos]) 0 0) s) :
    s.o.g.got.map Prod.snd <+: seqFarm n w (fun _ => []) 0 (flat n (us ++ [.bcast .eos])) ∧
    s.o.g.out = collected c c.init (s.o.g.got.map Prod.snd) ++ (if s.o.g.exited then [.eos] else []) := by
  have h := OInv.reach hn hu hw hc hr
  obtain ⟨k, hk⟩ := h.o
  obtain ⟨hlen, hkind, _⟩ := expected_spec hn (flat_data (n := n) hu) hw
  have hS : seqFarm n w (fun _ => []) 0 (flat n (us ++ [.bcast .eos])) = expected n w (flat n us) := by
    rw [flat_append]; simp [flat, expected, input]
  refine ⟨?_, ?_⟩
  · rw [hk.got, pairs_snd, hS]
    exact List.take_prefix _ _
  · have hk' : ∀ x ∈ s.o.g.got, x.2.isData = true ∨ x.2 = .eos := by
      rintro ⟨i, m⟩ hx
      have hmem : m ∈ s.o.g.got.map Prod.snd := List.mem_map.2 ⟨(i, m), hx, rfl⟩
      rw [hk.got, pairs_snd] at hmem
      obtain ⟨q, hq⟩ := List.mem_iff_getElem?.1 (List.mem_of_mem_take hmem)
      rcases hkind q m hq with ⟨_, h2⟩ | ⟨_, rfl⟩
      · exact Or.inl h2
      · exact Or.inr rfl
    refine (hk.out.out ?_ ?_).2
    · rintro ⟨i, m⟩ hx
      have := hk' _ hx
      refine ⟨?_, ?_⟩ <;> intro hm <;> simp only at hm <;> subst hm <;> simp [Msg.isData] at this
    · rintro ⟨i, m⟩ hx hm
      rcases hk' _ hx with h | h
      · cases m <;> simp [Msg.isData, Msg.isMark] at h hm
      · exact h

end
end FF.Farm
