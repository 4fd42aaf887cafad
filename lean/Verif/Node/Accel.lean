import Verif.Node.Pipe
import Verif.Node.Comb
import Verif.Common.Trans
/-!
# C58: a pipeline used as an accelerator, in rounds

`pipeline.hpp` 1290-1304 (`run_then_freeze`), 1336-1345 (`wait_freezing`), 1405-1428 (`offload`),
1444-1480 (`load_result`), 808-838 (`freeze_and_run`); `node.hpp` 246-305 (`thread_routine`: a stage
that leaves its loop calls `svc_end`, goes to sleep, and when it is woken calls `svc_init` and enters
the loop again), 1441-1514 (the loop, whose counter of end marks is local and therefore starts again
in each round).

The main thread runs a list of commands, the stages run concurrently with it.  The stages are the
`Node`s of C20 with one more function: what `svc_end` and `svc_init` together do to the state of the
node between two rounds.
-/
namespace FF.Node
open FF
variable {D : Type}

/-- A stage that may run several times: `renew` is `svc_end` followed by `svc_init`
(node.hpp 260-268). -/
structure RNode (D : Type) extends Node D where
  renew : σ → σ

/-- The loop is entered with the node in state `st` (node.hpp 1441-1449). -/
def L.enter (n : Node D) (st : n.σ) : L n := { st, neos := 1, exited := false, calls := [] }

/-- A thread that has left the loop enters it again (node.hpp 259-266, 1447-1449): `svc_end`,
`svc_init`, `neos` and `exit` start afresh. -/
def RNode.wake (n : RNode D) (l : L n.toNode) : L n.toNode :=
  if l.exited then L.enter n.toNode (n.renew l.st) else l

/-- The thread of a stage on the messages it pops, over as many rounds as they make. -/
def rrun (n : RNode D) (l : L n.toNode) : List (Msg D) → L n.toNode × List (Msg D)
  | [] => (l, [])
  | m :: ms =>
    let r := body n.toNode (n.wake l) m
    let r' := rrun n r.1 ms
    (r'.1, r.2 ++ r'.2)

def rafter (n : RNode D) (ms : List (Msg D)) : L n.toNode := (rrun n (L.start n.toNode 1) ms).1
def rstream (n : RNode D) (ms : List (Msg D)) : List (Msg D) := (rrun n (L.start n.toNode 1) ms).2

/-- Does the loop, leaving on `m`, return `EOS_NOFREEZE` (node.hpp 1461-1463, 1483)?  Then the
thread does not go to sleep (node.hpp 279) but starts the next round at once. -/
def noFreeze (n : Node D) (l : L n) : Msg D → Bool
  | .eosnf => true
  | .eos | .eosw | .goout => false
  | m => match (n.svc l.st m).2.2 with
    | .eosnf => true
    | _ => false

/-- What the main thread does. -/
inductive UCmd (D : Type) where
  /-- one step of `run_then_freeze`: wake stage `i` (the first time: create its thread) -/
  | wake (i : Nat)
  /-- `offload(m)` -/
  | offload (m : Msg D)
  /-- `while(load_result(&r)) …` -/
  | load
  /-- one step of `wait_freezing`: wait until stage `i` sleeps -/
  | wait (i : Nat)

/-- The accelerator and its user. -/
structure Acc (D : Type) where
  /-- content of the input channel of each stage; channel `n` is read by `load_result` -/
  chan : Nat → List (Msg D)
  /-- messages each stage has popped so far, in all rounds -/
  consumed : Nat → List (Msg D)
  /-- messages each stage has produced and not pushed yet -/
  pending : Nat → List (Msg D)
  /-- has the thread of stage `i` left its loop without having been woken since -/
  asleep : Nat → Bool
  /-- what the main thread has still to do -/
  prog : List (UCmd D)
  /-- the results of the current `while(load_result(&r))` -/
  cur : List (Msg D)
  /-- the results of each finished `while(load_result(&r))` -/
  got : List (List (Msg D))
  /-- ghost: what has been pushed so far by each stage -/
  pushed : Nat → List (Msg D)
  /-- ghost: what has been offloaded -/
  offd : List (Msg D)
  /-- ghost: everything `load_result` has popped -/
  loaded : List (Msg D)
  /-- ghost: how often each stage has been woken -/
  woken : Nat → Nat

/-- Before the first `run_then_freeze` no thread runs. -/
def Acc.start (prog : List (UCmd D)) : Acc D :=
  { chan := fun _ => [], consumed := fun _ => [], pending := fun _ => [], asleep := fun _ => true,
    prog, cur := [], got := [], pushed := fun _ => [], offd := [], loaded := [],
    woken := fun _ => 0 }

inductive AAct where
  /-- stage `i` pops and executes one iteration of its loop -/
  | pop (i : Nat)
  /-- stage `i` pushes its next produced message -/
  | push (i : Nat)
  /-- the main thread makes a step -/
  | user

/-- The command at the head of the program of the main thread.  `offload` waits for room in the first
channel (pipeline.hpp 1411-1427); `load_result` waits for a message and its loop ends exactly on
`FF_EOS` (1459-1462, 1471-1474); `wait` waits until the stage sleeps, that is until it has pushed all
it had to push and has left its loop (node.hpp 279-285). -/
def ustep (cap : Nat → Nat) (n : Nat) (s : Acc D) : Option (Acc D) :=
  match s.prog with
  | [] => none
  | .wake i :: p =>
    if s.asleep i = true ∧ s.pending i = [] then
      some { s with asleep := upd s.asleep i false, woken := upd s.woken i (s.woken i + 1), prog := p }
    else none
  | .offload m :: p =>
    if (s.chan 0).length < cap 0 then
      some { s with chan := upd s.chan 0 (s.chan 0 ++ [m]), offd := s.offd ++ [m], prog := p }
    else none
  | .load :: p =>
    match s.chan n with
    | [] => none
    | .eos :: ms =>
      some { s with chan := upd s.chan n ms, loaded := s.loaded ++ [.eos],
                    got := s.got ++ [s.cur], cur := [], prog := p }
    | m :: ms =>
      some { s with chan := upd s.chan n ms, loaded := s.loaded ++ [m], cur := s.cur ++ [m] }
  | .wait i :: p =>
    if s.asleep i = true ∧ s.pending i = [] then some { s with prog := p } else none

/-- One action of an accelerator of `n` stages.  The channel read by the main thread is unbounded
(pipeline.hpp 757-758), the others have the capacities `cap`. -/
def astep (n : Nat) (nd : Nat → RNode D) (cap : Nat → Nat) (s : Acc D) : AAct → Option (Acc D)
  | .pop i =>
    if i < n ∧ s.pending i = [] ∧ s.asleep i = false then
      match s.chan i with
      | [] => none
      | m :: ms =>
        let l := (nd i).wake (rafter (nd i) (s.consumed i))
        let r := body (nd i).toNode l m
        some { s with
          chan := upd s.chan i ms
          consumed := upd s.consumed i (s.consumed i ++ [m])
          pending := upd s.pending i r.2
          asleep := upd s.asleep i (r.1.exited && !noFreeze (nd i).toNode l m) }
    else none
  | .push i =>
    if i < n ∧ (i + 1 = n ∨ (s.chan (i + 1)).length < cap (i + 1)) then
      match s.pending i with
      | [] => none
      | m :: ms => some { s with
          pending := upd s.pending i ms
          pushed := upd s.pushed i (s.pushed i ++ [m])
          chan := upd s.chan (i + 1) (s.chan (i + 1) ++ [m]) }
    else none
  | .user => ustep cap n s

/-! ## Specification -/

/-- Stage `n`, started in state `st`, on the rounds `rs`: each round is one complete run of the loop
of C19 on the tasks of the round and an end mark; the results of the round are what it sends before
the end mark; between two rounds the state is renewed. -/
def stageRounds (n : RNode D) (st : n.σ) : List (List (Msg D)) → List (List (Msg D))
  | [] => []
  | r :: rs =>
    let x := run n.toNode (L.enter n.toNode st) (r ++ [.eos])
    x.2.dropLast :: stageRounds n (n.renew x.1.st) rs

/-- The rounds in front of stage `k`. -/
def accSem (nd : Nat → RNode D) (rounds : List (List D)) : Nat → List (List (Msg D))
  | 0 => rounds.map (·.map Msg.data)
  | k + 1 => stageRounds (nd k) (nd k).init (accSem nd rounds k)

/-- `run_then_freeze(); offload each task; offload(EOS); while(load_result(&r)) …; wait_freezing();` -/
def roundProg (n : Nat) (r : List D) : List (UCmd D) :=
  (List.range n).map .wake ++ (r.map fun d => .offload (.data d)) ++ [.offload .eos] ++ [.load] ++
    (List.range n).map .wait

/-- the accelerator is used in rounds -/
def protocol (n : Nat) (rounds : List (List D)) : List (UCmd D) := (rounds.map (roundProg n)).flatten

/-! ## Streams over several rounds -/

theorem rrun_append (n : RNode D) (l : L n.toNode) (xs ys : List (Msg D)) :
    rrun n l (xs ++ ys) =
      ((rrun n (rrun n l xs).1 ys).1, (rrun n l xs).2 ++ (rrun n (rrun n l xs).1 ys).2) := by
  induction xs generalizing l with
  | nil => simp [rrun]
  | cons x xs ih => simp [rrun, ih]

theorem rstream_snoc (n : RNode D) (ms : List (Msg D)) (m : Msg D) :
    rstream n (ms ++ [m]) =
      rstream n ms ++ (body n.toNode (n.wake (rafter n ms)) m).2 := by
  unfold rstream
  rw [rrun_append]
  simp [rrun, rafter]

theorem rafter_snoc (n : RNode D) (ms : List (Msg D)) (m : Msg D) :
    rafter n (ms ++ [m]) = (body n.toNode (n.wake (rafter n ms)) m).1 := by
  unfold rafter
  rw [rrun_append]
  simp [rrun]

theorem rstream_mono (n : RNode D) {xs ys : List (Msg D)} (h : xs <+: ys) :
    rstream n xs <+: rstream n ys := by
  obtain ⟨t, rfl⟩ := h
  unfold rstream
  rw [rrun_append]
  exact List.prefix_append _ _

/-- As long as the loop is not left, `rrun` is the loop of C20. -/
theorem rrun_run (n : RNode D) (ms : List (Msg D)) (m : Msg D) (l : L n.toNode)
    (hl : l.exited = false) (h : (run n.toNode l ms).1.exited = false) :
    rrun n l (ms ++ [m]) = run n.toNode l (ms ++ [m]) := by
  induction ms generalizing l with
  | nil => simp [rrun, run, RNode.wake, hl]
  | cons x xs ih =>
    rw [run_cons _ _ hl] at h
    simp only [List.cons_append]
    rw [run_cons _ _ hl]
    simp only [rrun]
    have hx : (body n.toNode l x).1.exited = false := by
      cases hb : (body n.toNode l x).1.exited with
      | false => rfl
      | true => rw [run_exited _ _ hb] at h; simp [hb] at h
    have : n.wake l = l := by simp [RNode.wake, hl]
    rw [this, ih _ hx h]

/-! ## Every program of the main thread -/

/-- Specification: the stream in front of stage `k`, when the stages are woken again and again. -/
def rsem (nd : Nat → RNode D) (inp : List (Msg D)) : Nat → List (Msg D)
  | 0 => inp
  | k + 1 => rstream (nd k) (rsem nd inp k)

/-- what has been taken out of channel `i` -/
def Acc.taken (n : Nat) (s : Acc D) (i : Nat) : List (Msg D) :=
  if i < n then s.consumed i else s.loaded

structure AInv (n : Nat) (nd : Nat → RNode D) (s : Acc D) : Prop where
  out : ∀ i, i < n → s.pushed i ++ s.pending i = rstream (nd i) (s.consumed i)
  chan : ∀ i, i < n → s.pushed i = s.taken n (i + 1) ++ s.chan (i + 1)
  src : s.offd = s.taken n 0 ++ s.chan 0

theorem AInv.start (n : Nat) (nd : Nat → RNode D) (p : List (UCmd D)) : AInv n nd (Acc.start p) where
  out i _ := by simp [Acc.start, rstream, rrun]
  chan i _ := by simp [Acc.start, Acc.taken]
  src := by simp [Acc.start, Acc.taken]

theorem AInv.load {n : Nat} {nd : Nat → RNode D} {s : Acc D} (h : AInv n nd s) {m : Msg D}
    {ms : List (Msg D)} (hm : s.chan n = m :: ms) {got : List (List (Msg D))} {cur : List (Msg D)}
    {p : List (UCmd D)} :
    AInv n nd { s with chan := upd s.chan n ms, loaded := s.loaded ++ [m], got := got, cur := cur,
                       prog := p } := by
  refine ⟨h.out, fun i hi => ?_, ?_⟩
  · have hc := h.chan i hi
    simp only [Acc.taken] at hc ⊢
    by_cases hin : i + 1 < n
    · have : i + 1 ≠ n := by omega
      simp only [hin, if_true, upd, this, if_false] at hc ⊢
      exact hc
    · have : i + 1 = n := by omega
      rw [if_neg hin] at hc ⊢
      rw [this] at hc ⊢
      rw [hc, hm]; simp [upd]
  · have hc := h.src
    simp only [Acc.taken] at hc ⊢
    by_cases h0 : 0 < n
    · have : 0 ≠ n := by omega
      simp only [h0, if_true, upd, this, if_false] at hc ⊢
      exact hc
    · have : n = 0 := by omega
      subst this
      simp only [Nat.lt_irrefl, if_false] at hc ⊢
      rw [hc, hm]; simp [upd]

theorem AInv.step {n : Nat} {nd : Nat → RNode D} {cap : Nat → Nat} {s s' : Acc D} {a : AAct}
    (h : AInv n nd s) (hs : astep n nd cap s a = some s') : AInv n nd s' := by
  cases a with
  | pop i =>
    simp only [astep] at hs
    split at hs
    · rename_i hc
      obtain ⟨hi, hp, he⟩ := hc
      split at hs
      · simp at hs
      · rename_i m ms hm
        simp only [Option.some.injEq] at hs
        subst hs
        refine ⟨?_, ?_, ?_⟩
        · intro j hj
          by_cases hji : j = i
          · subst hji
            simp only [upd, if_true]
            rw [rstream_snoc, ← h.out j hj, hp, List.append_nil]
          · simp only [upd, hji, if_false]; exact h.out j hj
        · intro j hj
          have hc := h.chan j hj
          simp only [Acc.taken] at hc ⊢
          by_cases hji : j + 1 = i
          · subst hji
            simp only [hi, upd, if_true] at hc ⊢
            rw [hc, hm]; simp
          · simp only [upd, hji, if_false]; exact hc
        · have hc := h.src
          simp only [Acc.taken] at hc ⊢
          by_cases h0 : i = 0
          · subst h0
            simp only [hi, upd, if_true] at hc ⊢
            rw [hc, hm]; simp
          · have : (0 : Nat) ≠ i := fun hh => h0 hh.symm
            simp only [upd, this, if_false]; exact hc
    · simp at hs
  | push i =>
    simp only [astep] at hs
    split at hs
    · rename_i hc
      obtain ⟨hi, hcap⟩ := hc
      split at hs
      · simp at hs
      · rename_i m ms hm
        simp only [Option.some.injEq] at hs
        subst hs
        refine ⟨?_, ?_, ?_⟩
        · intro j hj
          by_cases hji : j = i
          · subst hji
            simp only [upd, if_true]
            rw [← h.out j hj, hm]; simp
          · simp only [upd, hji, if_false]; exact h.out j hj
        · intro j hj
          have hch := h.chan j hj
          simp only [Acc.taken] at hch ⊢
          by_cases hji : j = i
          · subst hji
            simp only [upd, if_true]
            rw [hch]; simp
          · have : j + 1 ≠ i + 1 := by omega
            simp only [upd, hji, this, if_false]; exact hch
        · have hc := h.src
          simp only [Acc.taken] at hc ⊢
          have : (0 : Nat) ≠ i + 1 := by omega
          simp only [upd, this, if_false]; exact hc
    · simp at hs
  | user =>
    simp only [astep, ustep] at hs
    split at hs
    · simp at hs
    · split at hs
      · simp only [Option.some.injEq] at hs
        subst hs
        exact ⟨h.out, h.chan, h.src⟩
      · simp at hs
    · split at hs
      · simp only [Option.some.injEq] at hs
        subst hs
        refine ⟨h.out, fun i hi => ?_, ?_⟩
        · have hc := h.chan i hi
          simp only [Acc.taken] at hc ⊢
          have : i + 1 ≠ 0 := by omega
          simp only [upd, this, if_false]; exact hc
        · have hc := h.src
          simp only [Acc.taken] at hc ⊢
          simp only [upd, if_true]
          rw [hc]; simp
      · simp at hs
    · split at hs
      · simp at hs
      · rename_i ms hm
        simp only [Option.some.injEq] at hs
        subst hs
        exact h.load hm
      · rename_i m ms _ hm
        simp only [Option.some.injEq] at hs
        subst hs
        exact h.load (p := s.prog) (got := s.got) hm
    · split at hs
      · simp only [Option.some.injEq] at hs
        subst hs
        exact ⟨h.out, h.chan, h.src⟩
      · simp at hs

theorem rsem_mono (nd : Nat → RNode D) {xs ys : List (Msg D)} (h : xs <+: ys) (k : Nat) :
    rsem nd xs k <+: rsem nd ys k := by
  induction k with
  | zero => exact h
  | succ k ih => exact rstream_mono _ ih

theorem AInv.taken_prefix {n : Nat} {nd : Nat → RNode D} {s : Acc D} (h : AInv n nd s) (k : Nat)
    (hk : k ≤ n) : s.taken n k <+: rsem nd s.offd k := by
  induction k with
  | zero => rw [rsem, h.src]; exact List.prefix_append _ _
  | succ k ih =>
    have ih := ih (by omega)
    have h1 : s.taken n (k + 1) <+: s.pushed k := by
      rw [h.chan k (by omega)]; exact List.prefix_append _ _
    have h2 : s.pushed k <+: rstream (nd k) (s.consumed k) := by
      rw [← h.out k (by omega)]; exact List.prefix_append _ _
    have h3 : s.taken n k = s.consumed k := by simp [Acc.taken, show k < n by omega]
    rw [h3] at ih
    exact (h1.trans h2).trans (rstream_mono _ ih)

theorem AInv.reach {n : Nat} {nd : Nat → RNode D} {cap : Nat → Nat} {p : List (UCmd D)} {s : Acc D}
    (hr : Reach (astep n nd cap) (Acc.start p) s) : AInv n nd s :=
  hr.inv (Inv := fun x => AInv n nd x) (AInv.start n nd p) (fun _ _ _ h hs => h.step hs)

/-- **C58, every use**: whatever the main thread does — in any order, with any messages, waking the
stages when it likes — and for every interleaving and all capacities, what `load_result` has taken
out is a prefix of the composition of the stages on what was offloaded. -/
theorem C58_prefix (n : Nat) (nd : Nat → RNode D) (cap : Nat → Nat) (p : List (UCmd D)) (s : Acc D)
    (hr : Reach (astep n nd cap) (Acc.start p) s) : s.loaded <+: rsem nd s.offd n := by
  have := (AInv.reach hr).taken_prefix n (Nat.le_refl n)
  simpa [Acc.taken] using this

end FF.Node
