import Verif.Parfor.For
import Verif.Farm.GatherProps
/-!
# ParallelForPipeReduce (C81)

Models `ParallelForPipeReduce::parallel_reduce_idx` (ff/parallel_for.hpp 706-811) and its worker
`forallpipereduce_W` (ff/parallel_for_internals.hpp 912-952).

The Map part is a loop of a `ParallelFor` (`Parfor.step` without scheduler thread, `Parfor.bstep` with it).
The body sends values with `ff_send_out` into the buffer of its worker (`res`, 8192, not of fixed size), the
worker sends `EOS` into it when it has no more tasks.  The Reduce part is a multi-input node, that is a
gatherer (`Farm.gstep`) with one channel for each worker of this loop (`reduce.run_then_freeze(pfr.getnw())`).

Simplifications: a channel is a FIFO list of any length (the unbounded queue is C08); the order in which a
worker computes an index and sends the values of the index before is left open (the `box` of a worker holds
the values computed and not yet sent), which adds executions and removes none.
-/
namespace FF.PipeReduce
open FF FF.Node FF.Farm
open FF.Parfor (Range Loop A B Act BAct indices Good)

variable {D : Type}

/-- `reduceStage` (parallel_for.hpp 710-721): calls `Reduce` on each task and returns `GO_ON`.  The state is
the list of the calls of `Reduce` so far, in order. -/
def redNode (D : Type) : Node D where
  σ := List D
  init := []
  comp := false
  src := false
  svc := fun s t => match t with
    | .data d => (s ++ [d], [], .goon)
    | _ => (s, [], .goon)
  eosn := fun s => (s, [])

/-- The Map part of a loop: how it goes on, which calls of the body it has made (worker and index, in order)
and which workers have no more tasks. -/
structure MapPart where
  S : Type
  Act : Type
  step : S → Act → Option S
  log : S → List (Nat × Int)
  ret : S → Nat → Bool

/-- A call in progress. -/
structure PR (M : MapPart) (D : Type) where
  m : M.S
  /-- values computed by each worker and not yet sent -/
  box : Nat → List D
  /-- the worker has sent `EOS` -/
  eosd : Nat → Bool
  /-- the Reduce part and its channels -/
  red : GS (redNode D)

/-- the calls of `Reduce`, in order -/
def PR.reduced {M : MapPart} (s : PR M D) : List D := s.red.g.st

/-- the values of the calls of the body by worker `w` in `log`, in order -/
def valsOf (f : Int → List D) (log : List (Nat × Int)) (w : Nat) : List D :=
  ((log.filter fun e => e.1 = w).map Prod.snd).flatMap f

inductive PAct (M : MapPart) where
  /-- the Map part goes on -/
  | map (a : M.Act)
  /-- worker `w` sends its next value -/
  | push (w : Nat)
  /-- worker `w` sends `EOS` (932-936 and 940) -/
  | eos (w : Nat)
  /-- the Reduce part tries its next channel -/
  | gather

/-- `n` workers take part; the body sends the values `f i` when called on index `i` -/
def pstep (M : MapPart) (n : Nat) (f : Int → List D) (s : PR M D) : PAct M → Option (PR M D)
  | .map a =>
    match M.step s.m a with
    | none => none
    | some m' => some { s with m := m', box := fun w => s.box w ++ valsOf f ((M.log m').drop (M.log s.m).length) w }
  | .push w =>
    match s.box w with
    | [] => none
    | d :: r =>
      match gstep n s.red (.arrive w (.data d)) with
      | none => none
      | some g => some { s with box := upd s.box w r, red := g }
  | .eos w =>
    if w < n ∧ M.ret s.m w = true ∧ s.box w = [] ∧ s.eosd w = false then
      match gstep n s.red (.arrive w .eos) with
      | none => none
      | some g => some { s with eosd := upd s.eosd w true, red := g }
    else none
  | .gather =>
    match gstep n s.red .gather with
    | none => none
    | some g => some { s with red := g }

/-- A call begins: `svc_init` of the Reduce part clears the marks of its channels (gt.hpp 548); what earlier
calls have left in the channels, `left`, is still there. -/
def PR.start (M : MapPart) (m0 : M.S) (left : Nat → List (Msg D)) : PR M D :=
  ⟨m0, fun _ => [], fun _ => false, ⟨G.start _, left, left⟩⟩

/-- The Reduce part has ended and all workers have sent `EOS`: what the call waits for, next to the scheduler
thread (`ff_pipeline::wait_freezing`). -/
def PR.ended {M : MapPart} (n : Nat) (s : PR M D) : Prop :=
  s.red.g.exited = true ∧ ∀ w, w < n → s.eosd w = true

/-- `threadPause` with spinning workers (parallel_for.hpp 768-770): every worker gets `GO_OUT`
(parallel_for_internals.hpp 1120-1122) and leaves its loop, so that `svc_end` (942) is called, which sends
`EOS`.  What is then in the channels. -/
def pauseLeft (n : Nat) (chan : Nat → List (Msg D)) : Nat → List (Msg D) :=
  fun w => if w < n then chan w ++ [.eos] else chan w

/-! ## What is used of the Map part -/

structure MapOk (M : MapPart) : Prop where
  /-- calls are added at the end -/
  grow : ∀ {m a m'}, M.step m a = some m' → ∃ l, M.log m' = M.log m ++ l ∧
    ∀ w, M.ret m w = true → M.ret m' w = true ∧ ∀ e ∈ l, e.1 ≠ w

def partA (P : Parfor.Par) : MapPart where
  S := A
  Act := Act
  step := Parfor.step P
  log := A.log
  ret := fun s w => decide (s.pc w = .out)

def partB (P : Parfor.Par) : MapPart where
  S := B
  Act := BAct
  step := Parfor.bstep P
  log := B.log
  ret := fun s w => decide (s.pc w = .gone)

/-! ## Proofs -/

theorem valsOf_append (f : Int → List D) (l l' : List (Nat × Int)) (w : Nat) :
    valsOf f (l ++ l') w = valsOf f l w ++ valsOf f l' w := by simp [valsOf]

theorem valsOf_none {f : Int → List D} {l : List (Nat × Int)} {w : Nat} (h : ∀ e ∈ l, e.1 ≠ w) :
    valsOf f l w = [] := by
  unfold valsOf
  rw [List.filter_eq_nil_iff.2 (by intro e he; simpa using h e he)]
  rfl

theorem red_stays : StaysOn (redNode D) := fun _ _ => Or.inr (Or.inl rfl)

/-- the tasks among the messages -/
def datas : List (Msg D) → List D
  | [] => []
  | .data d :: ms => d :: datas ms
  | _ :: ms => datas ms

theorem datas_append (l l' : List (Msg D)) : datas (l ++ l') = datas l ++ datas l' := by
  induction l with
  | nil => rfl
  | cons m l ih => cases m <;> simp [datas, ih]

theorem datas_map (l : List D) : datas (l.map Msg.data) = l := by
  induction l with
  | nil => rfl
  | cons d l ih => simp [datas, ih]

theorem cstate_red (ms : List (Msg D)) (s : List D) : cstate (redNode D) s ms = s ++ datas ms := by
  induction ms generalizing s with
  | nil => exact (List.append_nil s).symm
  | cons m ms ih =>
    cases m with
    | data d =>
      have := ih (s ++ [d])
      simp only [cstate, datas, redNode] at this ⊢
      rw [this]; simp
    | _ => have := ih s; simp only [cstate, datas, redNode] at this ⊢; exact this

structure PInv (M : MapPart) (n : Nat) (f : Int → List D) (m0 : M.S) (s : PR M D) : Prop where
  m : Reach M.step m0 s.m
  red : Reach (gstep n) (GS.start (redNode D)) s.red
  /-- what is in the channel of a worker -/
  sent : ∀ w, ∃ vs, s.red.sent w = vs.map Msg.data ++ (if s.eosd w then [.eos] else []) ∧
    vs ++ s.box w = valsOf f (M.log s.m) w
  done : ∀ w, s.eosd w = true → w < n ∧ M.ret s.m w = true ∧ s.box w = []

theorem PInv.start (M : MapPart) (n : Nat) (f : Int → List D) (m0 : M.S) (h0 : M.log m0 = []) :
    PInv M n f m0 (PR.start M m0 fun _ => []) where
  m := Reach.refl _ _
  red := Reach.refl _ _
  sent := fun w => ⟨[], by simp [PR.start], by simp [PR.start, h0, valsOf]⟩
  done := by simp [PR.start]

theorem gather_sent {n : Nat} {c : Node D} {s s' : GS c} (h : gstep n s .gather = some s') : s'.sent = s.sent := by
  simp only [gstep] at h
  split at h
  · simp at h
  all_goals
    simp only [Option.some.injEq] at h
    subst h; rfl

theorem PInv.step {M : MapPart} (hM : MapOk M) {n : Nat} {f : Int → List D} {m0 : M.S} {s s' : PR M D} {a : PAct M}
    (h : PInv M n f m0 s) (hs : pstep M n f s a = some s') : PInv M n f m0 s' := by
  cases a with
  | map a =>
    simp only [pstep] at hs
    split at hs
    · simp at hs
    · rename_i m' hm
      simp only [Option.some.injEq] at hs
      subst hs
      obtain ⟨l, hl, hr⟩ := hM.grow hm
      refine ⟨h.m.tail hm, h.red, fun w => ?_, fun w hw => ?_⟩
      · obtain ⟨vs, h1, h2⟩ := h.sent w
        refine ⟨vs, h1, ?_⟩
        simp only
        rw [hl, List.drop_left, valsOf_append, ← h2, List.append_assoc]
      · obtain ⟨h1, h2, h3⟩ := h.done w hw
        refine ⟨h1, (hr w h2).1, ?_⟩
        simp only
        rw [hl, List.drop_left, h3, valsOf_none (hr w h2).2]; rfl
  | push w =>
    simp only [pstep] at hs
    split at hs
    · simp at hs
    · rename_i d r hb
      split at hs
      · simp at hs
      · rename_i g hg
        simp only [Option.some.injEq] at hs
        subst hs
        refine ⟨h.m, h.red.tail hg, fun v => ?_, fun v hv => ?_⟩
        · obtain ⟨vs, h1, h2⟩ := h.sent v
          simp only [gstep, Option.some.injEq] at hg
          subst hg
          by_cases hvw : v = w
          · subst hvw
            have he : s.eosd v = false := by
              cases he : s.eosd v with
              | false => rfl
              | true => have := (h.done v he).2.2; rw [hb] at this; simp at this
            refine ⟨vs ++ [d], ?_, ?_⟩
            · simp only [upd, if_true, h1, he]; simp
            · rw [← h2, hb]; simp [upd]
          · exact ⟨vs, by simp only [upd, hvw, if_false]; exact h1, by simp only [upd, hvw, if_false]; exact h2⟩
        · obtain ⟨h1, h2, h3⟩ := h.done v hv
          refine ⟨h1, h2, ?_⟩
          by_cases hvw : v = w
          · subst hvw; rw [hb] at h3; simp at h3
          · simp only [upd, hvw, if_false]; exact h3
  | eos w =>
    simp only [pstep] at hs
    split at hs
    · rename_i hc
      split at hs
      · simp at hs
      · rename_i g hg
        simp only [Option.some.injEq] at hs
        subst hs
        refine ⟨h.m, h.red.tail hg, fun v => ?_, fun v hv => ?_⟩
        · obtain ⟨vs, h1, h2⟩ := h.sent v
          simp only [gstep, Option.some.injEq] at hg
          subst hg
          refine ⟨vs, ?_, h2⟩
          by_cases hvw : v = w
          · subst hvw
            simp only [upd, if_true, h1, hc.2.2.2]; simp
          · simp only [upd, hvw, if_false]; exact h1
        · by_cases hvw : v = w
          · subst hvw; exact ⟨hc.1, hc.2.1, hc.2.2.1⟩
          · simp only [upd, hvw, if_false] at hv; exact h.done v hv
    · simp at hs
  | gather =>
    simp only [pstep] at hs
    split at hs
    · simp at hs
    · rename_i g hg
      simp only [Option.some.injEq] at hs
      subst hs
      refine ⟨h.m, h.red.tail hg, fun v => ?_, h.done⟩
      simp only
      rw [gather_sent hg]; exact h.sent v

theorem PInv.kinds {M : MapPart} {n : Nat} {f : Int → List D} {m0 : M.S} {s : PR M D} (h : PInv M n f m0 s) (w : Nat) :
    ∀ x ∈ s.red.sent w, (∃ d, x = .data d) ∨ x = .eos := by
  obtain ⟨vs, h1, _⟩ := h.sent w
  intro x hx
  rw [h1, List.mem_append] at hx
  rcases hx with hx | hx
  · obtain ⟨d, _, rfl⟩ := List.mem_map.1 hx; exact Or.inl ⟨d, rfl⟩
  · split at hx
    · right; simpa using hx
    · simp at hx

theorem PInv.nofreeze {M : MapPart} {n : Nat} {f : Int → List D} {m0 : M.S} {s : PR M D} (h : PInv M n f m0 s) :
    NoNofreeze s.red.sent := fun r hr => by
  rcases h.kinds r _ hr with ⟨d, hd⟩ | hd <;> simp at hd

theorem PInv.cleanSent {M : MapPart} {n : Nat} {f : Int → List D} {m0 : M.S} {s : PR M D} (h : PInv M n f m0 s) :
    CleanSent s.red.sent := fun r => by
  constructor <;> intro hr <;> rcases h.kinds r _ hr with ⟨d, hd⟩ | hd <;> simp at hd

theorem PInv.onlyEos {M : MapPart} {n : Nat} {f : Int → List D} {m0 : M.S} {s : PR M D} (h : PInv M n f m0 s) :
    ∀ x ∈ s.red.g.got, x.2.isMark = true → x.2 = .eos := by
  rintro ⟨r, m⟩ hx hm
  have hg := GSInv.reach h.red
  rcases h.kinds r m (by rw [hg.order r]; exact List.mem_append_left _ (mem_from.2 hx)) with ⟨d, rfl⟩ | rfl
  · simp [Msg.isMark] at hm
  · rfl

/-- the calls of `Reduce` are the tasks received, in order -/
theorem PInv.reduced {M : MapPart} {n : Nat} {f : Int → List D} {m0 : M.S} {s : PR M D} (h : PInv M n f m0 s) :
    s.reduced = datas (s.red.g.got.map Prod.snd) := by
  have := ((GOut.reach red_stays h.red).out ((GSInv.reach h.red).clean h.cleanSent) h.onlyEos).1
  exact this.trans (cstate_red _ [])

/-- the tasks received, with the worker they come from -/
def tagged : List (Nat × Msg D) → List (Nat × D)
  | [] => []
  | (w, .data d) :: l => (w, d) :: tagged l
  | _ :: l => tagged l

theorem tagged_snd (l : List (Nat × Msg D)) : (tagged l).map Prod.snd = datas (l.map Prod.snd) := by
  induction l with
  | nil => rfl
  | cons e l ih => obtain ⟨w, m⟩ := e; cases m <;> simp [tagged, datas, ih]

theorem tagged_from (l : List (Nat × Msg D)) (w : Nat) :
    ((tagged l).filter fun e => e.1 = w).map Prod.snd = datas (from_ l w) := by
  induction l with
  | nil => rfl
  | cons e l ih =>
    obtain ⟨v, m⟩ := e
    unfold from_ at ih ⊢
    by_cases hv : v = w
    · subst hv; cases m <;> simp [tagged, datas, ih]
    · cases m <;> simp [tagged, ih, hv]

theorem tagged_mem {l : List (Nat × Msg D)} {e : Nat × D} (h : e ∈ tagged l) : (e.1, Msg.data e.2) ∈ l := by
  induction l with
  | nil => simp [tagged] at h
  | cons x l ih =>
    obtain ⟨v, m⟩ := x
    cases m with
    | data d =>
      simp only [tagged, List.mem_cons] at h
      rcases h with rfl | h
      · simp
      · exact List.mem_cons_of_mem _ (ih h)
    | _ => exact List.mem_cons_of_mem _ (ih h)

/-- lists with tags below `n` and the same parts for each tag are permutations -/
theorem perm_parts {n : Nat} : ∀ {l : List (Nat × D)}, (∀ e ∈ l, e.1 < n) →
    (l.map Prod.snd).Perm ((List.range n).flatMap fun w => (l.filter fun e => e.1 = w).map Prod.snd) := by
  classical
  intro l hl
  induction l with
  | nil => simp
  | cons e l ih =>
    have h1 := ih fun e he => hl e (List.mem_cons_of_mem _ he)
    have hw : e.1 < n := hl e (by simp)
    rw [List.map_cons]
    refine (h1.cons e.2).trans ?_
    have hsplit : List.range n = List.range e.1 ++ e.1 :: (List.range' (e.1 + 1) (n - e.1 - 1)) := by
      rw [List.range_eq_range', List.range_eq_range', ← List.range'_succ,
        show (List.range' 0 e.1 ++ List.range' e.1 (n - e.1 - 1 + 1)) =
          List.range' 0 e.1 ++ List.range' (0 + 1 * e.1) (n - e.1 - 1 + 1) by simp,
        List.range'_append]
      congr 1; omega
    rw [hsplit]
    simp only [List.flatMap_append, List.flatMap_cons]
    have hno : ∀ (ws : List Nat), (∀ w ∈ ws, w ≠ e.1) →
        (ws.flatMap fun w => ((e :: l).filter fun e => e.1 = w).map Prod.snd) =
        ws.flatMap fun w => (l.filter fun e => e.1 = w).map Prod.snd := by
      intro ws hws
      rw [List.flatMap_def, List.flatMap_def]
      congr 1
      apply List.map_congr_left
      intro w hw'
      have : ¬ e.1 = w := fun hh => hws w hw' hh.symm
      simp [this]
    rw [hno _ (by intro w hw'; simp at hw'; omega), hno _ (by intro w hw'; simp [List.mem_range'] at hw'; omega)]
    simp only [List.filter_cons, decide_true, if_true, List.map_cons, List.cons_append]
    exact (List.perm_middle).symm

/-- the state at the end, in terms of the calls of the body -/
theorem PInv.final {M : MapPart} {n : Nat} (hn : 0 < n) {f : Int → List D} {m0 : M.S} {s : PR M D}
    (h : PInv M n f m0 s) (hx : s.red.g.exited = true) :
    (∀ w, w < n → s.eosd w = true ∧ M.ret s.m w = true) ∧
    (∀ w, w < n → datas (from_ s.red.g.got w) = valsOf f (M.log s.m) w ∧ s.red.chan w = []) := by
  have hg := GSInv.reach h.red
  have key : ∀ w, w < n → s.eosd w = true ∧ datas (from_ s.red.g.got w) = valsOf f (M.log s.m) w ∧ s.red.chan w = [] := by
    intro w hw
    obtain ⟨ms, m, h1, h2, h3, rest, h4⟩ :=
      C26_all_received_partial n hn _ red_stays s.red h.red h.nofreeze h.cleanSent hx w hw
    obtain ⟨vs, h5, h6⟩ := h.sent w
    have hor := hg.order w
    cases he : s.eosd w with
    | false =>
      exfalso
      rw [he] at h5
      have hm : m ∈ s.red.sent w := by rw [h4]; simp
      rw [h5] at hm
      simp only [Bool.false_eq_true, if_false, List.append_nil, List.mem_map] at hm
      obtain ⟨d, _, rfl⟩ := hm
      simp [Msg.isMark] at h1
    | true =>
      rw [he] at h5
      simp only [if_true] at h5
      have hmm : m = .eos := by
        rcases h.kinds w m (by rw [h4]; simp) with ⟨d, rfl⟩ | rfl
        · simp [Msg.isMark] at h1
        · rfl
      subst hmm
      -- the end mark is the last message sent
      have hrest : rest = [] := by
        rw [h4] at h5
        by_contra hne
        obtain ⟨r', x, rfl⟩ : ∃ r' x, rest = r' ++ [x] := ⟨_, _, (List.dropLast_append_getLast hne).symm⟩
        rw [← List.append_assoc] at h5
        obtain ⟨h7, _⟩ := List.append_inj' h5 rfl
        have : Msg.eos ∈ vs.map (Msg.data (D := D)) := by rw [← h7]; simp
        simp at this
      subst hrest
      rw [List.append_nil] at h4
      have hmv : ms = vs.map Msg.data := by
        rw [h4] at h5
        exact (List.append_inj' h5 rfl).1
      have hb := (h.done w he).2.2
      rw [hb, List.append_nil] at h6
      refine ⟨rfl, ?_, ?_⟩
      · rw [h3, datas_append, hmv, datas_map, h6]; simp [datas]
      · rw [h3, h4] at hor
        simpa using hor
  exact ⟨fun w hw => ⟨(key w hw).1, (h.done w (key w hw).1).2.1⟩, fun w hw => (key w hw).2⟩

/-- what the calls of `Reduce` are at the end -/
theorem PInv.all {M : MapPart} {n : Nat} (hn : 0 < n) {f : Int → List D} {m0 : M.S} {s : PR M D}
    (h : PInv M n f m0 s) (hx : s.red.g.exited = true) (hw : ∀ e ∈ M.log s.m, e.1 < n) :
    (∃ t : List (Nat × D), t.map Prod.snd = s.reduced ∧ (∀ e ∈ t, e.1 < n) ∧
      ∀ w, w < n → (t.filter fun e => e.1 = w).map Prod.snd = valsOf f (M.log s.m) w) ∧
    s.reduced.Perm (((M.log s.m).map Prod.snd).flatMap f) := by
  obtain ⟨_, h2⟩ := h.final hn hx
  have ht : ∀ e ∈ tagged s.red.g.got, e.1 < n := fun e he => (GSInv.reach h.red).g.chan _ _ (tagged_mem he)
  have hparts : ∀ w, w < n → ((tagged s.red.g.got).filter fun e => e.1 = w).map Prod.snd = valsOf f (M.log s.m) w :=
    fun w hw' => by rw [tagged_from]; exact (h2 w hw').1
  refine ⟨⟨tagged s.red.g.got, by rw [tagged_snd, h.reduced], ht, hparts⟩, ?_⟩
  rw [h.reduced, ← tagged_snd]
  refine (perm_parts ht).trans ?_
  have e1 : ((List.range n).flatMap fun w => ((tagged s.red.g.got).filter fun e => e.1 = w).map Prod.snd) =
      ((List.range n).flatMap fun w => ((M.log s.m).filter fun e => e.1 = w).map Prod.snd).flatMap f := by
    rw [List.flatMap_assoc, List.flatMap_def, List.flatMap_def]
    congr 1
    apply List.map_congr_left
    intro w hw'
    exact hparts w (List.mem_range.1 hw')
  rw [e1]
  exact ((perm_parts hw).symm).flatMap_right f

/-! ## Liveness -/

theorem exec_snoc {S Act : Type} {step : S → Act → Option S} {s s1 s2 : S} {as : List Act} {a : Act}
    (h : exec step s as = some s1) (h' : step s1 a = some s2) : exec step s (as ++ [a]) = some s2 := by
  rw [exec_append, h]; simp [exec, h']

/-- progress and a bound on the steps give completion from every state -/
theorem can_finish {S Act : Type} {step : S → Act → Option S} {s0 : S} {bad : Act → Bool} {fin : S → Prop} {b : Nat}
    (H : ∀ acts s, exec step s0 acts = some s →
      (¬ fin s → ∃ a s', bad a = false ∧ step s a = some s') ∧ acts.length ≤ b + 6 * acts.countP bad)
    {s : S} (hr : Reach step s0 s) : ∃ s', Reach step s s' ∧ fin s' := by
  obtain ⟨acts0, h0⟩ := hr
  have key : ∀ k (acts : List Act) (s : S), b + 6 * acts.countP bad - acts.length ≤ k →
      exec step s0 acts = some s → ∃ s', Reach step s s' ∧ fin s' := by
    intro k
    induction k with
    | zero =>
      intro acts s hk he
      by_cases ho : fin s
      · exact ⟨s, Reach.refl _ _, ho⟩
      · obtain ⟨a, s', ha, hs'⟩ := (H acts s he).1 ho
        have := (H _ _ (exec_snoc he hs')).2
        rw [List.countP_append] at this
        simp [ha] at this
        omega
    | succ k ih =>
      intro acts s hk he
      by_cases ho : fin s
      · exact ⟨s, Reach.refl _ _, ho⟩
      · obtain ⟨a, s', ha, hs'⟩ := (H acts s he).1 ho
        obtain ⟨s2, h2, h3⟩ := ih (acts ++ [a]) s' (by rw [List.countP_append]; simp [ha]; omega) (exec_snoc he hs')
        exact ⟨s2, (Reach.tail (Reach.refl _ _) hs').trans h2, h3⟩
  exact key _ acts0 s (Nat.le_refl _) h0

/-- the Map part goes on without the rest -/
theorem map_reach {M : MapPart} {n : Nat} {f : Int → List D} {m m' : M.S} (hr : Reach M.step m m') :
    ∀ s : PR M D, s.m = m → ∃ s', Reach (pstep M n f) s s' ∧ s'.m = m' ∧ s'.eosd = s.eosd ∧ s'.red = s.red := by
  obtain ⟨acts, h⟩ := hr
  induction acts generalizing m with
  | nil =>
    intro s hs
    simp only [exec, Option.some.injEq] at h
    exact ⟨s, Reach.refl _ _, hs.trans h, rfl, rfl⟩
  | cons a acts ih =>
    intro s hs
    simp only [exec] at h
    cases ha : M.step m a with
    | none => rw [ha] at h; simp at h
    | some m1 =>
      rw [ha] at h
      have hst : pstep M n f s (.map a) = some { s with m := m1, box := fun w => s.box w ++ valsOf f ((M.log m1).drop (M.log s.m).length) w } := by
        simp only [pstep, hs, ha]
      obtain ⟨s', h1, h2, h3⟩ := ih h { s with m := m1, box := fun w => s.box w ++ valsOf f ((M.log m1).drop (M.log s.m).length) w } rfl
      exact ⟨s', (Reach.tail (Reach.refl _ _) hst).trans h1, h2, h3⟩

/-- a worker sends all that it has computed -/
theorem push_reach {M : MapPart} {n : Nat} {f : Int → List D} (w : Nat) :
    ∀ (k : Nat) (s : PR M D), (s.box w).length = k →
    ∃ s', Reach (pstep M n f) s s' ∧ s'.m = s.m ∧ s'.eosd = s.eosd ∧ s'.box w = [] ∧ s'.red.g = s.red.g := by
  intro k
  induction k with
  | zero => intro s hk; exact ⟨s, Reach.refl _ _, rfl, rfl, List.length_eq_zero_iff.1 hk, rfl⟩
  | succ k ih =>
    intro s hk
    cases hb : s.box w with
    | nil => rw [hb] at hk; simp at hk
    | cons d r =>
      rw [hb] at hk
      obtain ⟨s', h1, h2, h3, h4⟩ := ih { s with
        box := upd s.box w r
        red := { s.red with
          chan := upd s.red.chan w (s.red.chan w ++ [.data d]), sent := upd s.red.sent w (s.red.sent w ++ [.data d]) } }
        (by simp only [upd, if_true]; simpa using hk)
      refine ⟨s', (Reach.tail (Reach.refl _ _) (a := .push w) ?_).trans h1, h2, h3, h4⟩
      simp only [pstep, hb, gstep]

/-- the first `k` workers send their values and `EOS` -/
theorem eos_reach {M : MapPart} {n : Nat} {f : Int → List D} (s0 : PR M D)
    (hr : ∀ w, w < n → M.ret s0.m w = true) :
    ∀ k, k ≤ n → ∃ s', Reach (pstep M n f) s0 s' ∧ s'.m = s0.m ∧ s'.red.g = s0.red.g ∧ ∀ w, w < k → s'.eosd w = true := by
  intro k
  induction k with
  | zero => intro _; exact ⟨s0, Reach.refl _ _, rfl, rfl, by simp⟩
  | succ k ih =>
    intro hk
    obtain ⟨s1, h1, h2, hg, h3⟩ := ih (by omega)
    cases he : s1.eosd k with
    | true =>
      refine ⟨s1, h1, h2, hg, fun w hw => ?_⟩
      rcases Nat.lt_succ_iff_lt_or_eq.1 hw with h | rfl
      · exact h3 w h
      · exact he
    | false =>
      obtain ⟨s2, h4, h5, h6, h7, hg2⟩ := push_reach (n := n) (f := f) k _ s1 rfl
      have hst : pstep M n f s2 (.eos k) = some { s2 with
          eosd := upd s2.eosd k true
          red := { s2.red with
            chan := upd s2.red.chan k (s2.red.chan k ++ [.eos]), sent := upd s2.red.sent k (s2.red.sent k ++ [.eos]) } } := by
        have hc : k < n ∧ M.ret s2.m k = true ∧ s2.box k = [] ∧ s2.eosd k = false :=
          ⟨by omega, by rw [h5, h2]; exact hr k (by omega), h7, by rw [h6]; exact he⟩
        simp only [pstep, if_pos hc, gstep]
      refine ⟨_, (h1.trans h4).tail hst, by simp only; rw [h5, h2], by simp only; rw [hg2, hg], fun w hw => ?_⟩
      simp only [upd]
      split
      · rfl
      · rw [h6]; exact h3 w (by omega)

/-- how much is in the channels of the first `n` workers -/
def waiting (n : Nat) (chan : Nat → List (Msg D)) : Nat := ((List.range n).map fun w => (chan w).length).sum

theorem waiting_pop {n : Nat} {chan : Nat → List (Msg D)} {w : Nat} (hw : w < n) (hc : chan w ≠ []) :
    waiting n (upd chan w (chan w).tail) + 1 = waiting n chan := by
  unfold waiting
  induction n with
  | zero => omega
  | succ n ih =>
    simp only [List.range_succ, List.map_append, List.sum_append, List.map_cons, List.map_nil, List.sum_cons, List.sum_nil]
    by_cases hwn : w = n
    · subst hwn
      have h1 : (List.range w).map (fun v => (upd chan w (chan w).tail v).length) =
          (List.range w).map fun v => (chan v).length := by
        apply List.map_congr_left
        intro v hv
        have : v ≠ w := by simp at hv; omega
        simp [upd, this]
      rw [h1]
      have : (chan w).length ≠ 0 := by simpa using hc
      simp [upd, List.length_tail]
      omega
    · have h2 := ih (by omega)
      have : ¬ n = w := fun hh => hwn hh.symm
      simp only [upd, this, if_false] at h2 ⊢
      omega

/-- once all workers have sent `EOS`, an attempt of the Reduce part always gets a message -/
theorem PInv.pop {M : MapPart} {n : Nat} (hn : 0 < n) {f : Int → List D} {m0 : M.S} {s : PR M D}
    (h : PInv M n f m0 s) (he : ∀ w, w < n → s.eosd w = true) (hx : s.red.g.exited = false) :
    ∃ s', pstep M n f s .gather = some s' ∧ waiting n s'.red.chan < waiting n s.red.chan ∧ s'.m = s.m ∧ s'.eosd = s.eosd := by
  have hg := GSInv.reach h.red
  -- an online channel is not empty
  have hne : ∀ r, r < n → s.red.g.offline r = false → s.red.chan r ≠ [] := by
    intro r hr hoff hc
    obtain ⟨vs, h1, _⟩ := h.sent r
    have hor := hg.order r
    rw [hc, List.append_nil] at hor
    rw [he r hr] at h1
    have : Msg.eos ∈ from_ s.red.g.got r := by rw [← hor, h1]; simp
    have := hg.g.alive r hoff _ this
    simp [Msg.isMark] at this
  cases hsel : select n s.red.g.offline s.red.g.nextr1 with
  | none =>
    exfalso
    have hall := select_none hsel
    have := (C26_ends_iff_partial n hn _ red_stays s.red h.red h.nofreeze h.cleanSent).2
      fun r hr => (hg.g.off r).1 (hall r hr)
    rw [hx] at this; simp at this
  | some r =>
    obtain ⟨hr, hoff⟩ := select_some hsel
    have hc := hne r hr hoff
    cases hch : s.red.chan r with
    | nil => exact absurd hch hc
    | cons m rest =>
      have hatt : s.red.g.attempt n (fun r => (s.red.chan r).head?) = some (s.red.g.handle n r m, some r) := by
        unfold G.attempt
        rw [if_neg (by rw [hx]; simp), hsel]
        simp [hch]
      refine ⟨{ s with red := { s.red with g := s.red.g.handle n r m, chan := upd s.red.chan r (s.red.chan r).tail } }, ?_, ?_, rfl, rfl⟩
      · simp only [pstep, gstep, hatt]
      · have := waiting_pop hr hc
        simp only
        omega

theorem PInv.drain {M : MapPart} (hM : MapOk M) {n : Nat} (hn : 0 < n) {f : Int → List D} {m0 : M.S} :
    ∀ (k : Nat) (s : PR M D), PInv M n f m0 s → (∀ w, w < n → s.eosd w = true) → waiting n s.red.chan ≤ k →
    ∃ s', Reach (pstep M n f) s s' ∧ s'.ended n ∧ s'.m = s.m := by
  intro k
  induction k with
  | zero =>
    intro s h he hk
    cases hx : s.red.g.exited with
    | true => exact ⟨s, Reach.refl _ _, ⟨hx, he⟩, rfl⟩
    | false => obtain ⟨s', _, h2, _⟩ := h.pop hn he hx; omega
  | succ k ih =>
    intro s h he hk
    cases hx : s.red.g.exited with
    | true => exact ⟨s, Reach.refl _ _, ⟨hx, he⟩, rfl⟩
    | false =>
      obtain ⟨s1, h1, h2, h3, h4⟩ := h.pop hn he hx
      obtain ⟨s2, h5, h6, h7⟩ := ih s1 (h.step hM h1) (by rw [h4]; exact he) (by omega)
      exact ⟨s2, (Reach.tail (Reach.refl _ _) h1).trans h5, h6, h7.trans h3⟩

/-- from every state the call can end, if the Map part can -/
theorem PInv.canEnd {M : MapPart} (hM : MapOk M) {n : Nat} (hn : 0 < n) {f : Int → List D} {m0 : M.S} {s : PR M D}
    (h : PInv M n f m0 s) {m' : M.S} (hm : Reach M.step s.m m') (hr : ∀ w, w < n → M.ret m' w = true) :
    ∃ s', Reach (pstep M n f) s s' ∧ s'.ended n ∧ s'.m = m' := by
  obtain ⟨s1, h1, h2, _⟩ := map_reach (n := n) (f := f) hm s rfl
  obtain ⟨s2, h3, h4, _, h5⟩ := eos_reach (f := f) s1 (by rw [h2]; exact hr) n (Nat.le_refl _)
  have hi : PInv M n f m0 s2 := (h1.trans h3).inv h fun _ _ _ hi hs => hi.step hM hs
  obtain ⟨s3, h6, h7, h8⟩ := hi.drain hM hn _ s2 h5 (Nat.le_refl _)
  exact ⟨s3, (h1.trans h3).trans h6, h7, by rw [h8, h4, h2]⟩

end FF.PipeReduce
