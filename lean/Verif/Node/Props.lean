import Verif.Node.Model
/-!
# C19, C20, C47: nodes, pipelines, combined nodes
-/
namespace FF.Node
variable {D : Type}

/-! ## C19: the service loop -/

/-- The answers of the user's `svc` to a sequence of tasks, each call seeing the state left by the
previous one: messages sent and value returned. -/
def answers (n : Node D) : n.σ → List (Msg D) → List (List (Msg D) × Msg D)
  | _, [] => []
  | s, t :: ts => (n.svc s t).2 :: answers n (n.svc s t).1 ts

/-- state of the user's node after a sequence of tasks -/
def userState (n : Node D) : n.σ → List (Msg D) → n.σ
  | s, [] => s
  | s, t :: ts => userState n (n.svc s t).1 ts

/-- Specification of what one answer puts on the output channel: the messages sent, then the value
returned unless it is a control value. -/
def emitted (r : List (Msg D) × Msg D) : List (Msg D) :=
  r.1 ++ (match r.2 with
    | .data d => [.data d]
    | .eos => [.eos]
    | .nul => [.eos]
    | .eosw => [.eosw]
    | _ => [])

/-- the answer asks for more input -/
def wantsMore (r : List (Msg D) × Msg D) : Prop :=
  r.2 = .goon ∨ r.2 = .flush ∨ ∃ d, r.2 = .data d

/-- A task: not an end mark and not `GO_OUT`. -/
def isTask : Msg D → Bool
  | .eos | .eosw | .eosnf | .goout => false
  | _ => true

theorem emitted_eq (r : List (Msg D) × Msg D) : emitted r = r.1 ++ visible r.2 := by
  obtain ⟨a, b⟩ := r
  cases b <;> rfl

theorem continues_iff (r : List (Msg D) × Msg D) : continues r.2 = true ↔ wantsMore r := by
  obtain ⟨a, b⟩ := r
  cases b <;> simp [continues, wantsMore]

theorem body_task (n : Node D) (l : L n) {t : Msg D} (h : isTask t = true) :
    body n l t = svcBody n l t := by
  cases t <;> simp [isTask] at h <;> rfl

theorem body_mark (n : Node D) (l : L n) {m : Msg D} (h : m.isMark = true) :
    ∃ fwd, body n l m = markBody n l fwd := by
  cases m <;> simp [Msg.isMark] at h
  all_goals exact ⟨_, rfl⟩

theorem run_exited (n : Node D) (l : L n) (h : l.exited = true) (ms : List (Msg D)) :
    run n l ms = (l, []) := by
  cases ms with
  | nil => rfl
  | cons m ms => simp [run, h]

theorem run_cons (n : Node D) (l : L n) (h : l.exited = false) (m : Msg D) (ms : List (Msg D)) :
    run n l (m :: ms) = ((run n (body n l m).1 ms).1, (body n l m).2 ++ (run n (body n l m).1 ms).2) := by
  simp [run, h]

theorem run_append (n : Node D) (l : L n) (xs ys : List (Msg D)) :
    run n l (xs ++ ys) = ((run n (run n l xs).1 ys).1, (run n l xs).2 ++ (run n (run n l xs).1 ys).2) := by
  induction xs generalizing l with
  | nil => simp [run]
  | cons x xs ih =>
    cases h : l.exited with
    | true => simp [run_exited n l h]
    | false =>
      rw [List.cons_append, run_cons n l h, run_cons n l h, ih]
      simp [List.append_assoc]

/-- **C19, while the input lasts**: for every interleaving `ms` of tasks with fewer end marks than
the node expects, as long as every answer asks for more, `svc` has been called once per task, in
order, and the output is exactly what the answers emit, in order. -/
theorem C19_in_order (n : Node D) (l : L n) (ms : List (Msg D)) (hl : l.exited = false)
    (hms : ∀ m ∈ ms, isTask m = true ∨ m.isMark = true)
    (hmarks : (ms.filter Msg.isMark).length < l.neos)
    (hans : ∀ r ∈ answers n l.st (ms.filter isTask), wantsMore r) :
    (run n l ms).1.calls = l.calls ++ ms.filter isTask ∧
    (run n l ms).2 = (answers n l.st (ms.filter isTask)).flatMap emitted ∧
    (run n l ms).1.exited = false ∧
    (run n l ms).1.st = userState n l.st (ms.filter isTask) ∧
    (run n l ms).1.neos = l.neos - (ms.filter Msg.isMark).length := by
  induction ms generalizing l with
  | nil => simp [run, answers, hl, userState]
  | cons m ms ih =>
    rw [run_cons n l hl]
    rcases hms m (by simp) with hm | hm
    · have hnm : m.isMark = false := by cases m <;> simp [isTask, Msg.isMark] at hm ⊢
      rw [List.filter_cons, if_pos hm] at hans ⊢
      rw [List.filter_cons, if_neg (by simp [hnm])] at hmarks ⊢
      simp only [answers, List.mem_cons, forall_eq_or_imp] at hans
      have hcont := (continues_iff _).2 hans.1
      rw [body_task n l hm]
      obtain ⟨h1, h2, h3, h4, h5⟩ := ih (svcBody n l m).1 (by simp [svcBody, hcont])
        (fun x hx => hms x (by simp [hx])) hmarks hans.2
      refine ⟨?_, ?_, h3, ?_, ?_⟩
      · rw [h1]; simp [svcBody]
      · rw [h2]; simp [svcBody, answers, emitted_eq]
      · rw [h4]; rfl
      · rw [h5]; rfl
    · have hnt : isTask m = false := by cases m <;> simp [isTask, Msg.isMark] at hm ⊢
      rw [List.filter_cons, if_neg (by simp [hnt])] at hans ⊢
      rw [List.filter_cons, if_pos hm] at hmarks ⊢
      obtain ⟨fwd, hb⟩ := body_mark n l hm
      simp only [List.length_cons] at hmarks
      have hb' : body n l m = ({ l with neos := l.neos - 1 }, []) := by
        rw [hb, markBody, if_pos (by omega)]
      rw [hb']
      obtain ⟨h1, h2, h3, h4, h5⟩ := ih { l with neos := l.neos - 1 } hl
        (fun x hx => hms x (by simp [hx])) (by simp only; omega) hans
      refine ⟨h1, by simpa using h2, h3, h4, ?_⟩
      rw [h5]; simp only [List.length_cons]; omega

/-- **C19, end by the input**: when the last expected end mark arrives, the node runs `eosnotify`,
sends the mark (`EOS` or `EOSW`) after everything else, and leaves the loop without another call. -/
theorem C19_end_of_input (n : Node D) (l : L n) (hn : l.neos = 1) (m : Msg D)
    (hm : m.isMark = true) :
    (body n l m).1.exited = true ∧ (body n l m).1.calls = l.calls ∧
    (body n l m).2 = (n.eosn l.st).2 ++ (match m with | .eosnf => [] | m => [m]) := by
  cases m <;> simp [Msg.isMark] at hm <;> simp [body, markBody, hn]

/-- **C19, end by the node**: when `svc` returns `EOS`, `NULL` or `EOSW` the node sends what the call
sent, then exactly one end mark, and leaves the loop. -/
theorem C19_end_by_svc (n : Node D) (l : L n) (t : Msg D) (ht : isTask t = true)
    (hr : (n.svc l.st t).2.2 = .eos ∨ (n.svc l.st t).2.2 = .nul ∨ (n.svc l.st t).2.2 = .eosw) :
    (body n l t).1.exited = true ∧ (body n l t).1.calls = l.calls ++ [t] ∧
    (body n l t).2 = (n.svc l.st t).2.1 ++
      [match (n.svc l.st t).2.2 with | .eosw => .eosw | _ => .eos] := by
  rw [body_task n l ht]
  rcases hr with hr | hr | hr <;> simp [svcBody, continues, visible, hr]

/-- **C19, nothing after the end**: once the node has left its loop it consumes and sends nothing. -/
theorem C19_after_end (n : Node D) (l : L n) (h : l.exited = true) (ms : List (Msg D)) :
    run n l ms = (l, []) := run_exited n l h ms

/-- A node that uses the control values as intended: it sends only tasks, and never returns
`GO_OUT` or `EOS_NOFREEZE`. -/
structure Plain (n : Node D) : Prop where
  sends : ∀ s t, ∀ m ∈ (n.svc s t).2.1, m.isData = true
  ret : ∀ s t, (n.svc s t).2.2 ≠ .goout ∧ (n.svc s t).2.2 ≠ .eosnf
  eosn : ∀ s, ∀ m ∈ (n.eosn s).2, m.isData = true

/-- **C19, exactly one end mark, last**: for every input made of tasks, `EOS` and `EOSW`, the output
of a plain node is tasks only while it runs, and tasks followed by exactly one end mark once it has
left its loop. -/
theorem C19_one_eos (n : Node D) (hp : Plain n) (l : L n) (hl : l.exited = false)
    (ms : List (Msg D)) (hms : ∀ m ∈ ms, isTask m = true ∨ m = .eos ∨ m = .eosw) :
    ∃ out : List (Msg D), (∀ m ∈ out, m.isData = true) ∧
      ((run n l ms).1.exited = false → (run n l ms).2 = out) ∧
      ((run n l ms).1.exited = true → (run n l ms).2 = out ++ [.eos] ∨
        (run n l ms).2 = out ++ [.eosw]) := by
  induction ms generalizing l with
  | nil => exact ⟨[], by simp, by simp [run], by simp [run, hl]⟩
  | cons m ms ih =>
    rw [run_cons n l hl]
    -- one iteration
    have hbody : ∃ out : List (Msg D), (∀ m ∈ out, m.isData = true) ∧
        ((body n l m).1.exited = false → (body n l m).2 = out) ∧
        ((body n l m).1.exited = true → (body n l m).2 = out ++ [.eos] ∨
          (body n l m).2 = out ++ [.eosw]) := by
      rcases hms m (by simp) with hm | hm
      · rw [body_task n l hm]
        have hs := hp.sends l.st m
        have hr := hp.ret l.st m
        cases hret : (n.svc l.st m).2.2 with
        | data d =>
          refine ⟨(n.svc l.st m).2.1 ++ [.data d], ?_, ?_, ?_⟩
          · intro x hx
            simp only [List.mem_append, List.mem_singleton] at hx
            rcases hx with hx | rfl
            · exact hs x hx
            · rfl
          · simp [svcBody, visible, hret]
          · simp [svcBody, continues, hret]
        | nul => exact ⟨_, hs, by simp [svcBody, continues, hret], by simp [svcBody, visible, hret]⟩
        | eos => exact ⟨_, hs, by simp [svcBody, continues, hret], by simp [svcBody, visible, hret]⟩
        | eosw => exact ⟨_, hs, by simp [svcBody, continues, hret], by simp [svcBody, visible, hret]⟩
        | eosnf => exact absurd hret hr.2
        | goon => exact ⟨_, hs, by simp [svcBody, visible, hret], by simp [svcBody, continues, hret]⟩
        | goout => exact absurd hret hr.1
        | flush => exact ⟨_, hs, by simp [svcBody, visible, hret], by simp [svcBody, continues, hret]⟩
      · have hmm : body n l m = markBody n l [m] := by rcases hm with rfl | rfl <;> rfl
        rw [hmm, markBody]
        split
        · exact ⟨[], by simp, by simp, by simp [hl]⟩
        · refine ⟨_, hp.eosn l.st, by simp, ?_⟩
          rcases hm with rfl | rfl <;> simp
    obtain ⟨o1, h1, h2, h3⟩ := hbody
    cases he : (body n l m).1.exited with
    | true =>
      rw [run_exited n _ he]
      exact ⟨o1, h1, by simp [he], by simpa using h3⟩
    | false =>
      obtain ⟨o2, h4, h5, h6⟩ := ih (body n l m).1 he (fun x hx => hms x (by simp [hx]))
      refine ⟨o1 ++ o2, ?_, ?_, ?_⟩
      · intro x hx
        rcases List.mem_append.1 hx with hx | hx
        · exact h1 x hx
        · exact h4 x hx
      · intro h; simp only at h ⊢; rw [h2 he, h5 h]
      · intro h
        simp only at h ⊢
        rw [h2 he]
        rcases h6 h with h6 | h6
        · left; rw [h6, List.append_assoc]
        · right; rw [h6, List.append_assoc]

/-- a node that swallows everything -/
def sinkNode : Node Nat where
  σ := Unit
  init := ()
  comp := false
  src := false
  svc := fun s _ => (s, [], .goon)
  eosn := fun s => (s, [])

/-- **Observation**: with several input marks the last one decides; if it is `EOS_NOFREEZE`, no end
mark is sent although an `EOS` was received before. -/
theorem C19_mixed_marks_counterexample :
    ∃ n : Node Nat, Plain n ∧
      (run n (L.start n 2) [.eos, .eosnf]).1.exited = true ∧
      (run n (L.start n 2) [.eos, .eosnf]).2 = [] := by
  refine ⟨sinkNode, ⟨?_, ?_, ?_⟩, ?_⟩
  · intro _ _ m hm; simp [sinkNode] at hm
  · intro _ _; simp [sinkNode]
  · intro _ m hm; simp [sinkNode] at hm
  · decide

/-- A node that sends every number it gets and its running sum, stops when the sum passes 100, and
sends the sum when its input ends. -/
def sumNode : Node Nat where
  σ := Nat
  init := 0
  comp := false
  src := false
  svc := fun s t =>
    match t with
    | .data d => (s + d, [.data d], if s + d > 100 then .eos else .data (s + d))
    | _ => (s, [], .goon)
  eosn := fun s => (s, [.data s])

theorem sumNode_plain : Plain sumNode := by
  refine ⟨?_, ?_, ?_⟩
  · intro s t m hm
    cases t <;> simp [sumNode] at hm
    subst hm; rfl
  · intro s t
    cases t <;> simp [sumNode]
    constructor <;> split <;> simp
  · intro s m hm
    simp [sumNode] at hm
    subst hm; rfl

-- the hypotheses of the C19 theorems are met
example : let ms : List (Msg Nat) := [.data 3, .eos, .data 4]
    (L.start sumNode 2).exited = false ∧ (ms.filter Msg.isMark).length < (L.start sumNode 2).neos ∧
    (run sumNode (L.start sumNode 2) ms).2 = [.data 3, .data 3, .data 4, .data 7] ∧
    (run sumNode (L.start sumNode 2) ms).1.calls = [.data 3, .data 4] := by decide
example : ∀ r ∈ answers sumNode (0 : Nat) [.data 3, .data 4], wantsMore r := by
  simp [answers, sumNode, wantsMore]
example : stream sumNode [.data 3, .data 4, .eos, .data 9] =
    [.data 3, .data 3, .data 4, .data 7, .data 7, .eos] := by decide
example : stream sumNode [.data 3, .data 100, .data 4, .eos] =
    [.data 3, .data 3, .data 100, .eos] := by decide

end FF.Node
