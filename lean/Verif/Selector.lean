import Mathlib.Data.List.Induction
/-!
# C51: the node selector (`ff/selector.hpp`)
-/
namespace FF.Selector

/-- Nodes, tasks, results and the state of all nodes are arbitrary; `call n t st` is `n->svc(t)`. -/
structure World (N T O St : Type) where
  call : N → T → St → O × St

/-- `selected`, `inTask` and `devices` (ff/selector.hpp:153-156).  `inTask = none`: not initialized. -/
structure S (N T : Type) where
  selected : Nat
  inTask : Option T
  devices : List N

/-- The calls of the user and of the runtime. -/
inductive Op (N T : Type) where
  | addNode (n : N)
  | selectNode (id : Nat)
  | setTask (t : T)
  | svc (t : Option T)
  | getNode (id : Nat)
  | numNodes

/-- What the caller sees.  `eos` is the answer of `svc(nullptr)`, whose node result is dropped. -/
inductive Ans (N O : Type) where
  | nothing
  | index (k : Nat)
  | node (n : Option N)
  | out (o : O)
  | eos

variable {N T O St : Type}

/-- The new object (ff/selector.hpp:83). -/
def S.new : S N T := ⟨0, none, []⟩

/-- `addNode` (ff/selector.hpp:123-135), `selectNode` (93), `setTask` (91), `svc` (97-104), `getNode`
(108-111), `numNodes` (137).  `none`: read of `devices` out of bounds or of `inTask` not initialized. -/
def step (W : World N T O St) (s : S N T) (st : St) : Op N T → Option (S N T × St × Ans N O)
  | .addNode n => some ({ s with devices := s.devices ++ [n] }, st, .index s.devices.length)
  | .selectNode id => some ({ s with selected := id }, st, .nothing)
  | .setTask t => some ({ s with inTask := some t }, st, .nothing)
  | .svc (some t) =>
    match s.devices[s.selected]? with
    | some n => some (s, (W.call n t st).2, .out (W.call n t st).1)
    | none => none
  | .svc none =>
    match s.devices[s.selected]?, s.inTask with
    | some n, some t => some (s, (W.call n t st).2, .eos)
    | _, _ => none
  | .getNode id => some (s, st, .node (if id ≥ s.devices.length then none else s.devices[id]?))
  | .numNodes => some (s, st, .index s.devices.length)

/-- A history of calls. -/
def run (W : World N T O St) : S N T → St → List (Op N T) → Option (S N T × St)
  | s, st, [] => some (s, st)
  | s, st, o :: os => (step W s st o).bind fun p => run W p.1 p.2.1 os

/-! ## Specification: what the history says -/

/-- The nodes added, in order. -/
def added : List (Op N T) → List N
  | [] => []
  | .addNode n :: h => n :: added h
  | _ :: h => added h

/-- The index of the last `selectNode`, `d` if there was none. -/
def lastSel : Nat → List (Op N T) → Nat
  | d, [] => d
  | _, .selectNode id :: h => lastSel id h
  | d, _ :: h => lastSel d h

/-- The task of the last `setTask`. -/
def lastTask : Option T → List (Op N T) → Option T
  | d, [] => d
  | _, .setTask t :: h => lastTask (some t) h
  | d, _ :: h => lastTask d h

theorem run_state (W : World N T O St) : ∀ (h : List (Op N T)) (s : S N T) (st : St) (s' : S N T)
    (st' : St), run W s st h = some (s', st') →
    s'.devices = s.devices ++ added h ∧ s'.selected = lastSel s.selected h ∧
      s'.inTask = lastTask s.inTask h := by
  intro h
  induction h with
  | nil =>
    intro s st s' st' hr
    simp only [run, Option.some.injEq, Prod.mk.injEq] at hr
    obtain ⟨rfl, rfl⟩ := hr
    simp [added, lastSel, lastTask]
  | cons o h ih =>
    intro s st s' st' hr
    simp only [run, Option.bind_eq_some_iff] at hr
    obtain ⟨⟨s1, st1, a⟩, h1, h2⟩ := hr
    have ih' := ih s1 st1 s' st' h2
    cases o with
    | addNode n =>
      simp only [step, Option.some.injEq, Prod.mk.injEq] at h1
      obtain ⟨rfl, _⟩ := h1
      simpa [added, lastSel, lastTask] using ih'
    | selectNode id =>
      simp only [step, Option.some.injEq, Prod.mk.injEq] at h1
      obtain ⟨rfl, _⟩ := h1
      simpa [added, lastSel, lastTask] using ih'
    | setTask t =>
      simp only [step, Option.some.injEq, Prod.mk.injEq] at h1
      obtain ⟨rfl, _⟩ := h1
      simpa [added, lastSel, lastTask] using ih'
    | svc t =>
      cases t with
      | none =>
        simp only [step] at h1
        split at h1
        · simp only [Option.some.injEq, Prod.mk.injEq] at h1
          obtain ⟨rfl, _⟩ := h1
          simpa [added, lastSel, lastTask] using ih'
        · cases h1
      | some t =>
        simp only [step] at h1
        split at h1
        · simp only [Option.some.injEq, Prod.mk.injEq] at h1
          obtain ⟨rfl, _⟩ := h1
          simpa [added, lastSel, lastTask] using ih'
        · cases h1
    | getNode id =>
      simp only [step, Option.some.injEq, Prod.mk.injEq] at h1
      obtain ⟨rfl, _⟩ := h1
      simpa [added, lastSel, lastTask] using ih'
    | numNodes =>
      simp only [step, Option.some.injEq, Prod.mk.injEq] at h1
      obtain ⟨rfl, _⟩ := h1
      simpa [added, lastSel, lastTask] using ih'

/-- **C51**: after any history, a task goes to the node selected last (the first one if none was selected)
and only to it: the answer is that node's answer, the state of the nodes is what that one call makes of it.
Missing: the selected index must have been added. -/
theorem C51_svc_partial (W : World N T O St) {h : List (Op N T)} {st st' : St} {s : S N T}
    (hr : run W S.new st h = some (s, st')) {n : N} (hn : (added h)[lastSel 0 h]? = some n) (t : T) :
    step W s st' (.svc (some t)) = some (s, (W.call n t st').2, .out (W.call n t st').1) := by
  obtain ⟨h1, h2, _⟩ := run_state W h _ _ _ _ hr
  simp only [S.new, List.nil_append] at h1 h2
  simp only [step, h1, h2, hn]

/-- **C51**: in the passive mode the task of the last `setTask` goes to the selected node, once, and EOS is
returned. -/
theorem C51_passive_partial (W : World N T O St) {h : List (Op N T)} {st st' : St} {s : S N T}
    (hr : run W S.new st h = some (s, st')) {n : N} (hn : (added h)[lastSel 0 h]? = some n) {t : T}
    (ht : lastTask none h = some t) :
    step W s st' (.svc none) = some (s, (W.call n t st').2, .eos) := by
  obtain ⟨h1, h2, h3⟩ := run_state W h _ _ _ _ hr
  simp only [S.new, List.nil_append] at h1 h2 h3
  simp only [step, h1, h2, h3, hn, ht]

/-- **C51**: `addNode` answers the index under which the node is found from then on, whatever follows. -/
theorem C51_index (W : World N T O St) {h h' : List (Op N T)} {st st1 st' : St} {s s1 s' : S N T} {n : N}
    {k : Nat} (hr : run W S.new st h = some (s, st1))
    (ha : step W s st1 (.addNode n) = some (s1, st1, (.index k : Ans N O)))
    (hr' : run W s1 st1 h' = some (s', st')) :
    k = (added h).length ∧ (added (h ++ .addNode n :: h'))[k]? = some n ∧
      step W s' st' (.getNode k) = some (s', st', .node (some n)) := by
  obtain ⟨h1, _, _⟩ := run_state W h _ _ _ _ hr
  simp only [S.new, List.nil_append] at h1
  simp only [step, Option.some.injEq, Prod.mk.injEq, Ans.index.injEq, true_and] at ha
  obtain ⟨rfl, rfl⟩ := ha
  obtain ⟨g1, _, _⟩ := run_state W h' _ _ _ _ hr'
  have app : ∀ (a b : List (Op N T)), added (a ++ b) = added a ++ added b := by
    intro a b
    induction a with
    | nil => rfl
    | cons o a ih => cases o <;> simp [added, ih]
  refine ⟨by rw [h1], ?_, ?_⟩
  · rw [app, h1, List.getElem?_append_right (Nat.le_refl _), Nat.sub_self]
    simp [added]
  · simp only [step, g1]
    rw [if_neg (by simp)]
    simp

/-- **C51**: no call reads outside the vector if every `selectNode` is given an index that was added
before, and `svc(nullptr)` is not called before `setTask`; the first `svc` comes after an `addNode`. -/
theorem C51_safe_partial (W : World N T O St) (h : List (Op N T))
    (hs : ∀ a id b, h = a ++ .selectNode id :: b → id < (added a).length)
    (hv : ∀ a t b, h = a ++ .svc t :: b → added a ≠ [])
    (ht : ∀ a b, h = a ++ .svc none :: b → lastTask none a ≠ none) (st : St) :
    ∃ s st', run W S.new st h = some (s, st') := by
  have runapp : ∀ (a b : List (Op N T)) (s : S N T) (st : St), run W s st (a ++ b) =
      (run W s st a).bind fun p => run W p.1 p.2 b := by
    intro a
    induction a with
    | nil => intro b s st; rfl
    | cons o a ih =>
      intro b s st
      simp only [List.cons_append, run]
      cases step W s st o with
      | none => rfl
      | some p => simp only [Option.bind_some]; exact ih b _ _
  have app : ∀ (a b : List (Op N T)), added (a ++ b) = added a ++ added b := by
    intro a b
    induction a with
    | nil => rfl
    | cons o a ih => cases o <;> simp [added, ih]
  have selapp : ∀ (a b : List (Op N T)) (d : Nat), lastSel d (a ++ b) = lastSel (lastSel d a) b := by
    intro a
    induction a with
    | nil => intro b d; rfl
    | cons o a ih => intro b d; cases o <;> simp [lastSel, ih]
  -- the last selection is valid
  have selok : ∀ n a b, a.length = n → h = a ++ b → added a ≠ [] → lastSel 0 a < (added a).length := by
    intro n
    induction n with
    | zero =>
      intro a b hl _ hne
      rw [List.eq_nil_of_length_eq_zero hl] at hne
      exact absurd rfl hne
    | succ n ih =>
      intro a b hl he hne
      rcases List.eq_nil_or_concat a with rfl | ⟨a', o, rfl⟩
      · simp at hl
      · have hl' : a'.length = n := by simpa using hl
        have he' : h = a' ++ (o :: b) := by rw [he]; simp
        rw [List.concat_eq_append] at hne ⊢
        rw [app, selapp]
        by_cases ha : added a' = []
        · cases o with
          | addNode m =>
            simp only [added, lastSel, ha, List.nil_append, List.length_singleton]
            -- no selection before the first node
            have : ∀ (c d : List (Op N T)), a' = c ++ d → lastSel 0 c = 0 := by
              intro c
              induction c using List.reverseRecOn with
              | nil => intro d _; rfl
              | append_singleton c o ih2 =>
                intro d hd
                rw [selapp, ih2 (o :: d) (by rw [hd]; simp)]
                cases o with
                | selectNode id =>
                  have h3 := hs c id (d ++ .addNode m :: b) (by rw [he', hd]; simp)
                  have h4 : added c = [] := by
                    rw [hd, app, app] at ha
                    simp only [List.append_eq_nil_iff] at ha
                    exact ha.1.1
                  rw [h4] at h3
                  simp at h3
                | _ => rfl
            have := this a' [] (by simp)
            rw [this]
            exact Nat.zero_lt_one
          | _ => simp [app, added, ha] at hne
        · have := ih a' (o :: b) hl' he' ha
          cases o with
          | selectNode id =>
            have h3 := hs a' id b he'
            simpa [lastSel, added] using h3
          | addNode m => simp only [lastSel, added, List.length_append]; omega
          | _ => simpa [lastSel, added] using this
  have key : ∀ n a b, a.length = n → h = a ++ b → ∃ s st', run W S.new st a = some (s, st') := by
    intro n
    induction n with
    | zero =>
      intro a b hl _
      rw [List.eq_nil_of_length_eq_zero hl]
      exact ⟨_, _, rfl⟩
    | succ n ih =>
      intro a b hl he
      rcases List.eq_nil_or_concat a with rfl | ⟨a', o, rfl⟩
      · simp at hl
      · have hl' : a'.length = n := by simpa using hl
        have he' : h = a' ++ (o :: b) := by rw [he]; simp
        obtain ⟨s, st', hr⟩ := ih a' (o :: b) hl' he'
        obtain ⟨h1, h2, h3⟩ := run_state W a' _ _ _ _ hr
        simp only [S.new, List.nil_append] at h1 h2 h3
        rw [List.concat_eq_append, runapp, hr]
        simp only [Option.bind_some, run]
        cases o with
        | svc t =>
          have hne := hv a' t b he'
          have hlt := selok _ a' (.svc t :: b) rfl he' hne
          have hget : s.devices[s.selected]? = some (added a')[lastSel 0 a'] := by
            rw [h1, h2]; exact List.getElem?_eq_getElem hlt
          cases t with
          | some t => simp only [step, hget, Option.bind_some]; exact ⟨_, _, rfl⟩
          | none =>
            have := ht a' b he'
            rw [← h3] at this
            obtain ⟨t, ht'⟩ := Option.ne_none_iff_exists'.1 this
            simp only [step, hget, ht', Option.bind_some]; exact ⟨_, _, rfl⟩
        | _ => exact ⟨_, _, rfl⟩
  exact key _ h [] rfl (by simp)

/-- **C51, counterexample**: selecting an index that was never added is taken, and the next task reads
outside the vector of nodes. -/
theorem C51_unknown_counterexample (W : World N T O St) (n : N) (t : T) (st : St) :
    run W S.new st [.addNode n, .selectNode 1, .svc (some t)] = none := rfl

/-! ## The passive run -/

/-- What a passive run does with the nodes. -/
inductive Ev (N T : Type) where
  | init (n : N)
  | call (n : N) (t : T)
  | fin (n : N)
  deriving DecidableEq

/-- The loop of `nodeInit` (ff/selector.hpp:113-120); `ok n`: the `nodeInit` of node `n` succeeds. -/
def initAll (ok : N → Bool) : List N → List (Ev N T) × Bool
  | [] => ([], true)
  | n :: ns =>
    if ok n then
      let p := initAll ok ns
      (.init n :: p.1, p.2)
    else ([.init n], false)

/-- `run_and_wait_end` (ff/selector.hpp:143-148): calls made and return value; `none`: read out of
bounds. -/
def runAndWaitEnd (ok : N → Bool) (s : S N T) : Option (List (Ev N T) × Int) :=
  if s.devices.length = 0 then some ([], -1)
  else
    let p := initAll ok s.devices
    if p.2 then
      match s.devices[s.selected]?, s.inTask with
      | some n, some t => some (p.1 ++ [.call n t] ++ s.devices.map .fin, 0)
      | _, _ => none
    else some (p.1, -1)

theorem initAll_ok (ok : N → Bool) : ∀ (l : List N), (∀ n ∈ l, ok n = true) →
    initAll (T := T) ok l = (l.map .init, true)
  | [], _ => rfl
  | n :: ns, h => by
    rw [initAll, if_pos (h n (by simp)), initAll_ok ok ns fun m hm => h m (by simp [hm])]
    rfl

theorem initAll_fail (ok : N → Bool) : ∀ (l : List N), (∃ n ∈ l, ok n = false) →
    (initAll (T := T) ok l).2 = false ∧ ∃ k, k ≤ l.length ∧
      (initAll (T := T) ok l).1 = (l.take k).map .init
  | [], ⟨_, h, _⟩ => by cases h
  | n :: ns, h => by
    rw [initAll]
    by_cases hn : ok n = true
    · rw [if_pos hn]
      obtain ⟨h1, k, h2, h3⟩ := initAll_fail ok ns (by
        obtain ⟨m, hm, hf⟩ := h
        rcases List.mem_cons.1 hm with rfl | hm
        · rw [hn] at hf; cases hf
        · exact ⟨m, hm, hf⟩)
      exact ⟨h1, k + 1, by simpa using h2, by simp [h3]⟩
    · rw [if_neg hn]
      exact ⟨rfl, 1, by simp, by simp⟩

/-- **C51**: a passive run initializes every node in order, gives the task to the selected node only, once,
ends every node in order, and answers 0. -/
theorem C51_run_partial {ok : N → Bool} {s : S N T} (hok : ∀ n ∈ s.devices, ok n = true) {n : N} {t : T}
    (hn : s.devices[s.selected]? = some n) (ht : s.inTask = some t) :
    runAndWaitEnd ok s = some (s.devices.map .init ++ [.call n t] ++ s.devices.map .fin, 0) := by
  have hne : s.devices.length ≠ 0 := by
    intro h0
    rw [List.eq_nil_of_length_eq_zero h0] at hn
    simp at hn
  unfold runAndWaitEnd
  rw [if_neg hne, initAll_ok ok _ hok]
  simp only [if_true, hn, ht]

/-- **C51**: if a node cannot be initialized, or there is none, the answer is -1 and no node gets the
task. -/
theorem C51_run_fails {ok : N → Bool} {s : S N T}
    (h : s.devices = [] ∨ ∃ n ∈ s.devices, ok n = false) :
    ∃ l, runAndWaitEnd ok s = some (l, -1) ∧ ∀ n t, Ev.call n t ∉ l := by
  unfold runAndWaitEnd
  by_cases h0 : s.devices.length = 0
  · rw [if_pos h0]; exact ⟨_, rfl, by simp⟩
  · rw [if_neg h0]
    have hf : ∃ n ∈ s.devices, ok n = false := by
      rcases h with h | h
      · rw [h] at h0; simp at h0
      · exact h
    obtain ⟨h1, k, _, h3⟩ := initAll_fail (T := T) ok s.devices hf
    dsimp only
    rw [h1]
    refine ⟨_, rfl, ?_⟩
    rw [h3]
    intro n t hm
    obtain ⟨_, _, e⟩ := List.mem_map.1 hm
    cases e

/-! ## Concrete cases -/

/-- Two nodes: the first adds 1, the second doubles; the state counts the calls of each. -/
def demoW : World Bool Nat Nat (Nat × Nat) where
  call := fun n t st => if n then (2 * t, (st.1, st.2 + 1)) else (t + 1, (st.1 + 1, st.2))

example : (run demoW S.new (0, 0) [.addNode false, .svc (some 5), .addNode true, .selectNode 1]).map
    (fun p => (p.1.selected, p.2)) = some (1, (1, 0)) := rfl

example : (added [.addNode false, .svc (some 5), .addNode true, .selectNode 1])[lastSel 0
    [.addNode false, .svc (some 5), .addNode true, .selectNode 1]]? = some true := rfl

example : ((run demoW S.new (0, 0) [.addNode false, .svc (some 5), .addNode true, .selectNode 1]).bind
    fun p => (step demoW p.1 p.2 (.svc (some 5))).map fun q => (q.2.1, match q.2.2 with
      | .out o => o
      | _ => 0)) = some ((1, 1), 10) := rfl

example : runAndWaitEnd (fun _ => true) (S.mk 1 (some 7) [false, true]) =
    some ([.init false, .init true, .call true 7, .fin false, .fin true], 0) := rfl

/-- **Counterexample**: when the second node cannot be initialized, the first has been initialized and is
never ended. -/
theorem C51_init_counterexample : runAndWaitEnd (fun n => !n) (S.mk 1 (some 7) [false, true]) =
    some ([.init false, .init true], -1) := rfl

end FF.Selector
