import Verif.Farm.OfarmLive
/-!
# C24: the ordered farm with on-demand scheduling

Source: `/repo/ff/ordering_policies.hpp` 51-86 (`ordered_lb`), 88-138 (`ordered_gt`), 140-165
(`OrderedWorkerWrapper`); `/repo/ff/farm.hpp` 249-266 (sizes of the memory), 327-330 (bounded input
queues of the workers).

Every task travels as a pointer to a cell of a ring of `sz` cells; a cell holds the task's number and
the task, later its result.  Not modelled: `ff_send_out_to`, `all_gather`, feedback, a filter in the
collector (it sees exactly the output recorded here).
-/
namespace FF.Odfarm
open FF.Node FF.Farm
variable {D : Type}

/-! ## Model -/

/-- Where a worker is in its loop (`thWorker::svc`, node.hpp 1438-1514, around
`OrderedWorkerWrapper::svc`, ordering_policies.hpp 151-156). -/
inductive WPc (D : Type) where
  | idle
  /-- has popped a pointer -/
  | got (k : Nat)
  /-- has read the task; in `worker->svc(in->second.first)` -/
  | calling (k : Nat) (d : D)
  /-- the user's `svc` has returned -/
  | back (k : Nat) (r : D)
  /-- about to push the pointer, or `EOS` (`none`) -/
  | done (m : Option Nat)
  | exited

structure S (D : Type) where
  /-- the ring `_M` -/
  M : Nat → Nat × D
  /-- `ordered_lb::cnt` and `idx` -/
  cnt : Nat
  idx : Nat
  /-- the emitter is in `ff_loadbalancer::schedule_task(&_M[idx])` -/
  hand : Bool
  /-- the emitter has started to broadcast `EOS` -/
  closed : Bool
  eosOut : Nat → Bool
  /-- queues of pointers; `none` is `EOS` -/
  inq : Nat → List (Option Nat)
  w : Nat → WPc D
  outq : Nat → List (Option Nat)
  /-- the priority queue of the collector -/
  Q : List Nat
  /-- `ordered_gt::cnt` -/
  next : Nat
  offline : Nat → Bool
  neos : Nat
  ended : Bool
  /-- what the collector delivered -/
  out : List D
  /-- "not enough memory" was reported -/
  err : Bool
  /-- ghost: the tasks, in the order in which they were given -/
  tasks : List D
  /-- ghost: a cell was overwritten although the result of its task was not delivered -/
  over : Bool

def S.start (M : Nat → Nat × D) : S D :=
  { M, cnt := 0, idx := 0, hand := false, closed := false, eosOut := fun _ => false
    inq := fun _ => [], w := fun _ => .idle, outq := fun _ => [], Q := [], next := 0
    offline := fun _ => false, neos := 0, ended := false, out := [], err := false, tasks := []
    over := false }

/-- the pointer that `Q.top()` designates, if its number is the next one -/
def S.top (s : S D) : Option Nat :=
  if (s.Q.map fun k => (s.M k).1).min? = some s.next then s.Q.find? fun k => (s.M k).1 == s.next
  else none

inductive Act (D : Type) where
  /-- the emitter gives a task: the cell is filled (ordering_policies.hpp 57-58) -/
  | write (d : D)
  /-- the load balancer puts the pointer in the queue of worker `i` (59-62); any worker with room -/
  | push (i : Nat)
  /-- the emitter ends -/
  | close
  /-- `EOS` is put in the queue of worker `i` (65-68) -/
  | eos (i : Nat)
  | wpop (i : Nat)
  | wread (i : Nat)
  | wret (i : Nat) (r : D)
  | wwrite (i : Nat)
  | wpush (i : Nat)
  /-- the collector takes `Q.top()` (98-106) -/
  | top
  /-- the collector takes a message of worker `i` (107-122) -/
  | cpop (i : Nat)

/-- One action.  `n` workers, queues of capacity `ci` and `co`, ring of `sz` cells, `ms` the size given
to `ordered_gt::init`; worker `i` may return `r` for task `d` if `R i d r`. -/
def step (n ci co sz ms : Nat) (R : Nat → D → D → Bool) (s : S D) : Act D → Option (S D)
  | .write d =>
    if s.hand = false ∧ s.closed = false then
      some { s with M := upd s.M s.idx (s.cnt, d), hand := true, tasks := s.tasks ++ [d]
                    over := s.over || decide (s.next + sz ≤ s.cnt) }
    else none
  | .push i =>
    if s.hand = true ∧ i < n ∧ (s.inq i).length < ci then
      some { s with inq := upd s.inq i (s.inq i ++ [some s.idx]), cnt := s.cnt + 1
                    idx := (s.idx + 1) % sz, hand := false }
    else none
  | .close => if s.hand = false ∧ s.closed = false then some { s with closed := true } else none
  | .eos i =>
    if s.closed = true ∧ i < n ∧ s.eosOut i = false ∧ (s.inq i).length < ci then
      some { s with inq := upd s.inq i (s.inq i ++ [none]), eosOut := upd s.eosOut i true }
    else none
  | .wpop i =>
    match s.w i, s.inq i with
    | .idle, some k :: q => some { s with inq := upd s.inq i q, w := upd s.w i (.got k) }
    | .idle, none :: q => some { s with inq := upd s.inq i q, w := upd s.w i (.done none) }
    | _, _ => none
  | .wread i =>
    match s.w i with
    | .got k => some { s with w := upd s.w i (.calling k (s.M k).2) }
    | _ => none
  | .wret i r =>
    match s.w i with
    | .calling k d => if R i d r then some { s with w := upd s.w i (.back k r) } else none
    | _ => none
  | .wwrite i =>
    match s.w i with
    | .back k r => some { s with M := upd s.M k ((s.M k).1, r), w := upd s.w i (.done (some k)) }
    | _ => none
  | .wpush i =>
    match s.w i with
    | .done (some k) =>
      if (s.outq i).length < co then
        some { s with outq := upd s.outq i (s.outq i ++ [some k]), w := upd s.w i .idle }
      else none
    | .done none =>
      if (s.outq i).length < co then
        some { s with outq := upd s.outq i (s.outq i ++ [none]), w := upd s.w i .exited }
      else none
    | _ => none
  | .top =>
    if s.ended then none
    else
      match s.top with
      | none => none
      | some k => some { s with out := s.out ++ [(s.M k).2], next := s.next + 1, Q := s.Q.erase k }
  | .cpop i =>
    if s.ended = false ∧ s.top = none ∧ i < n ∧ s.offline i = false then
      match s.outq i with
      | [] => none
      | none :: q =>
        some { s with outq := upd s.outq i q, offline := upd s.offline i true, neos := s.neos + 1
                      ended := decide (n ≤ s.neos + 1) }
      | some k :: q =>
        if (s.M k).1 = s.next then
          some { s with outq := upd s.outq i q, out := s.out ++ [(s.M k).2], next := s.next + 1 }
        else
          some { s with outq := upd s.outq i q, Q := s.Q ++ [k]
                        err := s.err || decide (ms < s.Q.length + 1) }
    else none

/-! ## Specification -/

/-- `out` are results of the first tasks, in the order of the tasks -/
def InOrder (R : Nat → D → D → Bool) (tasks out : List D) : Prop :=
  out.length ≤ tasks.length ∧
  ∀ (j : Nat) (r : D), out[j]? = some r → ∃ d i, tasks[j]? = some d ∧ R i d r = true

/-! ## Invariant -/

/-- the message a worker holds -/
def WPc.msg : WPc D → List (Option Nat)
  | .got k | .calling k _ | .back k _ => [some k]
  | .done m => [m]
  | .idle | .exited => []

/-- everything between the emitter and the collector on channel `i`, oldest first -/
def S.msgs (s : S D) (i : Nat) : List (Option Nat) := s.outq i ++ (s.w i).msg ++ s.inq i

inductive Loc where
  | hand
  | chan (i : Nat)
  | q

/-- the cells in use, by place -/
def S.at_ (s : S D) : Loc → List Nat
  | .hand => if s.hand then [s.idx] else []
  | .chan i => (s.msgs i).filterMap id
  | .q => s.Q

/-- no cell is in two places -/
structure Placed (L : Loc → List Nat) : Prop where
  nodup : ∀ l, (L l).Nodup
  disj : ∀ l l' k, k ∈ L l → k ∈ L l' → l = l'

theorem Placed.move {L L' : Loc → List Nat} (h : Placed L) {l1 l2 : Loc} (hne : l1 ≠ l2) {k : Nat}
    (h1 : (L l1).Perm (k :: L' l1)) (h2 : (L' l2).Perm (k :: L l2))
    (h3 : ∀ l, l ≠ l1 → l ≠ l2 → L' l = L l) :
    Placed L' ∧ ∀ x, (∃ l, x ∈ L' l) ↔ ∃ l, x ∈ L l := by
  have hk1 : k ∈ L l1 := h1.mem_iff.2 (by simp)
  have hsub : ∀ l x, x ∈ L' l → (x ≠ k ∧ x ∈ L l) ∨ (x = k ∧ l = l2) := by
    intro l x hx
    by_cases e1 : l = l1
    · subst e1
      left
      refine ⟨?_, h1.mem_iff.2 (by simp [hx])⟩
      rintro rfl
      have := (h1.nodup_iff.1 (h.nodup l))
      simp only [List.nodup_cons] at this
      exact this.1 hx
    · by_cases e2 : l = l2
      · subst e2
        have := h2.mem_iff.1 hx
        simp only [List.mem_cons] at this
        rcases this with rfl | hx'
        · exact Or.inr ⟨rfl, rfl⟩
        · by_cases hxk : x = k
          · subst hxk
            exact absurd (h.disj _ _ _ hk1 hx') hne
          · exact Or.inl ⟨hxk, hx'⟩
      · rw [h3 l e1 e2] at hx
        left
        refine ⟨?_, hx⟩
        rintro rfl
        exact e1 (h.disj _ _ _ hx hk1)
  refine ⟨⟨fun l => ?_, fun l l' x hx hx' => ?_⟩, fun x => ⟨?_, ?_⟩⟩
  · by_cases e1 : l = l1
    · subst e1
      have := (h1.nodup_iff.1 (h.nodup l))
      simp only [List.nodup_cons] at this
      exact this.2
    · by_cases e2 : l = l2
      · subst e2
        rw [h2.nodup_iff, List.nodup_cons]
        exact ⟨fun hx => hne (h.disj _ _ _ hk1 hx), h.nodup l⟩
      · rw [h3 l e1 e2]; exact h.nodup l
  · rcases hsub l x hx with ⟨a, b⟩ | ⟨a, b⟩ <;> rcases hsub l' x hx' with ⟨a', b'⟩ | ⟨a', b'⟩
    · exact h.disj _ _ _ b b'
    · exact absurd a' a
    · exact absurd a a'
    · rw [b, b']
  · rintro ⟨l, hx⟩
    rcases hsub l x hx with ⟨_, b⟩ | ⟨rfl, _⟩
    · exact ⟨l, b⟩
    · exact ⟨l1, hk1⟩
  · rintro ⟨l, hx⟩
    by_cases hxk : x = k
    · subst hxk; exact ⟨l2, h2.mem_iff.2 (by simp)⟩
    · by_cases e1 : l = l1
      · subst e1
        have := h1.mem_iff.1 hx
        simp only [List.mem_cons, hxk, false_or] at this
        exact ⟨l, this⟩
      · by_cases e2 : l = l2
        · subst e2; exact ⟨l, h2.mem_iff.2 (by simp [hx])⟩
        · exact ⟨l, by rw [h3 l e1 e2]; exact hx⟩

theorem Placed.remove {L L' : Loc → List Nat} (h : Placed L) {l1 : Loc} {k : Nat}
    (h1 : (L l1).Perm (k :: L' l1)) (h3 : ∀ l, l ≠ l1 → L' l = L l) :
    Placed L' ∧ ∀ x, (∃ l, x ∈ L' l) ↔ x ≠ k ∧ ∃ l, x ∈ L l := by
  have hk1 : k ∈ L l1 := h1.mem_iff.2 (by simp)
  have hn := (h1.nodup_iff.1 (h.nodup l1))
  simp only [List.nodup_cons] at hn
  have hsub : ∀ l x, x ∈ L' l → x ≠ k ∧ x ∈ L l := by
    intro l x hx
    by_cases e1 : l = l1
    · subst e1
      refine ⟨?_, h1.mem_iff.2 (by simp [hx])⟩
      rintro rfl
      exact hn.1 hx
    · rw [h3 l e1] at hx
      refine ⟨?_, hx⟩
      rintro rfl
      exact e1 (h.disj _ _ _ hx hk1)
  refine ⟨⟨fun l => ?_, fun l l' x hx hx' => ?_⟩, fun x => ⟨?_, ?_⟩⟩
  · by_cases e1 : l = l1
    · subst e1; exact hn.2
    · rw [h3 l e1]; exact h.nodup l
  · exact h.disj _ _ _ (hsub l x hx).2 (hsub l' x hx').2
  · rintro ⟨l, hx⟩
    exact ⟨(hsub l x hx).1, l, (hsub l x hx).2⟩
  · rintro ⟨hxk, l, hx⟩
    by_cases e1 : l = l1
    · subst e1
      have := h1.mem_iff.1 hx
      simp only [List.mem_cons, hxk, false_or] at this
      exact ⟨l, this⟩
    · exact ⟨l, by rw [h3 l e1]; exact hx⟩

theorem Placed.add {L L' : Loc → List Nat} (h : Placed L) {l1 : Loc} {k : Nat}
    (hk : ∀ l, k ∉ L l) (h1 : (L' l1).Perm (k :: L l1)) (h3 : ∀ l, l ≠ l1 → L' l = L l) :
    Placed L' ∧ ∀ x, (∃ l, x ∈ L' l) ↔ x = k ∨ ∃ l, x ∈ L l := by
  have hsub : ∀ l x, x ∈ L' l → (x = k ∧ l = l1) ∨ x ∈ L l := by
    intro l x hx
    by_cases e1 : l = l1
    · subst e1
      have := h1.mem_iff.1 hx
      simp only [List.mem_cons] at this
      rcases this with h | h
      · exact Or.inl ⟨h, rfl⟩
      · exact Or.inr h
    · rw [h3 l e1] at hx; exact Or.inr hx
  refine ⟨⟨fun l => ?_, fun l l' x hx hx' => ?_⟩, fun x => ⟨?_, ?_⟩⟩
  · by_cases e1 : l = l1
    · subst e1
      rw [h1.nodup_iff, List.nodup_cons]
      exact ⟨hk l, h.nodup l⟩
    · rw [h3 l e1]; exact h.nodup l
  · rcases hsub l x hx with ⟨a, b⟩ | b <;> rcases hsub l' x hx' with ⟨a', b'⟩ | b'
    · rw [b, b']
    · rw [a] at b'; exact absurd b' (hk _)
    · rw [a'] at b; exact absurd b (hk _)
    · exact h.disj _ _ _ b b'
  · rintro ⟨l, hx⟩
    rcases hsub l x hx with ⟨a, _⟩ | b
    · exact Or.inl a
    · exact Or.inr ⟨l, b⟩
  · rintro (rfl | ⟨l, hx⟩)
    · exact ⟨l1, h1.mem_iff.2 (by simp)⟩
    · by_cases e1 : l = l1
      · subst e1; exact ⟨l, h1.mem_iff.2 (by simp [hx])⟩
      · exact ⟨l, by rw [h3 l e1]; exact hx⟩

/-- `v` is a result of task `j` -/
def Res (R : Nat → D → D → Bool) (tasks : List D) (j : Nat) (v : D) : Prop :=
  ∃ d i, tasks[j]? = some d ∧ R i d v = true

/-- what is known about the cell a worker holds -/
def WOk (R : Nat → D → D → Bool) (s : S D) : WPc D → Prop
  | .got k => s.tasks[(s.M k).1]? = some (s.M k).2
  | .calling k d => s.tasks[(s.M k).1]? = some d
  | .back k r => Res R s.tasks (s.M k).1 r
  | .done (some k) => Res R s.tasks (s.M k).1 (s.M k).2
  | _ => True

/-- the number of tasks given -/
def S.given (s : S D) : Nat := s.cnt + (if s.hand then 1 else 0)

structure Inv (sz : Nat) (R : Nat → D → D → Bool) (s : S D) : Prop where
  given : s.tasks.length = s.given
  idx : s.idx = s.cnt % sz
  len : s.out.length = s.next
  le : s.next ≤ s.given
  window : s.given ≤ s.next + sz
  placed : Placed s.at_
  ids : ∀ l k, k ∈ s.at_ l → s.next ≤ (s.M k).1 ∧ (s.M k).1 < s.given ∧ (s.M k).1 % sz = k
  all : ∀ j, s.next ≤ j → j < s.given → ∃ l, j % sz ∈ s.at_ l
  inq : ∀ i k, some k ∈ s.inq i → s.tasks[(s.M k).1]? = some (s.M k).2
  hand : s.hand = true → s.tasks[(s.M s.idx).1]? = some (s.M s.idx).2 ∧ (s.M s.idx).1 = s.cnt
  w : ∀ i, WOk R s (s.w i)
  outq : ∀ i k, some k ∈ s.outq i → Res R s.tasks (s.M k).1 (s.M k).2
  q : ∀ k, k ∈ s.Q → Res R s.tasks (s.M k).1 (s.M k).2
  out : ∀ (j : Nat) (r : D), s.out[j]? = some r → Res R s.tasks j r

theorem Inv.start {sz : Nat} {R : Nat → D → D → Bool} (M : Nat → Nat × D) :
    Inv sz R (S.start M) where
  given := rfl
  idx := by simp [S.start]
  len := rfl
  le := by simp [S.start, S.given]
  window := by simp [S.start, S.given]
  placed := by
    have : (S.start M).at_ = fun _ => [] := by
      funext l; cases l <;> simp [S.at_, S.start, S.msgs, WPc.msg]
    rw [this]
    exact ⟨by simp, by simp⟩
  ids := by
    intro l k hk
    cases l <;> simp [S.at_, S.start, S.msgs, WPc.msg] at hk
  all := by intro j _ h; simp [S.start, S.given] at h
  inq := by simp [S.start]
  hand := by simp [S.start]
  w := by simp [S.start, WOk]
  outq := by simp [S.start]
  q := by simp [S.start]
  out := by simp [S.start]

theorem Res.mono {R : Nat → D → D → Bool} {tasks : List D} {j : Nat} {v : D} (h : Res R tasks j v)
    (ts : List D) : Res R (tasks ++ ts) j v := by
  obtain ⟨d, i, h1, h2⟩ := h
  refine ⟨d, i, ?_, h2⟩
  rw [List.getElem?_append_left]
  · exact h1
  · rw [List.getElem?_eq_some_iff] at h1; exact h1.1

theorem get_mono {tasks : List D} {j : Nat} {v : D} (h : tasks[j]? = some v)
    (ts : List D) : (tasks ++ ts)[j]? = some v := by
  rw [List.getElem?_append_left]
  · exact h
  · rw [List.getElem?_eq_some_iff] at h; exact h.1

/-- two numbers of the window in the same cell are equal -/
theorem window_inj {sz a p q : Nat} (h1 : a ≤ p) (h2 : a ≤ q) (h3 : p < a + sz) (h4 : q < a + sz)
    (h : p % sz = q % sz) : p = q := by
  rcases Nat.lt_trichotomy p q with h5 | h5 | h5
  · exact absurd h (mod_window h1 h5 h4)
  · exact h5
  · exact absurd h.symm (mod_window h2 h5 h3)

theorem mem_chan {s : S D} {i k : Nat} : k ∈ s.at_ (.chan i) ↔ some k ∈ s.msgs i := by
  simp [S.at_]

theorem mem_inq {s : S D} {i k : Nat} (h : some k ∈ s.inq i) : k ∈ s.at_ (.chan i) :=
  mem_chan.2 (by simp [S.msgs, h])

theorem mem_outq {s : S D} {i k : Nat} (h : some k ∈ s.outq i) : k ∈ s.at_ (.chan i) :=
  mem_chan.2 (by simp [S.msgs, h])

theorem mem_w {s : S D} {i k : Nat} (h : some k ∈ (s.w i).msg) : k ∈ s.at_ (.chan i) :=
  mem_chan.2 (by simp [S.msgs, h])

theorem top_spec {s : S D} {k : Nat} (h : s.top = some k) : k ∈ s.Q ∧ (s.M k).1 = s.next := by
  unfold S.top at h
  split at h
  · exact ⟨List.mem_of_find?_eq_some h, by simpa using List.find?_some h⟩
  · simp at h

/-- delivering the result in cell `k` -/
theorem Inv.deliver {sz : Nat} {R : Nat → D → D → Bool} {s s' : S D} (h : Inv sz R s) {k : Nat}
    {l1 : Loc} (hk : (s.at_ l1).Perm (k :: s'.at_ l1)) (hl : ∀ l, l ≠ l1 → s'.at_ l = s.at_ l)
    (hkey : (s.M k).1 = s.next) (hval : Res R s.tasks (s.M k).1 (s.M k).2)
    (e1 : s'.M = s.M) (e2 : s'.cnt = s.cnt) (e3 : s'.idx = s.idx) (e4 : s'.hand = s.hand)
    (e5 : s'.tasks = s.tasks) (e6 : s'.out = s.out ++ [(s.M k).2]) (e7 : s'.next = s.next + 1)
    (e8 : s'.inq = s.inq) (e9 : s'.w = s.w) (e10 : ∀ i k, some k ∈ s'.outq i → some k ∈ s.outq i)
    (e11 : ∀ k ∈ s'.Q, k ∈ s.Q) : Inv sz R s' := by
  have hkm : k ∈ s.at_ l1 := hk.mem_iff.2 (by simp)
  obtain ⟨hk1, hk2, hk3⟩ := h.ids _ _ hkm
  obtain ⟨hp, hmem⟩ := h.placed.remove hk hl
  have hg : s'.given = s.given := by simp [S.given, e2, e4]
  rw [hkey] at hk2 hk3
  refine ⟨by rw [e5, hg]; exact h.given, by rw [e2, e3]; exact h.idx, ?_, by rw [hg, e7]; omega,
    by rw [hg, e7]; have := h.window; omega, hp, ?_, ?_, ?_, ?_, ?_, ?_, ?_, ?_⟩
  · rw [e6, e7, List.length_append, h.len]; rfl
  · intro l x hx
    obtain ⟨hxk, l', hx'⟩ := (hmem x).1 ⟨l, hx⟩
    obtain ⟨a, b, c⟩ := h.ids _ _ hx'
    rw [e1, e7, hg]
    refine ⟨?_, b, c⟩
    have : (s.M x).1 ≠ s.next := by
      intro hh
      rw [hh, hk3] at c
      exact hxk c.symm
    omega
  · intro j h1 h2
    rw [e7] at h1
    rw [hg] at h2
    obtain ⟨l, hl⟩ := h.all j (by omega) h2
    refine (hmem _).2 ⟨?_, l, hl⟩
    rw [← hk3]
    intro hh
    have hw := h.window
    have := window_inj (sz := sz) (a := s.next) (p := j) (q := s.next) (by omega) (by omega)
      (by omega) (by omega) hh
    omega
  · intro i x hx
    rw [e8] at hx
    rw [e5, e1]; exact h.inq i x hx
  · intro hh
    rw [e4] at hh
    rw [e5, e1, e3, e2]; exact h.hand hh
  · intro i
    have := h.w i
    rw [e9]
    cases hw : s.w i <;> rw [hw] at this <;> simp only [WOk] at this ⊢
    · rw [e5, e1]; exact this
    · rw [e5, e1]; exact this
    · rw [e5, e1]; exact this
    · rename_i m
      cases m with
      | none => trivial
      | some k => simp only [e5, e1]; exact this
  · intro i x hx
    rw [e5, e1]; exact h.outq i x (e10 i x hx)
  · intro x hx
    rw [e5, e1]; exact h.q x (e11 x hx)
  · intro j r hj
    rw [e6] at hj
    rw [e5]
    by_cases hlt : j < s.out.length
    · rw [List.getElem?_append_left hlt] at hj; exact h.out j r hj
    · rw [List.getElem?_append_right (by omega)] at hj
      have hj0 : j - s.out.length = 0 := by
        rcases Nat.eq_zero_or_pos (j - s.out.length) with h0 | h0
        · exact h0
        · rw [List.getElem?_eq_none (by simp; omega)] at hj; simp at hj
      rw [hj0] at hj
      simp only [List.getElem?_cons_zero, Option.some.injEq] at hj
      have : j = s.next := by rw [← h.len]; omega
      rw [this, ← hj, ← hkey]; exact hval

/-- a change inside a channel: the places are the same -/
theorem Inv.inside {sz : Nat} {R : Nat → D → D → Bool} {s s' : S D} (h : Inv sz R s)
    (hat : s'.at_ = s.at_) (e1 : s'.M = s.M) (e2 : s'.cnt = s.cnt) (e3 : s'.idx = s.idx)
    (e4 : s'.hand = s.hand) (e5 : s'.tasks = s.tasks) (e6 : s'.out = s.out) (e7 : s'.next = s.next)
    (e8 : ∀ i k, some k ∈ s'.inq i → some k ∈ s.inq i) (e9 : ∀ i, WOk R s (s'.w i))
    (e10 : ∀ i k, some k ∈ s'.outq i → Res R s.tasks (s.M k).1 (s.M k).2)
    (e11 : s'.Q = s.Q) : Inv sz R s' := by
  have hg : s'.given = s.given := by simp [S.given, e2, e4]
  refine ⟨by rw [e5, hg]; exact h.given, by rw [e2, e3]; exact h.idx, by rw [e6, e7]; exact h.len,
    by rw [hg, e7]; exact h.le, by rw [hg, e7]; exact h.window, by rw [hat]; exact h.placed,
    by rw [hat, hg, e7, e1]; exact h.ids, by rw [hat, hg, e7]; exact h.all, ?_, ?_, ?_, ?_, ?_, ?_⟩
  · intro i k hk; rw [e5, e1]; exact h.inq i k (e8 i k hk)
  · rw [e4, e5, e1, e3, e2]; exact h.hand
  · intro i
    have := e9 i
    cases hw : s'.w i <;> rw [hw] at this <;> simp only [WOk] at this ⊢
    · rw [e5, e1]; exact this
    · rw [e5, e1]; exact this
    · rw [e5, e1]; exact this
    · rename_i m
      cases m with
      | none => trivial
      | some k => simp only [e5, e1]; exact this
  · intro i k hk; rw [e5, e1]; exact e10 i k hk
  · rw [e11, e5, e1]; exact h.q
  · rw [e6, e5]; exact h.out

theorem at_eq {s s' : S D} (e3 : s'.idx = s.idx) (e4 : s'.hand = s.hand) (e11 : s'.Q = s.Q)
    (h : ∀ i, s'.msgs i = s.msgs i) : s'.at_ = s.at_ := by
  funext l
  cases l with
  | hand => simp only [S.at_, e3, e4]
  | chan i => simp only [S.at_, h i]
  | q => simp only [S.at_, e11]

variable {n ci co sz ms : Nat} {R : Nat → D → D → Bool}

theorem over_mono {s s' : S D} {a : Act D} (hs : step n ci co sz ms R s a = some s')
    (h : s'.over = false) : s.over = false := by
  cases a <;> simp only [step] at hs
  case write d =>
    split at hs
    · simp only [Option.some.injEq] at hs; subst hs
      simp only [Bool.or_eq_false_iff] at h; exact h.1
    · simp at hs
  case push i =>
    split at hs <;> simp only [Option.some.injEq, reduceCtorEq] at hs; subst hs; exact h
  case close =>
    split at hs <;> simp only [Option.some.injEq, reduceCtorEq] at hs; subst hs; exact h
  case eos i =>
    split at hs <;> simp only [Option.some.injEq, reduceCtorEq] at hs; subst hs; exact h
  case wpop i =>
    split at hs <;> simp only [Option.some.injEq, reduceCtorEq] at hs <;> subst hs <;> exact h
  case wread i =>
    split at hs <;> simp only [Option.some.injEq, reduceCtorEq] at hs; subst hs; exact h
  case wret i r =>
    split at hs
    · split at hs <;> simp only [Option.some.injEq, reduceCtorEq] at hs; subst hs; exact h
    · simp at hs
  case wwrite i =>
    split at hs <;> simp only [Option.some.injEq, reduceCtorEq] at hs; subst hs; exact h
  case wpush i =>
    split at hs
    · split at hs <;> simp only [Option.some.injEq, reduceCtorEq] at hs; subst hs; exact h
    · split at hs <;> simp only [Option.some.injEq, reduceCtorEq] at hs; subst hs; exact h
    · simp at hs
  case top =>
    split at hs
    · simp at hs
    · split at hs <;> simp only [Option.some.injEq, reduceCtorEq] at hs; subst hs; exact h
  case cpop i =>
    split at hs
    · split at hs
      · simp at hs
      · simp only [Option.some.injEq] at hs; subst hs; exact h
      · split at hs <;> simp only [Option.some.injEq] at hs <;> subst hs <;> exact h
    · simp at hs

theorem Inv.step (hsz : 0 < sz) {s s' : S D} {a : Act D} (h : Inv sz R s)
    (hs : step n ci co sz ms R s a = some s') (ho : s'.over = false) : Inv sz R s' := by
  cases a with
  | write d =>
    simp only [Odfarm.step] at hs
    split at hs
    · rename_i hc
      simp only [Option.some.injEq] at hs
      subst hs
      simp only [Bool.or_eq_false_iff, decide_eq_false_iff_not] at ho
      have hg : s.given = s.cnt := by simp [S.given, hc.1]
      have hfree : ∀ l, s.idx ∉ s.at_ l := by
        intro l hl
        obtain ⟨a, b, c⟩ := h.ids _ _ hl
        rw [hg] at b
        exact mod_window (n := sz) a b (by omega) (by rw [c, ← h.idx])
      have hL : ∀ l, l ≠ Loc.hand → S.at_ { s with
          M := upd s.M s.idx (s.cnt, d), hand := true, tasks := s.tasks ++ [d]
          over := s.over || decide (s.next + sz ≤ s.cnt) } l = s.at_ l := by
        intro l hl; cases l with
        | hand => exact absurd rfl hl
        | chan i => rfl
        | q => rfl
      obtain ⟨hp, hmem⟩ := h.placed.add (l1 := .hand) hfree
        (L' := S.at_ { s with
          M := upd s.M s.idx (s.cnt, d), hand := true, tasks := s.tasks ++ [d]
          over := s.over || decide (s.next + sz ≤ s.cnt) }) (by simp [S.at_, hc.1]) hL
      have hM : ∀ l k, k ∈ s.at_ l → upd s.M s.idx (s.cnt, d) k = s.M k := by
        intro l k hk
        have : k ≠ s.idx := by rintro rfl; exact hfree l hk
        simp [upd, this]
      have hgl : s.tasks.length = s.cnt := by rw [h.given, hg]
      refine ⟨?_, h.idx, h.len, ?_, ?_, hp, ?_, ?_, ?_, ?_, ?_, ?_, ?_, ?_⟩
      · simp [S.given, hgl]
      · have := h.le
        rw [hg] at this
        show s.next ≤ s.cnt + 1
        omega
      · show s.cnt + 1 ≤ s.next + sz
        omega
      · intro l k hk
        rcases (hmem k).1 ⟨l, hk⟩ with rfl | ⟨l', hk'⟩
        · have := h.le
          rw [hg] at this
          simp only [upd, if_true, S.given]
          exact ⟨this, by omega, h.idx.symm⟩
        · simp only [hM l' k hk', S.given]
          obtain ⟨a, b, c⟩ := h.ids _ _ hk'
          rw [hg] at b
          exact ⟨a, by simp; omega, c⟩
      · intro j h1 h2
        refine (hmem _).2 ?_
        simp only [S.given] at h2
        by_cases hj : j = s.cnt
        · left; rw [hj]; exact h.idx.symm
        · right; exact h.all j h1 (by rw [hg]; simp at h2; omega)
      · intro i k hk
        simp only [hM _ k (mem_inq hk)]
        exact get_mono (h.inq i k hk) _
      · intro _
        simp only [upd, if_true]
        refine ⟨?_, trivial⟩
        rw [List.getElem?_append_right (by omega)]; simp [hgl]
      · intro i
        have := h.w i
        have hm := @mem_w D s i
        show WOk R _ (s.w i)
        cases hw : s.w i <;> rw [hw] at this hm <;> simp only [WOk] at this ⊢
        · rename_i k; rw [hM _ k (hm (by simp [WPc.msg]))]; exact get_mono this _
        · rename_i k d; rw [hM _ k (hm (by simp [WPc.msg]))]; exact get_mono this _
        · rename_i k d; rw [hM _ k (hm (by simp [WPc.msg]))]; exact this.mono _
        · rename_i m
          cases m with
          | none => trivial
          | some k =>
            simp only at this ⊢
            rw [hM _ k (hm (by simp [WPc.msg]))]; exact this.mono _
      · intro i k hk
        simp only [hM _ k (mem_outq hk)]
        exact (h.outq i k hk).mono _
      · intro k hk
        simp only [hM .q k hk]
        exact (h.q k hk).mono _
      · intro j r hj
        exact (h.out j r hj).mono _
    · simp at hs
  | push i =>
    simp only [Odfarm.step] at hs
    split at hs
    · rename_i hc
      simp only [Option.some.injEq] at hs
      subst hs
      obtain ⟨hh1, hh2⟩ := h.hand hc.1
      have hg : s.given = s.cnt + 1 := by simp [S.given, hc.1]
      have hmsg : ∀ j, S.msgs { s with
          inq := upd s.inq i (s.inq i ++ [some s.idx]), cnt := s.cnt + 1
          idx := (s.idx + 1) % sz, hand := false } j =
            if j = i then s.msgs i ++ [some s.idx] else s.msgs j := by
        intro j
        by_cases hj : j = i
        · subst hj; simp [S.msgs, upd]
        · simp [S.msgs, upd, hj]
      obtain ⟨hp, hmem⟩ := h.placed.move (l1 := .hand) (l2 := .chan i) (k := s.idx) (by simp)
        (L' := S.at_ { s with
          inq := upd s.inq i (s.inq i ++ [some s.idx]), cnt := s.cnt + 1
          idx := (s.idx + 1) % sz, hand := false }) (by simp [S.at_, hc.1])
        (by
          simp only [S.at_, hmsg, if_true, List.filterMap_append]
          simpa using List.perm_append_comm)
        (by
          intro l h1 h2
          cases l with
          | hand => exact absurd rfl h1
          | chan j =>
            have : ¬ j = i := fun hh => h2 (by rw [hh])
            simp only [S.at_, hmsg, this, if_false]
          | q => rfl)
      refine ⟨?_, ?_, h.len, ?_, ?_, hp, ?_, ?_, ?_, ?_, h.w, h.outq, h.q, h.out⟩
      · rw [h.given, hg]; rfl
      · show (s.idx + 1) % sz = (s.cnt + 1) % sz
        rw [h.idx]; simp
      · have := h.le; rw [hg] at this; simpa [S.given] using this
      · have := h.window; rw [hg] at this; simpa [S.given] using this
      · intro l k hk
        obtain ⟨l', hk'⟩ := (hmem k).1 ⟨l, hk⟩
        have := h.ids l' k hk'
        rw [hg] at this
        simpa [S.given] using this
      · intro j h1 h2
        exact (hmem _).2 (h.all j h1 (by rw [hg]; simpa [S.given] using h2))
      · intro j k hk
        by_cases hj : j = i
        · subst hj
          simp only [upd, if_true, List.mem_append, List.mem_singleton, Option.some.injEq] at hk
          rcases hk with hk | rfl
          · exact h.inq j k hk
          · exact hh1
        · simp only [upd, hj, if_false] at hk
          exact h.inq j k hk
      · intro hh; simp at hh
    · simp at hs
  | close =>
    simp only [Odfarm.step] at hs
    split at hs
    · simp only [Option.some.injEq] at hs
      subst hs
      exact h.inside rfl rfl rfl rfl rfl rfl rfl rfl (fun _ _ h => h) h.w h.outq rfl
    · simp at hs
  | eos i =>
    simp only [Odfarm.step] at hs
    split at hs
    · simp only [Option.some.injEq] at hs
      subst hs
      refine h.inside ?_ rfl rfl rfl rfl rfl rfl rfl ?_ h.w h.outq rfl
      · funext l
        cases l with
        | hand => rfl
        | q => rfl
        | chan j =>
          by_cases hj : j = i
          · subst hj; simp [S.at_, S.msgs, upd]
          · simp [S.at_, S.msgs, upd, hj]
      · intro j k hk
        by_cases hj : j = i
        · subst hj; simpa [upd] using hk
        · simpa [upd, hj] using hk
    · simp at hs
  | wpop i =>
    simp only [Odfarm.step] at hs
    split at hs
    · rename_i k q hw hq
      simp only [Option.some.injEq] at hs
      subst hs
      refine h.inside (at_eq rfl rfl rfl fun j => ?_) rfl rfl rfl rfl rfl rfl rfl ?_ ?_ h.outq rfl
      · by_cases hj : j = i
        · subst hj; simp [S.msgs, upd, hw, hq, WPc.msg]
        · simp [S.msgs, upd, hj]
      · intro j k' hk
        by_cases hj : j = i
        · subst hj; rw [hq]; simp only [upd, if_true] at hk; simp [hk]
        · simpa [upd, hj] using hk
      · intro j
        by_cases hj : j = i
        · subst hj; simp only [upd, if_true, WOk]; exact h.inq j k (by rw [hq]; simp)
        · simp only [upd, hj, if_false]; exact h.w j
    · rename_i q hw hq
      simp only [Option.some.injEq] at hs
      subst hs
      refine h.inside (at_eq rfl rfl rfl fun j => ?_) rfl rfl rfl rfl rfl rfl rfl ?_ ?_ h.outq rfl
      · by_cases hj : j = i
        · subst hj; simp [S.msgs, upd, hw, hq, WPc.msg]
        · simp [S.msgs, upd, hj]
      · intro j k' hk
        by_cases hj : j = i
        · subst hj; rw [hq]; simp only [upd, if_true] at hk; simp [hk]
        · simpa [upd, hj] using hk
      · intro j
        by_cases hj : j = i
        · subst hj; simp only [upd, if_true, WOk]
        · simp only [upd, hj, if_false]; exact h.w j
    · simp at hs
  | wread i =>
    simp only [Odfarm.step] at hs
    split at hs
    · rename_i k hw
      simp only [Option.some.injEq] at hs
      subst hs
      refine h.inside (at_eq rfl rfl rfl fun j => ?_) rfl rfl rfl rfl rfl rfl rfl (fun _ _ h => h) ?_
        h.outq rfl
      · by_cases hj : j = i
        · subst hj; simp [S.msgs, upd, hw, WPc.msg]
        · simp [S.msgs, upd, hj]
      · intro j
        by_cases hj : j = i
        · subst hj
          have := h.w j
          rw [hw] at this
          simp only [upd, if_true, WOk]; exact this
        · simp only [upd, hj, if_false]; exact h.w j
    · simp at hs
  | wret i r =>
    simp only [Odfarm.step] at hs
    split at hs
    · rename_i k d hw
      split at hs
      · rename_i hR
        simp only [Option.some.injEq] at hs
        subst hs
        refine h.inside (at_eq rfl rfl rfl fun j => ?_) rfl rfl rfl rfl rfl rfl rfl (fun _ _ h => h) ?_
          h.outq rfl
        · by_cases hj : j = i
          · subst hj; simp [S.msgs, upd, hw, WPc.msg]
          · simp [S.msgs, upd, hj]
        · intro j
          by_cases hj : j = i
          · subst hj
            have := h.w j
            rw [hw] at this
            simp only [upd, if_true, WOk]; exact ⟨d, j, this, hR⟩
          · simp only [upd, hj, if_false]; exact h.w j
      · simp at hs
    · simp at hs
  | wwrite i =>
    simp only [Odfarm.step] at hs
    split at hs
    · rename_i k r hw
      simp only [Option.some.injEq] at hs
      subst hs
      have hk : k ∈ s.at_ (.chan i) := mem_w (by rw [hw]; simp [WPc.msg])
      have hnd := h.placed.nodup (.chan i)
      simp only [S.at_, S.msgs, hw, WPc.msg, List.filterMap_append] at hnd
      have hM1 : ∀ x, (upd s.M k ((s.M k).1, r) x).1 = (s.M x).1 := by
        intro x; by_cases hx : x = k
        · subst hx; simp [upd]
        · simp [upd, hx]
      have hM : ∀ l x, x ∈ s.at_ l → l ≠ .chan i → upd s.M k ((s.M k).1, r) x = s.M x := by
        intro l x hx hl
        have : x ≠ k := by rintro rfl; exact hl (h.placed.disj _ _ _ hx hk)
        simp [upd, this]
      have hin : ∀ x, some x ∈ s.inq i ∨ some x ∈ s.outq i → x ≠ k := by
        rintro x hx rfl
        rw [List.nodup_append] at hnd
        obtain ⟨h1, h2, h3⟩ := hnd
        rw [List.nodup_append] at h1
        rcases hx with hx | hx
        · exact h3 x (by simp) x (by simp [hx]) rfl
        · exact h1.2.2 x (by simp [hx]) x (by simp) rfl
      have hat : S.at_ { s with M := upd s.M k ((s.M k).1, r), w := upd s.w i (.done (some k)) } =
          s.at_ := at_eq rfl rfl rfl fun j => by
        by_cases hj : j = i
        · subst hj; simp [S.msgs, upd, hw, WPc.msg]
        · simp [S.msgs, upd, hj]
      have hch : ∀ j, j ≠ i → Loc.chan j ≠ .chan i := fun j hj hh => hj (by simpa using hh)
      refine ⟨h.given, h.idx, h.len, h.le, h.window, by rw [hat]; exact h.placed, ?_, ?_, ?_, ?_, ?_,
        ?_, ?_, h.out⟩
      · rw [hat]; intro l x hx; simp only [hM1]; exact h.ids l x hx
      · rw [hat]; exact h.all
      · intro j x hx
        by_cases hj : j = i
        · subst hj
          have := hin x (Or.inl hx)
          simp only [upd, this, if_false]; exact h.inq j x hx
        · simp only [hM _ x (mem_inq hx) (hch j hj)]; exact h.inq j x hx
      · intro hh
        have h1 : s.idx ∈ s.at_ .hand := by
          have hh' : s.hand = true := hh
          simp [S.at_, hh']
        simp only [hM _ _ h1 (by simp)]
        exact h.hand hh
      · intro j
        by_cases hj : j = i
        · subst hj
          have := h.w j
          rw [hw] at this
          simp only [upd, if_true, WOk]; exact this
        · have := h.w j
          have hm := @mem_w D s j
          simp only [upd, hj, if_false]
          cases hwj : s.w j <;> rw [hwj] at this hm <;> simp only [WOk] at this ⊢
          · rename_i x
            have e := hM _ x (hm (by simp [WPc.msg])) (hch j hj)
            rw [e]; exact this
          · rename_i x d
            have e := hM _ x (hm (by simp [WPc.msg])) (hch j hj)
            rw [e]; exact this
          · rename_i x d
            have e := hM _ x (hm (by simp [WPc.msg])) (hch j hj)
            rw [e]; exact this
          · rename_i m
            cases m with
            | none => trivial
            | some x =>
              have e := hM _ x (hm (by simp [WPc.msg])) (hch j hj)
              simp only at this ⊢
              rw [e]; exact this
      · intro j x hx
        by_cases hj : j = i
        · subst hj
          have := hin x (Or.inr hx)
          simp only [upd, this, if_false]; exact h.outq j x hx
        · simp only [hM _ x (mem_outq hx) (hch j hj)]; exact h.outq j x hx
      · intro x hx
        simp only [hM .q x hx (by simp)]; exact h.q x hx
    · simp at hs
  | wpush i =>
    simp only [Odfarm.step] at hs
    split at hs
    · rename_i k hw
      split at hs
      · simp only [Option.some.injEq] at hs
        subst hs
        refine h.inside (at_eq rfl rfl rfl fun j => ?_) rfl rfl rfl rfl rfl rfl rfl (fun _ _ h => h) ?_
          ?_ rfl
        · by_cases hj : j = i
          · subst hj; simp [S.msgs, upd, hw, WPc.msg]
          · simp [S.msgs, upd, hj]
        · intro j
          by_cases hj : j = i
          · subst hj; simp only [upd, if_true, WOk]
          · simp only [upd, hj, if_false]; exact h.w j
        · intro j x hx
          by_cases hj : j = i
          · subst hj
            simp only [upd, if_true, List.mem_append, List.mem_singleton, Option.some.injEq] at hx
            rcases hx with hx | rfl
            · exact h.outq j x hx
            · have := h.w j
              rw [hw] at this
              exact this
          · simp only [upd, hj, if_false] at hx
            exact h.outq j x hx
      · simp at hs
    · rename_i hw
      split at hs
      · simp only [Option.some.injEq] at hs
        subst hs
        refine h.inside (at_eq rfl rfl rfl fun j => ?_) rfl rfl rfl rfl rfl rfl rfl (fun _ _ h => h) ?_
          ?_ rfl
        · by_cases hj : j = i
          · subst hj; simp [S.msgs, upd, hw, WPc.msg]
          · simp [S.msgs, upd, hj]
        · intro j
          by_cases hj : j = i
          · subst hj; simp only [upd, if_true, WOk]
          · simp only [upd, hj, if_false]; exact h.w j
        · intro j x hx
          by_cases hj : j = i
          · subst hj
            simp only [upd, if_true, List.mem_append, List.mem_singleton, reduceCtorEq, or_false] at hx
            exact h.outq j x hx
          · simp only [upd, hj, if_false] at hx
            exact h.outq j x hx
      · simp at hs
    · simp at hs
  | top =>
    simp only [Odfarm.step] at hs
    split at hs
    · simp at hs
    · split at hs
      · simp at hs
      · rename_i k hk
        simp only [Option.some.injEq] at hs
        subst hs
        obtain ⟨h1, h2⟩ := top_spec hk
        refine h.deliver (k := k) (l1 := .q) ?_ ?_ h2 (h.q k h1) rfl rfl rfl rfl rfl rfl rfl rfl rfl
          (fun _ _ h => h) (fun x hx => List.mem_of_mem_erase hx)
        · exact List.perm_cons_erase h1
        · intro l hl
          cases l with
          | hand => rfl
          | chan i => rfl
          | q => exact absurd rfl hl
  | cpop i =>
    simp only [Odfarm.step] at hs
    split at hs
    · rename_i hc
      split at hs
      · simp at hs
      · rename_i q hq
        simp only [Option.some.injEq] at hs
        subst hs
        refine h.inside ?_ rfl rfl rfl rfl rfl rfl rfl (fun _ _ h => h) h.w ?_ rfl
        · funext l
          cases l with
          | hand => rfl
          | q => rfl
          | chan j =>
            by_cases hj : j = i
            · subst hj; simp [S.at_, S.msgs, upd, hq]
            · simp [S.at_, S.msgs, upd, hj]
        · intro j x hx
          by_cases hj : j = i
          · subst hj
            simp only [upd, if_true] at hx
            exact h.outq j x (by rw [hq]; simp [hx])
          · simp only [upd, hj, if_false] at hx
            exact h.outq j x hx
      · rename_i k q hq
        have hsub : ∀ j x, some x ∈ upd s.outq i q j → some x ∈ s.outq j := by
          intro j x hx
          by_cases hj : j = i
          · subst hj
            simp only [upd, if_true] at hx
            rw [hq]; simp [hx]
          · simpa only [upd, hj, if_false] using hx
        have hres := h.outq i k (by rw [hq]; simp)
        split at hs
        · rename_i hkey
          simp only [Option.some.injEq] at hs
          subst hs
          refine h.deliver (k := k) (l1 := .chan i) ?_ ?_ hkey hres rfl rfl rfl rfl rfl rfl rfl rfl rfl
            hsub (fun x hx => hx)
          · simp [S.at_, S.msgs, upd, hq]
          · intro l hl
            cases l with
            | hand => rfl
            | chan j =>
              have : ¬ j = i := fun hh => hl (by rw [hh])
              simp [S.at_, S.msgs, upd, this]
            | q => rfl
        · simp only [Option.some.injEq] at hs
          subst hs
          obtain ⟨hp, hmem⟩ := h.placed.move (l1 := .chan i) (l2 := .q) (k := k) (by simp)
            (L' := S.at_ { s with outq := upd s.outq i q, Q := s.Q ++ [k]
                                  err := s.err || decide (ms < s.Q.length + 1) })
            (by simp [S.at_, S.msgs, upd, hq])
            (by simpa [S.at_] using List.perm_append_comm)
            (by
              intro l h1 h2
              cases l with
              | hand => rfl
              | chan j =>
                have : ¬ j = i := fun hh => h1 (by rw [hh])
                simp [S.at_, S.msgs, upd, this]
              | q => exact absurd rfl h2)
          refine ⟨h.given, h.idx, h.len, h.le, h.window, hp, ?_, ?_, h.inq, h.hand, h.w, ?_, ?_, h.out⟩
          · intro l x hx
            obtain ⟨l', hx'⟩ := (hmem x).1 ⟨l, hx⟩
            exact h.ids l' x hx'
          · intro j h1 h2
            exact (hmem _).2 (h.all j h1 h2)
          · intro j x hx
            exact h.outq j x (hsub j x hx)
          · intro x hx
            simp only [List.mem_append, List.mem_singleton] at hx
            rcases hx with hx | rfl
            · exact h.q x hx
            · exact hres
    · simp at hs

theorem Inv.reach (hsz : 0 < sz) {M : Nat → Nat × D} {s : S D}
    (hr : Reach (Odfarm.step n ci co sz ms R) (S.start M) s) (ho : s.over = false) : Inv sz R s := by
  have : s.over = false → Inv sz R s :=
    hr.inv (Inv := fun s : S D => s.over = false → Inv sz R s) (fun _ => Inv.start M)
      (fun s a s' h hs ho => (h (over_mono hs ho)).step hsz hs ho)
  exact this ho

/-- **C24, order**: for every number of workers, every assignment of the tasks to the workers, every
order in which the workers finish, queues of any capacity and every schedule: as long as no cell has
been reused before the result of its task was delivered, the delivered values are results of the first
tasks, in the order of the tasks. -/
theorem C24_order_partial (hsz : 0 < sz) {M : Nat → Nat × D} {s : S D}
    (hr : Reach (Odfarm.step n ci co sz ms R) (S.start M) s) (ho : s.over = false) :
    InOrder R s.tasks s.out := by
  have h := Inv.reach hsz hr ho
  exact ⟨by rw [h.len, h.given]; exact h.le, h.out⟩

end FF.Odfarm
