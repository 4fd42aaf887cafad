import Verif.Farm.Gatherer
/-!
# C26: the collector ends exactly when all workers have ended

The workers are the environment: any message may arrive on any channel at any time.
-/
namespace FF.Farm
open FF.Node
variable {D : Type}

/-- A gatherer and its input channels; `sent` is everything that was put in each of them. -/
structure GS (c : Node D) where
  g : G c
  chan : Nat → List (Msg D)
  sent : Nat → List (Msg D)

def GS.start (c : Node D) : GS c := { g := G.start c, chan := fun _ => [], sent := fun _ => [] }

inductive GAct (D : Type) where
  /-- a worker puts `m` in channel `r` -/
  | arrive (r : Nat) (m : Msg D)
  /-- the gatherer tries its next channel -/
  | gather

def gstep (n : Nat) {c : Node D} (s : GS c) : GAct D → Option (GS c)
  | .arrive r m => some { s with
      chan := upd s.chan r (s.chan r ++ [m]), sent := upd s.sent r (s.sent r ++ [m]) }
  | .gather =>
    match s.g.attempt n (fun r => (s.chan r).head?) with
    | none => none
    | some (g', none) => some { s with g := g' }
    | some (g', some r) => some { s with g := g', chan := upd s.chan r (s.chan r).tail }

/-! ## Specification of the collector's output -/

/-- What the filter makes of the received messages, in order: its answers to the tasks, and what
`eosnotify` sends at the end marks. -/
def collected (c : Node D) : c.σ → List (Msg D) → List (Msg D)
  | _, [] => []
  | s, m :: ms =>
    match m with
    | .goon | .flush => collected c s ms
    | .eos | .eosw | .eosnf => (c.eosn s).2 ++ collected c (c.eosn s).1 ms
    | m => emitted (c.svc s m).2 ++ collected c (c.svc s m).1 ms

/-- the filter's state after the received messages -/
def cstate (c : Node D) : c.σ → List (Msg D) → c.σ
  | s, [] => s
  | s, m :: ms =>
    match m with
    | .goon | .flush => cstate c s ms
    | .eos | .eosw | .eosnf => cstate c (c.eosn s).1 ms
    | m => cstate c (c.svc s m).1 ms

theorem cstate_append (c : Node D) (s : c.σ) (xs ys : List (Msg D)) :
    cstate c s (xs ++ ys) = cstate c (cstate c s xs) ys := by
  induction xs generalizing s with
  | nil => rfl
  | cons x xs ih => cases x <;> simp [cstate, ih]

theorem collected_append (c : Node D) (s : c.σ) (xs ys : List (Msg D)) :
    collected c s (xs ++ ys) = collected c s xs ++ collected c (cstate c s xs) ys := by
  induction xs generalizing s with
  | nil => rfl
  | cons x xs ih => cases x <;> simp [collected, cstate, ih]

/-! ## Proof -/

structure GSInv (n : Nat) {c : Node D} (s : GS c) : Prop where
  g : GInv n s.g
  order : ∀ r, s.sent r = from_ s.g.got r ++ s.chan r

theorem attempt_got {n : Nat} {c : Node D} {g g' : G c} {avail : Nat → Option (Msg D)}
    {o : Option Nat} (hs : g.attempt n avail = some (g', o)) :
    (o = none → g'.got = g.got ∧ g'.exited = g.exited ∧ g'.out = g.out ∧ g'.st = g.st ∧
      g'.offline = g.offline ∧ g'.neos = g.neos ∧ g'.neosnf = g.neosnf) ∧
    (∀ r, o = some r → ∃ m, avail r = some m ∧ g' = g.handle n r m ∧ g.exited = false ∧ r < n ∧
      g.offline r = false) := by
  unfold G.attempt at hs
  split at hs
  · simp at hs
  · rename_i hx
    split at hs
    · simp at hs
    · rename_i r hr
      split at hs <;> rename_i hav <;> simp only [Option.some.injEq, Prod.mk.injEq] at hs <;>
        obtain ⟨rfl, rfl⟩ := hs
      · exact ⟨fun _ => ⟨rfl, rfl, rfl, rfl, rfl, rfl, rfl⟩, fun r h => by simp at h⟩
      · refine ⟨fun h => by simp at h, fun r' h => ?_⟩
        simp only [Option.some.injEq] at h
        subst h
        exact ⟨_, hav, rfl, by simpa using hx, (select_some hr).1, (select_some hr).2⟩

theorem GSInv.step {n : Nat} {c : Node D} {s s' : GS c} {a : GAct D} (h : GSInv n s)
    (hs : gstep n s a = some s') : GSInv n s' := by
  cases a with
  | arrive r m =>
    simp only [gstep, Option.some.injEq] at hs
    subst hs
    refine ⟨h.g, fun i => ?_⟩
    by_cases hi : i = r
    · subst hi; simp only [upd, if_true]; rw [h.order i, List.append_assoc]
    · simp only [upd, hi, if_false]; exact h.order i
  | gather =>
    simp only [gstep] at hs
    split at hs
    · simp at hs
    · rename_i g' hg
      simp only [Option.some.injEq] at hs
      subst hs
      refine ⟨h.g.attempt hg, fun i => ?_⟩
      obtain ⟨e, _⟩ := (attempt_got hg).1 rfl
      simp only [e]; exact h.order i
    · rename_i g' r hg
      simp only [Option.some.injEq] at hs
      subst hs
      refine ⟨h.g.attempt hg, fun i => ?_⟩
      obtain ⟨m, hm, rfl, _, _, _⟩ := (attempt_got hg).2 r rfl
      rw [(G.handle_fields n s.g r m).1, from_append, from_single]
      by_cases hi : i = r
      · subst hi
        simp only [upd, if_true]
        rw [h.order i]
        cases hc : s.chan i with
        | nil => rw [hc] at hm; simp at hm
        | cons x xs => rw [hc] at hm; simp at hm; subst hm; simp
      · have : ¬ r = i := fun hh => hi hh.symm
        simp only [upd, hi, this, if_false, List.append_nil]; exact h.order i

theorem GSInv.reach {n : Nat} {c : Node D} {s : GS c} (hr : Reach (gstep n) (GS.start c) s) :
    GSInv n s :=
  hr.inv ⟨GInv.start n c, by simp [GS.start, G.start, from_]⟩ (fun _ _ _ h hs => h.step hs)

theorem GEnd.reach {n : Nat} (hn : 0 < n) {c : Node D} (hc : StaysOn c) {s : GS c}
    (hr : Reach (gstep n) (GS.start c) s) : GEnd n s.g := by
  refine hr.inv (Inv := fun s : GS c => GEnd n s.g) (GEnd.start hn c) ?_
  intro s a s' h hs
  cases a with
  | arrive r m => simp only [gstep, Option.some.injEq] at hs; subst hs; exact h
  | gather =>
    simp only [gstep] at hs
    split at hs
    · simp at hs
    all_goals
      rename_i hg
      simp only [Option.some.injEq] at hs
      subst hs
      exact h.attempt hc hg

/-- **C26, nothing dropped or reordered**: whatever arrives and in whatever order, the messages
received from each channel, followed by those still in it, are the messages sent on it. -/
theorem C26_no_loss (n : Nat) (c : Node D) (s : GS c) (hr : Reach (gstep n) (GS.start c) s) (r : Nat) :
    s.sent r = from_ s.g.got r ++ s.chan r := (GSInv.reach hr).order r

/-- every mark that was sent is of the ordinary kind (`EOS` or `EOSW`) -/
def NoNofreeze (sent : Nat → List (Msg D)) : Prop := ∀ r, Msg.eosnf ∉ sent r

/-- only tasks, end marks, `GO_ON` and `FLUSH` were sent: no `NULL`, no `GO_OUT` -/
def CleanSent (sent : Nat → List (Msg D)) : Prop := ∀ r, Msg.nul ∉ sent r ∧ Msg.goout ∉ sent r

/-- marks counted by kind -/
structure GKind {c : Node D} (g : G c) : Prop where
  nf : (∀ x ∈ g.got, x.2 ≠ .eosnf) → g.neosnf = 0

theorem GKind.handle {n : Nat} {c : Node D} {g : G c} (h : GKind g) (r : Nat) (m : Msg D) :
    GKind (g.handle n r m) := by
  obtain ⟨e1, _, _, _, e5⟩ := G.handle_fields n g r m
  refine ⟨fun hh => ?_⟩
  rw [e1] at hh
  rw [e5, h.nf fun x hx => hh x (by simp [hx])]
  have : m ≠ .eosnf := hh (r, m) (by simp)
  cases m <;> simp [nfInc] at this ⊢

theorem GKind.reach {n : Nat} {c : Node D} {s : GS c} (hr : Reach (gstep n) (GS.start c) s) :
    GKind s.g := by
  refine hr.inv (Inv := fun s : GS c => GKind s.g) ⟨fun _ => rfl⟩ ?_
  intro s a s' h hs
  cases a with
  | arrive r m => simp only [gstep, Option.some.injEq] at hs; subst hs; exact h
  | gather =>
    simp only [gstep] at hs
    split at hs
    · simp at hs
    · rename_i g' hg
      simp only [Option.some.injEq] at hs
      subst hs
      obtain ⟨e1, _, _, _, _, _, e7⟩ := (attempt_got hg).1 rfl
      exact ⟨fun hh => by rw [e7]; exact h.nf (by rw [← e1]; exact hh)⟩
    · rename_i g' r hg
      simp only [Option.some.injEq] at hs
      subst hs
      obtain ⟨m, hm, rfl, _⟩ := (attempt_got hg).2 r rfl
      exact h.handle r m

theorem mem_from {l : List (Nat × Msg D)} {r : Nat} {m : Msg D} : m ∈ from_ l r ↔ (r, m) ∈ l := by
  simp only [from_, List.mem_map, List.mem_filter]
  constructor
  · rintro ⟨⟨a, b⟩, ⟨h1, h2⟩, h3⟩
    simp only [beq_iff_eq] at h2
    simp only at h3
    subst h2; subst h3; exact h1
  · intro h; exact ⟨(r, m), ⟨h, by simp⟩, rfl⟩

theorem GSInv.clean {n : Nat} {c : Node D} {s : GS c} (h : GSInv n s) (hcl : CleanSent s.sent) :
    Clean s.g.got := by
  rintro ⟨r, m⟩ hx
  have hm : m ∈ s.sent r := by rw [h.order r]; exact List.mem_append_left _ (mem_from.2 hx)
  refine ⟨?_, ?_⟩ <;> rintro rfl
  · exact (hcl r).1 hm
  · exact (hcl r).2 hm

/-- **C26, ends exactly when all have ended**: with a filter that does not end the stream by itself
and senders that use `EOS` or `EOSW`, the gatherer has left its loop exactly when it has received an
end mark from every one of its `n` channels. -/
theorem C26_ends_iff_partial (n : Nat) (hn : 0 < n) (c : Node D) (hc : StaysOn c) (s : GS c)
    (hr : Reach (gstep n) (GS.start c) s) (hnf : NoNofreeze s.sent)
    (hcl : CleanSent s.sent) :
    s.g.exited = true ↔ ∀ r, r < n → ∃ m, m.isMark = true ∧ m ∈ from_ s.g.got r := by
  have h := GSInv.reach hr
  have he := GEnd.reach hn hc hr
  have hk : s.g.neosnf = 0 := by
    apply (GKind.reach hr).nf
    rintro ⟨r, m⟩ hx rfl
    apply hnf r
    rw [h.order r]
    exact List.mem_append_left _ (mem_from.2 hx)
  have hcnt := h.g.count
  rw [hk, Nat.add_zero] at hcnt
  rw [he.exit (h.clean hcl), hk]
  constructor
  · intro hlt r hr'
    have : offCount n s.g.offline = n := by
      have := offCount_le n s.g.offline; omega
    exact (h.g.off r).1 (offCount_eq this r hr')
  · intro hall
    have hc2 : offCount n s.g.offline = n := by
      unfold offCount
      have : List.countP s.g.offline (List.range n) = (List.range n).length := by
        rw [List.countP_eq_length]
        intro r hr'
        exact (h.g.off r).2 (hall r (by simpa using hr'))
      simpa using this
    omega

/-- **C26, everything received**: when the gatherer has ended, it has received, from every channel,
everything sent up to and including its end mark. -/
theorem C26_all_received_partial (n : Nat) (hn : 0 < n) (c : Node D) (hc : StaysOn c) (s : GS c)
    (hr : Reach (gstep n) (GS.start c) s) (hnf : NoNofreeze s.sent)
    (hcl : CleanSent s.sent) (hx : s.g.exited = true)
    (r : Nat) (hrn : r < n) :
    ∃ ms m, m.isMark = true ∧ (∀ x ∈ ms, x.isMark = false) ∧ from_ s.g.got r = ms ++ [m] ∧
      ∃ rest, s.sent r = ms ++ [m] ++ rest := by
  have h := GSInv.reach hr
  have h1 := (h.g.off r).2 ((C26_ends_iff_partial n hn c hc s hr hnf hcl).1 hx r hrn)
  obtain ⟨ms, m, h2, h3, h4⟩ := h.g.last r h1
  exact ⟨ms, m, h3, h4, h2, s.chan r, by rw [← h2]; exact h.order r⟩

/-- output of the gatherer, as long as all marks are `EOS` -/
structure GOut {c : Node D} (g : G c) : Prop where
  out : Clean g.got → (∀ x ∈ g.got, x.2.isMark = true → x.2 = .eos) →
    g.st = cstate c c.init (g.got.map Prod.snd) ∧
    g.out = collected c c.init (g.got.map Prod.snd) ++ (if g.exited then [.eos] else [])

theorem GOut.handle {n : Nat} {c : Node D} (hc : StaysOn c) {g : G c} (h : GOut g)
    (hx : g.exited = false) (r : Nat) (m : Msg D) : GOut (g.handle n r m) := by
  refine ⟨fun hcl hh => ?_⟩
  obtain ⟨e1, _⟩ := G.handle_fields n g r m
  rw [e1] at hcl hh ⊢
  obtain ⟨h1, h2⟩ := h.out (fun x hx => hcl x (by simp [hx])) fun x hx => hh x (by simp [hx])
  have hcm := hcl (r, m) (by simp)
  rw [hx] at h2
  simp only [Bool.false_eq_true, if_false, List.append_nil] at h2
  have hm := hh (r, m) (by simp)
  rw [List.map_append, cstate_append, collected_append, ← h1, ← h2]
  have task : ∀ d : D,
      let g' : G c := { g with nextr1 := r + 1, got := g.got ++ [(r, .data d)] }
      (g'.task (.data d)).st = (c.svc g.st (.data d)).1 ∧
      (g'.task (.data d)).out = g.out ++ emitted (c.svc g.st (.data d)).2 ++
        (if (g'.task (.data d)).exited then [.eos] else []) := by
    intro d
    simp only [G.task]
    rcases hc g.st d with ⟨d, hd⟩ | hd | hd <;> simp [hd, hx, emitted]
  cases m with
  | eos =>
    simp only [G.handle, G.check]
    split
    · simp [hx, cstate, collected]
    · simp [cstate, collected]
  | eosw => exact absurd (hm rfl) (by simp)
  | eosnf => exact absurd (hm rfl) (by simp)
  | goon => simp [G.handle, hx, cstate, collected]
  | flush => simp [G.handle, hx, cstate, collected]
  | nul => exact absurd rfl hcm.1
  | goout => exact absurd rfl hcm.2
  | data d =>
    simp only [G.handle, List.map_cons, List.map_nil, cstate, collected, List.append_nil]
    exact task d

theorem GOut.reach {n : Nat} {c : Node D} (hc : StaysOn c) {s : GS c}
    (hr : Reach (gstep n) (GS.start c) s) : GOut s.g := by
  refine hr.inv (Inv := fun s : GS c => GOut s.g)
    ⟨fun _ _ => ⟨rfl, by simp [GS.start, G.start, collected]⟩⟩ ?_
  intro s a s' h hs
  cases a with
  | arrive r m => simp only [gstep, Option.some.injEq] at hs; subst hs; exact h
  | gather =>
    simp only [gstep] at hs
    split at hs
    · simp at hs
    · rename_i g' hg
      simp only [Option.some.injEq] at hs
      subst hs
      obtain ⟨e1, e2, e3, e4, _⟩ := (attempt_got hg).1 rfl
      exact ⟨fun hcl hh => by rw [e1] at hcl hh ⊢; rw [e2, e3, e4]; exact h.out hcl hh⟩
    · rename_i g' r hg
      simp only [Option.some.injEq] at hs
      subst hs
      obtain ⟨m, hm, rfl, hx, _⟩ := (attempt_got hg).2 r rfl
      exact h.handle hc hx r m

/-- **C26, exactly one `EOS`, last**: if the senders end with `EOS`, what the gatherer sent is what
its filter made of the received messages, in order, followed by exactly one `EOS` if it has ended
and by none before. -/
theorem C26_one_eos_partial (n : Nat) (c : Node D) (hc : StaysOn c) (s : GS c)
    (hr : Reach (gstep n) (GS.start c) s) (hm : ∀ r, ∀ m ∈ s.sent r, m.isMark = true → m = .eos)
    (hcl : CleanSent s.sent) :
    s.g.out = collected c c.init (s.g.got.map Prod.snd) ++ (if s.g.exited then [.eos] else []) := by
  have h := GSInv.reach hr
  refine ((GOut.reach hc hr).out (h.clean hcl) ?_).2
  rintro ⟨r, m⟩ hx hmk
  exact hm r m (by rw [h.order r]; exact List.mem_append_left _ (mem_from.2 hx)) hmk

/-- **C26 fails with mixed end marks**: one worker ends with `EOS` and the other with `EOS_NOFREEZE`;
both marks have been received, both channels are offline, and the gatherer has neither ended nor can
do anything (its search for a channel does not end). -/
theorem C26_mixed_marks_counterexample :
    ∃ s : GS (idNode : Node Nat), Reach (gstep 2) (GS.start idNode) s ∧
      (∀ r, r < 2 → s.g.offline r = true) ∧ s.g.exited = false ∧ gstep 2 s .gather = none := by
  refine ⟨_, ⟨[.arrive 0 .eos, .arrive 1 .eosnf, .gather, .gather], rfl⟩, by decide, rfl, rfl⟩

/-- **C26 fails when the last mark is `EOSW`**: the gatherer ends without sending `EOS`, although it
has received an `EOS` from the other worker. -/
theorem C26_eosw_last_counterexample :
    ∃ s : GS (idNode : Node Nat), Reach (gstep 2) (GS.start idNode) s ∧
      s.g.exited = true ∧ s.g.got = [(0, .eos), (1, .eosw)] ∧ s.g.out = [] := by
  refine ⟨_, ⟨[.arrive 0 .eos, .arrive 1 .eosw, .gather, .gather], rfl⟩, rfl, rfl, rfl⟩

/-- a collector that adds up what it gets and sends the sum on -/
def accNode : Node Nat where
  σ := Nat
  init := 0
  comp := false
  src := false
  svc := fun s t => match t with
    | .data d => (s + d, [], .data (s + d))
    | _ => (s, [], .goon)
  eosn := fun s => (s, [])

theorem accNode_stays : StaysOn accNode := by
  intro s t; simp [accNode]

/-- **C26, the default collector forwards `NULL` as an end of stream**: a `NULL` received from one
channel ends the gatherer, although the other channel has not ended; this is why `CleanSent` is
needed. -/
theorem C26_null_counterexample :
    ∃ s : GS (idNode : Node Nat), Reach (gstep 2) (GS.start idNode) s ∧ s.g.exited = true ∧
      s.g.got = [(0, .nul)] ∧ s.g.out = [.eos] := by
  refine ⟨_, ⟨[.arrive 0 .nul, .gather], rfl⟩, rfl, rfl, rfl⟩

-- the hypotheses are met by a run in which the gatherer ends
example : ∃ s : GS accNode, Reach (gstep 2) (GS.start accNode) s ∧ s.g.exited = true ∧
    s.g.got = [(1, .data 5), (0, .data 3), (1, .eos), (0, .eos)] ∧
    s.g.out = [.data 5, .data 8, .eos] := by
  refine ⟨_, ⟨[.arrive 1 (.data 5), .gather, .gather, .arrive 0 (.data 3), .arrive 1 .eos,
    .gather, .gather, .gather, .arrive 0 .eos, .gather], rfl⟩, rfl, rfl, rfl⟩

end FF.Farm
