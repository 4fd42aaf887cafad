import Verif.Farm.Emitter
/-!
# The gatherer (farm collector, multi-input node)

Source: `/repo/ff/gt.hpp` 134-139 (`selectworker`), 197-218 (`gather_task`), 537-556 (`svc_init`),
563-675 (`svc`).  Non-blocking mode, no feedback channels, first run of the node (`neos` and
`neosnofreeze` start at 0).

The user's filter is an arbitrary node; a gatherer without filter is `idNode`.  The output is
recorded, not bounded (the next stage of a pipeline is C20's business).
-/
namespace FF.Farm
open FF.Node
variable {D : Type}

/-- no filter: `task` goes on unchanged -/
def idNode : Node D where
  σ := Unit
  init := ()
  comp := false
  src := false
  svc := fun s t => (s, [], t)
  eosn := fun s => (s, [])

/-- State of the gatherer. -/
structure G (c : Node D) where
  st : c.σ
  /-- `nextr + 1` (`nextr` starts at -1) -/
  nextr1 : Nat
  offline : Nat → Bool
  neos : Nat
  neosnf : Nat
  exited : Bool
  /-- what went downstream -/
  out : List (Msg D)
  /-- ghost: what was received, with the channel -/
  got : List (Nat × Msg D)

def G.start (c : Node D) : G c :=
  { st := c.init, nextr1 := 0, offline := fun _ => false, neos := 0, neosnf := 0, exited := false,
    out := [], got := [] }

/-- `do nextr = (nextr+1) % running; while(offline[nextr]);` (gt.hpp 135-137); `none` if the loop does
not stop within `fuel` iterations -/
def selectAux (n : Nat) (offline : Nat → Bool) : Nat → Nat → Option Nat
  | _, 0 => none
  | r1, fuel + 1 => if offline (r1 % n) then selectAux n offline (r1 + 1) fuel else some (r1 % n)

/-- `selectworker` (gt.hpp 134-139): the first channel, going round from `nextr + 1`, that is not
offline; `none` if there is none (the loop does not end, see `select_none`). -/
def select (n : Nat) (offline : Nat → Bool) (r1 : Nat) : Option Nat := selectAux n offline r1 n

/-- the end of the loop body: leave it if all the end marks of one kind have arrived, and then, if the
last mark was `EOS`, send `EOS` (gt.hpp 652-665) -/
def G.check (n : Nat) {c : Node D} (g : G c) (lastEos : Bool) : G c :=
  if g.neos < n ∧ g.neosnf < n then g
  else { g with exited := true, out := g.out ++ (if lastEos then [.eos] else []) }

/-- `filter->svc(task)` and its result (gt.hpp 618-647). -/
def G.task {c : Node D} (g : G c) (m : Msg D) : G c :=
  let r := c.svc g.st m
  let g' := { g with st := r.1, out := g.out ++ r.2.1 }
  match r.2.2 with
  | .goon | .flush => g'
  | .goout | .eosnf | .eosw => { g' with exited := true }
  | .nul | .eos => { g' with exited := true, out := g'.out ++ [.eos] }
  | m' => { g' with out := g'.out ++ [m'] }

/-- A message received from channel `r` (gt.hpp 588-652).  `eosnotify` is called at every end mark
(a filter with the default `neos == 1`). -/
def G.handle (n : Nat) {c : Node D} (g : G c) (r : Nat) (m : Msg D) : G c :=
  let g := { g with nextr1 := r + 1, got := g.got ++ [(r, m)] }
  match m with
  | .goon | .flush => g
  | .eos => G.check n { g with
      st := (c.eosn g.st).1, out := g.out ++ (c.eosn g.st).2
      offline := upd g.offline r true, neos := g.neos + 1 } true
  | .eosw => G.check n { g with
      st := (c.eosn g.st).1, out := g.out ++ (c.eosn g.st).2
      offline := upd g.offline r true, neos := g.neos + 1 } false
  | .eosnf => G.check n { g with
      st := (c.eosn g.st).1, out := g.out ++ (c.eosn g.st).2
      offline := upd g.offline r true, neosnf := g.neosnf + 1 } false
  | m => g.task m

/-- One attempt of `gather_task` on the next channel (gt.hpp 201-207), and what follows if it
succeeds.  `avail r` is the first message of channel `r`.  The second component is the channel that
was popped. -/
def G.attempt (n : Nat) (avail : Nat → Option (Msg D)) {c : Node D} (g : G c) :
    Option (G c × Option Nat) :=
  if g.exited then none
  else
    match select n g.offline g.nextr1 with
    | none => none
    | some r =>
      match avail r with
      | none => some ({ g with nextr1 := r + 1 }, none)
      | some m => some (g.handle n r m, some r)

/-! ## Facts about `select` -/

/-- going round from `r1`, a channel that is not offline is found at the latest when one is met -/
theorem selectAux_le {n : Nat} {off : Nat → Bool} (d : Nat) {r1 fuel : Nat} (hd : d < fuel)
    (h : off ((r1 + d) % n) = false) :
    ∃ k, k ≤ d ∧ selectAux n off r1 fuel = some ((r1 + k) % n) := by
  induction d generalizing r1 fuel with
  | zero =>
    obtain ⟨f, rfl⟩ : ∃ f, fuel = f + 1 := ⟨fuel - 1, by omega⟩
    rw [Nat.add_zero] at h
    exact ⟨0, Nat.le_refl _, by simp [selectAux, h]⟩
  | succ d ih =>
    obtain ⟨f, rfl⟩ : ∃ f, fuel = f + 1 := ⟨fuel - 1, by omega⟩
    cases hr : off (r1 % n) with
    | false => exact ⟨0, by omega, by simp [selectAux, hr]⟩
    | true =>
      obtain ⟨k, hk, he⟩ := ih (r1 := r1 + 1) (fuel := f) (by omega)
        (by rw [show r1 + 1 + d = r1 + (d + 1) by omega]; exact h)
      refine ⟨k + 1, by omega, ?_⟩
      rw [selectAux, if_pos hr, he]
      rw [show r1 + 1 + k = r1 + (k + 1) by omega]

theorem selectAux_some {n : Nat} {off : Nat → Bool} {r1 fuel r : Nat}
    (h : selectAux n off r1 fuel = some r) : ∃ k, k < fuel ∧ r = (r1 + k) % n ∧ off r = false := by
  induction fuel generalizing r1 with
  | zero => simp [selectAux] at h
  | succ f ih =>
    rw [selectAux] at h
    split at h
    · obtain ⟨k, hk, hr, ho⟩ := ih h
      exact ⟨k + 1, by omega, by rw [hr]; congr 1; omega, ho⟩
    · rename_i ho
      simp only [Option.some.injEq] at h
      subst h
      exact ⟨0, by omega, by simp, by simpa using ho⟩

theorem select_some {n : Nat} {off : Nat → Bool} {r1 r : Nat} (h : select n off r1 = some r) :
    r < n ∧ off r = false := by
  obtain ⟨k, hk, hr, ho⟩ := selectAux_some h
  exact ⟨by rw [hr]; exact Nat.mod_lt _ (by omega), ho⟩

/-- every residue is reached going round once -/
theorem round_mem {n : Nat} (r1 : Nat) {r : Nat} (hr : r < n) : ∃ d, d < n ∧ (r1 + d) % n = r := by
  have h1 := Nat.mod_lt r1 (show 0 < n by omega)
  by_cases h : r1 % n ≤ r
  · refine ⟨r - r1 % n, by omega, ?_⟩
    rw [Nat.add_mod, Nat.mod_eq_of_lt (a := r - r1 % n) (by omega)]
    rw [show r1 % n + (r - r1 % n) = r by omega, Nat.mod_eq_of_lt hr]
  · refine ⟨n - r1 % n + r, by omega, ?_⟩
    rw [Nat.add_mod, Nat.mod_eq_of_lt (a := n - r1 % n + r) (by omega)]
    rw [show r1 % n + (n - r1 % n + r) = r + n by omega, Nat.add_mod_right, Nat.mod_eq_of_lt hr]

/-- `n` iterations without finding a channel mean that there is none: the loop of the code would go
on for ever. -/
theorem select_none {n : Nat} {off : Nat → Bool} {r1 : Nat} (h : select n off r1 = none) :
    ∀ r, r < n → off r = true := by
  intro r hr
  obtain ⟨d, hd, rfl⟩ := round_mem r1 hr
  cases ho : off ((r1 + d) % n) with
  | true => rfl
  | false =>
    obtain ⟨k, _, he⟩ := selectAux_le d hd ho
    rw [select, he] at h; simp at h

/-- what was received from channel `i` -/
def from_ (l : List (Nat × Msg D)) (i : Nat) : List (Msg D) :=
  (l.filter fun x => x.1 == i).map Prod.snd

theorem from_append (l l' : List (Nat × Msg D)) (i : Nat) :
    from_ (l ++ l') i = from_ l i ++ from_ l' i := by simp [from_]

theorem from_single (r i : Nat) (m : Msg D) : from_ [(r, m)] i = if r = i then [m] else [] := by
  simp only [from_, List.filter_cons, List.filter_nil]
  by_cases h : r = i
  · simp [h]
  · simp [h]

/-! ## Invariant -/

/-- number of channels below `n` that are offline -/
def offCount (n : Nat) (off : Nat → Bool) : Nat := (List.range n).countP off

theorem offCount_upd {n : Nat} {off : Nat → Bool} {r : Nat} (hr : r < n) (h : off r = false) :
    offCount n (upd off r true) = offCount n off + 1 := by
  unfold offCount
  induction n with
  | zero => omega
  | succ n ih =>
    rw [List.range_succ, List.countP_append, List.countP_append]
    by_cases hrn : r = n
    · subst hrn
      have : List.countP (upd off r true) (List.range r) = List.countP off (List.range r) := by
        apply List.countP_congr
        intro x hx
        have : x ≠ r := by simp at hx; omega
        simp [upd, this]
      rw [this]
      simp [upd, h]
    · rw [ih (by omega)]
      have hnr : n ≠ r := fun hh => hrn hh.symm
      simp [upd, hnr]; omega

theorem offCount_le (n : Nat) (off : Nat → Bool) : offCount n off ≤ n := by
  unfold offCount
  have := List.countP_le_length (p := off) (l := List.range n)
  simpa using this

theorem offCount_eq {n : Nat} {off : Nat → Bool} (h : offCount n off = n) :
    ∀ r, r < n → off r = true := by
  intro r hr
  unfold offCount at h
  have : List.countP off (List.range n) = (List.range n).length := by simpa using h
  rw [List.countP_eq_length] at this
  exact this r (by simpa using hr)

/-- A filter that does not end the stream by itself: given a task, it returns a task, `GO_ON` or
`FLUSH`.  The gatherer without filter (`idNode`) is one. -/
def StaysOn (c : Node D) : Prop :=
  ∀ s t, (∃ d, (c.svc s (.data t)).2.2 = .data d) ∨ (c.svc s (.data t)).2.2 = .goon ∨
    (c.svc s (.data t)).2.2 = .flush

theorem idNode_stays : StaysOn (idNode : Node D) := fun _ t => Or.inl ⟨t, rfl⟩

/-- only tasks, end marks, `GO_ON` and `FLUSH` were received (no `NULL`, no `GO_OUT`) -/
def Clean (got : List (Nat × Msg D)) : Prop := ∀ x ∈ got, x.2 ≠ .nul ∧ x.2 ≠ .goout

structure GInv (n : Nat) {c : Node D} (g : G c) : Prop where
  /-- marks received and channels offline agree -/
  count : g.neos + g.neosnf = offCount n g.offline
  chan : ∀ r m, (r, m) ∈ g.got → r < n
  /-- a channel is offline exactly when its end mark was received, and it was the last message -/
  off : ∀ r, g.offline r = true ↔ ∃ m, m.isMark = true ∧ m ∈ from_ g.got r
  last : ∀ r, g.offline r = true →
    ∃ ms m, from_ g.got r = ms ++ [m] ∧ m.isMark = true ∧ ∀ x ∈ ms, x.isMark = false
  alive : ∀ r, g.offline r = false → ∀ x ∈ from_ g.got r, x.isMark = false

theorem GInv.start (n : Nat) (c : Node D) : GInv n (G.start c) where
  count := by simp [G.start, offCount]
  chan := by simp [G.start]
  off := by simp [G.start, from_]
  last := by simp [G.start]
  alive := by simp [G.start, from_]

/-- counts in `neos` -/
def eosInc : Msg D → Nat
  | .eos | .eosw => 1
  | _ => 0

/-- counts in `neosnofreeze` -/
def nfInc : Msg D → Nat
  | .eosnf => 1
  | _ => 0

/-- the components that the invariant talks about -/
theorem G.handle_fields (n : Nat) {c : Node D} (g : G c) (r : Nat) (m : Msg D) :
    (g.handle n r m).got = g.got ++ [(r, m)] ∧
    (g.handle n r m).nextr1 = r + 1 ∧
    (g.handle n r m).offline = (if m.isMark then upd g.offline r true else g.offline) ∧
    (g.handle n r m).neos = g.neos + eosInc m ∧
    (g.handle n r m).neosnf = g.neosnf + nfInc m := by
  have check : ∀ (g : G c) (b : Bool), (G.check n g b).got = g.got ∧
      (G.check n g b).nextr1 = g.nextr1 ∧ (G.check n g b).offline = g.offline ∧
      (G.check n g b).neos = g.neos ∧ (G.check n g b).neosnf = g.neosnf := by
    intro g b; unfold G.check; split <;> exact ⟨rfl, rfl, rfl, rfl, rfl⟩
  have task : ∀ (g : G c) (m : Msg D), (g.task m).got = g.got ∧
      (g.task m).nextr1 = g.nextr1 ∧ (g.task m).offline = g.offline ∧
      (g.task m).neos = g.neos ∧ (g.task m).neosnf = g.neosnf := by
    intro g m; unfold G.task; simp only; split <;> exact ⟨rfl, rfl, rfl, rfl, rfl⟩
  cases m <;> simp [G.handle, Msg.isMark, check, task, eosInc, nfInc]

theorem GInv.handle {n : Nat} {c : Node D} {g : G c} (h : GInv n g) {r : Nat} (hr : r < n)
    (ho : g.offline r = false) (m : Msg D) : GInv n (g.handle n r m) := by
  obtain ⟨e1, _, e3, e4, e5⟩ := G.handle_fields n g r m
  have hf : ∀ i, from_ (g.handle n r m).got i = from_ g.got i ++ (if r = i then [m] else []) := by
    intro i; rw [e1, from_append, from_single]
  cases hm : m.isMark with
  | true =>
    rw [hm] at e3
    simp only [if_true] at e3
    refine ⟨?_, ?_, ?_, ?_, ?_⟩
    · rw [e3, e4, e5, offCount_upd hr ho, ← h.count]
      cases m <;> simp [Msg.isMark] at hm <;> simp [eosInc, nfInc] <;> omega
    · intro i x hx
      rw [e1] at hx
      simp only [List.mem_append, List.mem_singleton, Prod.mk.injEq] at hx
      rcases hx with hx | ⟨rfl, rfl⟩
      · exact h.chan i x hx
      · exact hr
    · intro i
      rw [e3, hf]
      by_cases hi : i = r
      · subst hi
        simp only [upd, if_true, true_iff]
        exact ⟨m, hm, by simp⟩
      · have : ¬ r = i := fun hh => hi hh.symm
        simp only [upd, hi, this, if_false, List.append_nil]
        exact h.off i
    · intro i hi'
      rw [e3] at hi'
      rw [hf]
      by_cases hi : i = r
      · subst hi
        refine ⟨from_ g.got i, m, by simp, hm, h.alive i ho⟩
      · have : ¬ r = i := fun hh => hi hh.symm
        simp only [upd, hi, if_false] at hi'
        simp only [this, if_false, List.append_nil]
        exact h.last i hi'
    · intro i hi'
      rw [e3] at hi'
      rw [hf]
      by_cases hi : i = r
      · subst hi; simp [upd] at hi'
      · have : ¬ r = i := fun hh => hi hh.symm
        simp only [upd, hi, if_false] at hi'
        simp only [this, if_false, List.append_nil]
        exact h.alive i hi'
  | false =>
    rw [hm] at e3
    simp only [Bool.false_eq_true, if_false] at e3
    refine ⟨?_, ?_, ?_, ?_, ?_⟩
    · rw [e3, e4, e5, ← h.count]
      cases m <;> simp [Msg.isMark] at hm <;> simp [eosInc, nfInc]
    · intro i x hx
      rw [e1] at hx
      simp only [List.mem_append, List.mem_singleton, Prod.mk.injEq] at hx
      rcases hx with hx | ⟨rfl, rfl⟩
      · exact h.chan i x hx
      · exact hr
    · intro i
      rw [e3, hf, h.off i]
      constructor
      · rintro ⟨x, hx1, hx2⟩; exact ⟨x, hx1, by simp [hx2]⟩
      · rintro ⟨x, hx1, hx2⟩
        rcases List.mem_append.1 hx2 with hx2 | hx2
        · exact ⟨x, hx1, hx2⟩
        · split at hx2
          · simp only [List.mem_singleton] at hx2; subst hx2; rw [hm] at hx1; simp at hx1
          · simp at hx2
    · intro i hi
      rw [e3] at hi
      rw [hf]
      have : ¬ r = i := by
        intro hh; subst hh; rw [ho] at hi; simp at hi
      simp only [this, if_false, List.append_nil]
      exact h.last i hi
    · intro i hi x hx
      rw [e3] at hi
      rw [hf] at hx
      rcases List.mem_append.1 hx with hx | hx
      · exact h.alive i hi x hx
      · split at hx
        · simp only [List.mem_singleton] at hx; subst hx; exact hm
        · simp at hx

theorem GInv.attempt {n : Nat} {c : Node D} {g g' : G c} {avail : Nat → Option (Msg D)}
    {o : Option Nat} (h : GInv n g) (hs : g.attempt n avail = some (g', o)) : GInv n g' := by
  unfold G.attempt at hs
  split at hs
  · simp at hs
  · split at hs
    · simp at hs
    · rename_i r hr
      obtain ⟨h1, h2⟩ := select_some hr
      split at hs <;> simp only [Option.some.injEq, Prod.mk.injEq] at hs <;> obtain ⟨rfl, rfl⟩ := hs
      · exact ⟨h.count, h.chan, h.off, h.last, h.alive⟩
      · exact h.handle h1 h2 _

/-- the gatherer's own end: with a filter that does not end the stream, it has left its loop exactly
when all the marks of one kind have arrived -/
structure GEnd (n : Nat) {c : Node D} (g : G c) : Prop where
  exit : Clean g.got → (g.exited = true ↔ ¬ (g.neos < n ∧ g.neosnf < n))

theorem GEnd.start {n : Nat} (hn : 0 < n) (c : Node D) : GEnd n (G.start c) :=
  ⟨fun _ => by simp [G.start]; omega⟩

theorem GEnd.handle {n : Nat} {c : Node D} (hc : StaysOn c) {g : G c} (h : GEnd n g)
    (hx : g.exited = false) (r : Nat) (m : Msg D) : GEnd n (g.handle n r m) := by
  refine ⟨fun hcl => ?_⟩
  have hgot := (G.handle_fields n g r m).1
  rw [hgot] at hcl
  have hm := hcl (r, m) (by simp)
  have hcl' : Clean g.got := fun x hx => hcl x (by simp [hx])
  have check : ∀ (g : G c) (b : Bool), g.exited = false →
      ((G.check n g b).exited = true ↔ ¬ ((G.check n g b).neos < n ∧ (G.check n g b).neosnf < n)) := by
    intro g b hg
    unfold G.check
    split
    · rename_i hlt; simp [hg, hlt]
    · rename_i hlt; simp only [true_iff]; exact hlt
  have h0 := h.exit hcl'
  rw [hx] at h0
  simp only [Bool.false_eq_true, false_iff, Decidable.not_not] at h0
  cases m <;> simp only [G.handle]
  case eos => exact check _ _ hx
  case eosw => exact check _ _ hx
  case eosnf => exact check _ _ hx
  case goon => simp only [hx]; simp [h0]
  case flush => simp only [hx]; simp [h0]
  case nul => exact absurd rfl hm.1
  case goout => exact absurd rfl hm.2
  case data t =>
    unfold G.task
    rcases hc g.st t with ⟨d, hd⟩ | hd | hd <;> simp only [hd, hx] <;> simp [h0]

theorem GEnd.attempt {n : Nat} {c : Node D} (hc : StaysOn c) {g g' : G c}
    {avail : Nat → Option (Msg D)} {o : Option Nat} (h : GEnd n g)
    (hs : g.attempt n avail = some (g', o)) : GEnd n g' := by
  unfold G.attempt at hs
  split at hs
  · simp at hs
  · rename_i hx
    simp only [Bool.not_eq_true] at hx
    split at hs
    · simp at hs
    · split at hs <;> simp only [Option.some.injEq, Prod.mk.injEq] at hs <;> obtain ⟨rfl, rfl⟩ := hs
      · exact ⟨h.exit⟩
      · exact h.handle hc hx _ _

end FF.Farm
