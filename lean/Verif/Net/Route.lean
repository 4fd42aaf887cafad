import Verif.Net.Wire
import Verif.Node.Model
import Mathlib.Data.List.Basic
/-!
# C54: the connection of a message

`ff_dsenderMTCL2::svc` and `getMostFilledBuffer` (`ff/distributed/ff_dsenderMTCL.hpp`).
-/
namespace FF.Net.Route
open FF.Net FF.Node

/-- The sender: messages in a batch; the connection of a destination; the possible connections of a source,
in the order the set is traversed (ff/distributed/ff_dsenderMTCL.hpp:169-172, 183-201, 309-325). -/
structure Cfg where
  batch : Nat
  conn : Int → Option Nat
  poss : Int → List Nat

/-- What the choice depends on: messages held by each connection, credits, and `rr_connID`
(ff/distributed/ff_dsenderMTCL.hpp:122, 174, 178). -/
structure S where
  n : Nat → Nat
  credit : Nat → Int
  rr : Nat

/-- The most filled buffer: the first one that no later one exceeds
(ff/distributed/ff_dsenderMTCL.hpp:260-267). -/
def fullest (n : Nat → Nat) : List Nat → Option Nat
  | [] => none
  | c :: cs => some (cs.foldl (fun best d => if n best < n d then d else best) c)

/-- `getMostFilledBuffer` (ff/distributed/ff_dsenderMTCL.hpp:256-286), without `RANDOM_LOADBALANCING`.
`any` is the connection whose acknowledgement is read if the chosen connection has no credit: the result
of `waitAckFromAny`.  Also returns `rr_connID`. -/
def choose (cfg : Cfg) (s : S) (src : Int) (any : Nat) : Option (Nat × Nat) :=
  match cfg.poss src with
  | [] => none
  | c :: cs =>
    let rest : Option (Nat × Nat) :=
      let rr := (s.rr + 1) % (c :: cs).length
      let k := (c :: cs).getD rr 0
      if s.credit k ≠ 0 then some (k, rr) else some (any, rr)
    if cfg.batch > 1 then
      match fullest s.n (c :: cs) with
      | some k => if s.n k > 0 then some (k, s.rr) else rest
      | none => none
    else rest

/-- What `svc` does with the connections. -/
inductive Op where
  | push (c : Nat) (m : Msg)
  | flush (c : Nat)
  deriving DecidableEq

/-- `make_logical_EOS` (ff/distributed/ff_messageAllocator.hpp:36-41); the type is not set, the model puts
the type of the message it replaces. -/
def logicalEOS (m : Msg) : Msg := ⟨m.src, -1, m.type, []⟩

/-- `svc` (ff/distributed/ff_dsenderMTCL.hpp:333-354); `none`: the destination or the source is unknown
(`abort`).  Also returns `rr_connID`. -/
def svc (cfg : Cfg) (s : S) (m : Msg) (any : Nat) : Option (List Op × Nat) :=
  if 0 ≤ m.dest then (cfg.conn m.dest).map fun c => ([.push c m], s.rr)
  else if m.dest = -2 then
    if cfg.poss m.src = [] then none else some ((cfg.poss m.src).map .flush, s.rr)
  else if m.dest = -1 ∧ m.data.length = 0 then
    if cfg.poss m.src = [] then none
    else some ((cfg.poss m.src).map fun c => .push c (logicalEOS m), s.rr)
  else (choose cfg s m.src any).map fun (c, rr) => ([.push c m], rr)

/-! ## Theorems -/

theorem foldl_best (n : Nat → Nat) : ∀ (cs : List Nat) (c : Nat),
    let r := cs.foldl (fun best d => if n best < n d then d else best) c
    (r = c ∨ r ∈ cs) ∧ n c ≤ n r ∧ ∀ d ∈ cs, n d ≤ n r
  | [], c => by simp
  | d :: cs, c => by
    have ih := foldl_best n cs (if n c < n d then d else c)
    simp only [List.foldl_cons] at ih ⊢
    obtain ⟨h1, h2, h3⟩ := ih
    by_cases e : n c < n d
    · simp only [e, if_true] at h1 h2 h3 ⊢
      refine ⟨Or.inr ?_, by omega, ?_⟩
      · rcases h1 with h1 | h1
        · rw [h1]; simp
        · exact List.mem_cons_of_mem _ h1
      · intro x hx
        rcases List.mem_cons.1 hx with ex | hx
        · subst ex; exact h2
        · exact h3 x hx
    · simp only [e, if_false] at h1 h2 h3 ⊢
      refine ⟨?_, h2, ?_⟩
      · rcases h1 with h1 | h1
        · exact Or.inl h1
        · exact Or.inr (List.mem_cons_of_mem _ h1)
      · intro x hx
        rcases List.mem_cons.1 hx with ex | hx
        · subst ex; omega
        · exact h3 x hx

theorem fullest_spec {n : Nat → Nat} {l : List Nat} {k : Nat} (h : fullest n l = some k) :
    k ∈ l ∧ ∀ d ∈ l, n d ≤ n k := by
  cases l with
  | nil => simp [fullest] at h
  | cons c cs =>
    simp only [fullest, Option.some.injEq] at h
    have := foldl_best n cs c
    simp only [h] at this
    obtain ⟨h1, h2, h3⟩ := this
    refine ⟨?_, fun d hd => ?_⟩
    · rcases h1 with h1 | h1
      · rw [h1]; simp
      · exact List.mem_cons_of_mem _ h1
    · rcases List.mem_cons.1 hd with e | hd
      · subst e; exact h2
      · exact h3 d hd

theorem choose_mem {cfg s src any k rr} (h : choose cfg s src any = some (k, rr))
    (hcr : ∀ c ∈ cfg.poss src, s.credit c ≠ 0) : k ∈ cfg.poss src := by
  unfold choose at h
  split at h
  · simp at h
  rename_i c cs hp
  have hlt : (s.rr + 1) % (c :: cs).length < (c :: cs).length := Nat.mod_lt _ (by simp)
  have hmem : (c :: cs).getD ((s.rr + 1) % (c :: cs).length) 0 ∈ c :: cs := by
    rw [List.getD_eq_getElem?_getD, List.getElem?_eq_getElem hlt]
    exact List.getElem_mem hlt
  have hrest : ∀ k rr, (if s.credit ((c :: cs).getD ((s.rr + 1) % (c :: cs).length) 0) ≠ 0 then
      some ((c :: cs).getD ((s.rr + 1) % (c :: cs).length) 0, (s.rr + 1) % (c :: cs).length)
      else some (any, (s.rr + 1) % (c :: cs).length)) = some (k, rr) → k ∈ c :: cs := by
    intro k rr h
    rw [if_pos (hcr _ (by rw [hp]; exact hmem))] at h
    simp only [Option.some.injEq, Prod.mk.injEq] at h
    rw [← h.1]; exact hmem
  rw [hp]
  dsimp only at h
  split at h
  · cases hf : fullest s.n (c :: cs) with
    | none => rw [hf] at h; simp at h
    | some k' =>
      rw [hf] at h
      simp only at h
      split at h
      · simp only [Option.some.injEq, Prod.mk.injEq] at h
        rw [← h.1]; exact (fullest_spec hf).1
      · exact hrest k rr h
  · exact hrest k rr h

/-- **C54**: what `svc` does with a message.  A message with a destination goes, alone and unchanged, to the
connection of the destination; a flush reaches every possible connection of the source, and so does an end
of stream; any other message goes, alone and unchanged, to one possible connection of its source.  Missing:
a message without destination when a possible connection has no credit, see
`C54_no_credit_counterexample`. -/
theorem C54_route_partial {cfg s m any ops rr} (h : svc cfg s m any = some (ops, rr))
    (hcr : m.dest = -1 → ∀ c ∈ cfg.poss m.src, s.credit c ≠ 0) (hd : -2 ≤ m.dest) :
    (0 ≤ m.dest ∧ ∃ c, cfg.conn m.dest = some c ∧ ops = [.push c m]) ∨
    (m.dest = -2 ∧ ops = (cfg.poss m.src).map .flush) ∨
    (m.dest = -1 ∧ m.data = [] ∧
      ops = (cfg.poss m.src).map fun c => .push c ⟨m.src, -1, m.type, []⟩) ∨
    (m.dest = -1 ∧ m.data ≠ [] ∧ ∃ c ∈ cfg.poss m.src, ops = [.push c m]) := by
  unfold svc at h
  split at h
  · rename_i h0
    left
    cases hc : cfg.conn m.dest with
    | none => rw [hc] at h; simp at h
    | some c =>
      rw [hc] at h
      simp only [Option.map_some, Option.some.injEq, Prod.mk.injEq] at h
      exact ⟨h0, c, rfl, h.1.symm⟩
  · right
    split at h
    · rename_i h2
      left
      split at h
      · simp at h
      · simp only [Option.some.injEq, Prod.mk.injEq] at h
        exact ⟨h2, h.1.symm⟩
    · right
      split at h
      · rename_i h1
        left
        split at h
        · simp at h
        · simp only [Option.some.injEq, Prod.mk.injEq] at h
          exact ⟨h1.1, by simpa using h1.2, h.1.symm⟩
      · rename_i h0 h2 h1
        right
        have hd1 : m.dest = -1 := by omega
        cases hc : choose cfg s m.src any with
        | none => rw [hc] at h; simp at h
        | some p =>
          obtain ⟨c, r⟩ := p
          rw [hc] at h
          simp only [Option.map_some, Option.some.injEq, Prod.mk.injEq] at h
          refine ⟨hd1, ?_, c, choose_mem hc (hcr hd1), h.1.symm⟩
          intro e; exact h1 ⟨hd1, by rw [e]; rfl⟩

/-- **C54, filling**: with batches, a message without destination joins the possible connection that holds
the most messages, if one holds any. -/
theorem C54_fullest {cfg s src any k rr} (h : choose cfg s src any = some (k, rr)) (hb : 1 < cfg.batch)
    (hne : ∃ c ∈ cfg.poss src, 0 < s.n c) :
    k ∈ cfg.poss src ∧ (∀ d ∈ cfg.poss src, s.n d ≤ s.n k) ∧ rr = s.rr := by
  unfold choose at h
  split at h
  · simp at h
  rename_i c cs hp
  rw [hp] at hne ⊢
  dsimp only at h
  rw [if_pos hb] at h
  cases hf : fullest s.n (c :: cs) with
  | none => rw [hf] at h; simp at h
  | some k' =>
    rw [hf] at h
    obtain ⟨g1, g2⟩ := fullest_spec hf
    obtain ⟨x, hx, hx'⟩ := hne
    have := g2 x hx
    simp only at h
    rw [if_pos (by omega)] at h
    simp only [Option.some.injEq, Prod.mk.injEq] at h
    obtain ⟨e1, e2⟩ := h
    subst e1
    exact ⟨g1, g2, e2.symm⟩

/-- The connections of `t` messages without destination, one after the other, while the buffers and the
credits stay as they are. -/
def picks (cfg : Cfg) (s : S) (src : Int) : Nat → List Nat
  | 0 => []
  | t + 1 =>
    match choose cfg s src 0 with
    | none => []
    | some (k, rr) => k :: picks cfg { s with rr := rr } src t

/-- **C54, round robin**: without batches and with credit, the messages without destination of a source go
to its possible connections in turn. -/
theorem C54_round_robin {cfg s src} (hb : cfg.batch ≤ 1) (hne : cfg.poss src ≠ [])
    (hcr : ∀ c ∈ cfg.poss src, s.credit c ≠ 0) : ∀ t i, i < t →
    (picks cfg s src t)[i]? = (cfg.poss src)[(s.rr + 1 + i) % (cfg.poss src).length]? := by
  intro t
  induction t generalizing s with
  | zero => intro i hi; omega
  | succ t ih =>
    intro i hi
    obtain ⟨l, hl⟩ : ∃ l, cfg.poss src = l := ⟨_, rfl⟩
    have hpos : 0 < l.length := by rw [← hl]; exact List.length_pos_of_ne_nil hne
    have hlt : (s.rr + 1) % l.length < l.length := Nat.mod_lt _ hpos
    have hch : choose cfg s src 0 = some (l.getD ((s.rr + 1) % l.length) 0, (s.rr + 1) % l.length) := by
      unfold choose
      rw [hl]
      cases l with
      | nil => simp at hpos
      | cons c cs =>
        dsimp only
        rw [if_neg (by omega), if_pos]
        apply hcr
        rw [hl, List.getD_eq_getElem?_getD, List.getElem?_eq_getElem hlt]
        exact List.getElem_mem hlt
    simp only [picks, hch]
    rw [hl]
    cases i with
    | zero =>
      rw [List.getElem?_cons_zero, List.getD_eq_getElem?_getD, Nat.add_zero,
        List.getElem?_eq_getElem hlt]
      rfl
    | succ i =>
      rw [List.getElem?_cons_succ, ih (s := { s with rr := (s.rr + 1) % l.length }) hcr i (by omega), hl]
      congr 1
      dsimp only
      rw [show (s.rr + 1) % l.length + 1 + i = (s.rr + 1) % l.length + (1 + i) by omega, Nat.mod_add_mod]
      congr 1
      omega

/-- **C54, counterexample**: the possible connection of the source has no credit; the acknowledgement that
is read comes from another connection, and the message is sent to that one. -/
theorem C54_no_credit_counterexample :
    ∃ cfg s, cfg.poss 5 = [0] ∧
      svc cfg s ⟨5, -1, 0, [1]⟩ 1 = some ([.push 1 ⟨5, -1, 0, [1]⟩], 0) :=
  ⟨⟨1, fun _ => none, fun _ => [0]⟩, ⟨fun _ => 0, fun c => if c = 0 then 0 else 1, 0⟩, rfl, by decide⟩

example : picks ⟨1, fun _ => none, fun _ => [4, 7, 9]⟩ ⟨fun _ => 0, fun _ => 1, 3⟩ 0 5 =
    [7, 9, 4, 7, 9] := by decide

example : svc ⟨3, fun _ => none, fun _ => [4, 7, 9]⟩ ⟨fun c => c - 5, fun _ => 1, 3⟩ ⟨0, -1, 0, [1]⟩ 0 =
    some ([.push 9 ⟨0, -1, 0, [1]⟩], 3) := by decide

end FF.Net.Route
