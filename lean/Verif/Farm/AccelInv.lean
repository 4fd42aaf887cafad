import Verif.Farm.Accel
/-!
# C66: the invariant of a farm used in rounds

Inside a round the farm is a farm of C21 whose emitter already knows the commands that are still to
come (`hat`).
-/
namespace FF.Farm
open FF.Node
variable {D : Type}

theorem reinit_steady {n : Node D} (h : Steady n) (st : n.σ) : Steady (reinit n st) :=
  ⟨h.sends, h.eosn, h.leaf, h.comp⟩

/-! ## Commands of the emitter -/

section
variable {em : List (Msg D) → Msg D → List (Cmd D)}

theorem emAll_append (h xs ys : List (Msg D)) :
    emAll em h (xs ++ ys) = emAll em h xs ++ emAll em (h ++ xs) ys := by
  induction xs generalizing h with
  | nil => simp [emAll]
  | cons x xs ih => simp [emAll, ih]

theorem emAll_data (hd : ∀ h m, ∀ x ∈ em h m, x.msg.isData = true) (h : List (Msg D)) (ts : List D) :
    ∀ x ∈ emAll em h (ts.map .data), x.msg.isData = true := by
  induction ts generalizing h with
  | nil => simp [emAll]
  | cons t ts ih =>
    intro x hx
    simp only [List.map_cons, emAll, emOne, List.mem_append] at hx
    rcases hx with hx | hx
    · exact hd _ _ x hx
    · exact ih _ x hx

theorem emAll_valid {n : Nat} (hd : ∀ h m, Valid n (em h m)) (h : List (Msg D)) (ts : List D) :
    Valid n (emAll em h (ts.map .data)) := by
  induction ts generalizing h with
  | nil => intro i m hm; simp [emAll] at hm
  | cons t ts ih =>
    intro i m hx
    simp only [List.map_cons, emAll, emOne, List.mem_append] at hx
    rcases hx with hx | hx
    · exact hd _ _ i m hx
    · exact ih _ i m hx

/-- the commands of a round are those of the user, and the broadcast of `EOS` -/
theorem emAll_round {n : Nat} (hd : ∀ h m, ∀ x ∈ em h m, x.msg.isData = true)
    (hv : ∀ h m, Valid n (em h m)) (h : List (Msg D)) (ts : List D) :
    ∃ us, UserCmds n us ∧ emAll em h (ts.map .data ++ [.eos]) = us ++ [.bcast .eos] := by
  refine ⟨emAll em h (ts.map .data) ++ em (h ++ ts.map .data) .eos, ⟨?_, ?_⟩, ?_⟩
  · intro x hx
    rcases List.mem_append.1 hx with hx | hx
    · exact emAll_data hd h ts x hx
    · exact hd _ _ x hx
  · intro i m hx
    rcases List.mem_append.1 hx with hx | hx
    · exact emAll_valid hv h ts i m hx
    · exact hv _ _ i m hx
  · rw [emAll_append]; simp [emAll, emOne]
end

/-! ## The farm that knows its future -/

/-- the emitter with the commands `rest` still to come; workers from `k` on have done nothing -/
def hat (k : Nat) (rest : List (Cmd D)) {c : Node D} (f : F D c) : F D c :=
  { f with
    e := { f.e with cmds := f.e.cmds ++ rest }
    consumed := fun i => if i < k then f.consumed i else []
    pushed := fun i => if i < k then f.pushed i else [] }

theorem attempt_hat {k : Nat} {rest : List (Cmd D)} {full : Nat → Bool} {e : E D}
    (h : ¬ (e.pc = .idle ∧ e.cmds = [])) :
    E.attempt k full { e with cmds := e.cmds ++ rest } =
      (E.attempt k full e).map fun r => ({ r.1 with cmds := r.1.cmds ++ rest }, r.2) := by
  obtain ⟨cmds, pc, nextw1, log, dn, fails⟩ := e
  cases pc with
  | idle =>
    cases cmds with
    | nil => simp at h
    | cons x xs => cases x <;> simp [E.attempt]
  | sched m => simp only [E.attempt, E.put]; split <;> rfl
  | to i m => simp only [E.attempt, E.put]; split <;> (try split) <;> rfl
  | bc1 m i retry => simp only [E.attempt, E.put]; split <;> (try split) <;> rfl
  | bc2 m retry =>
    cases retry with
    | nil => rfl
    | cons r rs => simp only [E.attempt, E.put]; split <;> rfl

theorem ite_upd {β : Type} {k i : Nat} (hi : i < k) (f : Nat → List β) (x : List β) :
    (fun j => if j < k then upd f i x j else []) = upd (fun j => if j < k then f j else []) i x := by
  funext j
  by_cases hj : j = i
  · subst hj; simp [upd, hi]
  · simp [upd, hj]

theorem fstep_hat {k : Nat} {w : Nat → Node D} {ci co : Nat → Nat} {c : Node D} {f : F D c}
    {rest : List (Cmd D)} {a : FAct} (ha : a = .emit → ¬ (f.e.pc = .idle ∧ f.e.cmds = [])) :
    fstep k w ci co (hat k rest f) a = (fstep k w ci co f a).map (hat k rest) := by
  cases a with
  | emit =>
    have he := attempt_hat (k := k) (rest := rest)
      (full := fun i => decide (ci i ≤ (f.inq i).length)) (ha rfl)
    simp only [fstep]
    have he' : E.attempt k (fun i => decide (ci i ≤ ((hat k rest f).inq i).length)) (hat k rest f).e =
      _ := he
    rw [he']
    rcases E.attempt k (fun i => decide (ci i ≤ (f.inq i).length)) f.e with _ | ⟨e', _ | ⟨i, m⟩⟩ <;> rfl
  | pop i =>
    simp only [fstep, hat]
    by_cases hi : i < k
    · simp only [hi, if_true, true_and]
      split
      · cases h : f.inq i with
        | nil => rfl
        | cons m ms => simp only [Option.map, hat, ite_upd hi]
      · rfl
    · simp [hi]
  | push i =>
    simp only [fstep, hat]
    by_cases hi : i < k
    · simp only [hi, if_true, true_and]
      split
      · cases h : f.pending i with
        | nil => rfl
        | cons m ms => simp only [Option.map, hat, ite_upd hi]
      · rfl
    · simp [hi]
  | gather =>
    simp only [fstep, hat]
    cases h : f.g.attempt k (fun r => (f.outq r).head?) with
    | none => rfl
    | some r =>
      obtain ⟨g', o⟩ := r
      cases o with
      | none => rfl
      | some p => rfl

/-! ## Output of the collector, entering its loop in any state -/

structure GOutAt {c : Node D} (st0 : c.σ) (g : G c) : Prop where
  out : Clean g.got → (∀ x ∈ g.got, x.2.isMark = true → x.2 = .eos) →
    g.st = cstate c st0 (g.got.map Prod.snd) ∧
    g.out = collected c st0 (g.got.map Prod.snd) ++ (if g.exited then [.eos] else [])

theorem GOutAt.handle {n : Nat} {c : Node D} (hc : StaysOn c) {st0 : c.σ} {g : G c}
    (h : GOutAt st0 g) (hx : g.exited = false) (r : Nat) (m : Msg D) :
    GOutAt st0 (g.handle n r m) := by
  refine ⟨fun hcl hh => ?_⟩
  obtain ⟨e1, _⟩ := G.handle_fields n g r m
  rw [e1] at hcl hh ⊢
  obtain ⟨h1, h2⟩ := h.out (fun x hx => hcl x (by simp [hx])) fun x hx => hh x (by simp [hx])
  have hcm := hcl (r, m) (by simp)
  rw [hx] at h2
  simp only [Bool.false_eq_true, if_false, List.append_nil] at h2
  have hm := hh (r, m) (by simp)
  rw [List.map_append, cstate_append, collected_append, ← h1, ← h2]
  have task : ∀ d : D,
      let g' : G c := { g with nextr1 := r + 1, got := g.got ++ [(r, .data d)] }
      (g'.task (.data d)).st = (c.svc g.st (.data d)).1 ∧
      (g'.task (.data d)).out = g.out ++ emitted (c.svc g.st (.data d)).2 ++
        (if (g'.task (.data d)).exited then [.eos] else []) := by
    intro d
    simp only [G.task]
    rcases hc g.st d with ⟨d, hd⟩ | hd | hd <;> simp [hd, hx, emitted]
  cases m with
  | eos =>
    simp only [G.handle, G.check]
    split
    · simp [hx, cstate, collected]
    · simp [cstate, collected]
  | eosw => exact absurd (hm rfl) (by simp)
  | eosnf => exact absurd (hm rfl) (by simp)
  | goon => simp [G.handle, hx, cstate, collected]
  | flush => simp [G.handle, hx, cstate, collected]
  | nul => exact absurd rfl hcm.1
  | goout => exact absurd rfl hcm.2
  | data d =>
    simp only [G.handle, List.map_cons, List.map_nil, cstate, collected, List.append_nil]
    exact task d

theorem GOutAt.attempt {n : Nat} {c : Node D} (hc : StaysOn c) {st0 : c.σ} {g g' : G c}
    {avail : Nat → Option (Msg D)} {o : Option Nat} (h : GOutAt st0 g)
    (hs : g.attempt n avail = some (g', o)) : GOutAt st0 g' := by
  cases o with
  | none =>
    obtain ⟨e1, e2, e3, e4, _⟩ := (attempt_got hs).1 rfl
    exact ⟨fun hcl hh => by rw [e1] at hcl hh ⊢; rw [e2, e3, e4]; exact h.out hcl hh⟩
  | some r =>
    obtain ⟨m, -, rfl, hx, -⟩ := (attempt_got hs).2 r rfl
    exact h.handle hc hx r m

/-- the output only grows -/
theorem handle_out (n : Nat) {c : Node D} (g : G c) (r : Nat) (m : Msg D) :
    g.out <+: (g.handle n r m).out := by
  have check : ∀ (g : G c) (b : Bool), g.out <+: (G.check n g b).out := by
    intro g b; unfold G.check; split
    · exact List.prefix_rfl
    · exact List.prefix_append _ _
  have task : ∀ (g : G c) (m : Msg D), g.out <+: (g.task m).out := by
    intro g m; unfold G.task; simp only
    split <;> simp [List.append_assoc]
  cases m <;> simp only [G.handle]
  case eos =>
    refine List.IsPrefix.trans ?_ (check _ true)
    exact List.prefix_append _ _
  case eosw =>
    refine List.IsPrefix.trans ?_ (check _ false)
    exact List.prefix_append _ _
  case eosnf =>
    refine List.IsPrefix.trans ?_ (check _ false)
    exact List.prefix_append _ _
  case goon => exact List.prefix_rfl
  case flush => exact List.prefix_rfl
  case nul => exact task { g with nextr1 := r + 1, got := g.got ++ [(r, .nul)] } _
  case goout => exact task { g with nextr1 := r + 1, got := g.got ++ [(r, .goout)] } _
  case data t => exact task { g with nextr1 := r + 1, got := g.got ++ [(r, .data t)] } _

theorem attempt_out {n : Nat} {c : Node D} {g g' : G c} {avail : Nat → Option (Msg D)}
    {o : Option Nat} (hs : g.attempt n avail = some (g', o)) : g.out <+: g'.out := by
  cases o with
  | none =>
    obtain ⟨-, -, e3, -⟩ := (attempt_got hs).1 rfl
    rw [e3]
    exact List.prefix_rfl
  | some r =>
    obtain ⟨m, -, rfl, -⟩ := (attempt_got hs).2 r rfl
    exact handle_out n g r m

/-- what a filter that sends only tasks makes of messages is tasks -/
theorem collected_data {c : Node D} (hc : Filter c) (s : c.σ) (ms : List (Msg D))
    (hms : ∀ m ∈ ms, m ≠ .nul ∧ m ≠ .goout) : AllData (collected c s ms) := by
  induction ms generalizing s with
  | nil => intro m hm; simp [collected] at hm
  | cons m ms ih =>
    have ih' := fun s => ih s (fun x hx => hms x (by simp [hx]))
    have hm := hms m (by simp)
    cases m with
    | nul => exact absurd rfl hm.1
    | goout => exact absurd rfl hm.2
    | goon => exact ih' s
    | flush => exact ih' s
    | eos => exact (hc.eosn s).append (ih' _)
    | eosw => exact (hc.eosn s).append (ih' _)
    | eosnf => exact (hc.eosn s).append (ih' _)
    | data d =>
      refine AllData.append ?_ (ih' _)
      unfold emitted
      refine (hc.sends s d).append ?_
      rcases hc.stays s d with ⟨x, hx⟩ | hx | hx <;> rw [hx] <;> intro y hy <;> simp at hy
      subst hy; rfl

end FF.Farm
