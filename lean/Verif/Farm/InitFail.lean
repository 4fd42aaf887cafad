import Verif.Farm.Farm
/-!
# C63: a thread of a farm whose `svc_init` fails

`lb.hpp` 1119-1133, `gt.hpp` 537-556 and `node.hpp` 246-305: the thread of the emitter, of a worker or of the collector ends
without having popped or pushed anything; nobody tells the other threads.
-/
namespace FF.Farm
open FF FF.Node
variable {D : Type}

/-- One action of a farm in which the threads with a failed `svc_init` have ended at once (node.hpp 260-264). -/
def bstep (n : Nat) (w : Nat → Node D) (ci co : Nat → Nat) (be : Bool) (bw : Nat → Bool) (bc : Bool) {c : Node D}
    (s : F D c) : FAct → Option (F D c)
  | .emit => if be then none else fstep n w ci co s .emit
  | .pop i => if bw i then none else fstep n w ci co s (.pop i)
  | .push i => if bw i then none else fstep n w ci co s (.push i)
  | .gather => if bc then none else fstep n w ci co s .gather

/-- `wait` (farm.hpp 1454-1470) has returned: the emitter has executed its commands, the workers and the collector have left their loops,
or their initialisation failed. -/
def FJoined (n : Nat) (w : Nat → Node D) (be : Bool) (bw : Nat → Bool) (bc : Bool) {c : Node D} (s : F D c) : Prop :=
  (be = true ∨ (s.e.pc = .idle ∧ s.e.cmds = [])) ∧
  (∀ i, i < n → bw i = true ∨ (s.pending i = [] ∧ (after (w i) (s.consumed i)).exited = true)) ∧
  (bc = true ∨ s.g.exited = true)

section
variable {n : Nat} {w : Nat → Node D} {ci co : Nat → Nat} {be : Bool} {bw : Nat → Bool} {bc : Bool} {c : Node D}

theorem bstep_fstep {s s' : F D c} {a : FAct} (h : bstep n w ci co be bw bc s a = some s') :
    fstep n w ci co s a = some s' := by
  cases a <;> simp only [bstep] at h <;> split at h <;> first | (cases h; done) | exact h

theorem bReach {s s' : F D c} (h : Reach (bstep n w ci co be bw bc) s s') : Reach (fstep n w ci co) s s' := by
  obtain ⟨as, h⟩ := h
  refine ⟨as, ?_⟩
  induction as generalizing s with
  | nil => exact h
  | cons a as ih =>
    simp only [exec] at h ⊢
    cases hs : bstep n w ci co be bw bc s a with
    | none => rw [hs] at h; simp at h
    | some s1 =>
      rw [hs] at h
      rw [bstep_fstep hs]
      exact ih h

/-- a failed worker has done nothing -/
theorem idle_worker {cmds : List (Cmd D)} {s : F D c}
    (hr : Reach (bstep n w ci co be bw bc) (F.start c cmds) s) (i : Nat) (hb : bw i = true) :
    s.consumed i = [] ∧ s.pending i = [] ∧ s.pushed i = [] := by
  refine hr.inv (Inv := fun s : F D c => s.consumed i = [] ∧ s.pending i = [] ∧ s.pushed i = []) ⟨rfl, rfl, rfl⟩ ?_
  intro s a s' h hs
  cases a with
  | emit =>
    simp only [bstep, fstep] at hs
    split at hs
    · cases hs
    · split at hs <;> simp only [Option.some.injEq, reduceCtorEq] at hs <;> subst hs <;> exact h
  | pop j =>
    simp only [bstep, fstep] at hs
    split at hs
    · cases hs
    · rename_i hj
      have hij : i ≠ j := fun e => hj (by rw [← e]; exact hb)
      split at hs
      · split at hs <;> simp only [Option.some.injEq, reduceCtorEq] at hs
        subst hs
        simp only [upd, hij, if_false]; exact h
      · cases hs
  | push j =>
    simp only [bstep, fstep] at hs
    split at hs
    · cases hs
    · rename_i hj
      have hij : i ≠ j := fun e => hj (by rw [← e]; exact hb)
      split at hs
      · split at hs <;> simp only [Option.some.injEq, reduceCtorEq] at hs
        subst hs
        simp only [upd, hij, if_false]; exact h
      · cases hs
  | gather =>
    simp only [bstep, fstep] at hs
    split at hs
    · cases hs
    · split at hs <;> simp only [Option.some.injEq, reduceCtorEq] at hs <;> subst hs <;> exact h

/-- a failed emitter has sent nothing -/
theorem idle_emitter {cmds : List (Cmd D)} {s : F D c}
    (hr : Reach (bstep n w ci co true bw bc) (F.start c cmds) s) : s.e.log = [] := by
  refine hr.inv (Inv := fun s : F D c => s.e.log = []) rfl ?_
  intro s a s' h hs
  cases a with
  | emit => simp [bstep] at hs
  | pop j =>
    simp only [bstep, fstep] at hs
    split at hs
    · cases hs
    · split at hs
      · split at hs <;> simp only [Option.some.injEq, reduceCtorEq] at hs
        subst hs; exact h
      · cases hs
  | push j =>
    simp only [bstep, fstep] at hs
    split at hs
    · cases hs
    · split at hs
      · split at hs <;> simp only [Option.some.injEq, reduceCtorEq] at hs
        subst hs; exact h
      · cases hs
  | gather =>
    simp only [bstep, fstep] at hs
    split at hs
    · cases hs
    · split at hs <;> simp only [Option.some.injEq, reduceCtorEq] at hs <;> subst hs <;> exact h

/-- **C63, a failed worker**: with workers and a collector that do not end the stream by themselves, if `svc_init` of one worker fails
and that of the collector does not, then in no schedule does `wait` return; the tasks given to the failed worker stay in its queue. -/
theorem C63_worker_counterexample (hn : 0 < n) (hw : ∀ i, i < n → Steady (w i)) (hc : StaysOn c)
    (us : List (Cmd D)) (hu : UserCmds n us) (i : Nat) (hi : i < n) (hb : bw i = true) (s : F D c)
    (hr : Reach (bstep n w ci co be bw false) (F.start c (us ++ [.bcast .eos])) s) :
    ¬ FJoined n w be bw false s ∧ from_ s.e.log i = s.inq i := by
  have hid := idle_worker hr i hb
  have h := FInv.reach hn (bReach hr)
  have hq := h.inq i
  rw [hid.1, List.nil_append] at hq
  refine ⟨?_, hq⟩
  rintro ⟨_, _, h3⟩
  have h3 : s.g.exited = true := h3.resolve_left (by simp)
  have h1 := C21_collector_sees_all hn hw ci co hc hu (bReach hr) h3 i hi
  have hg := h.outq i
  rw [hid.2.2] at hg
  have h4 := (List.append_eq_nil_iff.1 hg.symm).1
  rw [h4] at h1
  have h5 := Steady.exited_iff (hw i hi) (from_ s.e.log i) (L.start (w i) 1) rfl rfl (h.e.fits hu i)
  have h6 := h5.2 (h5.1.2 h1.2)
  have h7 : (run (w i) (L.start (w i) 1) (from_ s.e.log i)).2 = [] := h1.1.symm
  rw [h7] at h6
  cases h6

/-- **C63, a failed emitter**: if `svc_init` of the emitter fails and that of a worker does not, `wait` does not return. -/
theorem C63_emitter_counterexample (hn : 0 < n) (cmds : List (Cmd D)) (i : Nat) (hi : i < n) (hb : bw i = false)
    (s : F D c) (hr : Reach (bstep n w ci co true bw bc) (F.start c cmds) s) :
    ¬ FJoined n w true bw bc s := by
  rintro ⟨_, h2, _⟩
  have h := FInv.reach hn (bReach hr)
  have hq := h.inq i
  rw [idle_emitter hr] at hq
  have hq' : s.consumed i = [] := (List.append_eq_nil_iff.1 (hq.symm.trans rfl)).1
  rcases h2 i hi with h3 | h3
  · rw [hb] at h3; cases h3
  · rw [hq'] at h3
    have : (after (w i) ([] : List (Msg D))).exited = false := by simp [after, run, L.start]
    rw [this] at h3
    cases h3.2

end

theorem dblNode_steady : Steady dblNode where
  sends s t _ := by cases t <;> simp [dblNode, AllData]
  eosn s := by simp [dblNode, AllData]
  leaf _ s t h := by
    cases t with
    | data d => exact Or.inl ⟨2 * d, rfl⟩
    | nul => exact Or.inr (Or.inl rfl)
    | _ => simp [Msg.isData] at h
  comp h := by simp [dblNode] at h

-- the hypotheses of `C63_worker_counterexample` are met: two doubling workers, the second fails; the first has answered
example : (∀ i, i < 2 → Steady dblNode) ∧ StaysOn (idNode : Node Nat) ∧
    UserCmds 2 ([.sched (.data 3), .sched (.data 5)] : List (Cmd Nat)) ∧
    ∃ s : F Nat (idNode : Node Nat),
      Reach (bstep 2 (fun _ => dblNode) (fun _ => 4) (fun _ => 4) false (fun i => decide (i = 1)) false)
        (F.start idNode [.sched (.data 3), .sched (.data 5), .bcast .eos]) s ∧
      s.g.got = [(0, .data 6)] ∧ s.inq 1 = [.data 5] := by
  refine ⟨fun _ _ => dblNode_steady, idNode_stays, ⟨by simp [Cmd.msg, Msg.isData], by simp [Valid]⟩, ?_⟩
  refine ⟨_, ⟨[.emit, .emit, .emit, .emit, .pop 0, .push 0, .gather], rfl⟩, rfl, rfl⟩

end FF.Farm
