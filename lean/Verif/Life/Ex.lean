import Verif.Life.Thm
/-! # C70: concrete cases and counterexamples -/
namespace FF.Life
open FF

/-- Tasks with an even number are copied, the others are borrowed and have a hook; received messages with an even
number are copied. -/
def exCfg : Cfg :=
  { ser := fun k => { bytes := [k, 7], copied := k % 2 == 0, hook := k % 2 == 1 },
    rbytes := fun j => [j], dcopied := fun j => j % 2 == 0, coll := fun w => w == 5, batch := 4, limit := 100, thr := 50 }

theorem exCfg_contract : Contract exCfg := by
  refine ⟨fun k => by simp [exCfg], fun k h => ?_, fun j => by simp [exCfg]⟩
  simp only [exCfg, beq_eq_false_iff_ne, beq_iff_eq] at h ⊢
  omega

/-- Node 0 receives a message, and while it works on it sends task 0; then it sends task 1 with the recycled message;
node 1 gives task 2 to a node of the same group after serialising it; it receives a message that it keeps. -/
def exActs : List Act :=
  [.recv 0 0, .take 0 0, .start 0 1, .fill 0, .push 0, .pop 0 1, .send, .freeTask 0, .finish true, .done 0 true,
   .start 0 99, .fill 0, .push 0, .freeTask 0, .pop 0 0, .send, .finish false,
   .start 1 1, .fill 1, .giveLocal 1, .userObj 2, .dropMsg 1 true,
   .recv 1 1, .take 1 1, .userInp 1, .done 1 true, .eos 1 2, .pop 1 2, .send, .finish true, .recvEos 1 2, .take 1 2]

example : ∃ s, Reachable exCfg s ∧
    s.wire = [.data (.out 0) [0, 7], .data (.out 1) [1, 7], .eos] ∧ s.locals = [2] ∧ s.given = [1] ∧
    s.log = [.task 0, .free (.out 0), .free (.inp 0), .hook (some 1) (.out 1) 2, .user (.obj 2), .free (.out 2),
      .user (.inp 1)] ∧
    s.bad = false ∧ s.next = 3 ∧ s.nextIn = 2 ∧ s.spc = .idle ∧ s.pc 0 = .idle ∧ s.pc 1 = .idle ∧ s.hold 0 = none ∧
    s.hold 1 = none ∧ s.reuse 1 = some 1 ∧ s.place 0 = .none ∧ s.place 2 = .none :=
  ⟨_, ⟨exActs, rfl⟩, rfl, rfl, rfl, rfl, rfl, rfl, rfl, rfl, rfl, rfl, rfl, rfl, rfl, rfl, rfl⟩

theorem quiet_of {s : S} {f : Nat → Place} {g : Nat → Pc} {h : Nat → Option Nat} (hp : s.place = f) (hpc : s.pc = g)
    (hh : s.hold = h) (hs : s.spc = .idle) (hf : ∀ w m, f m ≠ .chan w ∧ f m ≠ .inq w) (hg : ∀ w, g w = .idle)
    (h' : ∀ w, h w = none) : Quiet s := by
  subst hp hpc hh
  exact ⟨hg, h', hs, fun w m => (hf w m).1, fun w m => (hf w m).2⟩

/-- A quiet state: task 0 has been sent. -/
example : ∃ s, Reachable exCfg s ∧ Quiet s ∧ 0 < s.next ∧ sentFor s 0 = [.data (.out 0) [0, 7]] := by
  refine ⟨_, ⟨[.start 0 0, .fill 0, .push 0, .pop 0 0, .send, .finish true, .freeTask 0], rfl⟩,
    quiet_of (f := upd (upd (upd (upd S.init.place 0 (.send 0)) 0 (.chan 0)) 0 .snd) 0 .pool)
      (g := upd (upd (upd (upd S.init.pc 0 (.got 0 0)) 0 (.filled 0 0)) 0 (.pushed 0)) 0 .idle)
      (h := S.init.hold) rfl rfl rfl rfl (fun w m => ?_) (fun w => ?_) (fun _ => rfl), Nat.zero_lt_one, rfl⟩
  · simp only [upd_upd, upd, S.init]; split <;> simp
  · simp only [upd_upd, upd, S.init]; split <;> rfl

/-- A quiet state: message 0 has been received and copied, message 1 has been received and kept. -/
example : ∃ s, Reachable exCfg s ∧ Quiet s ∧ 1 < s.nextIn ∧ s.log = [.free (.inp 0)] ∧ s.given = [1] := by
  refine ⟨_, ⟨[.recv 0 0, .take 0 0, .done 0 true, .recv 5 1, .take 5 1, .done 5 true], rfl⟩,
    quiet_of (f := upd (upd (upd (upd (upd (upd S.init.place 0 (.inq 0)) 0 (.hold 0)) 0 (.reuse 0)) 1 (.inq 5)) 1 (.hold 5)) 1 .pool)
      (g := S.init.pc) (h := upd (upd (upd (upd S.init.hold 0 (some 0)) 0 none) 5 (some 1)) 5 none)
      rfl rfl rfl rfl (fun w m => ?_) (fun _ => rfl) (fun w => ?_), Nat.lt_succ_self 1, rfl, rfl⟩
  · simp only [upd_upd, upd, S.init]; split
    · simp
    · split <;> simp
  · simp only [upd_upd, upd, S.init]; split
    · rfl
    · split <;> rfl

/-- The hypothesis of `C70_size_partial` holds of `exCfg`. -/
example : ∀ k, exCfg.direct (exCfg.ser k).bytes.length = true → (exCfg.ser k).bytes.length ≤ exCfg.thr :=
  fun _ _ => by simp [exCfg]

/-- **C70, counterexample** (the size).  A task of 2 bytes, borrowed, with a threshold of 1 byte: the sender sets the
size of the message to 0 and never restores it, so the function that releases the task is told size 0. -/
theorem C70_size_counterexample :
    ∃ c : Cfg, Contract c ∧ ∃ s, Reachable c s ∧ s.wire = [.data (.out 0) [3, 4]] ∧
      s.log = [.hook (some 0) (.out 0) 0] ∧ ∃ r ∈ s.log, ¬ r.sized c := by
  let c : Cfg := { ser := fun _ => ⟨[3, 4], false, true⟩, rbytes := fun _ => [1], dcopied := fun _ => true,
                   coll := fun _ => false, batch := 1, limit := 2, thr := 1 }
  refine ⟨c, ⟨fun _ => by simp [c], fun _ _ => rfl, fun _ => by simp [c]⟩, _,
    ⟨[.start 0 0, .fill 0, .push 0, .freeTask 0, .pop 0 0, .send, .finish true], rfl⟩, rfl, rfl, ?_⟩
  exact ⟨.hook (some 0) (.out 0) 0, List.mem_cons_self, by simp [Rel.sized, Cfg.bytes, c]⟩

/-- **C70, counterexample** (no release function).  `serialize()` may borrow the bytes and name no function: the
runtime then calls `free` on bytes that belong to the task. -/
theorem C70_no_hook_counterexample :
    ∃ c : Cfg, (∀ k, (c.ser k).bytes ≠ []) ∧ (∀ j, c.rbytes j ≠ []) ∧ ∃ s, Reachable c s ∧ s.bad = true := by
  let c : Cfg := { ser := fun _ => ⟨[3, 4], false, false⟩, rbytes := fun _ => [1], dcopied := fun _ => true,
                   coll := fun _ => false, batch := 4, limit := 100, thr := 50 }
  exact ⟨c, fun _ => by simp [c], fun _ => by simp [c], _,
    ⟨[.start 0 0, .fill 0, .push 0, .freeTask 0, .pop 0 0, .send, .finish true], rfl⟩, rfl⟩

/-- **C70, counterexample** (no bytes).  A task whose `serialize()` returns no bytes is sent as a header with size 0:
the receiver makes an end-of-stream message of it. -/
theorem C70_empty_counterexample :
    ∃ c : Cfg, (∀ k, (c.ser k).copied = true) ∧ (∀ j, c.rbytes j ≠ []) ∧
      ∃ s, Reachable c s ∧ s.next = 1 ∧ s.wire = [.eos] := by
  let c : Cfg := { ser := fun _ => ⟨[], true, false⟩, rbytes := fun _ => [1], dcopied := fun _ => true,
                   coll := fun _ => false, batch := 4, limit := 100, thr := 50 }
  exact ⟨c, fun _ => rfl, fun _ => by simp [c], _,
    ⟨[.start 0 0, .fill 0, .push 0, .freeTask 0, .pop 0 0, .send, .finish true], rfl⟩, rfl, rfl⟩

end FF.Life
