import Verif.Msq.Step
import Verif.Farm.FarmLive
/-!
# C59: the list based queue is linearizable and lock-free
-/
namespace FF.Msq
open FF

/-! ## Linearizability -/

/-- **C59, linearizability** (partial: for an allocator that does not reuse a node while a thread
still holds it).  For any number of threads, any calls and every interleaving, the calls and returns
are those of a FIFO queue whose operations take effect one after the other between their calls and
returns. -/
theorem C59_linearizable_partial (n : Nat) (s : S) (hr : Reach (qstep n) S.init s) :
    Linearizable s.vis := by
  obtain ⟨ch, h⟩ := Inv.reach hr
  refine ⟨s.full, h.g.vis, fun t => ?_, _, h.g.rep⟩
  have hT := h.t t
  unfold T at hT
  cases hpc : s.pc t with
  | idle => rw [hpc] at hT; exact ⟨_, hT⟩
  | pAlloc v => rw [hpc] at hT; exact ⟨_, hT⟩
  | pTail node => rw [hpc] at hT; exact ⟨_, hT.doing⟩
  | pNext node tl => rw [hpc] at hT; exact ⟨_, hT.1.doing⟩
  | pChk node tl nx => rw [hpc] at hT; exact ⟨_, hT.1.doing⟩
  | pLink node tl => rw [hpc] at hT; exact ⟨_, hT.1.doing⟩
  | pHelp node tl x => rw [hpc] at hT; exact ⟨_, hT.1.doing⟩
  | pSwing node tl => rw [hpc] at hT; exact ⟨_, hT.2.2⟩
  | pRet => rw [hpc] at hT; exact ⟨_, hT⟩
  | cHead => rw [hpc] at hT; exact ⟨_, hT⟩
  | cTail a => rw [hpc] at hT; exact ⟨_, hT.2⟩
  | cNext a tl => rw [hpc] at hT; exact ⟨_, hT.2.2⟩
  | cChk a tl nx =>
    rw [hpc] at hT
    cases nx with
    | none => rcases (hT.2.2.2 rfl).1 with h1 | h1 <;> exact ⟨_, h1⟩
    | some x => exact ⟨_, (hT.2.2.1 x rfl).2⟩
  | cHelp tl x => rw [hpc] at hT; exact ⟨_, hT.2.2⟩
  | cData a nx => rw [hpc] at hT; exact ⟨_, hT.2.2.2⟩
  | cCas a x d => rw [hpc] at hT; exact ⟨_, hT.2.2.2.2⟩
  | cFree a d => rw [hpc] at hT; exact ⟨_, hT.2⟩
  | cRet r => rw [hpc] at hT; exact ⟨_, hT⟩
  | crash => rw [hpc] at hT; exact absurd hT id

/-- **C59, memory safety** (partial: same allocator).  No null pointer is dereferenced, a node in the
list is neither free nor owned by a thread, and a node is freed only by the pop that took it out. -/
theorem C59_safe_partial (n : Nat) (s : S) (hr : Reach (qstep n) S.init s) :
    (∀ t, s.pc t ≠ .crash) ∧
    (∀ t h d, s.pc t = .cFree h d → s.role h = .out t) ∧
    s.role s.head = .inq ∧ s.role s.tail = .inq := by
  obtain ⟨ch, h⟩ := Inv.reach hr
  refine ⟨fun t ht => ?_, fun t a d ht => ?_, (h.g.role _).1 h.g.head_mem, (h.g.role _).1 h.g.tl.mem⟩
  · have hT := h.t t
    unfold T at hT
    rw [ht] at hT; exact hT
  · have hT := h.t t
    unfold T at hT
    rw [ht] at hT; exact hT.1

/-! ## Allocators that need no further assumption -/

/-- an allocator that never gives an address out twice -/
def fstep (n : Nat) (s : S) (a : Act) : Option S :=
  match a with
  | .alloc _ x => if s.role x = .unused then mstep n s a else none
  | _ => mstep n s a

theorem held_seen {n : Nat} {s : S} {ch : List Addr} (h : Inv n s ch) {u : Nat} {a : Addr}
    (ha : (s.pc u).holds = some a) : Seen s a := by
  have hT := h.t u
  unfold T at hT
  cases hpc : s.pc u <;> rw [hpc] at ha hT <;> simp only [Pc.holds, Option.some.injEq, reduceCtorEq] at ha
  all_goals subst ha
  · exact hT.2.seen
  · exact hT.2.1.seen
  · exact hT.2.seen
  · exact hT.2.1
  · exact hT.1
  · exact hT.1.seen
  · exact hT.1.seen
  · exact hT.1.seen
  · exact hT.1
  · exact hT.1.seen
  · exact hT.1.seen

/-- **C59 without reuse of memory**: linearizable, with no assumption on schedules. -/
theorem C59_no_reuse (n : Nat) (s : S) (hr : Reach (fstep n) S.init s) :
    Reach (qstep n) S.init s ∧ Linearizable s.vis := by
  have key : Reach (qstep n) S.init s := by
    refine hr.inv (Inv := fun x => Reach (qstep n) S.init x) (Reach.refl _ _) ?_
    intro z a z' hz hs
    obtain ⟨ch, h⟩ := Inv.reach hz
    refine hz.tail (a := a) ?_
    cases a with
    | alloc t x =>
      simp only [fstep] at hs
      split at hs
      · rename_i hx
        simp only [qstep]
        rw [if_pos]
        · exact hs
        · rw [List.all_eq_true]
          intro u _
          simp only [ne_eq, decide_eq_true_eq]
          intro hh
          have := held_seen h hh
          unfold Seen at this
          rw [hx] at this; simp at this
      · simp at hs
    | callPush t v => exact hs
    | callPop t => exact hs
    | go t => exact hs
  exact ⟨key, C59_linearizable_partial n s key⟩

/-- one producer (thread 0) and one consumer (thread 1), any allocator -/
def sstep (s : S) (a : Act) : Option S :=
  match a with
  | .callPush t _ => if t = 0 then mstep 2 s a else none
  | .callPop t => if t = 1 then mstep 2 s a else none
  | _ => mstep 2 s a

/-- is the thread in a push, in a pop -/
def Pc.push : Pc → Bool
  | .pAlloc _ | .pTail _ | .pNext _ _ | .pChk _ _ _ | .pLink _ _ | .pHelp _ _ _ | .pSwing _ _ | .pRet => true
  | _ => false
def Pc.pop : Pc → Bool
  | .cHead | .cTail _ | .cNext _ _ | .cChk _ _ _ | .cHelp _ _ | .cData _ _ | .cCas _ _ _ | .cFree _ _
  | .cRet _ | .crash => true
  | _ => false

/-- what a step does to the program counter of its thread, and to `head` -/
theorem go_shape {s s' : S} {t : Nat} (hs : goStep s t = some s') :
    ∃ p, s'.pc = upd s.pc t p ∧ (p.pop = true → (s.pc t).pop = true) ∧
      (p.push = true → (s.pc t).push = true) ∧
      (s'.head = s.head ∨ (s.pc t).pop = true) ∧
      ((s.pc t).pop = true → (∀ b, (s.pc t).holds = some b → b = s.head) →
        ∀ b, p.holds = some b → b = s'.head) := by
  unfold goStep at hs
  cases hpc : s.pc t <;> simp only [hpc, Option.some.injEq, reduceCtorEq] at hs <;>
    (try split at hs) <;> (try split at hs) <;> (try split at hs) <;>
    (try simp only [Option.some.injEq] at hs) <;>
    (try subst hs) <;>
    first
      | contradiction
      | (refine ⟨_, rfl, by simp [Pc.pop], by simp [Pc.push], by simp [Pc.pop], ?_⟩
         first
           | (simp +contextual [Pc.pop, Pc.holds]; done)
           | (rename_i h1 h2 _ _
              simp only [Pc.pop, Pc.holds, Option.some.injEq]
              intro _ h b hb
              rw [← hb, ← h2, h1]))

structure SInv (s : S) : Prop where
  reach : Reach (qstep 2) S.init s
  prod : (s.pc 0).pop = false
  cons : (s.pc 1).push = false
  head : ∀ a, (s.pc 1).holds = some a → a = s.head

theorem SInv.quiet {s s' : S} {a : Act} (h : SInv s) (hs : sstep s a = some s') :
    qstep 2 s a = some s' := by
  obtain ⟨ch, hi⟩ := Inv.reach h.reach
  cases a with
  | alloc t x =>
    simp only [sstep, mstep] at hs
    simp only [qstep]
    rw [if_pos]
    · exact hs
    · split at hs
      · rename_i v hpc
        split at hs
        · rename_i hr
          rw [List.all_eq_true]
          intro u hu
          simp only [List.mem_range] at hu
          simp only [ne_eq, decide_eq_true_eq]
          intro hh
          -- the allocating thread is the producer, and holds nothing
          have ht0 : t = 0 := by
            have ht2 : t < 2 := by
              apply Classical.byContradiction
              intro hc
              rw [hi.out t (by omega)] at hpc; simp at hpc
            rcases (show t = 0 ∨ t = 1 by omega) with h0 | h1
            · exact h0
            · subst h1
              have := h.cons
              rw [hpc] at this; simp [Pc.push] at this
          subst ht0
          rcases (show u = 0 ∨ u = 1 by omega) with h0 | h1
          · subst h0; rw [hpc] at hh; simp [Pc.holds] at hh
          · subst h1
            have hx := h.head x hh
            have := (hi.g.role _).1 hi.g.head_mem
            rw [← hx] at this
            rw [this] at hr; simp at hr
        · simp at hs
      · simp at hs
  | callPush t v =>
    simp only [sstep] at hs
    split at hs
    · exact hs
    · simp at hs
  | callPop t =>
    simp only [sstep] at hs
    split at hs
    · exact hs
    · simp at hs
  | go t => exact hs

theorem SInv.step {s s' : S} {a : Act} (h : SInv s) (hs : sstep s a = some s') : SInv s' := by
  have hr := h.reach.tail (h.quiet hs)
  have h1 := h.prod
  have h2 := h.cons
  have h3 := h.head
  cases a with
  | callPush t v =>
    simp only [sstep] at hs
    split at hs
    · rename_i ht; subst ht
      simp only [mstep] at hs
      split at hs
      · simp only [Option.some.injEq] at hs; subst hs
        exact ⟨hr, by simp [upd, Pc.pop], by simpa [upd] using h2, by simpa [upd] using h3⟩
      · simp at hs
    · simp at hs
  | callPop t =>
    simp only [sstep] at hs
    split at hs
    · rename_i ht; subst ht
      simp only [mstep] at hs
      split at hs
      · simp only [Option.some.injEq] at hs; subst hs
        exact ⟨hr, by simpa [upd] using h1, by simp [upd, Pc.push], by simp [upd, Pc.holds]⟩
      · simp at hs
    · simp at hs
  | alloc t x =>
    simp only [sstep, mstep] at hs
    split at hs
    · rename_i v hpc
      split at hs
      · simp only [Option.some.injEq] at hs; subst hs
        have ht : t ≠ 1 := by rintro rfl; rw [hpc] at h2; simp [Pc.push] at h2
        refine ⟨hr, ?_, ?_, ?_⟩
        · show (upd s.pc t (.pTail x) 0).pop = false
          by_cases h0 : 0 = t
          · subst h0; simp [upd, Pc.pop]
          · rw [upd_other _ _ h0]; exact h1
        · show (upd s.pc t (.pTail x) 1).push = false
          rw [upd_other _ _ (fun hh => ht hh.symm)]; exact h2
        · show ∀ a, (upd s.pc t (.pTail x) 1).holds = some a → a = s.head
          rw [upd_other _ _ (fun hh => ht hh.symm)]; exact h3
      · simp at hs
    · simp at hs
  | go t =>
    simp only [sstep, mstep] at hs
    split at hs
    · rename_i htn
      obtain ⟨p, hp, hpop, hpush, hhd, hh⟩ := go_shape hs
      rcases (show t = 0 ∨ t = 1 by omega) with h0 | h0
      · subst h0
        have hhd' : s'.head = s.head := by
          rcases hhd with hhd | hhd
          · exact hhd
          · rw [h1] at hhd; simp at hhd
        refine ⟨hr, ?_, ?_, ?_⟩
        · rw [hp, upd_same]
          cases hc : p.pop with
          | false => rfl
          | true => rw [hpop hc] at h1; simp at h1
        · rw [hp, upd_other _ _ (by decide)]; exact h2
        · rw [hp, upd_other _ _ (by decide), hhd']; exact h3
      · subst h0
        refine ⟨hr, ?_, ?_, ?_⟩
        · rw [hp, upd_other _ _ (by decide)]; exact h1
        · rw [hp, upd_same]
          cases hc : p.push with
          | false => rfl
          | true => rw [hpush hc] at h2; simp at h2
        · rw [hp, upd_same]
          refine hh ?_ h3
          cases hq : s.pc 1 <;> rw [hq] at h2 <;> simp only [Pc.push, reduceCtorEq] at h2 ⊢ <;>
            simp only [Pc.pop]
          -- an idle thread makes no step
          unfold goStep at hs
          rw [hq] at hs; simp at hs
    · simp at hs

/-- **C59 with one producer and one consumer**: linearizable with every allocator and every schedule;
memory may be reused at once. -/
theorem C59_spsc (s : S) (hr : Reach sstep S.init s) :
    Reach (qstep 2) S.init s ∧ Linearizable s.vis := by
  have h : SInv s := hr.inv (Inv := fun x => SInv x)
    ⟨Reach.refl _ _, rfl, rfl, fun a ha => by simp [S.init, Pc.holds] at ha⟩ (fun _ _ _ h hs => h.step hs)
  exact ⟨h.reach, C59_linearizable_partial 2 s h.reach⟩

end FF.Msq
