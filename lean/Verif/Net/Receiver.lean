import Verif.Net.Sender
/-!
# C44, C52: the receiver of the distributed runtime

`ff_dreceiverMTCL2::svc` (`ff/distributed/ff_dreceiverMTCL.hpp:165-292`): two slots with a buffer each,
in which receives of any connections are posted; a completed receive is handled by `handleBatch`.

One round of the loop posts receives, at most one for each connection, then handles completed ones.  The
model lets these steps happen in any order, so the behaviours of the code are among those of the model.  A
receive takes the next frame of its connection when it is posted; when it completes is part of the schedule.
Errors of the transport are not modelled.
-/
namespace FF.Net.Receiver
open FF FF.Net FF.Node

/-- `PendingOp` (ff/distributed/ff_dreceiverMTCL.hpp:171-177) with the frame that is received. -/
structure Op where
  handle : Nat
  frame : List Nat
  ts : Nat

/-- A slot: the size of the block the buffer points to, `buffSizes`, and the posted receive
(ff/distributed/ff_dreceiverMTCL.hpp:168-178). -/
structure Slot where
  cap : Nat
  bs : Nat
  pend : Option Op

/-- The receiver.  `slot 0`, `slot 1`; the frames that have arrived on each connection and have not been
given to a receive; the items sent to the next node for each connection; `over`: a receive was posted on a
buffer smaller than the frame; `bad`: a frame could not be read.  -/
structure S where
  slot : Nat → Slot
  inq : Nat → List (List Nat)
  seq : Nat
  out : Nat → List Item
  over : Bool
  bad : Bool

/-- Before the first round (ff/distributed/ff_dreceiverMTCL.hpp:167-179). -/
def init : S := ⟨fun _ => ⟨0, 0, none⟩, fun _ => [], 0, fun _ => [], false, false⟩

/-- The frame has one message with a payload in the frame: the buffer becomes the payload of the message
(ff/distributed/ff_dreceiverMTCL.hpp:76-91). -/
def handsOff (f : List Nat) : Bool :=
  decide (count f = 1) && match decode f with
    | some [.data _] => true
    | _ => false

/-- `handleBatch` on slot `i` (ff/distributed/ff_dreceiverMTCL.hpp:66-145), and the slot is free again.
`none`: it waits for the payload of a big message. -/
def handleBatch (s : S) (i : Nat) (o : Op) : Option S :=
  match decode o.frame with
  | none => some { s with slot := upd s.slot i { s.slot i with pend := none }, bad := true }
  | some [.big src dest type size] =>
    match s.inq o.handle with
    | [] => none
    | p :: rest => some { s with
        slot := upd s.slot i { s.slot i with pend := none }
        inq := upd s.inq o.handle rest
        out := upd s.out o.handle (s.out o.handle ++ [.data ⟨src, dest, type, p⟩])
        bad := s.bad || decide (p.length ≠ size) }
  | some l => some { s with
      slot := upd s.slot i { s.slot i with
        pend := none, cap := if handsOff o.frame then o.frame.length else (s.slot i).cap }
      out := upd s.out o.handle (s.out o.handle ++ l) }

/-- What can happen: a frame arrives; a receive is posted for a connection; slot `i` is handled. -/
inductive Act where
  | arrive (h : Nat) (f : List Nat)
  | post (h : Nat)
  | handle (i : Nat)

/-- Posting in slot `i` (ff/distributed/ff_dreceiverMTCL.hpp:245-260). -/
def post (s : S) (i h : Nat) : Option S :=
  match s.inq h with
  | [] => none
  | f :: rest =>
    let k := s.slot i
    let k' := if f.length > k.bs then { k with cap := f.length, bs := f.length } else k
    some { s with
      slot := upd s.slot i { k' with pend := some ⟨h, f, s.seq⟩ }
      inq := upd s.inq h rest
      seq := s.seq + 1
      over := s.over || decide (k'.cap < f.length) }

/-- One step. -/
def step (s : S) : Act → Option S
  | .arrive h f => some { s with inq := upd s.inq h (s.inq h ++ [f]) }
  -- the first free slot (ff/distributed/ff_dreceiverMTCL.hpp:232-243)
  | .post h =>
    if (s.slot 0).pend.isNone then post s 0 h
    else if (s.slot 1).pend.isNone then post s 1 h
    else none
  -- the older receive first if both are of the same connection
  -- (ff/distributed/ff_dreceiverMTCL.hpp:264-285; 212-227 when the connection is closed)
  | .handle i =>
    if i = 0 then
      match (s.slot 0).pend with
      | none => none
      | some o =>
        match (s.slot 1).pend with
        | some o' => if o.handle = o'.handle ∧ ¬ o.ts < o'.ts then none else handleBatch s 0 o
        | none => handleBatch s 0 o
    else if i = 1 then
      match (s.slot 1).pend with
      | none => none
      | some o' =>
        match (s.slot 0).pend with
        | some o => if o.handle = o'.handle ∧ o.ts < o'.ts then none else handleBatch s 1 o'
        | none => handleBatch s 1 o'
    else none

/-! ## Specification -/

/-- The frames that arrive on connection `h` in the schedule. -/
def arrived (h : Nat) : List Act → List (List Nat)
  | [] => []
  | .arrive d f :: as => if d = h then f :: arrived h as else arrived h as
  | _ :: as => arrived h as

/-- Frames of batches only: they can be read, and announce no big payload. -/
def Plain (f : List Nat) : Prop := ∃ l, decode f = some l ∧ ∀ s d t z, l ≠ [.big s d t z]

/-- The items in a frame. -/
def items (f : List Nat) : List Item := (decode f).getD []

/-! ## C44: the size of the buffers -/

/-- The frames the theorem is about: none has a single message, or all have the same size. -/
def Fine (L : Option Nat) (f : List Nat) : Prop :=
  match L with
  | none => handsOff f = false
  | some n => f.length = n

structure Sz (L : Option Nat) (s : S) : Prop where
  inq : ∀ h, ∀ f ∈ s.inq h, Fine L f
  cap : ∀ i, (s.slot i).cap = (s.slot i).bs
  len : ∀ n, L = some n → ∀ i, (s.slot i).bs = 0 ∨ (s.slot i).bs = n
  pend : ∀ i o, (s.slot i).pend = some o → Fine L o.frame ∧ o.frame.length ≤ (s.slot i).bs
  over : s.over = false

theorem handleBatch_Sz {L s i o s'} (h : Sz L s) (ho : (s.slot i).pend = some o)
    (hs : handleBatch s i o = some s') : Sz L s' := by
  obtain ⟨hf, hl⟩ := h.pend i o ho
  have clear : ∀ k' : Slot, k'.cap = k'.bs → k'.bs = (s.slot i).bs → k'.pend = none →
      (∀ j, (upd s.slot i k' j).cap = (upd s.slot i k' j).bs) ∧
      (∀ n, L = some n → ∀ j, (upd s.slot i k' j).bs = 0 ∨ (upd s.slot i k' j).bs = n) ∧
      (∀ j o, (upd s.slot i k' j).pend = some o →
        Fine L o.frame ∧ o.frame.length ≤ (upd s.slot i k' j).bs) := by
    intro k' h1 h2 h3
    refine ⟨fun j => ?_, fun n hn j => ?_, fun j o' => ?_⟩
    · by_cases e : j = i
      · subst e; simpa [upd] using h1
      · simp only [upd, if_neg e]; exact h.cap j
    · by_cases e : j = i
      · subst e; simp only [upd, if_true, h2]; exact h.len n hn j
      · simp only [upd, if_neg e]; exact h.len n hn j
    · by_cases e : j = i
      · subst e; simp [upd, h3]
      · simp only [upd, if_neg e]; exact h.pend j o'
  unfold handleBatch at hs
  split at hs
  · simp only [Option.some.injEq] at hs; subst hs
    obtain ⟨h1, h2, h3⟩ := clear { s.slot i with pend := none } (h.cap i) rfl rfl
    exact ⟨h.inq, h1, h2, h3, h.over⟩
  · split at hs
    · simp at hs
    · rename_i p rest hq
      simp only [Option.some.injEq] at hs; subst hs
      obtain ⟨h1, h2, h3⟩ := clear { s.slot i with pend := none } (h.cap i) rfl rfl
      refine ⟨fun d f hd => ?_, h1, h2, h3, h.over⟩
      by_cases e : d = o.handle
      · subst e
        simp only [upd, if_true] at hd
        exact h.inq _ f (by rw [hq]; exact List.mem_cons_of_mem _ hd)
      · simp only [upd, if_neg e] at hd; exact h.inq d f hd
  · simp only [Option.some.injEq] at hs; subst hs
    obtain ⟨h1, h2, h3⟩ := clear { s.slot i with
        pend := none, cap := if handsOff o.frame then o.frame.length else (s.slot i).cap } (by
      dsimp only
      split
      · rename_i hh
        cases L with
        | none => simp only [Fine] at hf; rw [hf] at hh; simp at hh
        | some n =>
          simp only [Fine] at hf
          rcases h.len n rfl i with e | e <;> omega
      · exact h.cap i) rfl rfl
    exact ⟨h.inq, h1, h2, h3, h.over⟩

theorem post_Sz {L s i h s'} (hS : Sz L s) (hs : post s i h = some s') : Sz L s' := by
  unfold post at hs
  split at hs
  · simp at hs
  rename_i f rest hq
  have hf := hS.inq h f (by rw [hq]; simp)
  simp only [Option.some.injEq] at hs
  obtain ⟨k', hk'⟩ : ∃ k', (if f.length > (s.slot i).bs then
    { s.slot i with cap := f.length, bs := f.length } else s.slot i) = k' := ⟨_, rfl⟩
  rw [hk'] at hs
  have h1 : k'.cap = k'.bs ∧ f.length ≤ k'.bs ∧ (∀ n, L = some n → k'.bs = 0 ∨ k'.bs = n) := by
    subst hk'
    split
    · refine ⟨rfl, Nat.le_refl _, fun n hn => ?_⟩
      subst hn; exact Or.inr hf
    · exact ⟨hS.cap i, by omega, fun n hn => hS.len n hn i⟩
  subst hs
  refine ⟨fun d x hd => ?_, fun j => ?_, fun n hn j => ?_, fun j o => ?_, ?_⟩
  · by_cases e : d = h
    · subst e
      simp only [upd, if_true] at hd
      exact hS.inq _ x (by rw [hq]; exact List.mem_cons_of_mem _ hd)
    · simp only [upd, if_neg e] at hd; exact hS.inq d x hd
  · by_cases e : j = i
    · subst e; simp only [upd, if_true]; exact h1.1
    · simp only [upd, if_neg e]; exact hS.cap j
  · by_cases e : j = i
    · subst e; simp only [upd, if_true]; exact h1.2.2 n hn
    · simp only [upd, if_neg e]; exact hS.len n hn j
  · by_cases e : j = i
    · subst e
      simp only [upd, if_true, Option.some.injEq]
      intro ho; subst ho; exact ⟨hf, h1.2.1⟩
    · simp only [upd, if_neg e]; exact hS.pend j o
  · simp only [hS.over, Bool.false_or, decide_eq_false_iff_not, Nat.not_lt]
    rw [h1.1]; exact h1.2.1

/-- What an action may bring in. -/
def FineAct (L : Option Nat) : Act → Prop
  | .arrive _ f => Fine L f
  | _ => True

/-- What a step of the receiver is. -/
theorem step_cases {s a s'} (hs : step s a = some s') :
    (∃ h f, a = .arrive h f ∧ s' = { s with inq := upd s.inq h (s.inq h ++ [f]) }) ∨
    (∃ h, a = .post h ∧ (((s.slot 0).pend = none ∧ post s 0 h = some s') ∨
      ((s.slot 0).pend ≠ none ∧ (s.slot 1).pend = none ∧ post s 1 h = some s'))) ∨
    (∃ i o, a = .handle i ∧ i < 2 ∧ (s.slot i).pend = some o ∧ handleBatch s i o = some s' ∧
      ∀ o', (s.slot (1 - i)).pend = some o' → o.handle = o'.handle →
        if i = 0 then o.ts < o'.ts else ¬ o'.ts < o.ts) := by
  cases a with
  | arrive h f => left; simp only [step, Option.some.injEq] at hs; exact ⟨h, f, rfl, hs.symm⟩
  | post h =>
    right; left
    refine ⟨h, rfl, ?_⟩
    simp only [step] at hs
    split at hs
    · rename_i h0; exact Or.inl ⟨by simpa using h0, hs⟩
    · rename_i h0
      split at hs
      · rename_i h1; exact Or.inr ⟨by simpa using h0, by simpa using h1, hs⟩
      · simp at hs
  | handle i =>
    right; right
    simp only [step] at hs
    split at hs
    · rename_i e; subst e
      split at hs
      · simp at hs
      rename_i o ho
      refine ⟨0, o, rfl, by omega, ho, ?_⟩
      split at hs
      · rename_i o' ho'
        split at hs
        · simp at hs
        · rename_i hno
          refine ⟨hs, fun o2 h2 he => ?_⟩
          simp only [Nat.sub_zero] at h2
          rw [ho', Option.some.injEq] at h2; subst h2
          simp only [if_true]
          by_contra hc; exact hno ⟨he, hc⟩
      · rename_i hn
        refine ⟨hs, fun o2 h2 he => ?_⟩
        simp only [Nat.sub_zero] at h2
        rw [hn] at h2; simp at h2
    · split at hs
      · rename_i e; subst e
        split at hs
        · simp at hs
        rename_i o ho
        refine ⟨1, o, rfl, by omega, ho, ?_⟩
        split at hs
        · rename_i o' ho'
          split at hs
          · simp at hs
          · rename_i hno
            refine ⟨hs, fun o2 h2 he => ?_⟩
            simp only [Nat.sub_self] at h2
            rw [ho', Option.some.injEq] at h2; subst h2
            simp only [Nat.one_ne_zero, if_false]
            intro hc; exact hno ⟨he.symm, hc⟩
        · rename_i hn
          refine ⟨hs, fun o2 h2 he => ?_⟩
          simp only [Nat.sub_self] at h2
          rw [hn] at h2; simp at h2
      · simp at hs

theorem Sz.step {L s a s'} (h : Sz L s) (ha : FineAct L a) (hs : step s a = some s') : Sz L s' := by
  rcases step_cases hs with ⟨d, f, e, e'⟩ | ⟨d, e, ⟨_, hp⟩ | ⟨_, _, hp⟩⟩ | ⟨i, o, e, _, ho, hp, _⟩
  · subst e e'
    refine ⟨fun x g hg => ?_, h.cap, h.len, h.pend, h.over⟩
    by_cases e : x = d
    · subst e
      simp only [upd, if_true, List.mem_append, List.mem_singleton] at hg
      rcases hg with hg | hg
      · exact h.inq _ g hg
      · subst hg; exact ha
    · simp only [upd, if_neg e] at hg; exact h.inq x g hg
  · exact post_Sz h hp
  · exact post_Sz h hp
  · exact handleBatch_Sz h ho hp

theorem mem_arrived {h f} {acts : List Act} (hm : Act.arrive h f ∈ acts) : f ∈ arrived h acts := by
  induction acts with
  | nil => simp at hm
  | cons a as ih =>
    rcases List.mem_cons.1 hm with e | hm'
    · subst e; simp [arrived]
    · have := ih hm'
      cases a with
      | arrive d g => simp only [arrived]; split <;> simp [this]
      | _ => exact this

theorem exec_Sz {L : Option Nat} : ∀ (acts : List Act) (s s' : S), Sz L s → (∀ a ∈ acts, FineAct L a) →
    exec step s acts = some s' → Sz L s'
  | [], s, s', h, _, he => by simp only [exec, Option.some.injEq] at he; exact he ▸ h
  | a :: as, s, s', h, hf, he => by
    simp only [exec] at he
    split at he
    · simp at he
    rename_i s1 h1
    exact exec_Sz as s1 s' (h.step (hf a (by simp)) h1) (fun x hx => hf x (List.mem_cons_of_mem _ hx)) he

/-- **C44**: if no frame with a single message arrives, or all frames have the same size, no receive is
ever posted on a buffer smaller than the frame, in any schedule.  Missing: the other cases, see
`C44_counterexample`. -/
theorem C44_fits_partial {acts s} (he : exec step init acts = some s)
    (hf : (∀ h, ∀ f ∈ arrived h acts, handsOff f = false) ∨
      ∃ n, ∀ h, ∀ f ∈ arrived h acts, f.length = n) : s.over = false := by
  have key : ∀ L, (∀ h, ∀ f ∈ arrived h acts, Fine L f) → s.over = false := by
    intro L hL
    refine (exec_Sz acts init s (L := L) ⟨by simp [init], by simp [init], by simp [init], by simp [init],
      rfl⟩ ?_ he).over
    intro a ha
    cases a with
    | arrive h f => exact hL h f (mem_arrived ha)
    | _ => trivial
  rcases hf with hf | ⟨n, hf⟩
  · exact key none hf
  · exact key (some n) hf

/-- **C44, counterexample**: one connection, single messages.  A frame of size `a`, then a smaller one, then
one larger than the second and not larger than the first: the third receive is posted on a buffer of the
size of the second frame. -/
theorem C44_counterexample {f g k : List Nat} (hf : handsOff f = true) (hg : handsOff g = true)
    (h1 : g.length < k.length) (h2 : k.length ≤ f.length) :
    ∃ s, exec step init [.arrive 0 f, .post 0, .handle 0, .arrive 0 g, .post 0, .handle 0,
      .arrive 0 k, .post 0] = some s ∧ s.over = true := by
  have d : ∀ f, handsOff f = true → ∃ m, decode f = some [.data m] := by
    intro f hf
    unfold handsOff at hf
    rw [Bool.and_eq_true] at hf
    have := hf.2
    split at this
    · rename_i m h; exact ⟨m, h⟩
    · simp at this
  obtain ⟨m, hm⟩ := d f hf
  obtain ⟨m', hm'⟩ := d g hg
  have e1 : (0 : Nat) < f.length := by omega
  have e2 : ¬ f.length < g.length := by omega
  have e3 : ¬ f.length < k.length := by omega
  simp [exec, step, init, post, handleBatch, upd, hm, hm', hf, hg, e1, e2, e3, h1]

/-- The case is real: single messages with payloads of 3, 1 and 2 bytes. -/
example : handsOff (batchFrame [⟨0, 1, 0, [1, 2, 3]⟩]) = true ∧
    handsOff (batchFrame [⟨0, 1, 0, [4]⟩]) = true ∧
    (batchFrame [⟨0, 1, 0, [4]⟩]).length < (batchFrame [⟨0, 1, 0, [5, 6]⟩]).length ∧
    (batchFrame [⟨0, 1, 0, [5, 6]⟩]).length ≤ (batchFrame [⟨0, 1, 0, [1, 2, 3]⟩]).length := by decide

/-- Batches of two or more messages are among the frames of `C44_fits_partial`. -/
theorem handsOff_batch {ms : List Msg} (h2 : 2 ≤ ms.length) (hn : ms.length < 2 ^ 31) :
    handsOff (batchFrame ms) = false := by
  unfold handsOff
  have : count (batchFrame ms) = ms.length := frame_count hn
  rw [this, decide_eq_false (by omega)]; rfl

/-! ## C52: order -/

/-- The frames posted for connection `h`, oldest first. -/
def waiting (s : S) (h : Nat) : List (List Nat) :=
  match (s.slot 0).pend, (s.slot 1).pend with
  | none, none => []
  | some o, none => if o.handle = h then [o.frame] else []
  | none, some o' => if o'.handle = h then [o'.frame] else []
  | some o, some o' =>
    if o.handle = h then
      if o'.handle = h then
        if o.ts < o'.ts then [o.frame, o'.frame] else [o'.frame, o.frame]
      else [o.frame]
    else if o'.handle = h then [o'.frame] else []

structure Ord (F : Nat → List (List Nat)) (s : S) : Prop where
  plain : ∀ h, ∀ f ∈ F h, Plain f
  all : ∀ h, ∃ done, done ++ waiting s h ++ s.inq h = F h ∧ s.out h = done.flatMap items
  ts : ∀ i o, i < 2 → (s.slot i).pend = some o → o.ts < s.seq
  good : s.bad = false

theorem post_all {F s i h s'} (hO : Ord F s) (hi : i < 2) (hn : (s.slot i).pend = none)
    (hs : post s i h = some s') : Ord F s' := by
  unfold post at hs
  split at hs
  · simp at hs
  rename_i f rest hq
  simp only [Option.some.injEq] at hs
  obtain ⟨k', hk'⟩ : ∃ k', (if f.length > (s.slot i).bs then
    { s.slot i with cap := f.length, bs := f.length } else s.slot i) = k' := ⟨_, rfl⟩
  rw [hk'] at hs
  subst hs
  refine ⟨hO.plain, fun d => ?_, fun j o hj => ?_, hO.good⟩
  · obtain ⟨done, h1, h2⟩ := hO.all d
    refine ⟨done, ?_, h2⟩
    rw [← h1, List.append_assoc, List.append_assoc]
    congr 1
    have hts := hO.ts
    have e0 : i = 0 ∨ i = 1 := by omega
    by_cases e : d = h
    · subst e
      have : waiting { s with
          slot := upd s.slot i { k' with pend := some ⟨d, f, s.seq⟩ }
          inq := upd s.inq d rest
          seq := s.seq + 1
          over := s.over || decide (k'.cap < f.length) } d = waiting s d ++ [f] := by
        rcases e0 with e0 | e0
        · subst e0
          unfold waiting
          simp only [upd, if_true, Nat.one_ne_zero, if_false, hn]
          cases h1 : (s.slot 1).pend with
          | none => simp
          | some o' =>
            have := hts 1 o' (by omega) h1
            simp only
            by_cases e' : o'.handle = d
            · simp only [e', if_true]; rw [if_neg (by omega)]; rfl
            · simp [e']
        · subst e0
          unfold waiting
          simp only [upd, if_true, Nat.zero_ne_one, if_false, hn]
          cases h1 : (s.slot 0).pend with
          | none => simp
          | some o' =>
            have := hts 0 o' (by omega) h1
            simp only
            by_cases e' : o'.handle = d
            · simp only [e', if_true]; rw [if_pos (by omega)]; rfl
            · simp [e']
      rw [this]
      simp [upd, hq]
    · have : waiting { s with
          slot := upd s.slot i { k' with pend := some ⟨h, f, s.seq⟩ }
          inq := upd s.inq h rest
          seq := s.seq + 1
          over := s.over || decide (k'.cap < f.length) } d = waiting s d := by
        rcases e0 with e0 | e0
        · subst e0
          unfold waiting
          simp only [upd, if_true, Nat.one_ne_zero, if_false, hn]
          cases h1 : (s.slot 1).pend <;> simp [Ne.symm e]
        · subst e0
          unfold waiting
          simp only [upd, if_true, Nat.zero_ne_one, if_false, hn]
          cases h1 : (s.slot 0).pend <;> simp [Ne.symm e]
      rw [this]
      simp [upd, e]
  · by_cases e : j = i
    · subst e
      simp only [upd, if_true, Option.some.injEq]
      intro ho; subst ho; exact Nat.lt_succ_self _
    · simp only [upd, if_neg e]
      intro ho
      have := hO.ts j o hj ho
      omega

theorem handle_all {F s i o s'} (hO : Ord F s) (hi : i < 2) (ho : (s.slot i).pend = some o)
    (hs : handleBatch s i o = some s')
    (hold : ∀ o', (s.slot (1 - i)).pend = some o' → o.handle = o'.handle →
        if i = 0 then o.ts < o'.ts else ¬ o'.ts < o.ts) : Ord F s' := by
  -- the frame is the first one waiting of its connection
  obtain ⟨k', hk', hsl⟩ : ∃ k' : Slot, k'.pend = none ∧ s'.slot = upd s.slot i k' := by
    unfold handleBatch at hs
    split at hs
    · simp only [Option.some.injEq] at hs; subst hs; exact ⟨_, rfl, rfl⟩
    · split at hs
      · simp at hs
      · simp only [Option.some.injEq] at hs; subst hs; exact ⟨_, rfl, rfl⟩
    · simp only [Option.some.injEq] at hs; subst hs; exact ⟨_, rfl, rfl⟩
  have hw : waiting s o.handle = o.frame :: waiting s' o.handle := by
    have e0 : i = 0 ∨ i = 1 := by omega
    rcases e0 with e0 | e0
    · subst e0
      unfold waiting
      simp only [hsl, upd, if_true, Nat.one_ne_zero, if_false, hk', ho]
      cases h1 : (s.slot 1).pend with
      | none => simp
      | some o' =>
        simp only
        by_cases e : o'.handle = o.handle
        · have := hold o' h1 e.symm
          simp only [if_true] at this
          simp only [e, if_true, this]
        · simp [e]
    · subst e0
      unfold waiting
      simp only [hsl, upd, if_true, Nat.zero_ne_one, if_false, hk', ho]
      cases h1 : (s.slot 0).pend with
      | none => simp
      | some o' =>
        simp only
        by_cases e : o'.handle = o.handle
        · have := hold o' h1 e.symm
          simp only [Nat.one_ne_zero, if_false] at this
          simp only [e, if_true, this, if_false]
        · simp [e]
  have hw' : ∀ d, d ≠ o.handle → waiting s' d = waiting s d := by
    intro d hd
    have e0 : i = 0 ∨ i = 1 := by omega
    rcases e0 with e0 | e0
    · subst e0
      unfold waiting
      simp only [hsl, upd, if_true, Nat.one_ne_zero, if_false, hk', ho]
      cases h1 : (s.slot 1).pend <;> simp [Ne.symm hd]
    · subst e0
      unfold waiting
      simp only [hsl, upd, if_true, Nat.zero_ne_one, if_false, hk', ho]
      cases h1 : (s.slot 0).pend <;> simp [Ne.symm hd]
  have hpl : Plain o.frame := by
    obtain ⟨done, h1, _⟩ := hO.all o.handle
    apply hO.plain o.handle
    rw [← h1, hw]; simp
  obtain ⟨l, hl, hnb⟩ := hpl
  have hit : items o.frame = l := by simp [items, hl]
  unfold handleBatch at hs
  split at hs
  · rename_i h'; rw [hl] at h'; simp at h'
  · rename_i h'; rw [hl] at h'
    simp only [Option.some.injEq] at h'; exact absurd h' (hnb _ _ _ _)
  · rename_i l' _ h'
    rw [hl, Option.some.injEq] at h'; subst h'
    simp only [Option.some.injEq] at hs
    have hout : s'.out = upd s.out o.handle (s.out o.handle ++ l) := by subst hs; rfl
    have hinq : s'.inq = s.inq := by subst hs; rfl
    have hseq : s'.seq = s.seq := by subst hs; rfl
    have hbad : s'.bad = s.bad := by subst hs; rfl
    refine ⟨hO.plain, fun d => ?_, fun j o' hj => ?_, by rw [hbad]; exact hO.good⟩
    · obtain ⟨done, h1, h2⟩ := hO.all d
      by_cases e : d = o.handle
      · subst e
        refine ⟨done ++ [o.frame], ?_, ?_⟩
        · rw [hinq, ← h1, hw]; simp
        · rw [hout]; simp [upd, h2, hit]
      · refine ⟨done, ?_, ?_⟩
        · rw [hinq, hw' d e]; exact h1
        · rw [hout]; simpa [upd, e] using h2
    · rw [hsl, hseq]
      by_cases e : j = i
      · subst e; simp [upd, hk']
      · simp only [upd, if_neg e]; exact hO.ts j o' hj

/-- The frames that have arrived after one more action. -/
def addF (F : Nat → List (List Nat)) : Act → Nat → List (List Nat)
  | .arrive d f => upd F d (F d ++ [f])
  | _ => F

theorem Ord.step {F s a s'} (h : Ord F s) (hs : step s a = some s')
    (ha : ∀ d f, a = .arrive d f → Plain f) :
    Ord (addF F a) s' := by
  rcases step_cases hs with ⟨d, f, e, e'⟩ | ⟨d, e, ⟨h0, hp⟩ | ⟨_, h1, hp⟩⟩ | ⟨i, o, e, hi, ho, hp, hc⟩
  · subst e e'
    have hf := ha d f rfl
    simp only [addF]
    refine ⟨fun x g hg => ?_, fun x => ?_, h.ts, h.good⟩
    · by_cases e : x = d
      · subst e
        simp only [upd, if_true, List.mem_append, List.mem_singleton] at hg
        rcases hg with hg | hg
        · exact h.plain _ g hg
        · subst hg; exact hf
      · simp only [upd, if_neg e] at hg; exact h.plain x g hg
    · obtain ⟨done, h1, h2⟩ := h.all x
      refine ⟨done, ?_, h2⟩
      by_cases e : x = d
      · subst e
        simp only [upd, if_true, ← h1]
        simp [waiting]
      · simp only [upd, if_neg e]; exact h1
  · subst e; exact post_all h (by omega) h0 hp
  · subst e; exact post_all h (by omega) h1 hp
  · subst e; exact handle_all h hi ho hp hc

theorem exec_Ord : ∀ (acts : List Act) (F : Nat → List (List Nat)) (s s' : S), Ord F s →
    (∀ h, ∀ f ∈ arrived h acts, Plain f) → exec step s acts = some s' →
    Ord (fun h => F h ++ arrived h acts) s'
  | [], F, s, s', h, _, he => by
    simp only [exec, Option.some.injEq] at he; subst he
    simpa [arrived] using h
  | a :: as, F, s, s', h, hf, he => by
    simp only [exec] at he
    split at he
    · simp at he
    rename_i s1 h1
    have h2 := h.step h1 (fun d f e => by subst e; exact hf d f (by simp [arrived]))
    have h3 := exec_Ord as _ s1 s' h2 (fun d f hd => hf d f (by
      cases a with
      | arrive x g => simp only [arrived]; split <;> simp [hd]
      | _ => exact hd)) he
    have e : (fun h => addF F a h ++ arrived h as) =
        fun h => F h ++ arrived h (a :: as) := by
      funext d
      cases a with
      | arrive x g =>
        by_cases e : d = x
        · subst e; simp [addF, arrived, upd]
        · simp [addF, arrived, upd, e, Ne.symm e]
      | _ => rfl
    rw [e] at h3
    exact h3

/-- **C52**: in every schedule, what the receiver has sent on for a connection is the content of the first
frames that arrived on that connection, in order; all of them when no frame waits.  Missing: messages above
the threshold for a separate send, see `C52_stolen_counterexample`. -/
theorem C52_order_partial {acts s} (he : exec step init acts = some s)
    (hf : ∀ h, ∀ f ∈ arrived h acts, Plain f) (h : Nat) : s.bad = false ∧
    ∃ done rest, done ++ rest = arrived h acts ∧ s.out h = done.flatMap items ∧
      (s.inq h = [] → (∀ i, i < 2 → (s.slot i).pend = none) → rest = []) := by
  have hO := exec_Ord acts (fun _ => []) init s ⟨by simp, fun h => ⟨[], by simp [init, waiting], rfl⟩,
    by simp [init], rfl⟩ hf he
  obtain ⟨done, h1, h2⟩ := hO.all h
  refine ⟨hO.good, done, waiting s h ++ s.inq h, by simpa using h1, h2, fun e1 e2 => ?_⟩
  rw [e1]
  simp [waiting, e2 0 (by omega), e2 1 (by omega)]

/-- **C52, counterexample**: a message above the threshold, followed by another message.  The receiver posts
a receive for the payload in its second slot before it handles the first frame; the payload of the message
is then taken from the next message. -/
theorem C52_stolen_counterexample {m m' : Msg} (hok : m.Ok) (hs : THRESH < m.data.length) {f : List Nat}
    (hf : directFrames m = [f, m.data]) :
    ∃ s, exec step init [.arrive 0 f, .arrive 0 m.data, .arrive 0 (batchFrame [m']), .post 0, .post 0,
      .handle 0] = some s ∧
      s.out 0 = [.data ⟨m.src, m.dest, m.type, batchFrame [m']⟩] := by
  obtain ⟨f', hf', hd⟩ := C42_direct_big hok hs
  rw [hf] at hf'
  simp only [List.cons.injEq, and_true] at hf'
  subst hf'
  simp [exec, step, init, post, handleBatch, upd, hd]

/-! ## C53: from the sender to the next node -/

/-- The frames of the sender that are not of big messages are plain. -/
theorem plain_frames {ms : List Msg} (hok : ∀ m ∈ ms, m.Ok) (hn : ms.length < 2 ^ 31)
    (hne : ms ≠ []) (hs : ∀ m ∈ ms, m.data.length ≤ THRESH) :
    Plain (batchFrame ms) ∧ items (batchFrame ms) = ms.flatMap arrives := by
  have hd : decode (batchFrame ms) = some (ms.flatMap arrives) := by
    by_cases e : 2 ≤ ms.length
    · exact C42_batch e hn hok
    · match ms, hne with
      | [m], _ =>
        have := C42_single_partial (hok m (by simp)) (hs m (by simp))
        simpa using this
      | _ :: _ :: _, _ => simp at e
  exact ⟨⟨_, hd, Sender.arrives_not_big ms⟩, by simp [items, hd]⟩

/-- **C53**: the messages given to a connection of the sender are sent on by the receiver in the same order,
each once, in all schedules of both: at any time a first part of them, and all of them when nothing is held
by the sender, under way, or waiting at the receiver.  Missing: messages above the threshold for a separate
send, and what is missing in `C43_wire_partial`. -/
theorem C53_delivery_partial {cfg junk acts s racts r} {c h : Nat} (hcb : 1 ≤ cfg.batch)
    (hb : cfg.batch < 2 ^ 31)
    (hov : cfg.copies = true ∨ cfg.batch = 1 ∨
      ∀ c, ∀ m ∈ Sender.pushed c acts, m.data.length < cfg.limit)
    (he : exec (Sender.step cfg) (Sender.init cfg junk) acts = some s)
    (hok : ∀ m ∈ Sender.pushed c acts, m.Ok ∧ m.data.length ≤ THRESH)
    (her : exec step init racts = some r) (hw : arrived h racts <+: (s.conn c).wire)
    (hoth : ∀ d, d ≠ h → ∀ f ∈ arrived d racts, Plain f) :
    ∃ ms, ms <+: Sender.pushed c acts ∧ r.out h = ms.flatMap arrives ∧
      ((s.conn c).pc = .idle → (s.conn c).n = 0 → (s.conn c).flight = [] →
        arrived h racts = (s.conn c).wire → r.inq h = [] → (∀ i, i < 2 → (r.slot i).pend = none) →
        ms = Sender.pushed c acts) := by
  obtain ⟨us, pend, h1, h2, hx, h4, h5⟩ := Sender.C43_wire_partial hcb hov he c
  clear hx
  -- every unit is one frame
  have hmem : ∀ u ∈ us, ∀ m ∈ u.msgs, m.Ok ∧ m.data.length ≤ THRESH := by
    intro u hu m hm
    apply hok
    rw [← h1]
    exact List.mem_append_left _ (List.mem_flatMap.2 ⟨u, hu, hm⟩)
  have hfr : ∀ u ∈ us, u.frames = [batchFrame u.msgs] ∧ Plain (batchFrame u.msgs) ∧
      items (batchFrame u.msgs) = u.msgs.flatMap arrives := by
    intro u hu
    cases u with
    | batch ms =>
      obtain ⟨g1, g2, _⟩ := h4 ms hu
      exact ⟨rfl, plain_frames (ms := ms) (fun m hm => (hmem _ hu m hm).1) (by omega) g1
        (fun m hm => (hmem _ hu m hm).2)⟩
    | direct m =>
      have hm := hmem _ hu m (by simp [Sender.Sent.msgs])
      refine ⟨directFrames_small hm.2, plain_frames (ms := [m]) ?_ (by simp) (by simp) ?_⟩
      · simpa using hm.1
      · simpa using hm.2
  have hframes : us.flatMap Sender.Sent.frames = us.map fun u => batchFrame u.msgs := by
    clear h1 h2 h4 hmem
    induction us with
    | nil => rfl
    | cons u us ih =>
      rw [List.flatMap_cons, (hfr u (by simp)).1, ih (fun x hx => hfr x (List.mem_cons_of_mem _ hx))]
      rfl
  rw [hframes] at h2
  have hplain : ∀ d, ∀ f ∈ arrived d racts, Plain f := by
    intro d f hf
    by_cases e : d = h
    · subst e
      have : f ∈ us.map fun u => batchFrame u.msgs := by
        rw [← h2]; exact List.mem_append_left _ (hw.subset hf)
      obtain ⟨u, hu, e⟩ := List.mem_map.1 this
      subst e; exact (hfr u hu).2.1
    · exact hoth d e f hf
  obtain ⟨_, done, rest, g1, g2, g3⟩ := C52_order_partial her hplain h
  have hpre : done <+: us.map fun u => batchFrame u.msgs := by
    rw [← h2]
    exact ((g1 ▸ List.prefix_append done rest : done <+: arrived h racts).trans hw).trans
      (List.prefix_append _ _)
  obtain ⟨k, hk, e⟩ : ∃ k, k = done.length ∧ done = (us.take k).map fun u => batchFrame u.msgs :=
    ⟨done.length, rfl, by
      rw [List.map_take]; exact List.prefix_iff_eq_take.1 hpre⟩
  refine ⟨(us.take k).flatMap Sender.Sent.msgs, ?_, ?_, ?_⟩
  · rw [← h1]
    refine List.IsPrefix.trans ?_ (List.prefix_append _ _)
    refine ⟨(us.drop k).flatMap Sender.Sent.msgs, ?_⟩
    rw [← List.flatMap_append, List.take_append_drop]
  · rw [g2, e, List.flatMap_map, List.flatMap_assoc]
    have : ∀ l : List Sender.Sent, (∀ u ∈ l, u ∈ us) →
        (l.flatMap fun u => items (batchFrame u.msgs)) = l.flatMap fun u => u.msgs.flatMap arrives := by
      intro l
      induction l with
      | nil => intro _; rfl
      | cons u l ih =>
        intro hl
        rw [List.flatMap_cons, List.flatMap_cons, (hfr u (hl u (by simp))).2.2,
          ih (fun x hx => hl x (List.mem_cons_of_mem _ hx))]
    exact this _ (fun u hu => List.mem_of_mem_take hu)
  · intro hi hn hf ha hq hsl
    have hr := g3 hq hsl
    subst hr
    rw [List.append_nil] at g1
    have hp := (h5 hi).1
    rw [hn] at hp
    have := List.length_eq_zero_iff.1 hp
    subst this
    rw [hf, List.map_nil, List.append_nil, ← ha, ← g1] at h2
    have hkl : k = us.length := by rw [hk, h2, List.length_map]
    rw [hkl, List.take_length, ← h1, List.append_nil]

end FF.Net.Receiver
