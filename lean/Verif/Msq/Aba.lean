import Verif.Msq.Live
/-!
# C59: the allocator of the queue does not defer reuse long enough

Source: `/repo/ff/allocator.hpp` 546-567 (`getfrom_fb_delayed`), 738-779 (`getitem`), 787-815
(`putitem`), and `/repo/ff/mpmc/MPMCqueues.hpp` 691 (`FFAllocator(2)`).

`MSqueue` has no counters in its pointers and relies on the allocator for that (comment at
MPMCqueues.hpp 567-572).  The allocator counts frees: it reuses a buffer once every thread that has
freed something has freed two buffers that were not reused.  It knows nothing about threads that still
hold the pointer.
-/
namespace FF.Msq
open FF FF.Farm

/-! ## A consequence of linearizability that is easy to check -/

def Ev.isCallPush (v : Nat) : Ev → Bool
  | .callPush _ w => decide (w = v)
  | _ => false
def Ev.isRetPop (v : Nat) : Ev → Bool
  | .retPop _ (some w) => decide (w = v)
  | _ => false
def Ev.isEffPush (v : Nat) : Ev → Bool
  | .effPush _ w => decide (w = v)
  | _ => false
def Ev.isEffPop (v : Nat) : Ev → Bool
  | .effPop _ (some w) => decide (w = v)
  | _ => false

/-- events of one thread that satisfy `p` -/
def cnt (p : Ev → Bool) (t : Nat) (h : List Ev) : Nat := h.countP fun e => p e && decide (e.thread = t)

theorem cnt_cons_other {p : Ev → Bool} {t : Nat} {e : Ev} {h : List Ev} (he : e.thread ≠ t) :
    cnt p t (e :: h) = cnt p t h := by
  unfold cnt
  rw [List.countP_cons, if_neg (by simp [he])]; simp

theorem cnt_cons_same {p : Ev → Bool} {e : Ev} {h : List Ev} :
    cnt p e.thread (e :: h) = cnt p e.thread h + (if p e then 1 else 0) := by
  unfold cnt
  rw [List.countP_cons]; simp

theorem countP_threads (p : Ev → Bool) (h : List Ev) (N : Nat) (hN : ∀ e ∈ h, e.thread < N) :
    h.countP p = sumN (fun t => cnt p t h) N := by
  induction h with
  | nil => exact (Parfor.sumN_zero fun i _ => rfl).symm
  | cons e h ih =>
    have h1 := ih fun x hx => hN x (List.mem_cons_of_mem _ hx)
    have h2 := Parfor.sumN_change (f := fun t => cnt p t (e :: h)) (g := fun t => cnt p t h)
      (hN e (by simp)) (fun j _ hj => cnt_cons_other (fun hh => hj hh.symm))
    simp only [cnt_cons_same] at h2
    rw [List.countP_cons]
    omega

theorem doing_counts (v t : Nat) (h : List Ev) : ∀ d, doing t h = some d →
    cnt (Ev.isEffPush v) t h + (if d = .pushing v then 1 else 0) = cnt (Ev.isCallPush v) t h ∧
    cnt (Ev.isRetPop v) t h + (if d = .popped (some v) then 1 else 0) = cnt (Ev.isEffPop v) t h := by
  induction h with
  | nil => intro d hd; simp only [doing, Option.some.injEq] at hd; subst hd; exact ⟨rfl, rfl⟩
  | cons e h ih =>
    intro d hd
    simp only [doing] at hd
    split at hd
    · rename_i ht
      subst ht
      cases hd' : doing e.thread h with
      | none => rw [hd'] at hd; simp at hd
      | some d0 =>
        rw [hd'] at hd
        simp only [Option.bind_some] at hd
        obtain ⟨i1, i2⟩ := ih d0 hd'
        simp only [cnt_cons_same]
        rw [← i1, ← i2]
        clear i1 i2 ih hd'
        cases d0 <;> cases e <;> simp only [Doing.next, reduceCtorEq, Option.some.injEq] at hd
        · subst hd; simp [Ev.isEffPush, Ev.isCallPush, Ev.isRetPop, Ev.isEffPop]
        · subst hd; simp [Ev.isEffPush, Ev.isCallPush, Ev.isRetPop, Ev.isEffPop]
        · split at hd
          · rename_i hvw
            simp only [Option.some.injEq] at hd; subst hd; subst hvw
            simp [Ev.isEffPush, Ev.isCallPush, Ev.isRetPop, Ev.isEffPop]
          · simp at hd
        · subst hd; simp [Ev.isEffPush, Ev.isCallPush, Ev.isRetPop, Ev.isEffPop]
        · subst hd
          rename_i r
          cases r <;> simp [Ev.isEffPush, Ev.isCallPush, Ev.isRetPop, Ev.isEffPop]
        · split at hd
          · rename_i hvw
            simp only [Option.some.injEq] at hd; subst hd; subst hvw
            rename_i r _
            cases r <;> simp [Ev.isEffPush, Ev.isCallPush, Ev.isRetPop, Ev.isEffPop]
          · simp at hd
    · rename_i ht
      rw [cnt_cons_other ht, cnt_cons_other ht, cnt_cons_other ht, cnt_cons_other ht]
      exact ih d hd

theorem replay_counts (v : Nat) (h : List Ev) : ∀ q, replay h = some q →
    h.countP (Ev.isEffPop v) + q.countP (fun w => decide (w = v)) = h.countP (Ev.isEffPush v) := by
  induction h with
  | nil => intro q hq; simp only [replay, Option.some.injEq] at hq; subst hq; rfl
  | cons e h ih =>
    intro q hq
    simp only [replay] at hq
    cases hq' : replay h with
    | none => rw [hq'] at hq; simp at hq
    | some q0 =>
      rw [hq'] at hq
      simp only [Option.bind_some] at hq
      have i1 := ih q0 hq'
      rw [List.countP_cons, List.countP_cons]
      cases e with
      | effPush t w =>
        simp only [Ev.apply, Option.some.injEq] at hq; subst hq
        simp only [List.countP_append, List.countP_singleton, Ev.isEffPush, Ev.isEffPop,
          Bool.false_eq_true, if_false]
        by_cases hw : w = v <;> simp only [hw, decide_true, decide_false, if_true, Bool.false_eq_true, if_false] <;>
          omega
      | effPop t r =>
        cases r with
        | none =>
          simp only [Ev.apply] at hq
          split at hq
          · rename_i h0
            simp only [Option.some.injEq] at hq; subst hq; subst h0
            simp only [Ev.isEffPush, Ev.isEffPop, Bool.false_eq_true, if_false]
            omega
          · simp at hq
        | some w =>
          simp only [Ev.apply] at hq
          split at hq
          · simp at hq
          · split at hq
            · rename_i h0
              simp only [Option.some.injEq] at hq; subst hq; subst h0
              rw [List.countP_cons] at i1
              simp only [Ev.isEffPush, Ev.isEffPop, Bool.false_eq_true, if_false]
              rename_i w _
              by_cases hw : w = v <;> simp only [hw, decide_true, decide_false, if_true, Bool.false_eq_true, if_false] at i1 ⊢ <;>
                omega
            · simp at hq
      | callPush t w => simp only [Ev.apply, Option.some.injEq] at hq; subst hq; simpa [Ev.isEffPush, Ev.isEffPop] using i1
      | callPop t => simp only [Ev.apply, Option.some.injEq] at hq; subst hq; simpa [Ev.isEffPush, Ev.isEffPop] using i1
      | retPush t => simp only [Ev.apply, Option.some.injEq] at hq; subst hq; simpa [Ev.isEffPush, Ev.isEffPop] using i1
      | retPop t r => simp only [Ev.apply, Option.some.injEq] at hq; subst hq; simpa [Ev.isEffPush, Ev.isEffPop] using i1

/-- In a linearizable history a value is returned at most as often as it was pushed. -/
theorem Linearizable.count {vis : List Ev} (h : Linearizable vis) (v : Nat) :
    vis.countP (Ev.isRetPop v) ≤ vis.countP (Ev.isCallPush v) := by
  obtain ⟨full, hv, hd, q, hq⟩ := h
  have e1 : vis.countP (Ev.isRetPop v) = full.countP (Ev.isRetPop v) := by
    rw [← hv, List.countP_filter]
    refine List.countP_congr fun e _ => ?_
    cases e <;> simp [Ev.isRetPop, Ev.visible]
  have e2 : vis.countP (Ev.isCallPush v) = full.countP (Ev.isCallPush v) := by
    rw [← hv, List.countP_filter]
    refine List.countP_congr fun e _ => ?_
    cases e <;> simp [Ev.isCallPush, Ev.visible]
  obtain ⟨N, hN⟩ : ∃ N, ∀ e ∈ full, e.thread < N := by
    clear e1 e2 hv hd hq
    induction full with
    | nil => exact ⟨0, by simp⟩
    | cons e l ih =>
      obtain ⟨N, hN⟩ := ih
      refine ⟨N + e.thread + 1, fun x hx => ?_⟩
      rcases List.mem_cons.1 hx with rfl | hx
      · omega
      · have := hN x hx; omega
  rw [e1, e2, countP_threads _ _ N hN, countP_threads _ _ N hN]
  have h1 := replay_counts v full q hq
  rw [countP_threads _ _ N hN, countP_threads _ _ N hN] at h1
  have h2 : sumN (fun t => cnt (Ev.isRetPop v) t full) N ≤ sumN (fun t => cnt (Ev.isEffPop v) t full) N :=
    Parfor.sumN_le fun t _ => by
      obtain ⟨d, hd⟩ := hd t
      have := (doing_counts v t full d hd).2; omega
  have h3 : sumN (fun t => cnt (Ev.isEffPush v) t full) N ≤ sumN (fun t => cnt (Ev.isCallPush v) t full) N :=
    Parfor.sumN_le fun t _ => by
      obtain ⟨d, hd⟩ := hd t
      have := (doing_counts v t full d hd).1; omega
  omega

/-! ## The queue with the allocator it uses -/

/-- The queue and the part of the allocator that belongs to thread 0, the only one that pushes. -/
structure D where
  s : S
  /-- buffers left in the current slab (`availbuffers`), and the address of the next one -/
  avail : Nat
  fresh : Addr
  /-- `fb`: the other threads that have freed buffers, in the order of their first free; and what they
  have freed (`leak`), oldest first -/
  reg : List Nat
  leak : Nat → List Addr

/-- `getitem` (allocator.hpp 738-779) with `getfrom_fb_delayed` (546-567): the address of the next
buffer.  Releasing the segments of the other dropped buffers is not modelled. -/
def D.getitem (slab delay : Nat) (d : D) : D × Addr :=
  if 0 < d.avail then ({ d with avail := d.avail - 1, fresh := d.fresh + 1 }, d.fresh)
  else
    match d.reg with
    | [] => ({ d with avail := slab - 1, fresh := d.fresh + 1 }, d.fresh)
    | u :: _ =>
      if d.reg.all (fun w => decide (delay ≤ (d.leak w).length)) then
        ({ d with leak := fun w => if w ∈ d.reg then (d.leak w).tail else d.leak w },
          ((d.leak u).head?).getD 0)
      else ({ d with avail := slab - 1, fresh := d.fresh + 1 }, d.fresh)

/-- `putitem` (allocator.hpp 787-815) by a thread other than the allocating one -/
def D.putitem (d : D) (u : Nat) (a : Addr) : D :=
  { d with reg := if u ∈ d.reg then d.reg else d.reg ++ [u], leak := upd d.leak u (d.leak u ++ [a]) }

/-- One action; thread 0 pushes, the others pop.  In `alloc t a` the address is the one the allocator
chooses. -/
def dstep (slab delay n : Nat) (d : D) : Act → Option D
  | .callPush t v => if t = 0 then (mstep n d.s (.callPush t v)).map fun s => { d with s := s } else none
  | .callPop t => if t = 0 then none else (mstep n d.s (.callPop t)).map fun s => { d with s := s }
  | .alloc t _ =>
    let r := d.getitem slab delay
    (mstep n d.s (.alloc t r.2)).map fun s => { r.1 with s := s }
  | .go t =>
    match d.s.pc t with
    | .cFree h _ => (mstep n d.s (.go t)).map fun s => { d.putitem t h with s := s }
    | _ => (mstep n d.s (.go t)).map fun s => { d with s := s }

/-- `init`: the dummy node is the first buffer of the slab -/
def D.init (slab : Nat) : D := { s := S.init, avail := slab - 1, fresh := 1, reg := [], leak := fun _ => [] }

def pushAll (v : Nat) : List Act := [.callPush 0 v, .alloc 0 0] ++ List.replicate 6 (.go 0)
def popAll (t : Nat) : List Act := [.callPop t] ++ List.replicate 8 (.go t)

/-- Three elements are pushed.  Thread 2 starts a `pop` and stops before its compare-and-swap.
Thread 1 takes two elements; the next push reuses the node thread 2 holds; thread 1 takes the other
two.  `head` is again what thread 2 has read. -/
def abaRun : List Act :=
  pushAll 10 ++ pushAll 20 ++ pushAll 30 ++ [.callPop 2] ++ List.replicate 5 (.go 2) ++
  popAll 1 ++ popAll 1 ++ pushAll 40 ++ popAll 1 ++ popAll 1 ++ List.replicate 3 (.go 2)

/-- **C59 is false with the allocator the queue uses**: with three threads an element is returned
twice.  (Slabs of four buffers; the code has 512 of this size, which makes the schedule longer and
changes nothing else.  The delay is the one in the code.) -/
theorem C59_aba_counterexample :
    ∃ d, Reach (dstep 4 2 3) (D.init 4) d ∧ d.s.vis.countP (Ev.isCallPush 10) = 1 ∧
      d.s.vis.countP (Ev.isRetPop 10) = 2 ∧ ¬ Linearizable d.s.vis := by
  have h : ((exec (dstep 4 2 3) (D.init 4) abaRun).map fun d =>
      (d.s.vis.countP (Ev.isCallPush 10), d.s.vis.countP (Ev.isRetPop 10))) = some (1, 2) := by rfl
  cases hx : exec (dstep 4 2 3) (D.init 4) abaRun with
  | none => rw [hx] at h; simp at h
  | some d =>
    rw [hx] at h
    simp only [Option.map_some, Option.some.injEq, Prod.mk.injEq] at h
    refine ⟨d, ⟨abaRun, hx⟩, h.1, h.2, fun hl => ?_⟩
    have := hl.count 10
    omega

/-! ## The hypotheses are met -/

/-- Two pushes overlap: thread 1 loses the race to link its node, helps to move `tail` and retries.
Then both elements are popped, a third pop finds the queue empty, and the first node is reused. -/
def sampleRun : List Act :=
  [.callPush 0 7, .callPush 1 8, .alloc 0 1, .alloc 1 2] ++ List.replicate 3 (.go 0) ++
  List.replicate 3 (.go 1) ++ [.go 0, .go 1] ++ List.replicate 10 (.go 1) ++ [.go 0, .go 0] ++
  [.callPop 0] ++ List.replicate 8 (.go 0) ++ [.callPop 0] ++ List.replicate 8 (.go 0) ++
  [.callPop 1] ++ List.replicate 5 (.go 1) ++ [.callPush 1 9, .alloc 1 0] ++ List.replicate 6 (.go 1)

/-- of `C59_linearizable_partial`, `C59_safe_partial`, `C59_lock_free_partial`, `C59_never_stuck`,
`C59_returns_partial` -/
example : ((exec (qstep 2) S.init sampleRun).map S.vis) =
    some [.retPush 1, .callPush 1 9, .retPop 1 none, .callPop 1, .retPop 0 (some 8), .callPop 0,
      .retPop 0 (some 7), .callPop 0, .retPush 0, .retPush 1, .callPush 1 8, .callPush 0 7] := rfl

example : sampleRun.length = 56 ∧ sampleRun.countP Act.isCall = 6 := ⟨rfl, rfl⟩

/-- of `C59_spsc`: the node freed by the first pop is reused while the consumer is in its second -/
example : ((exec sstep S.init ([.callPush 0 7, .alloc 0 1] ++ List.replicate 6 (.go 0) ++
      [.callPop 1] ++ List.replicate 8 (.go 1) ++ [.callPop 1] ++ List.replicate 2 (.go 1) ++
      [.callPush 0 8, .alloc 0 0] ++ List.replicate 6 (.go 0) ++ List.replicate 11 (.go 1))).map S.vis) =
    some [.retPop 1 (some 8), .retPush 0, .callPush 0 8, .callPop 1, .retPop 1 (some 7), .callPop 1,
      .retPush 0, .callPush 0 7] := rfl

/-- of `C59_no_reuse` -/
example : ((exec (fstep 2) S.init ([.callPush 0 7, .alloc 0 1] ++ List.replicate 6 (.go 0) ++
      [.callPop 1] ++ List.replicate 8 (.go 1))).map S.vis) =
    some [.retPop 1 (some 7), .callPop 1, .retPush 0, .callPush 0 7] := rfl

end FF.Msq
