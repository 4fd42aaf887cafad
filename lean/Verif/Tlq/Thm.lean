import Verif.Tlq.Step
/-!
# C68: the queue with two locks is a FIFO queue, safe, and every operation ends
-/
namespace FF.Tlq
open FF
open FF.Msq (Ev Doing doing replay Linked Linearizable doing_cons_other)

variable {cap n k : Nat} {s s' : S} {ch : List Addr}

/-- **C68, linearizability.**  For any number of threads, any size and filling of the cache, any calls
and every interleaving, the calls and returns are those of a FIFO queue whose operations take effect
one after the other between their calls and returns. -/
theorem C68_linearizable (hk : k ≤ cap) (hr : Reach (tstep cap n) (S.init k) s) :
    Linearizable s.vis := by
  obtain ⟨ch, h⟩ := Inv.reach hk hr
  exact ⟨s.full, h.h.vis, fun t => ⟨_, h.h.doing t⟩, _, h.rep⟩

/-- **C68, memory safety.**  No thread ever dereferences a null pointer, accesses or frees memory that
is not allocated. -/
theorem C68_safe (hk : k ≤ cap) (hr : Reach (tstep cap n) (S.init k) s) (t : Nat) :
    s.pc t ≠ .crash := by
  obtain ⟨ch, h⟩ := Inv.reach hk hr
  intro ht
  have := h.m.know t
  rw [ht] at this
  exact this

/-! ## Counting -/

def Ev.isPush : Ev → Bool
  | .retPush _ => true
  | _ => false

/-- a pop that returns an element -/
def Ev.isPop : Ev → Bool
  | .retPop _ (some _) => true
  | _ => false

def Ev.isEPush : Ev → Bool
  | .effPush _ _ => true
  | _ => false

def Ev.isEPop : Ev → Bool
  | .effPop _ (some _) => true
  | _ => false

theorem replay_length : ∀ {h : List Ev} {q : List Nat}, replay h = some q →
    q.length + (h.filter Ev.isEPop).length = (h.filter Ev.isEPush).length
  | [], q, hq => by simp only [replay, Option.some.injEq] at hq; subst hq; rfl
  | e :: h, q, hq => by
    simp only [replay] at hq
    cases hr : replay h with
    | none => rw [hr] at hq; simp at hq
    | some q' =>
      rw [hr] at hq
      have ih := replay_length hr
      simp only [Option.bind_some] at hq
      cases e with
      | effPush t v =>
        simp only [Ev.apply, Option.some.injEq] at hq
        subst hq
        simp [List.filter_cons, Ev.isEPop, Ev.isEPush]; omega
      | effPop t r =>
        cases r with
        | none =>
          simp only [Ev.apply] at hq
          split at hq
          · rename_i h0
            simp only [Option.some.injEq] at hq
            subst hq; subst h0
            simpa [List.filter_cons, Ev.isEPop, Ev.isEPush] using ih
          · simp at hq
        | some v =>
          simp only [Ev.apply] at hq
          split at hq
          · simp at hq
          · split at hq
            · simp only [Option.some.injEq] at hq
              subst hq
              simp only [List.length_cons] at ih
              simp [List.filter_cons, Ev.isEPop, Ev.isEPush]; omega
            · simp at hq
      | callPush t v => simp only [Ev.apply, Option.some.injEq] at hq; subst hq; simpa [List.filter_cons, Ev.isEPop, Ev.isEPush] using ih
      | callPop t => simp only [Ev.apply, Option.some.injEq] at hq; subst hq; simpa [List.filter_cons, Ev.isEPop, Ev.isEPush] using ih
      | retPush t => simp only [Ev.apply, Option.some.injEq] at hq; subst hq; simpa [List.filter_cons, Ev.isEPop, Ev.isEPush] using ih
      | retPop t r => simp only [Ev.apply, Option.some.injEq] at hq; subst hq; simpa [List.filter_cons, Ev.isEPop, Ev.isEPush] using ih

/-- the events of a kind, by thread -/
def by_ (f : Ev → Bool) (h : List Ev) : List Nat := (h.filter f).map Ev.thread

theorem by_cons (f : Ev → Bool) (e : Ev) (h : List Ev) :
    by_ f (e :: h) = if f e then e.thread :: by_ f h else by_ f h := by
  unfold by_; rw [List.filter_cons]; split <;> simp

def Doing.pushed : Doing → Nat
  | .pushed => 1
  | _ => 0

def Doing.got : Doing → Nat
  | .popped (some _) => 1
  | _ => 0

theorem count_by {t : Nat} : ∀ {h : List Ev} {d : Doing}, doing t h = some d →
    (by_ Ev.isEPush h).count t = (by_ Ev.isPush h).count t + Doing.pushed d ∧
    (by_ Ev.isEPop h).count t = (by_ Ev.isPop h).count t + Doing.got d
  | [], d, hd => by
    simp only [doing, Option.some.injEq] at hd; subst hd; exact ⟨rfl, rfl⟩
  | e :: h, d, hd => by
    by_cases he : e.thread = t
    · simp only [doing, he, if_true] at hd
      cases hp : doing t h with
      | none => rw [hp] at hd; simp at hd
      | some d0 =>
        rw [hp] at hd
        simp only [Option.bind_some] at hd
        obtain ⟨i1, i2⟩ := count_by hp
        simp only [by_cons, he]
        cases d0 <;> cases e <;> simp only [Doing.next, Option.some.injEq, reduceCtorEq] at hd <;>
          (try split at hd) <;> (try simp only [Option.some.injEq, reduceCtorEq] at hd) <;> subst hd <;>
          simp only [Doing.pushed, Doing.got] at i1 i2
        · simp [Ev.isPush, Ev.isPop, Ev.isEPush, Ev.isEPop, Doing.pushed, Doing.got, i1, i2]
        · simp [Ev.isPush, Ev.isPop, Ev.isEPush, Ev.isEPop, Doing.pushed, Doing.got, i1, i2]
        · simp [Ev.isPush, Ev.isPop, Ev.isEPush, Ev.isEPop, Doing.pushed, Doing.got, i1, i2]
        · simp [Ev.isPush, Ev.isPop, Ev.isEPush, Ev.isEPop, Doing.pushed, Doing.got, i1, i2]
        · rename_i r
          cases r <;> simp [Ev.isPush, Ev.isPop, Ev.isEPush, Ev.isEPop, Doing.pushed, Doing.got, i1, i2]
        · rename_i r _ r' hrr
          subst hrr
          cases r <;> simp only [] at i2 <;> simp [Ev.isPush, Ev.isPop, Ev.isEPush, Ev.isEPop, Doing.pushed, Doing.got, i1, i2]
    · rw [doing_cons_other he] at hd
      obtain ⟨i1, i2⟩ := count_by hd
      have key : ∀ f : Ev → Bool, (by_ f (e :: h)).count t = (by_ f h).count t := by
        intro f; rw [by_cons]; split
        · rw [List.count_cons_of_ne he]
        · rfl
      simp only [key]; exact ⟨i1, i2⟩

theorem filter_vis (f : Ev → Bool) (hf : ∀ e, f e = true → e.visible = true) (h : List Ev) :
    (h.filter Ev.visible).filter f = h.filter f := by
  rw [List.filter_filter]
  refine List.filter_congr fun e _ => ?_
  cases he : f e with
  | false => simp
  | true => simp [hf e he]

/-- **C68, memory.**  When no operation is in progress, the allocated nodes are one for each element
in the queue (pushes returned minus pops that returned an element), one more, and those in the cache,
which are at most as many as its size: nothing leaks, for every history. -/
theorem C68_memory (hk : k ≤ cap) (hr : Reach (tstep cap n) (S.init k) s) (hi : ∀ t, s.pc t = .idle) :
    ∃ l : List Addr, l.Nodup ∧ (∀ a, s.live a = true ↔ a ∈ l) ∧
      l.length + (s.vis.filter Ev.isPop).length =
        1 + (s.vis.filter Ev.isPush).length + s.cache.length ∧ s.cache.length ≤ cap := by
  obtain ⟨ch, h⟩ := Inv.reach hk hr
  refine ⟨_, h.m.nodup, h.m.live, ?_, h.m.ccap⟩
  have h0 : owners n s.pc = [] := by simp [owners, hi, Pc.own]
  have hd : ∀ t, doing t s.full = some .nothing := fun t => by rw [h.h.doing t, hi t]; rfl
  have e1 : (s.full.filter Ev.isEPush).length = (s.full.filter Ev.isPush).length := by
    have : (by_ Ev.isEPush s.full).Perm (by_ Ev.isPush s.full) :=
      List.perm_iff_count.2 fun t => (count_by (hd t)).1
    simpa [by_] using this.length_eq
  have e2 : (s.full.filter Ev.isEPop).length = (s.full.filter Ev.isPop).length := by
    have : (by_ Ev.isEPop s.full).Perm (by_ Ev.isPop s.full) :=
      List.perm_iff_count.2 fun t => (count_by (hd t)).2
    simpa [by_] using this.length_eq
  have hl := replay_length h.rep
  rw [e1, e2] at hl
  rw [← h.h.vis, filter_vis Ev.isPop (by intro e; cases e <;> simp [Ev.isPop, Ev.visible]),
    filter_vis Ev.isPush (by intro e; cases e <;> simp [Ev.isPush, Ev.visible])]
  have hne : ch ≠ [] := h.m.linked.ne
  have hpos : 0 < ch.length := List.length_pos_iff.2 hne
  simp only [List.length_map, List.length_tail] at hl
  rw [h0]
  simp only [List.nil_append, List.length_append]
  omega

/-! ## Operations end -/

/-- steps left in the operation -/
def Pc.left : Pc → Nat
  | .idle | .crash => 0
  | .aLock _ => 11
  | .aPop _ => 10
  | .aGot _ _ | .aNone _ => 9
  | .aMalloc _ => 8
  | .wData _ _ => 7
  | .wNext _ _ => 6
  | .pLock _ _ => 5
  | .pLink _ _ => 4
  | .pTail _ => 3
  | .pUnlock => 2
  | .pRet => 1
  | .cLock => 8
  | .cTest => 7
  | .cData => 6
  | .cHead _ _ => 5
  | .cCache _ _ => 4
  | .cKept _ | .cLeft _ _ => 3
  | .cFree _ _ | .cEmpty => 2
  | .cRet _ => 1

theorem go_left {t : Nat} (hs : goStep cap s t = some s') :
    ∃ p, s'.pc = upd s.pc t p ∧ p.left < (s.pc t).left := by
  unfold goStep at hs
  cases hpc : s.pc t <;> simp only [hpc, reduceCtorEq] at hs <;>
    (repeat' split at hs) <;> (try simp only [Option.some.injEq, reduceCtorEq] at hs) <;>
    (try subst hs) <;> first | contradiction | exact ⟨_, rfl, by simp [Pc.left]⟩

def Act.isCall : Act → Bool
  | .callPush _ _ | .callPop _ => true
  | _ => false

/-- steps left in the operations of threads `0 … n-1` -/
def total (pc : Nat → Pc) : Nat → Nat
  | 0 => 0
  | n + 1 => total pc n + (pc n).left

theorem total_other (pc : Nat → Pc) (t : Nat) (p : Pc) : ∀ n, n ≤ t → total (upd pc t p) n = total pc n
  | 0, _ => rfl
  | n + 1, h => by
    simp only [total]
    rw [total_other pc t p n (by omega), upd_other _ _ (by omega)]

theorem total_upd (pc : Nat → Pc) (t : Nat) (p : Pc) (hlt : p.left < (pc t).left) :
    ∀ n, t < n → total (upd pc t p) n < total pc n
  | n + 1, h => by
    simp only [total]
    by_cases ht : t = n
    · subst ht
      rw [total_other pc t p t (Nat.le_refl t), upd_same]; omega
    · have := total_upd pc t p hlt n (by omega)
      rw [upd_other _ _ (Ne.symm ht)]; omega

theorem Inv.left {a : Act} (h : Inv cap n s ch) (hs : tstep cap n s a = some s') (ha : a.isCall = false) :
    total s'.pc n < total s.pc n := by
  cases a with
  | callPush t v => simp [Act.isCall] at ha
  | callPop t => simp [Act.isCall] at ha
  | malloc t a x d =>
    simp only [tstep] at hs
    split at hs
    · rename_i v hpc
      split at hs
      · simp only [Option.some.injEq] at hs; subst hs
        have ht : t < n := Nat.lt_of_not_le fun hh => by rw [h.out t hh] at hpc; simp at hpc
        exact total_upd s.pc t _ (by rw [hpc]; simp [Pc.left]) n ht
      · simp at hs
    · simp at hs
  | go t =>
    simp only [tstep] at hs
    split at hs
    · rename_i ht
      obtain ⟨p, hp, hl⟩ := go_left hs
      rw [hp]; exact total_upd s.pc t p hl n ht
    · simp at hs

theorem exec_left : ∀ (acts : List Act) {s s' : S} {ch : List Addr}, Inv cap n s ch →
    exec (tstep cap n) s acts = some s' → (∀ a ∈ acts, a.isCall = false) →
    acts.length + total s'.pc n ≤ total s.pc n
  | [], s, s', ch, _, he, _ => by simp only [exec, Option.some.injEq] at he; subst he; simp
  | a :: acts, s, s', ch, h, he, hc => by
    simp only [exec] at he
    cases hs : tstep cap n s a with
    | none => rw [hs] at he; simp at he
    | some s1 =>
      rw [hs] at he
      obtain ⟨ch1, h1⟩ := h.step hs
      have := h.left hs (hc a (by simp))
      have := exec_left acts h1 he fun b hb => hc b (by simp [hb])
      simp only [List.length_cons]; omega

theorem total_le (pc : Nat → Pc) : ∀ n, total pc n ≤ 11 * n
  | 0 => Nat.le_refl _
  | n + 1 => by
    have h1 := total_le pc n
    have h2 : (pc n).left ≤ 11 := by cases pc n <;> simp [Pc.left]
    simp only [total]; omega

/-- the allocated addresses are finitely many -/
theorem Mem.fresh (h : Mem cap n s ch) : ∃ a, s.live a = false := by
  have key : ∀ l : List Nat, ∃ b : Nat, ∀ a ∈ l, a < b := by
    intro l
    induction l with
    | nil => exact ⟨0, by simp⟩
    | cons x l ih =>
      obtain ⟨b, hb⟩ := ih
      refine ⟨b + x + 1, fun a ha => ?_⟩
      rw [List.mem_cons] at ha
      rcases ha with rfl | ha
      · omega
      · have := hb a ha; omega
  obtain ⟨b, hb⟩ := key (owners n s.pc ++ s.cache ++ ch)
  refine ⟨b, ?_⟩
  rw [← Bool.not_eq_true, h.live b]
  intro hh
  exact absurd (hb b hh) (Nat.lt_irrefl b)

/-- **C68, operations end.**  From every state that is reached, at most eleven steps for each thread
can be made before a new operation is called; and as long as an operation is in progress, a step can
be made: threads never wait for each other for ever. -/
theorem C68_ends (hk : k ≤ cap) (hr : Reach (tstep cap n) (S.init k) s) :
    (∀ acts s', exec (tstep cap n) s acts = some s' → (∀ a ∈ acts, a.isCall = false) →
      acts.length ≤ 11 * n) ∧
    ((∃ t, s.pc t ≠ .idle) → ∃ a s', a.isCall = false ∧ tstep cap n s a = some s') := by
  obtain ⟨ch, h⟩ := Inv.reach hk hr
  refine ⟨fun acts s' he hc => ?_, ?_⟩
  · have := exec_left acts h he hc
    have := total_le s.pc n
    omega
  · rintro ⟨t, ht⟩
    have lt : ∀ u, s.pc u ≠ .idle → u < n := fun u hu => Nat.lt_of_not_le fun hh => hu (h.out u hh)
    have go : ∀ u, u < n → goStep cap s u ≠ none → ∃ a s', a.isCall = false ∧ tstep cap n s a = some s' := by
      intro u hu hg
      cases he : goStep cap s u with
      | none => exact absurd he hg
      | some s' => exact ⟨.go u, s', rfl, by simp [tstep, hu, he]⟩
    -- the holder of a lock can move
    have holdP : ∀ u, s.P = some u → ∃ a s', a.isCall = false ∧ tstep cap n s a = some s' := by
      intro u hu
      have hin := (h.l.P u).2 hu
      have hne : s.pc u ≠ .idle := fun hh => by rw [hh] at hin; simp [Pc.inP] at hin
      refine go u (lt u hne) ?_
      unfold goStep
      cases hpc : s.pc u <;> rw [hpc] at hin <;> simp only [Pc.inP, Bool.false_eq_true] at hin <;>
        simp only <;> (repeat' split) <;> simp
    have holdC : ∀ u, s.C = some u → ∃ a s', a.isCall = false ∧ tstep cap n s a = some s' := by
      intro u hu
      have hin := (h.l.C u).2 hu
      have hne : s.pc u ≠ .idle := fun hh => by rw [hh] at hin; simp [Pc.inC] at hin
      refine go u (lt u hne) ?_
      unfold goStep
      cases hpc : s.pc u <;> rw [hpc] at hin <;> simp only [Pc.inC, Bool.false_eq_true] at hin <;>
        simp only <;> (repeat' split) <;> simp
    cases hP : s.P with
    | some u => exact holdP u hP
    | none =>
      cases hC : s.C with
      | some u => exact holdC u hC
      | none =>
        by_cases hm : ∃ v, s.pc t = .aMalloc v
        · obtain ⟨v, hv⟩ := hm
          obtain ⟨a, ha⟩ := h.m.fresh
          have : ∃ s', tstep cap n s (.malloc t a none 0) = some s' := by simp [tstep, hv, ha]
          obtain ⟨s', hs'⟩ := this
          exact ⟨_, s', rfl, hs'⟩
        · refine go t (lt t ht) ?_
          have hcr := C68_safe hk hr t
          unfold goStep
          cases hpc : s.pc t <;> rw [hpc] at ht hm hcr <;> simp only [hP, hC, if_true] <;>
            (repeat' split) <;> simp at ht hm hcr ⊢

/-! ## The destructor -/

theorem freeAll_ok : ∀ (l : List Addr) (live : Addr → Bool), l.Nodup → (∀ a ∈ l, live a = true) →
    ∃ live', freeAll l live = some live' ∧ ∀ a, live' a = true ↔ live a = true ∧ a ∉ l
  | [], live, _, _ => ⟨live, rfl, by simp⟩
  | x :: l, live, hnd, hl => by
    rw [List.nodup_cons] at hnd
    obtain ⟨live', h1, h2⟩ := freeAll_ok l (upd live x false) hnd.2 (fun a ha => by
      rw [upd_other _ _ (by rintro rfl; exact hnd.1 ha)]; exact hl a (by simp [ha]))
    refine ⟨live', by simp only [freeAll, hl x (by simp), if_true]; exact h1, fun a => ?_⟩
    rw [h2 a]
    by_cases hax : a = x
    · subst hax; simp
    · rw [upd_other _ _ hax]; simp [hax]

theorem freeList_ok {next : Addr → Option Addr} : ∀ (ch : List Addr) (live : Addr → Bool) (hd tl : Addr),
    Linked next ch → ch.Nodup → ch.head? = some hd → ch.getLast? = some tl → (∀ a, live a = true ↔ a ∈ ch) →
    freeList next tl ch.length hd live = some fun _ => false
  | [], _, _, _, hl, _, _, _, _ => absurd hl id
  | [a], live, hd, tl, hl, hnd, h1, h2, hv => by
    simp only [List.head?_cons, Option.some.injEq] at h1
    simp only [List.getLast?_singleton, Option.some.injEq] at h2
    subst h1; subst h2
    simp only [List.length_singleton, freeList, if_true, (hv a).2 (by simp), Option.some.injEq]
    funext b
    by_cases hb : b = a
    · subst hb; simp
    · rw [upd_other _ _ hb, ← Bool.not_eq_true, hv b]; simp [hb]
  | a :: b :: c, live, hd, tl, hl, hnd, h1, h2, hv => by
    simp only [List.head?_cons, Option.some.injEq] at h1
    subst h1
    rw [List.getLast?_cons_cons] at h2
    have hne : a ≠ tl := by
      rintro rfl
      rw [List.nodup_cons] at hnd
      exact hnd.1 (List.mem_of_getLast? h2)
    show freeList next tl ((b :: c).length + 1) a live = _
    simp only [freeList, if_neg hne, (hv a).2 (by simp), if_true, hl.1]
    refine freeList_ok (b :: c) _ b tl hl.2 (List.nodup_cons.1 hnd).2 rfl h2 fun x => ?_
    by_cases hx : x = a
    · subst hx; rw [upd_same]; simp only [Bool.false_eq_true, false_iff]; exact (List.nodup_cons.1 hnd).1
    · rw [upd_other _ _ hx, hv x, List.mem_cons]; simp [hx]

/-- **C68, destruction.**  When no operation is in progress the destructor ends, frees only allocated
memory, each node once, and leaves nothing allocated. -/
theorem C68_destroy (hk : k ≤ cap) (hr : Reach (tstep cap n) (S.init k) s) (hi : ∀ t, s.pc t = .idle) :
    ∃ fuel, destroy fuel s = some fun _ => false := by
  obtain ⟨ch, h⟩ := Inv.reach hk hr
  have h0 : owners n s.pc = [] := by simp [owners, hi, Pc.own]
  have hnd := h.m.nodup
  have hlive := h.m.live
  rw [h0, List.nil_append] at hnd hlive
  have hnd' := List.nodup_append.1 hnd
  obtain ⟨live', h1, h2⟩ := freeAll_ok s.cache s.live hnd'.1 fun a ha => (hlive a).2 (List.mem_append_left _ ha)
  refine ⟨ch.length, ?_⟩
  unfold destroy
  rw [h1, Option.bind_some]
  refine freeList_ok ch live' s.head s.tail h.m.linked hnd'.2.1 h.m.hd
    (h.m.tl fun u a hh => by rw [hi u] at hh; simp at hh) fun a => ?_
  rw [h2 a, hlive a, List.mem_append]
  constructor
  · rintro ⟨h3 | h3, h4⟩
    · exact absurd h3 h4
    · exact h3
  · intro h3
    exact ⟨Or.inr h3, fun h4 => hnd'.2.2 a h4 a h3 rfl⟩

end FF.Tlq
