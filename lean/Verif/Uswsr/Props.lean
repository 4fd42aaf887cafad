import Verif.Uswsr.Inv
/-!
# Properties of the unbounded SPSC queue (C08, C09, C10)

All statements are about every state reachable from a freshly built queue by any interleaving of one
producer and one consumer (`Reach step (init n cap fixed)`), for every segment size `n > 0`, every
cache capacity and every behaviour of the segment cache.
-/
namespace FF.Uswsr
open FF.Swsr (Q next Rep)
variable {A : Type}

/-- The element the producer is pushing, if it is inside a `push` call. -/
def pushing : PPc A → Option A
  | .idle => none
  | .full a => some a
  | .got a _ => some a
  | .queued a _ => some a
  | .chk a => some a
  | .put a => some a

/-- Number of producer actions left in the current call. -/
def pLeft : PPc A → Nat
  | .idle => 0
  | .full _ => 5
  | .got _ _ => 4
  | .queued _ _ => 3
  | .chk _ => 2
  | .put _ => 1

/-- The actions executed by the producer. -/
def Act.isProd : Act A → Bool
  | .pBegin _ | .pNext _ | .pQueue | .pSwitch | .pCheck | .pStore => true
  | _ => false

/-- C08 (order): what has been popped is at any time a prefix of what has been pushed; nothing is
lost, duplicated, reordered or read from unallocated memory. -/
theorem C08_prefix {n cap : Nat} {fixed : Bool} (hn : 0 < n) {s : St A}
    (h : Reach step (init n cap fixed) s) :
    s.popped <+: s.pushed.map some ∧ s.bad = false := by
  obtain ⟨cont, h⟩ := reach_inv hn h
  exact ⟨⟨_, h.content.symm⟩, h.nbad⟩

/-- C08 (every push succeeds, 1): a push on a queue that is not fixed-size is never refused. -/
theorem C08_push_starts {n cap : Nat} (hn : 0 < n) {s : St A}
    (h : Reach step (init n cap false) s) (hi : s.ppc = .idle) (a : A) :
    ∃ s', step s (.pBegin a) = some s' ∧ pushing s'.ppc = some a := by
  have hfx := (reach_consts h).2
  obtain ⟨cont, h⟩ := reach_inv hn h
  obtain ⟨q, h1, h2, h3⟩ := h.rep _ h.bufw_mem
  simp only [step, hi, h1, Option.bind_some, h2.available_eq, hfx]
  by_cases hl : (cont s.bufw).length < q.size <;> simp [hl, pushing]

/-- C08 (every push succeeds, 2): a push in progress always has an enabled action, whatever the
consumer does; every producer action brings it closer to its end; the call ends only by appending
its element to the accepted ones. -/
theorem C08_push_completes {n cap : Nat} {fixed : Bool} (hn : 0 < n) {s : St A}
    (h : Reach step (init n cap fixed) s) {a : A} (hp : pushing s.ppc = some a) :
    (∃ act s', act.isProd = true ∧ step s act = some s') ∧
    (∀ act s', step s act = some s' →
      (act.isProd = true → pLeft s'.ppc < pLeft s.ppc) ∧
      (act.isProd = false → s'.ppc = s.ppc ∧ s'.pushed = s.pushed) ∧
      (pushing s'.ppc = some a ∧ s'.pushed = s.pushed ∨
        s'.ppc = .idle ∧ s'.pushed = s.pushed ++ [a])) := by
  obtain ⟨cont, h⟩ := reach_inv hn h
  obtain ⟨q, w1, w2, w3⟩ := h.rep _ h.bufw_mem
  have hroom := h.room a
  constructor
  · cases hc : s.ppc with
    | idle => simp [hc, pushing] at hp
    | full b => exact ⟨.pNext false, _, rfl, by simp [step, hc]; rfl⟩
    | got b t => exact ⟨.pQueue, _, rfl, by simp [step, hc]; rfl⟩
    | queued b t => exact ⟨.pSwitch, _, rfl, by simp [step, hc]; rfl⟩
    | chk b =>
      simp only [hc, pushing, Option.some.injEq] at hp; subst hp
      have hr : (cont s.bufw).length < s.n := hroom (Or.inl hc)
      exact ⟨.pCheck, _, rfl, by
        simp only [step, hc, w1, Option.bind_some, w2.available_eq, w3, hr, decide_true]; rfl⟩
    | put b =>
      simp only [hc, pushing, Option.some.injEq] at hp; subst hp
      have hr : (cont s.bufw).length < s.n := hroom (Or.inr hc)
      obtain ⟨q1, r1, -⟩ := w2.store (by rw [w3]; exact hr) b
      exact ⟨.pStore, _, rfl, by simp only [step, hc, w1, Option.bind_some, r1]; rfl⟩
  · intro act s' hs
    cases act with
    | pBegin b => simp only [step] at hs; split at hs <;> simp_all [pushing]
    | pNext b =>
      simp only [step] at hs; split at hs
      · split at hs <;> simp_all [pushing] <;> subst hs <;>
          simp_all [pushing, pLeft, Act.isProd]
      · simp at hs
    | pQueue =>
      simp only [step] at hs; split at hs
      · simp_all [pushing]; subst hs; simp_all [pushing, pLeft, Act.isProd]
      · simp at hs
    | pSwitch =>
      simp only [step] at hs; split at hs
      · simp_all [pushing]; subst hs; simp_all [pushing, pLeft, Act.isProd]
      · simp at hs
    | pCheck =>
      simp only [step] at hs; split at hs
      · rename_i b hc
        have hb : b = a := by simpa [hc, pushing] using hp
        subst hb
        have hr : (cont s.bufw).length < s.n := hroom (Or.inl hc)
        simp only [w1, Option.bind_some, w2.available_eq, w3, hr, decide_true,
          Option.some.injEq] at hs
        subst hs; simp [hc, pushing, pLeft, Act.isProd]
      · simp at hs
    | pStore =>
      simp only [step] at hs; split at hs
      · rename_i b hc
        have hb : b = a := by simpa [hc, pushing] using hp
        subst hb
        have hr : (cont s.bufw).length < s.n := hroom (Or.inr hc)
        obtain ⟨q1, r1, -⟩ := w2.store (by rw [w3]; exact hr) b
        simp only [w1, Option.bind_some, r1, Option.some.injEq] at hs
        subst hs; simp [hc, pLeft, Act.isProd]
      · simp at hs
    | _ =>
      simp only [step] at hs
      (repeat' split at hs) <;>
        first
        | (simp only [Option.some.injEq] at hs; subst hs; simp [Act.isProd, hp])
        | simp at hs

/-- C08 (empty answers): every `pop` that returned false did so only if at some moment of that very
call all accepted elements had already been popped (the samples recorded in `fails` are taken at
actions of the call only). -/
theorem C08_pop_false {n cap : Nat} {fixed : Bool} (hn : 0 < n) {s : St A}
    (h : Reach step (init n cap fixed) s) : ∀ b ∈ s.fails, b = true := by
  obtain ⟨cont, h⟩ := reach_inv hn h
  exact h.fails

/-- C09: segments waiting for reuse are allocated and empty (all slots NULL, indices equal), occur
once, and are neither the producer's segment nor a segment queued between producer and consumer, nor
the one the consumer is going to read (the consumer may still *hold* the address of the segment it
has just released, but only until it overwrites it, without reading through it). -/
theorem C09_recycled {n cap : Nat} {fixed : Bool} (hn : 0 < n) {s : St A}
    (h : Reach step (init n cap fixed) s) :
    s.cache.Nodup ∧ ∀ i ∈ s.cache,
      (∃ q, s.segs i = some q ∧ q.pread = q.pwrite ∧ ∀ v ∈ q.buf, v = none) ∧
      i ≠ s.bufw ∧ i ∉ s.inuse ∧
      (match s.cpc with
        | .sw t => i ≠ t
        | .rel t => i ≠ t ∧ i ≠ s.bufr
        | .rel2 t => i ≠ t ∧ i ≠ s.bufr
        | _ => i ≠ s.bufr) := by
  obtain ⟨cont, h⟩ := reach_inv hn h
  have hbw := h.bufw_mem_chain
  have hnd := h.nodup
  constructor
  · rw [List.nodup_iff_count]
    intro i
    have := hnd i
    simp only [owned, List.count_append] at this
    omega
  · intro i hi
    obtain ⟨q, h1, h2, h3⟩ := h.rep i (by simp [owned, hi])
    have hc := List.count_pos_iff.mpr hi
    have hnotin : ∀ l, (List.count i (owned s) = List.count i s.cache + List.count i l +
        (List.count i (owned s) - List.count i s.cache - List.count i l)) → i ∉ l := by
      intro l hl hm
      have := List.count_pos_iff.mpr hm
      have := hnd i
      omega
    have hch : i ∉ hdOf s.cpc s.bufr :: s.inuse := by
      apply hnotin
      simp only [owned, List.count_append]
      omega
    have hol : i ∉ oldOf s.cpc s.bufr := by
      apply hnotin
      simp only [owned, List.count_append]
      omega
    rw [h.clean i (Or.inl hi)] at h2
    refine ⟨⟨q, h1, ?_, ?_⟩, ?_, ?_, ?_⟩
    · have := h2.pw
      rw [this, List.length_nil, FF.Swsr.wrap_zero h2.pr]
    · intro v hv
      obtain ⟨j, hj, hjv⟩ := List.getElem_of_mem hv
      obtain ⟨k, hk, hw⟩ := FF.Swsr.wrap_surj h2.pr (by rw [← h2.blen]; exact hj)
      have := h2.slot k hk
      rw [hw, List.getElem?_eq_getElem hj, hjv] at this
      simpa using this
    · rintro rfl; exact hch hbw
    · intro hm; exact hch (List.mem_cons_of_mem _ hm)
    · simp only [List.mem_cons, not_or] at hch
      cases hcp : s.cpc <;> simp_all [hdOf, oldOf]

/-- C09: the segment the producer has obtained from `next_w` and is about to publish is allocated,
empty, and nobody else can reach it. -/
theorem C09_fresh_for_producer {n cap : Nat} {fixed : Bool} (hn : 0 < n) {s : St A}
    (h : Reach step (init n cap fixed) s) {a : A} {t : Nat} (hp : s.ppc = .got a t) :
    (∃ q, s.segs t = some q ∧ q.pread = q.pwrite ∧ ∀ v ∈ q.buf, v = none) ∧
      t ∉ s.inuse ∧ t ∉ s.cache ∧ t ≠ s.bufw ∧
      (match s.cpc with
        | .sw t' => t ≠ t'
        | .rel t' => t ≠ t' ∧ t ≠ s.bufr
        | .rel2 t' => t ≠ t' ∧ t ≠ s.bufr
        | _ => t ≠ s.bufr) := by
  obtain ⟨cont, h⟩ := reach_inv hn h
  have hbw := h.bufw_mem_chain
  have hnd := h.nodup t
  obtain ⟨q, h1, h2, h3⟩ := h.rep t (by simp [owned, hp, gotOf])
  rw [h.clean t (by simp [hp, gotOf])] at h2
  simp only [owned, hp, gotOf, List.count_append, List.count_cons, List.count_nil,
    beq_self_eq_true, if_true] at hnd
  have z : ∀ l : List Nat, List.count t l = 0 → t ∉ l := fun l => List.count_eq_zero.mp
  have hin : t ∉ s.inuse := z _ (by omega)
  have hca : t ∉ s.cache := z _ (by omega)
  have hol : t ∉ oldOf s.cpc s.bufr := z _ (by omega)
  have hhd : t ≠ hdOf s.cpc s.bufr := by
    rintro he
    rw [if_pos (by simp [← he])] at hnd
    omega
  refine ⟨⟨q, h1, ?_, ?_⟩, hin, hca, ?_, ?_⟩
  · have := h2.pw
    rw [this, List.length_nil, FF.Swsr.wrap_zero h2.pr]
  · intro v hv
    obtain ⟨j, hj, hjv⟩ := List.getElem_of_mem hv
    obtain ⟨k, hk, hw⟩ := FF.Swsr.wrap_surj h2.pr (by rw [← h2.blen]; exact hj)
    have := h2.slot k hk
    rw [hw, List.getElem?_eq_getElem hj, hjv] at this
    simpa using this
  · rintro rfl
    rcases List.mem_cons.mp hbw with h4 | h4
    · exact hhd h4
    · exact hin h4
  · cases hcp : s.cpc <;> simp_all [hdOf, oldOf]

/-- C10: a fixed-size queue never holds more than `n` elements. -/
theorem C10_capacity {n cap : Nat} (hn : 0 < n) {s : St A}
    (h : Reach step (init n cap true) s) :
    s.popped.length ≤ s.pushed.length ∧ s.pushed.length ≤ s.popped.length + n := by
  have hc := reach_consts h
  obtain ⟨cont, h⟩ := reach_inv hn h
  obtain ⟨f1, f2, f3, -⟩ := h.fix hc.2
  obtain ⟨q, h1, h2, h3⟩ := h.rep _ h.hd_mem
  have := congrArg List.length h.content
  rw [f1] at this
  have hl := h2.len
  simp at this
  omega

/-- C10: on a fixed-size queue a push is refused exactly when `n` elements are outstanding, and a
refused push changes nothing at all. -/
theorem C10_push_exact {n cap : Nat} (hn : 0 < n) {s : St A}
    (h : Reach step (init n cap true) s) (hi : s.ppc = .idle) (a : A) :
    (s.pushed.length = s.popped.length + n → step s (.pBegin a) = some s) ∧
    (s.pushed.length < s.popped.length + n →
      ∃ s', step s (.pBegin a) = some s' ∧ pushing s'.ppc = some a) := by
  have hc := reach_consts h
  obtain ⟨cont, h⟩ := reach_inv hn h
  obtain ⟨f1, f2, f3, -⟩ := h.fix hc.2
  obtain ⟨q, h1, h2, h3⟩ := h.rep _ h.bufw_mem
  have hlen := congrArg List.length h.content
  rw [f1, f3, f2] at hlen
  simp at hlen
  simp only [step, hi, h1, Option.bind_some, h2.available_eq, hc.2]
  constructor
  · intro hl
    have : ¬ (cont s.bufw).length < q.size := by omega
    simp [this]
  · intro hl
    have : (cont s.bufw).length < q.size := by omega
    simp [this, pushing]

/-! ## The hypotheses are met by non-trivial executions -/

/-- one complete `push` on a segment with room -/
def pushNow (a : A) : List (Act A) := [.pBegin a, .pCheck, .pStore]
/-- one complete `push` that needs a new segment -/
def pushSwitch (a : A) (b : Bool) : List (Act A) :=
  [.pBegin a, .pNext b, .pQueue, .pSwitch, .pCheck, .pStore]
def popNow : List (Act A) := [.cBegin, .cPopCheck, .cPopLoad, .cPopClear]
def popSwitch (b : Bool) : List (Act A) :=
  [.cBegin, .cCmp, .cEmpty2, .cNext, .cReset, .cRecycle b, .cSwitch, .cPopCheck, .cPopLoad,
    .cPopClear]

/-- Segments of one slot: four elements, with segment switches, recycling into the cache, reuse of
the recycled segment, and a failed pop at the end. -/
def demo : List (Act Nat) :=
  pushNow 1 ++ pushSwitch 2 true ++ popNow ++ popSwitch true ++ pushNow 3 ++
  pushSwitch 4 true ++ popNow ++ popSwitch true ++ [.cBegin, .cCmp]

example : ((exec step (init 1 2 false) demo).map fun s =>
    (s.pushed, s.popped, s.fails, s.cache, s.nid)) =
    some ([1, 2, 3, 4], [some 1, some 2, some 3, some 4], [true], [1], 2) := by decide

/-- a state in which the producer holds a recycled segment -/
example : ((exec step (init 1 2 false)
    (pushNow 1 ++ pushSwitch 2 true ++ popNow ++ popSwitch true ++
      pushNow 3 ++ [.pBegin 4, .pNext true])).map
    fun s => s.ppc) = some (PPc.got 4 0) := by decide

/-- a full fixed-size queue -/
example : ((exec step (init 2 2 true) (pushNow 1 ++ pushNow 2 ++ [.pBegin 3])).map
    fun s => (s.pushed, s.ppc)) = some ([1, 2], PPc.idle) := by decide

end FF.Uswsr
