import Verif.Dynqueue.Inv
/-!
# C11: the linked SPSC queue

`Reach step init s`: some schedule of the individual accesses of one producer and one consumer, of
the commits of the producer's pending stores, of the answers of the node cache and of the addresses
chosen by `malloc`, leads from a new queue to `s`.
-/
namespace FF.Dynqueue
variable {A : Type}

/-- Nodes reachable from `head` by following committed `next` fields. -/
inductive Linked (s : St A) : Nat → Prop
  | head : Linked s s.head
  | next {i j : Nat} {nd : Node A} : Linked s i → s.nodes i = some nd → nd.next = some j → Linked s j

/-- **C11, order**: what has been popped is a prefix of what has been pushed, and no access ever
touches a node that is not allocated. -/
theorem C11_fifo {s : St A} (h : Reach step init s) :
    s.popped <+: s.pushed.map some ∧ s.bad = false := by
  obtain ⟨nd, h⟩ := reach_inv h
  refine ⟨?_, h.nbad⟩
  rw [h.popped]
  exact (List.take_prefix _ _).map some

/-- **C11, pop answers truthfully** once the producer's stores are visible: `head->next` is NULL
exactly when every pushed element has been popped. -/
theorem C11_pop_exact {s : St A} (h : Reach step init s) (hsb : s.sb = []) :
    ∃ nd, s.nodes s.head = some nd ∧ (nd.next = none ↔ s.popped.length = s.pushed.length) := by
  obtain ⟨nd, h⟩ := reach_inv h
  have hcle := h.cle
  rcases h.null _ (Nat.le_refl _) (Or.inl h.cle) with ⟨i, h1, h2, -⟩ | ⟨x, h1, h2⟩
  · omega
  · refine ⟨x, by rw [h.head]; exact h1, ?_⟩
    rcases Nat.lt_or_ge s.popped.length s.pushed.length with hlt | hge
    · obtain ⟨⟨y, h3, h4⟩, -⟩ := h.link _ (Nat.le_refl _) hlt (by simp [hsb])
      rw [h1] at h3; simp at h3; subst h3
      simp [h4]; omega
    · rcases h2 with h2 | ⟨h2, -⟩
      · simp [h2]; omega
      · omega

/-- **C11, a pop in progress returns the oldest element**: when the consumer has found
`head->next` not NULL, the three accesses that follow succeed and append the next element. -/
theorem C11_pop_completes {s : St A} (h : Reach step init s) (hc : s.cpc = .seen) :
    ∃ s' x, exec step s [.cNext, .cData, .cMove] = some s' ∧ s.pushed[s.popped.length]? = some x ∧
      s'.popped = s.popped ++ [some x] ∧ s'.pushed = s.pushed := by
  have hr := h
  obtain ⟨nd, h⟩ := reach_inv h
  have hsn := h.seen (Or.inl hc)
  obtain ⟨⟨y, h3, h4⟩, -, h5, -⟩ := h.link _ (Nat.le_refl _) hsn.1 hsn.2
  obtain ⟨a, ha⟩ : ∃ a, s.pushed[s.popped.length]? = some a := ⟨_, List.getElem?_eq_getElem hsn.1⟩
  have hv : (vals s.pushed s.ppc)[s.popped.length]? = some a := by
    rw [vals, List.getElem?_append_left hsn.1]; exact ha
  rcases h.data _ a (Nat.le_refl _) hv (Or.inl hsn.1) with h6 | ⟨x, h6, h7⟩
  · exact absurd h6 (h5 a)
  · rw [← h.head] at h3
    refine ⟨{ s with head := nd (s.popped.length + 1), cpc := .moved s.head,
                      popped := s.popped ++ [some a] }, a, ?_, ha, rfl, rfl⟩
    simp [exec, step, hc, h3, h4, h6, h7]

/-- **C11, recycling**: a node waiting in the cache, or the node being given back, or the node being
prepared by the producer, is allocated and cannot be reached from `head`; no store to it is pending
(so no earlier store can hit it after it is reused).  It is not the producer's `tail` either, except
in the short window in which the producer has executed `tail->next = n` but not yet `tail = n` (there
the producer does not use `tail` any more). -/
theorem C11_recycle {s : St A} (h : Reach step init s) :
    s.cache.Nodup ∧
    (∀ i, i ∈ s.cache ∨ s.cpc = .moved i →
      s.nodes i ≠ none ∧ ¬ Linked s i ∧ ((∀ n, s.ppc ≠ .linked n) → i ≠ s.tail) ∧ ∀ e ∈ s.sb, e.node ≠ i) ∧
    (∀ a n, s.ppc = .got a n →
      s.nodes n ≠ none ∧ ¬ Linked s n ∧ n ≠ s.tail ∧ n ∉ s.cache ∧ ∀ e ∈ s.sb, e.node ≠ n) := by
  obtain ⟨nd, h⟩ := reach_inv h
  have hcle := h.cle
  have hlkp := h.lkpos
  have hlinked : ∀ i, Linked s i → ∃ k, s.popped.length ≤ k ∧ k ≤ s.pushed.length ∧ i = nd k ∧
      ∀ j, k = j + 1 → s.popped.length ≤ j → Nn nd j ∉ s.sb := by
    intro i hi
    induction hi with
    | head => exact ⟨_, Nat.le_refl _, hcle, h.head, by intros; omega⟩
    | next hi h1 h2 ih =>
      obtain ⟨k, k1, k2, rfl, k3⟩ := ih
      rcases h.null k k1 (Or.inl k2) with ⟨j, j1, j2, j3⟩ | ⟨x, x1, x2⟩
      · exact absurd j3 (k3 j j1 j2)
      · rw [h1] at x1; simp at x1; subst x1
        rcases x2 with x2 | ⟨x2, x3, x4⟩
        · rw [h2] at x2; simp at x2
        · rw [h2] at x4; simp at x4; subst x4
          refine ⟨k + 1, by omega, by omega, rfl, ?_⟩
          intro j hj _
          have : j = k := by omega
          subst this
          exact (h.link j k1 x2 x3).2.1
  have hsbnode : ∀ e ∈ s.sb, ∃ k, s.popped.length ≤ k ∧ k ≤ s.pushed.length + q s.ppc ∧
      e.node = nd k := by
    intro e he
    rcases h.ent e he with ⟨i, b, i1, i2, i3⟩ | ⟨i, i1, i2, i3⟩ | ⟨i, i1, i2, i3⟩
    · have := vals_lt i2
      exact ⟨i + 1, by omega, by omega, by rw [i3]; rfl⟩
    · exact ⟨i + 1, by omega, by omega, by rw [i3]; rfl⟩
    · exact ⟨i, by omega, by omega, by rw [i3]; rfl⟩
  have htail : (∀ n, s.ppc ≠ .linked n) → s.tail = nd s.pushed.length := by
    intro hp
    rw [h.tail]
    cases hpp : s.ppc <;> simp [lk]
    exact absurd hpp (hp _)
  refine ⟨h.cnodup, ?_, ?_⟩
  · intro i hi
    have hno : ∀ k, s.popped.length ≤ k → k ≤ s.pushed.length + q s.ppc → i ≠ nd k := by
      rintro k k1 k2 rfl
      rcases hi with hi | hi
      · exact (h.own k k1 k2).1 hi
      · exact (h.own k k1 k2).2 hi
    refine ⟨?_, ?_, ?_, ?_⟩
    · rcases hi with hi | hi
      · obtain ⟨x, hx⟩ := h.calloc i hi; simp [hx]
      · obtain ⟨-, x, hx⟩ := h.mv i hi; simp [hx]
    · intro hl
      obtain ⟨k, k1, k2, k3, -⟩ := hlinked i hl
      exact hno k k1 (by omega) k3
    · intro hp
      rw [htail hp]
      exact hno _ hcle (by omega)
    · intro e he hei
      obtain ⟨k, k1, k2, k3⟩ := hsbnode e he
      exact hno k k1 k2 (hei ▸ k3)
  · intro a n hp
    have hn := h.arg a n (by simp [hp, consOf])
    subst hn
    have hq : q s.ppc = 1 := by simp [hp, q, consOf]
    have hno : ∀ k, s.popped.length ≤ k → k ≤ s.pushed.length → nd (s.pushed.length + 1) ≠ nd k := by
      intro k k1 k2 he
      have := h.inj _ _ (by omega) (by omega) k1 (by omega) he
      omega
    refine ⟨?_, ?_, ?_, ?_, ?_⟩
    · obtain ⟨x, hx⟩ := h.alloc (s.pushed.length + 1) (by omega) (by omega); simp [hx]
    · intro hl
      obtain ⟨k, k1, k2, k3, -⟩ := hlinked _ hl
      exact hno k k1 k2 k3
    · rw [htail (by simp [hp])]
      exact hno _ hcle (Nat.le_refl _)
    · exact (h.own _ (by omega) (by omega)).1
    · intro e he hei
      rcases h.ent e he with ⟨i, b, i1, i2, i3⟩ | ⟨i, i1, i2, i3⟩ | ⟨i, i1, i2, i3⟩
      · have hlt := vals_lt i2
        rcases Nat.lt_or_ge i s.pushed.length with hl | hl
        · exact hno (i + 1) (by omega) (by omega) (by rw [← hei, i3]; rfl)
        · have : i = s.pushed.length := by omega
          subst this
          subst i3
          have := h.enW b he; simp [hp, dW] at this
      · rcases Nat.lt_or_ge i s.pushed.length with hl | hl
        · exact hno (i + 1) (by omega) (by omega) (by rw [← hei, i3]; rfl)
        · have : i = s.pushed.length := by omega
          subst this
          subst i3
          have := h.nnW he; simp [hp, nW] at this
      · exact hno i (by omega) (by omega) (by rw [← hei, i3]; rfl)

/-! ## The hypotheses are met by non-trivial executions -/

def pushNew (a : A) (i : Nat) : List (Act A) :=
  [.pMalloc a i ⟨none, some 77⟩, .pData, .pNull, .pFence, .pLink, .pTail]
def pushCached (a : A) : List (Act A) := [.pCache a, .pData, .pNull, .pFence, .pLink, .pTail]
def popOne (ok : Bool) : List (Act A) := [.cCheck, .cNext, .cData, .cMove, .cRecycle ok]

/-- Three pushes; stores committed out of order within a fence; pops; recycling of node 0, reuse of
it by the third push; a freed address reused by `malloc`. -/
def demo : List (Act Nat) :=
  pushNew 10 5 ++ [.commit 1, .commit 0, .commit 0] ++ popOne true ++ pushCached 20 ++
  [.commit 1, .commit 0, .commit 0] ++ popOne false ++ pushNew 30 5 ++ [.commit 1, .commit 0, .commit 0]

example : ((exec step init demo).map fun s => (s.pushed, s.popped, s.cache, s.head, s.tail)) =
    some ([10, 20, 30], [some 10, some 20], [], 0, 5) := by decide

/-- the consumer can be in the middle of a pop -/
example : ((exec step init (demo ++ [.cCheck])).map fun s => s.cpc) = some (CPc.seen : CPc Nat) := by
  decide

end FF.Dynqueue
