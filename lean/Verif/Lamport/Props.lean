import Verif.Lamport.Inv
/-!
# C07: the Lamport queue under every schedule and visibility order
-/
namespace FF.Lamport
variable {A : Type}

/-- **C07, order**: popped values are always a prefix of the accepted ones. -/
theorem C07_prefix (n : Nat) (hn : 0 < n) (s : St A) (h : Reach step (init n) s) :
    s.popped <+: s.pushed.map some := by
  have hr := reach_inv hn h
  rw [List.prefix_iff_eq_take]
  apply List.ext_getElem?
  intro k
  rw [List.getElem?_take]
  split
  · rename_i hk
    rw [hr.popped k hk, List.getElem?_map]
  · exact List.getElem?_eq_none (by omega)

/-- **C07, no unread element is overwritten**: at most `n - 1` elements are outstanding. -/
theorem C07_capacity (n : Nat) (hn : 0 < n) (s : St A) (h : Reach step (init n) s) :
    s.popped.length ≤ s.pushed.length ∧ s.pushed.length + 1 ≤ s.popped.length + n := by
  have hr := reach_inv hn h
  have hnn := reach_n h
  have := hr.ccw
  have := hr.cwp
  have := hr.cap
  have := hr.crc
  omega

/-- **C07, push**: if the consumer's index is up to date in memory and no push is in progress,
`push` succeeds exactly when fewer than `n - 1` elements are outstanding. -/
theorem C07_push_exact (n : Nat) (hn : 0 < n) (s : St A) (h : Reach step (init n) s)
    (hidle : s.ppc = .idle) (hcsb : s.csb = []) (a : A) :
    step s (.pCheck a) = some { s with ppc := .room a } ↔
      s.pushed.length < s.popped.length + (n - 1) := by
  have hr := reach_inv hn h
  have hnn := reach_n h
  have hcr : s.cr = s.popped.length := by
    have h1 := hr.csb
    rw [hcsb] at h1
    have h2 := congrArg List.length h1
    simp at h2
    have := hr.crc
    omega
  have hcap := hr.cap
  have hcp := C07_capacity n hn s h
  have hpw := (hr.pw (Or.inl hidle)).1
  simp only [step, hidle]
  rw [hpw, FF.SwsrConc.next_mod hr.npos, hr.mpr, hcr, hnn]
  constructor
  · intro hst
    split at hst
    · rename_i hne
      apply Classical.byContradiction
      intro hc
      apply hne
      rw [show s.pushed.length + 1 = s.popped.length + n by omega]; simp
    · simp only [Option.some.injEq] at hst
      have := congrArg St.ppc hst
      rw [hidle] at this
      simp at this
  · intro hlt
    rw [if_pos]
    intro he
    have := mod_inj_window (n := n) (c := s.popped.length) (by omega) (by omega) (by omega)
      (by omega) he
    omega

/-- **C07, pop**: once the producer's stores are visible and no push is in progress, `pop` finds
the queue empty exactly when every accepted element has been popped. -/
theorem C07_pop_exact (n : Nat) (hn : 0 < n) (s : St A) (h : Reach step (init n) s)
    (hidle : s.ppc = .idle) (hsb : s.sb = []) :
    s.mpw = s.pr ↔ s.popped = s.pushed.map some := by
  have hr := reach_inv hn h
  have hpre := C07_prefix n hn s h
  have hcw : s.cw = s.pushed.length := by
    apply Classical.byContradiction
    intro hne
    have := hr.cwp
    rcases hr.full s.pushed.length (by omega) (Nat.le_refl _) with ⟨e, v, h1⟩ | ⟨-, h1⟩
    · rw [hsb] at h1; simp at h1
    · rw [hidle] at h1; simp at h1
  have hcap := C07_capacity n hn s h
  have hnn := reach_n h
  constructor
  · intro he
    rw [hr.mpw, hr.pr, hcw, hnn] at he
    have := mod_inj_window (n := n) (c := s.popped.length) (by omega) (by omega) (by omega)
      (by omega) he
    exact hpre.eq_of_length (by simp; omega)
  · intro he
    rw [hr.mpw, hr.pr, hcw, he]
    simp

-- non-vacuity: two slots (capacity one); the index is published before being read, the queue
-- refuses the second push, delivers the first element, then accepts again
example : ((exec step (init 2)
    ([.pCheck 5, .pStore, .pFence, .pIndex, .pCheck 6, .cCheck, .pCommit 0, .cCheck, .pCommit 0,
      .cCheck, .cLoad, .cIndex, .pCheck 6, .cCommit, .pCheck 6, .pStore] : List (Act Nat))).map
    fun s => (s.pushed, s.popped)) = some ([5, 6], [some 5]) := by decide

-- the published index cannot overtake the element across `WMB()`
example : (exec step (init 2)
    ([.pCheck 5, .pStore, .pFence, .pIndex, .pCommit 1] : List (Act Nat))).isNone := by decide

end FF.Lamport
