import Verif.SwsrConc.Inv
/-!
# C01, C02: the bounded SPSC queue under every schedule and every visibility order

`Reach step (init n mem) s`: some schedule of the individual accesses and of the commits of pending
stores leads from a fresh queue of `n` slots to state `s`.  `s.pushed` lists the accepted pushes
(pointer and content of the object at the time of the push), `s.popped` the pointers returned by
successful pops, `s.obs` what the consumer read through the popped pointers.
-/
namespace FF.SwsrConc
variable {A V : Type} [DecidableEq A]

/-- **C01, order**: at every moment the popped pointers are a prefix of the accepted ones (in
particular no pop returns NULL). -/
theorem C01_prefix (n : Nat) (hn : 0 < n) (mem : A → V) (s : St A V)
    (h : Reach step (init n mem) s) :
    s.popped <+: s.pushed.map (fun x => some x.1) := by
  obtain ⟨hr, -⟩ := reach_inv hn h
  rw [List.prefix_iff_eq_take]
  apply List.ext_getElem?
  intro k
  rw [List.getElem?_take]
  split
  · rename_i hk
    rw [hr.popped k hk, List.getElem?_map]
  · rename_i hk
    exact List.getElem?_eq_none (by omega)

/-- **C01, capacity**: never more than `n` accepted elements are outstanding. -/
theorem C01_capacity (n : Nat) (hn : 0 < n) (mem : A → V) (s : St A V)
    (h : Reach step (init n mem) s) :
    s.popped.length ≤ s.pushed.length ∧ s.pushed.length ≤ s.popped.length + n := by
  obtain ⟨hr, -⟩ := reach_inv hn h
  have hnn := reach_n h
  refine ⟨hr.cp, ?_⟩
  apply Classical.byContradiction
  intro hc
  have := (hr.ring (s.pushed.length - 1 - n) (s.pushed.length - 1) (by omega)
    (by rw [hnn]; exact (Nat.mod_eq_sub_mod (a := s.pushed.length - 1) (by omega)).symm)
    (by omega)).1
  omega

/-- **C01, pop answers truthfully once the producer's stores are visible**: `pop` finds the queue
empty exactly when every accepted element has been popped. -/
theorem C01_pop_exact (n : Nat) (hn : 0 < n) (mem : A → V) (s : St A V)
    (h : Reach step (init n mem) s) (hsb : s.sb = []) :
    s.consLoad = none ↔ s.popped = s.pushed.map (fun x => some x.1) := by
  have hpre := C01_prefix n hn mem s h
  obtain ⟨hr, -⟩ := reach_inv hn h
  have hlen : s.popped = s.pushed.map (fun x => some x.1) ↔
      s.popped.length = s.pushed.length := by
    constructor
    · intro he; rw [he]; simp
    · intro he; exact hpre.eq_of_length (by simpa using he)
  rw [hlen]
  constructor
  · intro hnone
    apply Classical.byContradiction
    intro hne
    have hlt : s.popped.length < s.pushed.length := by have := hr.cp; omega
    have : s.consLoad = some (s.pushed[s.popped.length]).1 := by
      refine (hr.consLoad_some _).2 ⟨hlt, by rw [hsb]; simp [pend], ?_, ?_⟩
      · rw [List.getElem?_eq_getElem hlt]; rfl
      · intro k hk hkm
        have hk' : k < s.popped.length := by
          simp only [nulls, List.mem_map] at hk
          obtain ⟨⟨i, k'⟩, h1, h2⟩ := hk
          have := (hr.csbslot _ _ h1).1
          simp only at h2
          omega
        exact (hr.ring k s.popped.length hk' hkm hlt).2 hk
    rw [hnone] at this
    simp at this
  · intro he
    cases hcl : s.consLoad with
    | none => rfl
    | some a =>
      have := ((hr.consLoad_some a).1 hcl).1
      omega

/-- One complete `pop` call that finds an element. -/
def popCall : List (Act A V) := [.cCheck, .cLoad, .cClear]

/-- `m` complete `pop` calls. -/
def popCalls : Nat → List (Act A V)
  | 0 => []
  | m + 1 => popCall ++ popCalls m

/-- **C01, draining**: when the producer's stores are visible and no pop is in progress, popping as
many times as there are outstanding elements returns exactly the remaining accepted elements, in
order, and then the queue is empty. -/
theorem C01_drain (n : Nat) (hn : 0 < n) (mem : A → V) (s : St A V)
    (h : Reach step (init n mem) s) (hsb : s.sb = []) (hidle : s.cpc = .idle) :
    ∃ s', exec step s (popCalls (s.pushed.length - s.popped.length)) = some s' ∧
      s'.popped = s'.pushed.map (fun x => some x.1) ∧ s'.pushed = s.pushed ∧
      s'.consLoad = none := by
  generalize hd : s.pushed.length - s.popped.length = d
  induction d generalizing s with
  | zero =>
    have hpre := C01_prefix n hn mem s h
    have hcp := (C01_capacity n hn mem s h).1
    have he : s.popped = s.pushed.map (fun x => some x.1) :=
      hpre.eq_of_length (by simp; omega)
    exact ⟨s, rfl, he, rfl, (C01_pop_exact n hn mem s h hsb).2 he⟩
  | succ d ih =>
    have hne : s.consLoad ≠ none := by
      intro hc
      have := (C01_pop_exact n hn mem s h hsb).1 hc
      rw [this] at hd
      simp at hd
    let s3 : St A V := { s with
        csb := s.csb ++ [(s.pr, s.popped.length)]
        pr := FF.Swsr.next s.n s.pr
        cpc := .idle
        popped := s.popped ++ [s.consLoad]
        held := s.popped.length :: s.held }
    have hex : exec step s (popCall : List (Act A V)) = some s3 := by
      have e1 : step s (.cCheck) = some { s with cpc := .seen } := by
        simp [step, hidle, hne]
      have e2 : step { s with cpc := .seen } (.cLoad) =
          some { s with cpc := .loaded s.consLoad } := by
        simp [step]; rfl
      have e3 : step { s with cpc := .loaded s.consLoad } (.cClear) = some s3 := by
        simp [step, s3]
      simp [popCall, exec, e1, e2, e3]
    have hr3 : Reach step (init n mem) s3 := h.trans ⟨_, hex⟩
    obtain ⟨s', g1, g2, g3, g4⟩ := ih s3 hr3 hsb rfl (by simp [s3]; omega)
    refine ⟨s', ?_, g2, g3, g4⟩
    simp only [popCalls]
    rw [exec_append, hex]
    exact g1

/-- **C01, push answers truthfully once the consumer's stores are visible**: `push` finds room
exactly when fewer than `n` accepted elements are outstanding. -/
theorem C01_push_exact (n : Nat) (hn : 0 < n) (mem : A → V) (s : St A V)
    (h : Reach step (init n mem) s) (hcsb : s.csb = []) :
    s.prodLoad = none ↔ s.pushed.length < s.popped.length + n := by
  obtain ⟨hr, -⟩ := reach_inv hn h
  have hnn := reach_n h
  have hcap := (C01_capacity n hn mem s h).2
  rw [hr.prodLoad_none]
  constructor
  · intro hd
    apply Classical.byContradiction
    intro hc
    have := (hd s.popped.length (by omega) (by
      rw [show s.pushed.length = s.popped.length + n by omega, hnn]; simp)).1
    omega
  · intro hlt k hk hkm
    refine ⟨?_, by rw [hcsb]; simp [nulls]⟩
    apply Classical.byContradiction
    intro hc
    rw [hnn] at hkm
    have : s.pushed.length - k < n := by omega
    have h1 : (s.pushed.length - k) % n = 0 := Nat.sub_mod_eq_zero_of_mod_eq hkm.symm
    rw [Nat.mod_eq_of_lt this] at h1
    omega

/-- **C02**: whatever the consumer reads in an object it popped at position `k` (and has not
released) is the content that object had, for the producer, when it was pushed at position `k`. -/
theorem C02_publication (n : Nat) (hn : 0 < n) (mem : A → V) (s : St A V)
    (h : Reach step (init n mem) s) (k : Nat) (w : V) (hobs : (k, w) ∈ s.obs) :
    ∃ a, s.pushed[k]? = some (a, w) ∧ s.popped[k]? = some (some a) :=
  (reach_inv hn h).2.obs k w hobs

/-! ## Non-vacuity -/

/-- A schedule on a queue of 1 slot in which objects are recycled: object 7 is written, pushed,
popped, read, released, rewritten and pushed again; stores are committed out of program order when
allowed (object 9 is written before 7 but committed last). -/
def demo : List (Act Nat Nat) :=
  [.pStore 9 90, .pStore 7 1, .pCommit 1, .pCommit 0, .pCheck 7, .pFence, .pPut, .pCheck 7,
   .cCheck, .pCommit 0, .cCheck, .cLoad, .cClear, .cRead 0, .pCheck 9, .cCommit 0, .cRelease 0,
   .pStore 7 2, .pCheck 7, .pFence, .pPut, .pCommit 0, .pCommit 0, .cCheck, .cLoad, .cClear,
   .cRead 1]

example : ((exec step (init 1 (fun _ => 0)) demo).map fun s => (s.pushed, s.popped, s.obs))
    = some ([(7, 1), (7, 2)], [some 7, some 7], [(0, 1), (1, 2)]) := by decide

/-- The store of the pointer cannot overtake the store of the content across `WMB()`. -/
example : (exec step (init 1 (fun _ => 0))
    ([.pStore 7 1, .pCheck 7, .pFence, .pPut, .pCommit 1] : List (Act Nat Nat))).isNone := by
  decide

/-- Hypotheses of `C01_drain`, `C01_pop_exact`: two outstanding elements, producer settled. -/
example : ((exec step (init 2 (fun _ => 0))
    ([.pCheck 5, .pFence, .pPut, .pCheck 6, .pFence, .pPut, .pCommit 0, .pCommit 0] :
      List (Act Nat Nat))).map fun s => (s.sb.length, s.popped.length, s.pushed.length))
    = some (0, 0, 2) := by decide

end FF.SwsrConc
