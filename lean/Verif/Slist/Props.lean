import Verif.SwsrConc.Props
/-!
# C48: `ff::staticlinkedlist`

Source: `/repo/ff/staticlinkedlist.hpp` 89-239 (default configuration: `POSTPOLLING_VERSION`,
`POINTERS_VERSION`).

The nodes form a fixed ring of `cachesize` cells (135-163: `next` and `previous` are never changed
afterwards), so `head` and `tail->previous` are indices into the ring, and the memory model, the
stores and the consumer are those of `Verif/SwsrConc/Model.lean` with `buf[i]` the field `data` of
cell `i`, `pw` the index of `tail->previous` and `pr` the index of `head`.  The one difference is
the test of `push`: it looks at `tail`, the cell *after* the one it is going to write.

With `NO_POST_POLLING` (240-386) the class is literally the queue of `Verif/SwsrConc` (C01, C02);
with `WHILE` a full queue makes `push` repeat its test instead of returning false; with `INDEX` the
links are indices.  `cachesize = 1` makes `tail` point outside the ring (159) and is excluded.
-/
namespace FF.Slist
open FF.Swsr (next)
open FF.SwsrConc
variable {A V : Type} [DecidableEq A]

/-- Load of `tail->data` by the producer (staticlinkedlist.hpp 195). -/
def tailLoad (s : St A V) : Option A :=
  match slotFwd s.sb (next s.n s.pw) with
  | some a => some a
  | none => s.buf (next s.n s.pw)

/-- One action.  `push` (194-201): test of `tail->data`, `WMB()`, `tail->previous->data = data` and
`tail = tail->next`.  `pop` (217-225): test of `head->data`, load, `head->data = NULL` and
`head = head->next`. -/
def step (s : St A V) : Act A V → Option (St A V)
  | .pCheck a =>
    if s.ppc = .idle then
      if tailLoad s = none then some { s with ppc := .checked a } else some s
    else none
  | act => SwsrConc.step s act

/-! ## Invariant -/

theorem load_none {s : St A V} (h : Ring s) (i : Nat) :
    (match slotFwd s.sb i with | some a => some a | none => s.buf i) = none ↔
      ∀ k, k < s.pushed.length → k % s.n = i → Done s k := by
  constructor
  · intro hl k hk hkm
    cases hf : slotFwd s.sb i with
    | some a => rw [hf] at hl; simp at hl
    | none =>
      rw [hf] at hl
      simp only at hl
      rw [slotFwd_none] at hf
      have hnp : k ∉ pend s.sb := by
        rw [mem_pend]; rintro ⟨ep, i', a, hm⟩
        have := (h.sbslot _ _ _ _ hm).2.2.1
        rw [this, hkm] at hm
        exact hf _ _ _ hm
      apply Classical.byContradiction
      intro hd
      have hlive : Live s k := by
        refine ⟨hk, hnp, ?_⟩
        unfold Done at hd
        by_cases hc : s.popped.length ≤ k
        · exact Or.inl hc
        · right; apply Classical.byContradiction; intro h2; exact hd ⟨by omega, h2⟩
      have := h.live k hlive
      rw [hkm, hl, List.getElem?_eq_getElem hk] at this
      simp at this
  · intro hd
    have hf : slotFwd s.sb i = none := by
      rw [slotFwd_none]
      intro ep a k hm
      obtain ⟨h1, h2, h3, -⟩ := h.sbslot _ _ _ _ hm
      have := (hd k h2 h3.symm).1
      omega
    rw [hf]
    apply h.nolive
    intro k hk hkm
    have := hd k hk.1 hkm
    rcases hk.2.2 with h1 | h1
    · have := this.1; omega
    · exact this.2 h1

theorem done_step {s s' : St A V} {act : Act A V} (hs : SwsrConc.step s act = some s') {k : Nat}
    (hd : Done s k) : Done s' k := by
  obtain ⟨h1, h2⟩ := hd
  cases act with
  | cClear =>
    simp only [SwsrConc.step] at hs
    split at hs <;> simp only [Option.some.injEq, reduceCtorEq] at hs
    subst hs
    refine ⟨by simp; omega, ?_⟩
    simp only [nulls, List.map_append, List.map_cons, List.map_nil, List.mem_append,
      List.mem_singleton, not_or]
    exact ⟨h2, by omega⟩
  | cCommit m =>
    simp only [SwsrConc.step] at hs
    (repeat' split at hs) <;> simp only [Option.some.injEq, reduceCtorEq] at hs
    subst hs
    refine ⟨h1, fun hc => h2 ?_⟩
    simp only [nulls, List.mem_map] at hc ⊢
    obtain ⟨x, hx, e⟩ := hc
    exact ⟨x, (List.eraseIdx_sublist _ _).mem hx, e⟩
  | _ =>
    simp only [SwsrConc.step] at hs
    (repeat' split at hs) <;> simp only [Option.some.injEq, reduceCtorEq] at hs <;> subst hs <;>
      exact ⟨h1, h2⟩

structure Inv (n : Nat) (mem : A → V) (s : St A V) : Prop where
  reach : Reach SwsrConc.step (init n mem) s
  /-- the cell `tail->previous` is known to be free -/
  prev : ∀ k, k < s.pushed.length → k % n = s.pushed.length % n → Done s k
  /-- after the test the cell `tail` is known to be free -/
  next : s.ppc ≠ .idle → ∀ k, k < s.pushed.length → k % n = (s.pushed.length + 1) % n → Done s k

theorem Inv.init (n : Nat) (mem : A → V) : Inv n mem (init n mem) :=
  ⟨Reach.refl _ _, by simp [SwsrConc.init], by simp [SwsrConc.init]⟩

theorem succ_mod_ne {n k : Nat} (hn : 2 ≤ n) : k % n ≠ (k + 1) % n := by
  intro h
  have h1 : (k + 1 - k) % n = 0 := Nat.sub_mod_eq_zero_of_mod_eq h.symm
  rw [Nat.add_sub_cancel_left, Nat.mod_eq_of_lt (by omega)] at h1
  omega

theorem Inv.step {n : Nat} (hn : 2 ≤ n) {mem : A → V} {s s' : St A V} {act : Act A V}
    (h : Inv n mem s) (hs : step s act = some s') : Inv n mem s' := by
  have hring := (reach_inv (by omega) h.reach).1
  have hnn := reach_n h.reach
  cases act with
  | pCheck a =>
    simp only [Slist.step] at hs
    split at hs
    · rename_i hi
      split at hs <;> simp only [Option.some.injEq] at hs <;> subst hs
      · rename_i hl
        have hpw : s.prodLoad = none := by
          rw [hring.prodLoad_none, hnn]; exact h.prev
        refine ⟨h.reach.tail (a := .pCheck a) (by simp [SwsrConc.step, hi, hpw]), h.prev, ?_⟩
        intro _ k hk hkm
        have := (load_none hring (FF.Swsr.next s.n s.pw)).1 hl k hk
        rw [hring.pw, next_mod hring.npos, hnn] at this
        exact this hkm
      · exact h
    · simp at hs
  | pPut =>
    have hs' : SwsrConc.step s .pPut = some s' := hs
    have hreach := h.reach.tail hs'
    simp only [SwsrConc.step] at hs'
    split at hs'
    · rename_i a hp
      simp only [Option.some.injEq] at hs'
      subst hs'
      refine ⟨hreach, ?_, by simp⟩
      intro k hk hkm
      simp only [List.length_append, List.length_singleton] at hk hkm
      rcases Nat.lt_or_ge k s.pushed.length with h1 | h1
      · exact h.next (by rw [hp]; simp) k h1 hkm
      · exact absurd hkm (by rw [show k = s.pushed.length by omega]; exact succ_mod_ne hn)
    · simp at hs'
  | pFence =>
    have hs' : SwsrConc.step s .pFence = some s' := hs
    have hreach := h.reach.tail hs'
    have hd : ∀ k, Done s k → Done s' k := fun k => done_step hs'
    simp only [SwsrConc.step] at hs'
    split at hs'
    · rename_i a hp
      simp only [Option.some.injEq] at hs'
      subst hs'
      exact ⟨hreach, h.prev, fun _ => h.next (by rw [hp]; simp)⟩
    · simp at hs'
  | _ =>
    simp only [Slist.step] at hs
    have hs' := hs
    have hd : ∀ k, Done s k → Done s' k := fun k => done_step hs
    have hpp : s'.pushed = s.pushed ∧ s'.ppc = s.ppc := by
      simp only [SwsrConc.step] at hs'
      (repeat' split at hs') <;> simp only [Option.some.injEq, reduceCtorEq] at hs' <;>
        subst hs' <;> exact ⟨rfl, rfl⟩
    refine ⟨h.reach.tail hs, ?_, ?_⟩
    · rw [hpp.1]; exact fun k h1 h2 => hd k (h.prev k h1 h2)
    · rw [hpp.1, hpp.2]; exact fun h0 k h1 h2 => hd k (h.next h0 k h1 h2)

theorem reach_inv {n : Nat} (hn : 2 ≤ n) {mem : A → V} {s : St A V}
    (h : Reach step (init n mem) s) : Inv n mem s :=
  h.inv (Inv := Inv n mem) (Inv.init n mem) (fun _ _ _ hi hs => hi.step hn hs)

/-! ## The property -/

/-- **C48, order**: popped pointers are a prefix of the accepted ones. -/
theorem C48_prefix (n : Nat) (hn : 2 ≤ n) (mem : A → V) (s : St A V)
    (h : Reach step (init n mem) s) : s.popped <+: s.pushed.map (fun x => some x.1) :=
  C01_prefix n (by omega) mem s (reach_inv hn h).reach

/-- **C48, capacity**: at most `cachesize - 1` accepted elements are outstanding. -/
theorem C48_capacity (n : Nat) (hn : 2 ≤ n) (mem : A → V) (s : St A V)
    (h : Reach step (init n mem) s) : s.pushed.length ≤ s.popped.length + (n - 1) := by
  have hi := reach_inv hn h
  apply Classical.byContradiction
  intro hc
  have := (hi.prev (s.pushed.length - n) (by omega)
    ((Nat.mod_eq_sub_mod (a := s.pushed.length) (by omega)).symm)).1
  omega

/-- **C48, no cell is shared**: the cell into which an accepted element is being written holds no
element: at that moment every earlier element stored in the same cell has been popped and the
consumer's clearing of the cell is visible. -/
theorem C48_cell_free (n : Nat) (hn : 2 ≤ n) (mem : A → V) (s s' : St A V)
    (h : Reach step (init n mem) s) (_ : step s .pPut = some s') (k : Nat)
    (hk : k < s.pushed.length) (hsame : k % n = s.pw) :
    k < s.popped.length ∧ ∀ e ∈ s.csb, e.2 ≠ k := by
  have hi := reach_inv hn h
  have hr := (SwsrConc.reach_inv (by omega) hi.reach).1
  have hnn := reach_n hi.reach
  have hd := hi.prev k hk (by rw [hsame, hr.pw, hnn])
  exact ⟨hd.1, fun e he hek => hd.2 (by rw [← hek]; exact List.mem_map_of_mem he)⟩

/-- **C48, push answers truthfully** once the consumer's stores are visible: it accepts exactly when
fewer than `cachesize - 1` elements are outstanding. -/
theorem C48_push_exact (n : Nat) (hn : 2 ≤ n) (mem : A → V) (s : St A V)
    (h : Reach step (init n mem) s) (hcsb : s.csb = []) :
    tailLoad s = none ↔ s.pushed.length < s.popped.length + (n - 1) := by
  have hi := reach_inv hn h
  have hr := (SwsrConc.reach_inv (by omega) hi.reach).1
  have hnn := reach_n hi.reach
  have hcap := C48_capacity n hn mem s h
  have hcp := hr.cp
  unfold tailLoad
  rw [load_none hr, hr.pw, next_mod hr.npos, hnn]
  constructor
  · intro hd
    apply Classical.byContradiction
    intro hc
    have := (hd s.popped.length (by omega) (by
      rw [show s.pushed.length + 1 = s.popped.length + n by omega]; simp)).1
    omega
  · intro hlt k hk hkm
    refine ⟨?_, by rw [hcsb]; simp [nulls]⟩
    apply Classical.byContradiction
    intro hc
    have : s.pushed.length + 1 - k < n := by omega
    have h1 : (s.pushed.length + 1 - k) % n = 0 := Nat.sub_mod_eq_zero_of_mod_eq hkm.symm
    rw [Nat.mod_eq_of_lt this] at h1
    omega

/-- **C48, pop answers truthfully** once the producer's stores are visible. -/
theorem C48_pop_exact (n : Nat) (hn : 2 ≤ n) (mem : A → V) (s : St A V)
    (h : Reach step (init n mem) s) (hsb : s.sb = []) :
    s.consLoad = none ↔ s.popped = s.pushed.map (fun x => some x.1) :=
  C01_pop_exact n (by omega) mem s (reach_inv hn h).reach hsb

/-- **C48, publication**: as C02. -/
theorem C48_publication (n : Nat) (hn : 2 ≤ n) (mem : A → V) (s : St A V)
    (h : Reach step (init n mem) s) (k : Nat) (w : V) (hobs : (k, w) ∈ s.obs) :
    ∃ a, s.pushed[k]? = some (a, w) ∧ s.popped[k]? = some (some a) :=
  C02_publication n (by omega) mem s (reach_inv hn h).reach k w hobs

/-! ## Non-vacuity -/
def demo : List (Act Nat Nat) :=
  [.pStore 7 1, .pCheck 7, .pFence, .pPut, .pCheck 8, .pFence, .pPut, .pCheck 9, .pCommit 0,
   .pCommit 0, .cCheck, .cLoad, .cClear, .cRead 0, .cCommit 0, .pCheck 9, .pFence, .pPut]
example : ((exec step (init 3 (fun _ => 0)) demo).map fun s =>
    (s.pushed.map Prod.fst, s.popped, s.obs, s.pw)) =
    some ([7, 8, 9], [some 7], [(0, 1)], 0) := by decide
/-- the third `pCheck` of the demo was refused: two elements fill a list of three cells -/
example : ((exec step (init 3 (fun _ => 0)) (demo.take 8)).map fun s => (s.pushed.length, s.ppc)) =
    some (2, .idle) := by decide

end FF.Slist
