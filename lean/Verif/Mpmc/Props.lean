import Verif.Mpmc.Inv
import Verif.Pow2.Props
/-!
# C12: the bounded MPMC queue

`s.tickets` lists the values in the order in which their pushes took their positions; the log holds
the outcome of every completed call.
-/
namespace FF.Mpmc

variable {T A : Type}

/-- The number of slots is a power of two, at least 2 and at least what was asked for. -/
theorem initSize_spec (size : Nat) (h : size < 2 ^ 32) :
    ∃ n k, initSize size = some n ∧ n = 2 ^ k ∧ 2 ≤ n ∧ size ≤ n := by
  unfold initSize
  generalize hs : (if size < 2 then 2 else size) = sz
  have h2 : 2 ≤ sz ∧ size ≤ sz ∧ sz < 2 ^ 32 := by
    subst hs
    split <;> omega
  simp only
  by_cases hp : FF.Pow2.isPowerOf2Long sz = true
  · obtain ⟨k, hk⟩ := (FF.Pow2.C41_isPowerOf2Long_partial sz h2.2.2).1 hp
    exact ⟨sz, k, by simp [hp], hk, h2.1, h2.2.1⟩
  · simp only [Bool.not_eq_true] at hp
    obtain ⟨r, hr, ⟨k, hk⟩, hle, -⟩ := FF.Pow2.C41_nextPowerOf2 sz (by omega) hp
    exact ⟨r, k, by simp [hp, hr], hk, by omega, by omega⟩

theorem reach_inv [DecidableEq T] {size n : Nat} (hsz : size < 2 ^ 32)
    (hi : initSize size = some n) {s : St T A} (h : Reach step (init T A n) s) : Inv n s := by
  obtain ⟨m, k, h1, h2, h3, -⟩ := initSize_spec size hsz
  rw [hi] at h1
  cases h1
  refine h.inv (init_inv h3 ?_) (fun s a s' hI hs => hI.step hs)
  intro p
  subst h2
  exact Nat.and_two_pow_sub_one_eq_mod p k

/-- The popped positions and values of the completed pops, newest first. -/
def popped : List (Ev T A) → List (Nat × Option A)
  | [] => []
  | .popped _ p x :: l => (p, x) :: popped l
  | _ :: l => popped l

/-- The positions and values of the completed accepted pushes, newest first. -/
def accepted : List (Ev T A) → List (Nat × A)
  | [] => []
  | .pushed _ p a :: l => (p, a) :: accepted l
  | _ :: l => accepted l

theorem mem_popped {l : List (Ev T A)} {p : Nat} {x : Option A} :
    (p, x) ∈ popped l ↔ ∃ t, .popped t p x ∈ l := by
  induction l with
  | nil => simp [popped]
  | cons e l ih =>
    cases e <;> simp only [popped, List.mem_cons, ih, Prod.mk.injEq, Ev.popped.injEq, reduceCtorEq,
      false_or]
    constructor
    · rintro (⟨rfl, rfl⟩ | ⟨t, ht⟩)
      · exact ⟨_, Or.inl ⟨rfl, rfl, rfl⟩⟩
      · exact ⟨t, Or.inr ht⟩
    · rintro ⟨t, ⟨-, h1, h2⟩ | ht⟩
      · exact Or.inl ⟨h1, h2⟩
      · exact Or.inr ⟨t, ht⟩

theorem mem_accepted {l : List (Ev T A)} {p : Nat} {x : A} :
    (p, x) ∈ accepted l ↔ ∃ t, .pushed t p x ∈ l := by
  induction l with
  | nil => simp [accepted]
  | cons e l ih =>
    cases e <;> simp only [accepted, List.mem_cons, ih, Prod.mk.injEq, Ev.pushed.injEq,
      reduceCtorEq, false_or]
    constructor
    · rintro (⟨rfl, rfl⟩ | ⟨t, ht⟩)
      · exact ⟨_, Or.inl ⟨rfl, rfl, rfl⟩⟩
      · exact ⟨t, Or.inr ht⟩
    · rintro ⟨t, ⟨-, h1, h2⟩ | ht⟩
      · exact Or.inl ⟨h1, h2⟩
      · exact Or.inr ⟨t, ht⟩

theorem popped_fst (l : List (Ev T A)) : (popped l).map Prod.fst = l.filterMap popPos := by
  induction l with
  | nil => rfl
  | cons e l ih => cases e <;> simp [popped, popPos, ih, List.filterMap_cons]

theorem accepted_fst (l : List (Ev T A)) : (accepted l).map Prod.fst = l.filterMap pushPos := by
  induction l with
  | nil => rfl
  | cons e l ih => cases e <;> simp [accepted, pushPos, ih, List.filterMap_cons]

/-- **C12, values and order**: the pop that took the `p`-th position returns the value whose push
took the `p`-th position. -/
theorem C12_order [DecidableEq T] (size n : Nat) (hsz : size < 2 ^ 32)
    (hi : initSize size = some n) (s : St T A) (h : Reach step (init T A n) s)
    (p : Nat) (x : Option A) (hx : (p, x) ∈ popped s.log) :
    p < s.pread ∧ ∃ a, s.tickets[p]? = some a ∧ x = some a := by
  have hI := reach_inv hsz hi h
  obtain ⟨t, ht⟩ := mem_popped.1 hx
  obtain ⟨h1, h2⟩ := hI.ev _ ht
  obtain ⟨h3, h4⟩ := hI.relp _ h1
  have h5 := hI.pubw _ h3
  rw [← hI.len] at h5
  exact ⟨h4, s.tickets[p], List.getElem?_eq_getElem h5, by rw [h2, List.getElem?_eq_getElem h5]⟩

/-- **C12, at most once**: no two pops return the same position, and no two accepted pushes share a
position; a position popped belongs to a push that has published its value. -/
theorem C12_once [DecidableEq T] (size n : Nat) (hsz : size < 2 ^ 32)
    (hi : initSize size = some n) (s : St T A) (h : Reach step (init T A n) s) :
    ((popped s.log).map Prod.fst).Nodup ∧ ((accepted s.log).map Prod.fst).Nodup ∧
    (∀ p a, (p, a) ∈ accepted s.log → s.tickets[p]? = some a) ∧
    (∀ p x, (p, x) ∈ popped s.log → s.pub p = true) := by
  have hI := reach_inv hsz hi h
  refine ⟨by rw [popped_fst]; exact hI.nd, by rw [accepted_fst]; exact hI.ndw, ?_, ?_⟩
  · intro p a hp
    obtain ⟨t, ht⟩ := mem_accepted.1 hp
    exact (hI.ev _ ht).2
  · intro p x hp
    obtain ⟨t, ht⟩ := mem_popped.1 hp
    exact (hI.relp _ (hI.ev _ ht).1).1

/-- `pub` is set exactly by the completion of the push that owns the position. -/
theorem pub_accepted [DecidableEq T] {n : Nat} {s : St T A} (h : Reach step (init T A n) s) :
    ∀ p, s.pub p = true → ∃ a, (p, a) ∈ accepted s.log := by
  refine h.inv (Inv := fun s => ∀ p, s.pub p = true → ∃ a, (p, a) ∈ accepted s.log)
    (by simp [init]) ?_
  intro s act s' ih hs p hp
  have hmono : ∀ e, (∃ a, (p, a) ∈ accepted s.log) → ∃ a, (p, a) ∈ accepted (e :: s.log) := by
    rintro e ⟨a, ha⟩
    refine ⟨a, ?_⟩
    cases e <;> simp [accepted, ha]
  cases act <;> simp only [step] at hs <;> split at hs <;>
    try simp only [Option.some.injEq, reduceCtorEq] at hs
  all_goals try (subst hs; exact ih p hp)
  all_goals try (split at hs <;> simp only [Option.some.injEq, reduceCtorEq] at hs <;>
                 subst hs <;> exact ih _ hp)
  · split at hs <;> try simp only [reduceCtorEq] at hs
    split at hs
    · simp only [Option.some.injEq] at hs; subst hs; exact ih p hp
    · split at hs <;> simp only [Option.some.injEq] at hs <;> subst hs
      · exact hmono _ (ih p hp)
      · exact ih p hp
  · split at hs <;> try simp only [reduceCtorEq] at hs
    split at hs
    · simp only [Option.some.injEq] at hs; subst hs; exact ih p hp
    · split at hs <;> simp only [Option.some.injEq] at hs <;> subst hs
      · exact hmono _ (ih p hp)
      · exact ih p hp
  · subst hs
    rcases upd_true.1 hp with rfl | hp
    · exact ⟨_, List.mem_cons_self⟩
    · exact hmono _ (ih p hp)

/-- **C12, every value returned was accepted**: a completed pop returns the value of a push that
has itself returned true (its last action, the store to `seq`, precedes). -/
theorem C12_popped_accepted [DecidableEq T] (size n : Nat) (hsz : size < 2 ^ 32)
    (hi : initSize size = some n) (s : St T A) (h : Reach step (init T A n) s)
    (p : Nat) (x : Option A) (hx : (p, x) ∈ popped s.log) :
    ∃ a, x = some a ∧ (p, a) ∈ accepted s.log := by
  obtain ⟨-, a, h1, h2⟩ := C12_order size n hsz hi s h p x hx
  obtain ⟨-, -, h3, h4⟩ := C12_once size n hsz hi s h
  obtain ⟨b, hb⟩ := pub_accepted h p (h4 p x hx)
  have := h3 p b hb
  rw [h1] at this
  cases this
  exact ⟨a, h2, hb⟩

/-- **C12, capacity**: never more than `n` positions are taken and not yet popped, and `n` is at
least the requested size. -/
theorem C12_capacity [DecidableEq T] (size n : Nat) (hsz : size < 2 ^ 32)
    (hi : initSize size = some n) (s : St T A) (h : Reach step (init T A n) s) :
    s.pread ≤ s.tickets.length ∧ s.tickets.length ≤ s.pread + n ∧ size ≤ n := by
  have hI := reach_inv hsz hi h
  obtain ⟨m, k, h1, -, -, h4⟩ := initSize_spec size hsz
  rw [hi] at h1
  cases h1
  rw [hI.len]
  refine ⟨?_, ?_, h4⟩
  · rcases Nat.eq_zero_or_pos s.pread with h0 | h0
    · omega
    · have := hI.pubw _ (hI.readp (s.pread - 1) (by omega))
      omega
  · apply Classical.byContradiction
    intro hc
    have := hI.round (s.pwrite - 1 - n) 0 (by have := hI.n2; omega)
    have := (hI.relp _ this).2
    omega

/-- **C12, real time**: a position taken by a later push is larger than every position taken
before, so pushes that do not overlap get their positions in call order; likewise for pops. -/
theorem C12_positions_monotone [DecidableEq T] (n : Nat) (s s' : St T A)
    (_h : Reach step (init T A n) s) (h' : Reach step s s') :
    s.tickets <+: s'.tickets ∧ s.pread ≤ s'.pread := by
  refine h'.inv (Inv := fun s' => s.tickets <+: s'.tickets ∧ s.pread ≤ s'.pread)
    ⟨List.prefix_refl _, Nat.le_refl _⟩ ?_
  intro a act b ih hs
  cases act <;> simp only [step] at hs <;> split at hs <;>
    try simp only [Option.some.injEq, reduceCtorEq] at hs
  all_goals try (subst hs; exact ih)
  all_goals try (split at hs <;> simp only [Option.some.injEq, reduceCtorEq] at hs <;> subst hs <;>
    exact ih)
  · split at hs <;> try simp only [reduceCtorEq] at hs
    split at hs
    · simp only [Option.some.injEq] at hs; subst hs; exact ih
    · split at hs <;> simp only [Option.some.injEq] at hs <;> subst hs <;> exact ih
  · split at hs <;> try simp only [reduceCtorEq] at hs
    split at hs
    · simp only [Option.some.injEq] at hs; subst hs; exact ih
    · split at hs <;> simp only [Option.some.injEq] at hs <;> subst hs <;> exact ih
  · split at hs <;> simp only [Option.some.injEq, reduceCtorEq] at hs
    subst hs
    exact ⟨ih.1.trans (List.prefix_append _ _), ih.2⟩
  · split at hs <;> simp only [Option.some.injEq, reduceCtorEq] at hs
    rename_i hc
    subst hs
    exact ⟨ih.1, by simp only; omega⟩

/-- The `data` field a thread is about to access, and whether it writes it. -/
def dataAccess (n : Nat) : Pc A → Option (Nat × Bool)
  | .pWr _ p => some (p % n, true)
  | .cRd p => some (p % n, false)
  | _ => none

/-- **C12, no data race** on the plain `data` fields: two threads are never about to access the
same field when one of them writes. -/
theorem C12_no_race [DecidableEq T] (size n : Nat) (hsz : size < 2 ^ 32)
    (hi : initSize size = some n) (s : St T A) (h : Reach step (init T A n) s)
    (t t' : T) (i : Nat) (w : Bool) (h1 : dataAccess n (s.pc t) = some (i, true))
    (h2 : dataAccess n (s.pc t') = some (i, w)) : t = t' := by
  have hI := reach_inv hsz hi h
  have k1 := hI.pc t
  have k2 := hI.pc t'
  have u := hI.uw t t'
  revert h1 h2 k1 k2 u
  cases s.pc t <;> simp only [dataAccess, reduceCtorEq, Option.some.injEq, Prod.mk.injEq,
    false_implies, and_false, PcOk]
  rename_i a p
  rintro ⟨rfl, -⟩
  cases s.pc t' <;> simp only [dataAccess, reduceCtorEq, Option.some.injEq, Prod.mk.injEq,
    false_implies, PcOk]
  · rename_i a' q
    rintro ⟨hq, -⟩ ⟨a1, a2, a3⟩ ⟨b1, b2, b3⟩ u
    rcases Nat.lt_trichotomy p q with hl | hl | hl
    · obtain ⟨c, hc⟩ := mod_gap hq.symm hl
      have := (hI.relp _ (hI.round p c (by omega))).1
      rw [this] at a2; simp at a2
    · exact u p rfl (by rw [hl]; rfl)
    · obtain ⟨c, hc⟩ := mod_gap hq hl
      have := (hI.relp _ (hI.round q c (by omega))).1
      rw [this] at b2; simp at b2
  · rename_i q
    rintro ⟨hq, -⟩ ⟨a1, a2, a3⟩ ⟨b1, b2⟩ u
    have hqp := hI.readp q b1
    have hql := hI.pubw q hqp
    rcases Nat.lt_trichotomy p q with hl | hl | hl
    · obtain ⟨c, hc⟩ := mod_gap hq.symm hl
      have := (hI.relp _ (hI.round p c (by omega))).1
      rw [this] at a2; simp at a2
    · subst hl; rw [hqp] at a2; simp at a2
    · obtain ⟨c, hc⟩ := mod_gap hq hl
      have := hI.round q c (by omega)
      rw [this] at b2; simp at b2

/-- Positions of one slot that are less than a full round apart are equal. -/
theorem same_slot {n a b : Nat} (h : a % n = b % n) (h1 : a < b + n) (h2 : b < a + n) : a = b := by
  rcases Nat.lt_trichotomy a b with hl | hl | hl
  · obtain ⟨c, hc⟩ := mod_gap h hl
    have : n ≤ (c + 1) * n := Nat.le_mul_of_pos_left n (by omega)
    omega
  · exact hl
  · obtain ⟨c, hc⟩ := mod_gap h.symm hl
    have : n ≤ (c + 1) * n := Nat.le_mul_of_pos_left n (by omega)
    omega

theorem quiescent [DecidableEq T] {n : Nat} {s : St T A} (hI : Inv n s)
    (hq : ∀ t, s.pc t = .idle) :
    (∀ k, k < s.pwrite → s.pub k = true) ∧ (∀ k, k < s.pread → s.rel k = true) := by
  constructor
  · intro k hk
    cases hb : s.pub k with
    | true => rfl
    | false =>
      obtain ⟨t, ht⟩ := hI.exw k hk hb
      rw [hq t] at ht; simp [wrPos] at ht
  · intro k hk
    cases hb : s.rel k with
    | true => rfl
    | false =>
      obtain ⟨t, ht⟩ := hI.exr k hk hb
      rw [hq t] at ht; simp [rdPos] at ht

/-- **C12, push is exact when nothing overlaps**: with no other call in progress and loads that
return the newest values, `push(a)` is accepted iff fewer than `n` values are inside; otherwise it
returns false. -/
theorem C12_push_exact [DecidableEq T] (size n : Nat) (hsz : size < 2 ^ 32)
    (hi : initSize size = some n) (s : St T A) (h : Reach step (init T A n) s)
    (hq : ∀ t, s.pc t = .idle) (t : T) (a : A) :
    (s.tickets.length < s.pread + n →
      ∃ s', exec step s [.push t a, .loadIdx t s.pwrite, .loadSeq t 0, .casOk t, .data t, .store t]
          = some s' ∧ s'.pc t = .idle ∧ s'.tickets = s.tickets ++ [a] ∧
        s'.log = .pushed t s.tickets.length a :: s.log) ∧
    (s.tickets.length = s.pread + n →
      ∃ s', exec step s [.push t a, .loadIdx t s.pwrite, .loadSeq t 0] = some s' ∧
        s'.pc t = .idle ∧ s'.tickets = s.tickets ∧ s'.log = .full t :: s.log) := by
  have hI := reach_inv hsz hi h
  obtain ⟨hp, hr⟩ := quiescent hI hq
  have hn := hI.n2
  obtain ⟨k, hk, hc⟩ := hI.cur (s.pwrite % n) (Nat.mod_lt _ (by omega))
  have hpr := (C12_capacity size n hsz hi s h).1
  rw [hI.len] at hpr
  rw [hI.len]
  constructor
  · intro hroom
    have hhead : (s.hist (s.pwrite % n))[0]? = some s.pwrite := by
      rw [← List.head?_eq_getElem?]
      rcases hc with ⟨h1, h2, h3⟩ | ⟨h1, h2, h3⟩
      · have hkw : s.pwrite ≤ k := by
          apply Classical.byContradiction; intro hlt
          rw [hp k (by omega)] at h2; simp at h2
        have : k = s.pwrite := by
          apply same_slot hk _ (by omega)
          rcases h3 with h3 | h3
          · omega
          · have := (hI.relp _ h3).2; omega
        rw [h1, this]
      · exfalso
        have hkw := hI.pubw k h2
        have hkr : s.pread ≤ k := by
          apply Classical.byContradiction; intro hlt
          rw [hr k (by omega)] at h3; simp at h3
        have := same_slot hk (by omega) (by omega)
        omega
    simp [exec, step, hq, upd, hI.idx, hhead, hI.len]
  · intro hfull
    have hhead : ∃ v, (s.hist (s.pwrite % n))[0]? = some v ∧ v < s.pwrite := by
      rw [← List.head?_eq_getElem?]
      rcases hc with ⟨h1, h2, h3⟩ | ⟨h1, h2, h3⟩
      · exfalso
        have hkw : s.pwrite ≤ k := by
          apply Classical.byContradiction; intro hlt
          rw [hp k (by omega)] at h2; simp at h2
        rcases h3 with h3 | h3
        · omega
        · have := (hI.relp _ h3).2; omega
      · refine ⟨k + 1, h1, ?_⟩
        have hkw := hI.pubw k h2
        apply Classical.byContradiction
        intro hge
        have := same_slot hk (by omega) (by omega)
        omega
    obtain ⟨v, hv, hlt⟩ := hhead
    have hne : s.pwrite ≠ v := by omega
    simp [exec, step, hq, upd, hI.idx, hv, hlt, hne]

/-- **C12, pop is exact when nothing overlaps**: with no other call in progress and loads that
return the newest values, `pop` returns the oldest value inside, or false when nothing is inside. -/
theorem C12_pop_exact [DecidableEq T] (size n : Nat) (hsz : size < 2 ^ 32)
    (hi : initSize size = some n) (s : St T A) (h : Reach step (init T A n) s)
    (hq : ∀ t, s.pc t = .idle) (t : T) :
    (∀ a, s.tickets[s.pread]? = some a →
      ∃ s', exec step s [.pop t, .loadIdx t s.pread, .loadSeq t 0, .casOk t, .data t, .store t]
          = some s' ∧ s'.pc t = .idle ∧ s'.tickets = s.tickets ∧ s'.pread = s.pread + 1 ∧
        s'.log = .popped t s.pread (some a) :: s.log) ∧
    (s.tickets[s.pread]? = none →
      ∃ s', exec step s [.pop t, .loadIdx t s.pread, .loadSeq t 0] = some s' ∧
        s'.pc t = .idle ∧ s'.tickets = s.tickets ∧ s'.pread = s.pread ∧
        s'.log = .empty t :: s.log) := by
  have hI := reach_inv hsz hi h
  obtain ⟨hp, hr⟩ := quiescent hI hq
  have hn := hI.n2
  obtain ⟨k, hk, hc⟩ := hI.cur (s.pread % n) (Nat.mod_lt _ (by omega))
  have hcap := C12_capacity size n hsz hi s h
  have hlen := hI.len
  constructor
  · intro a ha
    have hlt : s.pread < s.tickets.length := by
      apply Classical.byContradiction; intro hc
      rw [List.getElem?_eq_none (by omega)] at ha; simp at ha
    have hkk : (s.hist (s.pread % n))[0]? = some (s.pread + 1) ∧ s.pub s.pread = true ∧
        s.rel s.pread = false := by
      rw [← List.head?_eq_getElem?]
      rcases hc with ⟨h1, h2, h3⟩ | ⟨h1, h2, h3⟩
      · exfalso
        have hkw : s.pwrite ≤ k := by
          apply Classical.byContradiction; intro hlt
          rw [hp k (by omega)] at h2; simp at h2
        have : k < s.pread + n := by
          rcases h3 with h3 | h3
          · omega
          · have := (hI.relp _ h3).2; omega
        have := same_slot hk this (by omega)
        omega
      · have hkw := hI.pubw k h2
        have hkr : s.pread ≤ k := by
          apply Classical.byContradiction; intro hlt
          rw [hr k (by omega)] at h3; simp at h3
        have := same_slot hk (by omega) (by omega)
        rw [this] at h1 h2 h3
        exact ⟨h1, h2, h3⟩
    have hd := hI.dat _ hkk.2.1 hkk.2.2
    rw [ha] at hd
    simp [exec, step, hq, upd, hI.idx, hkk.1, hd]
  · intro hnone
    have hle := List.getElem?_eq_none_iff.1 hnone
    have hhead : ∃ v, (s.hist (s.pread % n))[0]? = some v ∧ v < s.pread + 1 := by
      rw [← List.head?_eq_getElem?]
      rcases hc with ⟨h1, h2, h3⟩ | ⟨h1, h2, h3⟩
      · refine ⟨k, h1, ?_⟩
        have hkw : s.pwrite ≤ k := by
          apply Classical.byContradiction; intro hlt
          rw [hp k (by omega)] at h2; simp at h2
        have : k < s.pread + n := by
          rcases h3 with h3 | h3
          · omega
          · have := (hI.relp _ h3).2; omega
        have := same_slot hk this (by omega)
        omega
      · exfalso
        have hkw := hI.pubw k h2
        rw [hr k (by omega)] at h3; simp at h3
    obtain ⟨v, hv, hlt⟩ := hhead
    have hne : v ≠ s.pread + 1 := by omega
    simp [exec, step, hq, upd, hI.idx, hv, hlt, hne]

/-! ## Non-vacuity: two producers and a consumer, with a stale load and a failed exchange -/

example : initSize 3 = some 4 := by decide

/-- Thread 1 loads `pwrite = 0` and `seq`, thread 2 overtakes and takes position 0, thread 1's
exchange fails, it retries and takes position 1, publishes before thread 2; the consumer finds
nothing until thread 2 publishes. -/
def demo : List (Act Nat Nat) :=
  [.push 1 10, .loadIdx 1 0, .loadSeq 1 0,
   .push 2 20, .loadIdx 2 0, .loadSeq 2 0, .casOk 2,
   .casFail 1, .loadIdx 1 1, .loadSeq 1 0, .casOk 1, .data 1, .store 1,
   .pop 3, .loadIdx 3 0, .loadSeq 3 0,
   .data 2, .store 2,
   .pop 3, .loadIdx 3 0, .loadSeq 3 0, .casOk 3, .data 3, .store 3]

example : (exec step (init Nat Nat 4) demo).map (fun s => (s.tickets, s.pread, s.log)) =
    some ([20, 10], 1, [.popped 3 0 (some 20), .pushed 2 0 20, .empty 3, .pushed 1 1 10]) := by
  decide

end FF.Mpmc
