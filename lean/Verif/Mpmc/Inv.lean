import Verif.Mpmc.Model
/-!
# Invariant of the bounded MPMC queue
-/
namespace FF.Mpmc

variable {T A : Type}

def wrPos : Pc A → Option Nat
  | .pWr _ p => some p
  | .pSt _ p => some p
  | _ => none

def rdPos : Pc A → Option Nat
  | .cRd p => some p
  | .cSt p _ => some p
  | _ => none

def PcOk (n pwrite pread : Nat) (dat : Nat → Option A) (tickets : List A) (pub rel : Nat → Bool) :
    Pc A → Prop
  | .pCas _ pw => pw < n ∨ rel (pw - n) = true
  | .pWr a p => p < pwrite ∧ pub p = false ∧ tickets[p]? = some a
  | .pSt a p => p < pwrite ∧ pub p = false ∧ tickets[p]? = some a ∧ dat (p % n) = some a
  | .cCas p => pub p = true
  | .cRd p => p < pread ∧ rel p = false
  | .cSt p x => p < pread ∧ rel p = false ∧ x = tickets[p]?
  | _ => True

def EvOk (tickets : List A) (pub rel : Nat → Bool) : Ev T A → Prop
  | .pushed _ p a => pub p = true ∧ tickets[p]? = some a
  | .popped _ p x => rel p = true ∧ x = tickets[p]?
  | _ => True

def popPos : Ev T A → Option Nat
  | .popped _ p _ => some p
  | _ => none

def pushPos : Ev T A → Option Nat
  | .pushed _ p _ => some p
  | _ => none

structure Inv (n : Nat) (s : St T A) : Prop where
  n2 : 2 ≤ n
  idx : ∀ p, p &&& s.mask = p % n
  mask : s.mask + 1 = n
  len : s.tickets.length = s.pwrite
  pubw : ∀ k, s.pub k = true → k < s.pwrite
  relp : ∀ k, s.rel k = true → s.pub k = true ∧ k < s.pread
  readp : ∀ k, k < s.pread → s.pub k = true
  round : ∀ j c, j + (c + 1) * n < s.pwrite → s.rel j = true
  hist : ∀ i v, v ∈ s.hist i → v = i ∨ (∃ k, k % n = i ∧ s.pub k = true ∧ v = k + 1) ∨
    (∃ k, k % n = i ∧ s.rel k = true ∧ v = k + n)
  cur : ∀ i, i < n → ∃ k, k % n = i ∧
    (((s.hist i).head? = some k ∧ s.pub k = false ∧ (k < n ∨ s.rel (k - n) = true)) ∨
      ((s.hist i).head? = some (k + 1) ∧ s.pub k = true ∧ s.rel k = false))
  dat : ∀ k, s.pub k = true → s.rel k = false → s.dat (k % n) = s.tickets[k]?
  pc : ∀ t, PcOk n s.pwrite s.pread s.dat s.tickets s.pub s.rel (s.pc t)
  uw : ∀ t t' p, wrPos (s.pc t) = some p → wrPos (s.pc t') = some p → t = t'
  ur : ∀ t t' p, rdPos (s.pc t) = some p → rdPos (s.pc t') = some p → t = t'
  exw : ∀ k, k < s.pwrite → s.pub k = false → ∃ t, wrPos (s.pc t) = some k
  exr : ∀ k, k < s.pread → s.rel k = false → ∃ t, rdPos (s.pc t) = some k
  ev : ∀ e ∈ s.log, EvOk s.tickets s.pub s.rel e
  nd : (s.log.filterMap popPos).Nodup
  ndw : (s.log.filterMap pushPos).Nodup

theorem upd_same {I V : Type} [DecidableEq I] (f : I → V) (i : I) (v : V) : upd f i v i = v := by
  simp [upd]

theorem upd_ne {I V : Type} [DecidableEq I] (f : I → V) (i j : I) (v : V) (h : j ≠ i) :
    upd f i v j = f j := by simp [upd, h]

theorem upd_true {f : Nat → Bool} {p k : Nat} : upd f p true k = true ↔ k = p ∨ f k = true := by
  simp only [upd]; split <;> simp_all

theorem upd_false {f : Nat → Bool} {p k : Nat} : upd f p true k = false ↔ k ≠ p ∧ f k = false := by
  simp only [upd]; split <;> simp_all

/-- Distinct positions of one slot differ by a multiple of the size. -/
theorem mod_gap {n j k : Nat} (h : j % n = k % n) (hlt : j < k) : ∃ c, k = j + (c + 1) * n := by
  have h1 := Nat.div_add_mod j n
  have h2 := Nat.div_add_mod k n
  have hq : j / n < k / n := by
    apply Classical.byContradiction
    intro hc
    have : n * (k / n) ≤ n * (j / n) := Nat.mul_le_mul_left n (by omega)
    omega
  refine ⟨k / n - j / n - 1, ?_⟩
  rw [show k / n - j / n - 1 + 1 = k / n - j / n by omega, Nat.mul_comm, Nat.mul_sub]
  have := Nat.mul_le_mul_left n (Nat.le_of_lt hq)
  omega

theorem init_inv {n : Nat} (hn : 2 ≤ n) (hm : ∀ p, p &&& (n - 1) = p % n) :
    Inv n (init T A n) where
  n2 := hn
  idx := hm
  mask := by simp [init]; omega
  len := rfl
  pubw := by simp [init]
  relp := by simp [init]
  readp := by simp [init]
  round := by simp [init]
  hist := by simp [init]
  cur := fun i hi => ⟨i, Nat.mod_eq_of_lt hi, Or.inl ⟨rfl, rfl, Or.inl hi⟩⟩
  dat := by simp [init]
  pc := fun _ => trivial
  uw := by simp [init, wrPos]
  ur := by simp [init, rdPos]
  exw := by simp [init]
  exr := by simp [init]
  ev := by simp [init]
  nd := by simp [init]
  ndw := by simp [init]

/-- Moving thread `t` to a program counter that holds no position. -/
theorem Inv.move [DecidableEq T] {n : Nat} {s : St T A} (h : Inv n s) (t : T) (c : Pc A)
    (hold : wrPos (s.pc t) = none) (hold' : rdPos (s.pc t) = none)
    (hok : PcOk n s.pwrite s.pread s.dat s.tickets s.pub s.rel c)
    (hw : wrPos c = none) (hr : rdPos c = none) : Inv n { s with pc := upd s.pc t c } := by
  have key : ∀ t', wrPos (upd s.pc t c t') = wrPos (s.pc t') := by
    intro t'; simp only [upd]; split
    · rename_i e; rw [e, hold, hw]
    · rfl
  have key' : ∀ t', rdPos (upd s.pc t c t') = rdPos (s.pc t') := by
    intro t'; simp only [upd]; split
    · rename_i e; rw [e, hold', hr]
    · rfl
  exact { h with
    pc := by
      intro t'; simp only [upd]; split
      · exact hok
      · exact h.pc t'
    uw := by intro a b p; simp only [key]; exact h.uw a b p
    ur := by intro a b p; simp only [key']; exact h.ur a b p
    exw := by intro k; simp only [key]; exact h.exw k
    exr := by intro k; simp only [key']; exact h.exr k }

theorem Inv.logFail [DecidableEq T] {n : Nat} {s : St T A} (h : Inv n s) (e : Ev T A)
    (h1 : popPos e = none) (h2 : pushPos e = none) : Inv n { s with log := e :: s.log } :=
  { h with
    ev := by
      intro e' he'
      rcases List.mem_cons.1 he' with rfl | he'
      · cases e' <;> simp_all [popPos, pushPos, EvOk]
      · exact h.ev e' he'
    nd := by simp only [List.filterMap_cons, h1]; exact h.nd
    ndw := by simp only [List.filterMap_cons, h2]; exact h.ndw }

theorem getElem?_append_of_some {l : List A} {p : Nat} {x b : A} (h : l[p]? = some x) :
    (l ++ [b])[p]? = some x := by
  rw [List.getElem?_append_left (by
    apply Classical.byContradiction; intro hc
    rw [List.getElem?_eq_none (by omega)] at h; simp at h)]
  exact h

theorem Inv.step [DecidableEq T] {n : Nat} {s s' : St T A} {act : Act T A} (h : Inv n s)
    (hs : Mpmc.step s act = some s') : Inv n s' := by
  have hn := h.n2
  cases act with
  | push t a =>
    simp only [Mpmc.step] at hs
    split at hs <;> simp only [Option.some.injEq, reduceCtorEq] at hs
    rename_i hpc; subst hs
    exact h.move t _ (by rw [hpc]; rfl) (by rw [hpc]; rfl) trivial rfl rfl
  | pop t =>
    simp only [Mpmc.step] at hs
    split at hs <;> simp only [Option.some.injEq, reduceCtorEq] at hs
    rename_i hpc; subst hs
    exact h.move t _ (by rw [hpc]; rfl) (by rw [hpc]; rfl) trivial rfl rfl
  | loadIdx t v =>
    simp only [Mpmc.step] at hs
    split at hs <;> try simp only [reduceCtorEq] at hs
    all_goals
      rename_i hpc
      split at hs <;> simp only [Option.some.injEq, reduceCtorEq] at hs
      subst hs
      exact h.move t _ (by rw [hpc]; rfl) (by rw [hpc]; rfl) trivial rfl rfl
  | loadSeq t m =>
    simp only [Mpmc.step] at hs
    split at hs <;> try simp only [reduceCtorEq] at hs
    · rename_i a pw hpc
      split at hs <;> try simp only [reduceCtorEq] at hs
      rename_i v hv
      have hmem := List.mem_of_getElem? hv
      rw [h.idx] at hmem
      split at hs
      · rename_i heq
        simp only [Option.some.injEq] at hs; subst hs
        refine h.move t _ (by rw [hpc]; rfl) (by rw [hpc]; rfl) ?_ rfl rfl
        subst heq
        rcases h.hist _ _ hmem with h1 | ⟨k, hk, hp, rfl⟩ | ⟨k, hk, hr, rfl⟩
        · left; rw [h1]; exact Nat.mod_lt _ (by omega)
        · exfalso
          obtain ⟨c, hc⟩ := mod_gap hk (by omega)
          have : n ≤ (c + 1) * n := Nat.le_mul_of_pos_left n (by omega)
          omega
        · right; simpa using hr
      · split at hs <;> simp only [Option.some.injEq] at hs <;> subst hs
        · exact Inv.logFail (h.move t .idle (by rw [hpc]; rfl) (by rw [hpc]; rfl) trivial rfl rfl)
            (.full t) rfl rfl
        · exact h.move t _ (by rw [hpc]; rfl) (by rw [hpc]; rfl) trivial rfl rfl
    · rename_i pr hpc
      split at hs <;> try simp only [reduceCtorEq] at hs
      rename_i v hv
      have hmem := List.mem_of_getElem? hv
      rw [h.idx] at hmem
      split at hs
      · rename_i heq
        simp only [Option.some.injEq] at hs; subst hs
        refine h.move t _ (by rw [hpc]; rfl) (by rw [hpc]; rfl) ?_ rfl rfl
        subst heq
        rcases h.hist _ _ hmem with h1 | ⟨k, hk, hp, h2⟩ | ⟨k, hk, hr, h2⟩
        · have := Nat.mod_le pr n; omega
        · have : k = pr := by omega
          subst this; exact hp
        · exfalso
          obtain ⟨c, hc⟩ := mod_gap hk (by omega)
          have : n ≤ (c + 1) * n := Nat.le_mul_of_pos_left n (by omega)
          omega
      · split at hs <;> simp only [Option.some.injEq] at hs <;> subst hs
        · exact Inv.logFail (h.move t .idle (by rw [hpc]; rfl) (by rw [hpc]; rfl) trivial rfl rfl)
            (.empty t) rfl rfl
        · exact h.move t _ (by rw [hpc]; rfl) (by rw [hpc]; rfl) trivial rfl rfl
  | casFail t =>
    simp only [Mpmc.step] at hs
    split at hs <;> simp only [Option.some.injEq, reduceCtorEq] at hs
    all_goals
      rename_i hpc; subst hs
      exact h.move t _ (by rw [hpc]; rfl) (by rw [hpc]; rfl) trivial rfl rfl
  | casOk t =>
    simp only [Mpmc.step] at hs
    split at hs <;> try simp only [reduceCtorEq] at hs
    · rename_i a pw hpc
      split at hs <;> simp only [Option.some.injEq, reduceCtorEq] at hs
      rename_i hcas
      subst hcas; subst hs
      have hok := h.pc t
      rw [hpc] at hok
      have hlt : ∀ t' p, wrPos (s.pc t') = some p → p < s.pwrite := by
        intro t' p hw
        have := h.pc t'
        revert hw this
        cases s.pc t' <;> simp [wrPos, PcOk] <;> grind
      have hpub : s.pub s.pwrite = false := by
        cases hb : s.pub s.pwrite with
        | false => rfl
        | true => have := h.pubw _ hb; omega
      exact { h with
        len := by simp [h.len]
        pubw := fun k hk => Nat.lt_succ_of_lt (h.pubw k hk)
        round := by
          intro j c hj
          simp only at hj
          by_cases hlt : j + (c + 1) * n < s.pwrite
          · exact h.round j c hlt
          · have heq : s.pwrite = j + (c + 1) * n := by omega
            cases c with
            | zero =>
              simp only [PcOk] at hok
              rcases hok with hok | hok
              · omega
              · rw [heq] at hok
                simpa using hok
            | succ c =>
              apply h.round j c
              rw [heq, Nat.add_mul (c + 1) 1 n]
              omega
        dat := by
          intro k hk hr
          have := h.dat k hk hr
          have hkl := h.pubw k hk
          rw [List.getElem?_append_left (by rw [h.len]; exact hkl)]
          exact this
        pc := by
          intro t'
          simp only [upd]
          split
          · exact ⟨by simp, hpub, by rw [← h.len]; simp⟩
          · have := h.pc t'
            revert this
            cases s.pc t' <;> simp only [PcOk] <;> try exact id
            · rintro ⟨h1, h2, h3⟩
              exact ⟨by omega, h2, getElem?_append_of_some h3⟩
            · rintro ⟨h1, h2, h3, h4⟩
              exact ⟨by omega, h2, getElem?_append_of_some h3, h4⟩
            · rintro ⟨h1, h2, h3⟩
              refine ⟨h1, h2, ?_⟩
              rw [List.getElem?_append_left (by rw [h.len]; exact h.pubw _ (h.readp _ h1))]
              exact h3
        uw := by
          intro t1 t2 p
          simp only [upd]
          split <;> split
          · intros; simp_all
          · intro h1 h2
            have := hlt t2 p h2
            simp only [wrPos, Option.some.injEq] at h1; omega
          · intro h1 h2
            have := hlt t1 p h1
            simp only [wrPos, Option.some.injEq] at h2; omega
          · exact h.uw t1 t2 p
        ur := by
          intro t1 t2 p
          simp only [upd]
          split <;> split <;> simp only [rdPos, reduceCtorEq, false_implies, implies_true]
          exact h.ur t1 t2 p
        exw := by
          intro k hk hp
          simp only at hk
          by_cases hkw : k = s.pwrite
          · exact ⟨t, by simp only [upd_same, hkw]; rfl⟩
          · obtain ⟨t', ht'⟩ := h.exw k (by omega) hp
            refine ⟨t', ?_⟩
            dsimp only
            rw [upd_ne]
            · exact ht'
            · rintro rfl
              rw [hpc] at ht'
              simp [wrPos] at ht'
        exr := by
          intro k hk hp
          obtain ⟨t', ht'⟩ := h.exr k hk hp
          refine ⟨t', ?_⟩
          dsimp only
          rw [upd_ne]
          · exact ht'
          · rintro rfl
            rw [hpc] at ht'
            simp [rdPos] at ht'
        ev := by
          intro e he
          have := h.ev e he
          revert this
          cases e <;> simp only [EvOk] <;> try exact id
          · rintro ⟨h1, h2⟩
            exact ⟨h1, getElem?_append_of_some h2⟩
          · rintro ⟨h1, h2⟩
            refine ⟨h1, ?_⟩
            rw [List.getElem?_append_left (by rw [h.len]; exact h.pubw _ (h.relp _ h1).1)]
            exact h2 }
    · rename_i pr hpc
      split at hs <;> simp only [Option.some.injEq, reduceCtorEq] at hs
      rename_i hcas
      subst hcas; subst hs
      have hok := h.pc t
      rw [hpc] at hok
      simp only [PcOk] at hok
      have hlt : ∀ t' p, rdPos (s.pc t') = some p → p < s.pread := by
        intro t' p hw
        have := h.pc t'
        revert hw this
        cases s.pc t' <;> simp [rdPos, PcOk] <;> grind
      have hrel : s.rel s.pread = false := by
        cases hb : s.rel s.pread with
        | false => rfl
        | true => have := (h.relp _ hb).2; omega
      exact { h with
        relp := fun k hk => ⟨(h.relp k hk).1, Nat.lt_succ_of_lt (h.relp k hk).2⟩
        readp := by
          intro k hk
          simp only at hk
          by_cases hkw : k = s.pread
          · rw [hkw]; exact hok
          · exact h.readp k (by omega)
        pc := by
          intro t'
          simp only [upd]
          split
          · exact ⟨by simp, hrel⟩
          · have := h.pc t'
            revert this
            cases s.pc t' <;> simp only [PcOk] <;> try exact id
            · rintro ⟨h1, h2⟩; exact ⟨by omega, h2⟩
            · rintro ⟨h1, h2, h3⟩; exact ⟨by omega, h2, h3⟩
        ur := by
          intro t1 t2 p
          simp only [upd]
          split <;> split
          · intros; simp_all
          · intro h1 h2
            have := hlt t2 p h2
            simp only [rdPos, Option.some.injEq] at h1; omega
          · intro h1 h2
            have := hlt t1 p h1
            simp only [rdPos, Option.some.injEq] at h2; omega
          · exact h.ur t1 t2 p
        uw := by
          intro t1 t2 p
          simp only [upd]
          split <;> split <;> simp only [wrPos, reduceCtorEq, false_implies, implies_true]
          exact h.uw t1 t2 p
        exr := by
          intro k hk hp
          simp only at hk
          by_cases hkw : k = s.pread
          · exact ⟨t, by simp only [upd_same, hkw]; rfl⟩
          · obtain ⟨t', ht'⟩ := h.exr k (by omega) hp
            refine ⟨t', ?_⟩
            dsimp only
            rw [upd_ne]
            · exact ht'
            · rintro rfl
              rw [hpc] at ht'
              simp [rdPos] at ht'
        exw := by
          intro k hk hp
          obtain ⟨t', ht'⟩ := h.exw k hk hp
          refine ⟨t', ?_⟩
          dsimp only
          rw [upd_ne]
          · exact ht'
          · rintro rfl
            rw [hpc] at ht'
            simp [wrPos] at ht' }
  | data t =>
    simp only [Mpmc.step] at hs
    split at hs <;> simp only [Option.some.injEq, reduceCtorEq] at hs
    · rename_i a pw hpc
      subst hs
      have hok := h.pc t
      rw [hpc] at hok
      obtain ⟨hlt, hnp, htk⟩ := hok
      have hw : ∀ t', wrPos (upd s.pc t (.pSt a pw) t') = wrPos (s.pc t') := by
        intro t'; simp only [upd]; split
        · rename_i e; rw [e, hpc]; rfl
        · rfl
      have hr : ∀ t', rdPos (upd s.pc t (.pSt a pw) t') = rdPos (s.pc t') := by
        intro t'; simp only [upd]; split
        · rename_i e; rw [e, hpc]; rfl
        · rfl
      exact { h with
        dat := by
          intro k hk hrk
          simp only [h.idx, upd]
          split
          · rename_i he
            exfalso
            rcases Nat.lt_trichotomy k pw with hl | hl | hl
            · obtain ⟨c, hc⟩ := mod_gap he hl
              have := h.round k c (by omega)
              rw [this] at hrk; simp at hrk
            · subst hl; rw [hnp] at hk; simp at hk
            · obtain ⟨c, hc⟩ := mod_gap he.symm hl
              have hkl := h.pubw k hk
              have := (h.relp _ (h.round pw c (by omega))).1
              rw [this] at hnp; simp at hnp
          · exact h.dat k hk hrk
        pc := by
          intro t'
          simp only [upd]
          split
          · exact ⟨hlt, hnp, htk, by simp only [h.idx, upd_same]⟩
          · rename_i hne
            have := h.pc t'
            have hu := h.uw t t'
            revert this hu
            cases s.pc t' <;> simp only [PcOk, hpc] <;> try exact fun x _ => x
            · rename_i a' p'
              rintro ⟨h1, h2, h3, h4⟩ hu
              refine ⟨h1, h2, h3, ?_⟩
              rw [h.idx]
              simp only [upd]
              split
              · rename_i he
                exfalso
                rcases Nat.lt_trichotomy p' pw with hl | hl | hl
                · obtain ⟨c, hc⟩ := mod_gap he hl
                  have := (h.relp _ (h.round p' c (by omega))).1
                  rw [this] at h2; simp at h2
                · exact hne (hu pw rfl (by rw [hl]; rfl)).symm
                · obtain ⟨c, hc⟩ := mod_gap he.symm hl
                  have := (h.relp _ (h.round pw c (by omega))).1
                  rw [this] at hnp; simp at hnp
              · exact h4
        uw := by intro a b p; simp only [hw]; exact h.uw a b p
        ur := by intro a b p; simp only [hr]; exact h.ur a b p
        exw := by intro k; simp only [hw]; exact h.exw k
        exr := by intro k; simp only [hr]; exact h.exr k }
    · rename_i pr hpc
      subst hs
      have hok := h.pc t
      rw [hpc] at hok
      obtain ⟨hlt, hnr⟩ := hok
      have hw : ∀ x t', wrPos (upd s.pc t (.cSt pr x) t') = wrPos (s.pc t') := by
        intro x t'; simp only [upd]; split
        · rename_i e; rw [e, hpc]; rfl
        · rfl
      have hr : ∀ x t', rdPos (upd s.pc t (.cSt pr x) t') = rdPos (s.pc t') := by
        intro x t'; simp only [upd]; split
        · rename_i e; rw [e, hpc]; rfl
        · rfl
      exact { h with
        pc := by
          intro t'
          simp only [upd]
          split
          · refine ⟨hlt, hnr, ?_⟩
            rw [h.idx]
            exact h.dat pr (h.readp _ hlt) hnr
          · exact h.pc t'
        uw := by intro a b p; simp only [hw]; exact h.uw a b p
        ur := by intro a b p; simp only [hr]; exact h.ur a b p
        exw := by intro k; simp only [hw]; exact h.exw k
        exr := by intro k; simp only [hr]; exact h.exr k }
  | store t =>
    simp only [Mpmc.step] at hs
    split at hs <;> simp only [Option.some.injEq, reduceCtorEq] at hs
    · rename_i a p hpc
      subst hs
      have hok := h.pc t
      rw [hpc] at hok
      obtain ⟨hlt, hnp, htk, hdt⟩ := hok
      have hnr : s.rel p = false := by
        cases hb : s.rel p with
        | false => rfl
        | true => have := (h.relp _ hb).1; rw [this] at hnp; simp at hnp
      have hw : ∀ t' q, wrPos (upd s.pc t .idle t') = some q ↔ wrPos (s.pc t') = some q ∧ q ≠ p := by
        intro t' q
        simp only [upd]; split
        · rename_i e; subst e; rw [hpc]; simp [wrPos]; omega
        · rename_i hne
          constructor
          · intro hq
            refine ⟨hq, ?_⟩
            rintro rfl
            exact hne (h.uw t' t q hq (by rw [hpc]; rfl))
          · exact fun x => x.1
      have hr : ∀ t', rdPos (upd s.pc t .idle t') = rdPos (s.pc t') := by
        intro t'; simp only [upd]; split
        · rename_i e; rw [e, hpc]; rfl
        · rfl
      exact { h with
        pubw := by
          intro k hk
          rcases upd_true.1 hk with rfl | hk
          · exact hlt
          · exact h.pubw k hk
        relp := fun k hk => ⟨upd_true.2 (Or.inr (h.relp k hk).1), (h.relp k hk).2⟩
        readp := fun k hk => upd_true.2 (Or.inr (h.readp k hk))
        hist := by
          intro i v hv
          simp only [h.idx, upd] at hv
          split at hv
          · rename_i hi
            rcases List.mem_cons.1 hv with rfl | hv
            · exact Or.inr (Or.inl ⟨p, hi.symm, upd_true.2 (Or.inl rfl), rfl⟩)
            · rw [← hi] at hv
              rcases h.hist i v hv with h1 | ⟨k, h1, h2, h3⟩ | h1
              · exact Or.inl h1
              · exact Or.inr (Or.inl ⟨k, h1, upd_true.2 (Or.inr h2), h3⟩)
              · exact Or.inr (Or.inr h1)
          · rcases h.hist i v hv with h1 | ⟨k, h1, h2, h3⟩ | h1
            · exact Or.inl h1
            · exact Or.inr (Or.inl ⟨k, h1, upd_true.2 (Or.inr h2), h3⟩)
            · exact Or.inr (Or.inr h1)
        cur := by
          intro i hi
          simp only [h.idx]
          by_cases he : i = p % n
          · refine ⟨p, he.symm, Or.inr ⟨?_, upd_true.2 (Or.inl rfl), hnr⟩⟩
            rw [he, upd_same]; rfl
          · rw [upd_ne _ _ _ _ he]
            obtain ⟨k, hk, hc⟩ := h.cur i hi
            have hkp : k ≠ p := by rintro rfl; exact he hk.symm
            refine ⟨k, hk, ?_⟩
            rw [upd_ne _ _ _ _ hkp]
            exact hc
        dat := by
          intro k hk hrk
          rcases upd_true.1 hk with rfl | hk
          · rw [htk]; exact hdt
          · exact h.dat k hk hrk
        pc := by
          intro t'
          have := h.pc t'
          have hu := h.uw t t'
          simp only [upd]
          split
          · trivial
          · rename_i hne
            revert this hu
            cases s.pc t' <;> simp only [PcOk, hpc] <;> try exact fun x _ => x
            · rename_i a' p'
              rintro ⟨h1, h2, h3⟩ hu
              refine ⟨h1, ?_, h3⟩
              simp only [upd]
              split
              · rename_i e; exact absurd (hu p rfl (by rw [e]; rfl)).symm hne
              · exact h2
            · rename_i a' p'
              rintro ⟨h1, h2, h3⟩ hu
              refine ⟨h1, ?_, h3⟩
              simp only [upd]
              split
              · rename_i e; exact absurd (hu p rfl (by rw [e]; rfl)).symm hne
              · exact h2
            · rename_i q
              intro h1 _
              simp only [upd]
              split
              · rfl
              · exact h1
        uw := by
          intro a b q h1 h2
          exact h.uw a b q ((hw a q).1 h1).1 ((hw b q).1 h2).1
        ur := by intro a b q; simp only [hr]; exact h.ur a b q
        exw := by
          intro k hk hp
          obtain ⟨h1, h2⟩ := upd_false.1 hp
          obtain ⟨t', ht'⟩ := h.exw k hk h2
          exact ⟨t', (hw t' k).2 ⟨ht', h1⟩⟩
        exr := by intro k; simp only [hr]; exact h.exr k
        ev := by
          intro e he
          rcases List.mem_cons.1 he with rfl | he
          · exact ⟨upd_true.2 (Or.inl rfl), htk⟩
          · have := h.ev e he
            revert this
            cases e <;> simp only [EvOk] <;> try exact id
            rintro ⟨h1, h2⟩
            exact ⟨upd_true.2 (Or.inr h1), h2⟩
        nd := by simp only [List.filterMap_cons, popPos]; exact h.nd
        ndw := by
          simp only [List.filterMap_cons, pushPos, List.nodup_cons]
          refine ⟨?_, h.ndw⟩
          intro hm
          obtain ⟨e, he, hpe⟩ := List.mem_filterMap.1 hm
          have := h.ev e he
          cases e <;> simp only [pushPos, reduceCtorEq, Option.some.injEq] at hpe
          subst hpe
          have := this.1
          rw [this] at hnp; simp at hnp }
    · rename_i p x hpc
      subst hs
      have hok := h.pc t
      rw [hpc] at hok
      obtain ⟨hlt, hnr, hx⟩ := hok
      have hpub := h.readp p hlt
      have hr : ∀ t' q, rdPos (upd s.pc t .idle t') = some q ↔ rdPos (s.pc t') = some q ∧ q ≠ p := by
        intro t' q
        simp only [upd]; split
        · rename_i e; subst e; rw [hpc]; simp [rdPos]; omega
        · rename_i hne
          constructor
          · intro hq
            refine ⟨hq, ?_⟩
            rintro rfl
            exact hne (h.ur t' t q hq (by rw [hpc]; rfl))
          · exact fun x => x.1
      have hw : ∀ t', wrPos (upd s.pc t .idle t') = wrPos (s.pc t') := by
        intro t'; simp only [upd]; split
        · rename_i e; rw [e, hpc]; rfl
        · rfl
      exact { h with
        relp := by
          intro k hk
          rcases upd_true.1 hk with rfl | hk
          · exact ⟨hpub, hlt⟩
          · exact h.relp k hk
        round := fun j c hj => upd_true.2 (Or.inr (h.round j c hj))
        hist := by
          intro i v hv
          simp only [h.idx, upd] at hv
          split at hv
          · rename_i hi
            rcases List.mem_cons.1 hv with rfl | hv
            · refine Or.inr (Or.inr ⟨p, hi.symm, upd_true.2 (Or.inl rfl), ?_⟩)
              have := h.mask; omega
            · rw [← hi] at hv
              rcases h.hist i v hv with h1 | h1 | ⟨k, h1, h2, h3⟩
              · exact Or.inl h1
              · exact Or.inr (Or.inl h1)
              · exact Or.inr (Or.inr ⟨k, h1, upd_true.2 (Or.inr h2), h3⟩)
          · rcases h.hist i v hv with h1 | h1 | ⟨k, h1, h2, h3⟩
            · exact Or.inl h1
            · exact Or.inr (Or.inl h1)
            · exact Or.inr (Or.inr ⟨k, h1, upd_true.2 (Or.inr h2), h3⟩)
        cur := by
          intro i hi
          simp only [h.idx]
          by_cases he : i = p % n
          · refine ⟨p + n, by simp [he], Or.inl ⟨?_, ?_, Or.inr ?_⟩⟩
            · rw [he, upd_same]
              have := h.mask
              simp only [List.head?_cons, Option.some.injEq]; omega
            · cases hb : s.pub (p + n) with
              | false => rfl
              | true =>
                have := h.pubw _ hb
                have := h.round p 0 (by omega)
                rw [this] at hnr; simp at hnr
            · exact upd_true.2 (Or.inl (by omega))
          · rw [upd_ne _ _ _ _ he]
            obtain ⟨k, hk, hc⟩ := h.cur i hi
            have hkp : k ≠ p := by rintro rfl; exact he hk.symm
            refine ⟨k, hk, ?_⟩
            rw [upd_ne _ _ k _ hkp]
            rcases hc with ⟨h1, h2, h3⟩ | hc
            · exact Or.inl ⟨h1, h2, h3.imp id fun h4 => upd_true.2 (Or.inr h4)⟩
            · exact Or.inr hc
        dat := fun k hk hrk => h.dat k hk (upd_false.1 hrk).2
        pc := by
          intro t'
          have := h.pc t'
          have hu := h.ur t t'
          simp only [upd]
          split
          · trivial
          · rename_i hne
            revert this hu
            cases s.pc t' <;> simp only [PcOk, hpc] <;> try exact fun x _ => x
            · rename_i a' p'
              rintro h1 _
              rcases h1 with h1 | h1
              · exact Or.inl h1
              · right; simp only [upd]; split
                · rfl
                · exact h1
            · rename_i p'
              rintro ⟨h1, h2⟩ hu
              refine ⟨h1, ?_⟩
              simp only [upd]
              split
              · rename_i e; exact absurd (hu p rfl (by rw [e]; rfl)).symm hne
              · exact h2
            · rename_i p' x'
              rintro ⟨h1, h2, h3⟩ hu
              refine ⟨h1, ?_, h3⟩
              simp only [upd]
              split
              · rename_i e; exact absurd (hu p rfl (by rw [e]; rfl)).symm hne
              · exact h2
        uw := by intro a b q; simp only [hw]; exact h.uw a b q
        ur := by
          intro a b q h1 h2
          exact h.ur a b q ((hr a q).1 h1).1 ((hr b q).1 h2).1
        exw := by intro k; simp only [hw]; exact h.exw k
        exr := by
          intro k hk hp
          obtain ⟨h1, h2⟩ := upd_false.1 hp
          obtain ⟨t', ht'⟩ := h.exr k hk h2
          exact ⟨t', (hr t' k).2 ⟨ht', h1⟩⟩
        ev := by
          intro e he
          rcases List.mem_cons.1 he with rfl | he
          · exact ⟨upd_true.2 (Or.inl rfl), hx⟩
          · have := h.ev e he
            revert this
            cases e <;> simp only [EvOk] <;> try exact id
            rintro ⟨h1, h2⟩
            exact ⟨upd_true.2 (Or.inr h1), h2⟩
        ndw := by simp only [List.filterMap_cons, pushPos]; exact h.ndw
        nd := by
          simp only [List.filterMap_cons, popPos, List.nodup_cons]
          refine ⟨?_, h.nd⟩
          intro hm
          obtain ⟨e, he, hpe⟩ := List.mem_filterMap.1 hm
          have := h.ev e he
          cases e <;> simp only [popPos, reduceCtorEq, Option.some.injEq] at hpe
          subst hpe
          have := this.1
          rw [this] at hnr; simp at hnr }

end FF.Mpmc
