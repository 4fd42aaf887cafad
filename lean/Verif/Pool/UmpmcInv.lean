/-
The invariant of `uMPMC_Ptr_Queue` (C61).
-/
import Verif.Pool.Umpmc

namespace FF.Umpmc

variable {T A : Type}

/-- The position a thread is pushing at. -/
def Pc.posP : Pc A → Option Nat
  | .pIn _ pw | .pSt _ pw => some pw
  | _ => none

/-- The position a thread is popping at. -/
def Pc.posC : Pc A → Option Nat
  | .cIn pr | .cSt pr _ => some pr
  | _ => none

/-- What a thread knows.  `w i`, `r i`: the next position to be stored in, to be taken from, inner queue `i`. -/
def PcOk (n : Nat) (s : St T A) (w r : Nat → Nat) : Pc A → Prop
  | .pCas _ pw => pw ≤ s.seqP (pw % n)
  | .pIn a pw => pw < s.preadP ∧ s.seqP (pw % n) = pw ∧ w (pw % n) = pw ∧ s.tickets[pw]? = some a
  | .pSt a pw => pw < s.preadP ∧ s.seqP (pw % n) = pw ∧ w (pw % n) = pw + n ∧ s.tickets[pw]? = some a
  | .cTest pr => pr ≤ s.seqC (pr % n)
  | .cCas pr => pr ≤ s.seqC (pr % n) ∧ pr < s.seqP (pr % n)
  | .cIn pr => pr < s.preadC ∧ s.seqC (pr % n) = pr ∧ r (pr % n) = pr ∧ pr < s.seqP (pr % n)
  | .cSt pr x => pr < s.preadC ∧ s.seqC (pr % n) = pr ∧ r (pr % n) = pr + n ∧ pr < s.seqP (pr % n) ∧
      x = s.tickets[pr]?
  | _ => True

structure Inv (n : Nat) (s : St T A) (w r : Nat → Nat) : Prop where
  n0 : 0 < n
  len : s.tickets.length = s.preadP
  mP : ∀ i < n, s.seqP i % n = i
  mC : ∀ i < n, s.seqC i % n = i
  bP : ∀ i < n, s.seqP i < s.preadP + n ∧ s.preadP ≤ s.seqP i + n
  bC : ∀ i < n, s.seqC i < s.preadC + n ∧ s.preadC ≤ s.seqC i + n
  hw : ∀ i < n, w i = s.seqP i ∨ (w i = s.seqP i + n ∧ s.seqP i < s.preadP)
  hr : ∀ i < n, r i = s.seqC i ∨ (r i = s.seqC i + n ∧ s.seqC i < s.preadC)
  ln : ∀ i < n, r i + (s.sub i).length * n = w i
  el : ∀ i < n, ∀ j < (s.sub i).length, (s.sub i)[j]? = s.tickets[r i + j * n]?
  pc : ∀ t, PcOk n s w r (s.pc t)
  uP : ∀ t t' p, (s.pc t).posP = some p → (s.pc t').posP = some p → t = t'
  uC : ∀ t t' p, (s.pc t).posC = some p → (s.pc t').posC = some p → t = t'
  eP : ∀ i < n, s.seqP i < s.preadP → ∃ t, (s.pc t).posP = some (s.seqP i)
  eC : ∀ i < n, s.seqC i < s.preadC → ∃ t, (s.pc t).posC = some (s.seqC i)
  evP : ∀ t p a, Ev.pushed t p a ∈ s.log → s.tickets[p]? = some a ∧ p < s.seqP (p % n)
  evC : ∀ t p x, Ev.popped t p x ∈ s.log →
    x = s.tickets[p]? ∧ p < s.seqC (p % n) ∧ p < s.seqP (p % n)
  ndP : ((accepted s.log).map Prod.fst).Nodup
  ndC : ((popped s.log).map Prod.fst).Nodup
  cvP : ∀ p, p < s.seqP (p % n) → ∃ a, (p, a) ∈ accepted s.log
  cvC : ∀ p, p < s.seqC (p % n) → ∃ x, (p, x) ∈ popped s.log

theorem upd_same {I V : Type} [DecidableEq I] (f : I → V) (i : I) (v : V) : upd f i v i = v := by
  simp [upd]

theorem upd_ne {I V : Type} [DecidableEq I] (f : I → V) {i j : I} (v : V) (h : j ≠ i) :
    upd f i v j = f j := by simp [upd, h]

theorem mem_accepted {l : List (Ev T A)} {p : Nat} {a : A} :
    (p, a) ∈ accepted l ↔ ∃ t, Ev.pushed t p a ∈ l := by
  induction l with
  | nil => simp [accepted]
  | cons e l ih =>
    cases e with
    | pushed t' p' a' =>
      simp only [accepted, List.mem_cons, Prod.mk.injEq, ih, Ev.pushed.injEq]
      constructor
      · rintro (⟨rfl, rfl⟩ | ⟨t, h⟩)
        · exact ⟨t', Or.inl ⟨rfl, rfl, rfl⟩⟩
        · exact ⟨t, Or.inr h⟩
      · rintro ⟨t, ⟨_, h1, h2⟩ | h⟩
        · exact Or.inl ⟨h1, h2⟩
        · exact Or.inr ⟨t, h⟩
    | popped _ _ _ => simp [accepted, ih]
    | empty _ => simp [accepted, ih]

theorem mem_popped {l : List (Ev T A)} {p : Nat} {x : Option A} :
    (p, x) ∈ popped l ↔ ∃ t, Ev.popped t p x ∈ l := by
  induction l with
  | nil => simp [popped]
  | cons e l ih =>
    cases e with
    | popped t' p' a' =>
      simp only [popped, List.mem_cons, Prod.mk.injEq, ih, Ev.popped.injEq]
      constructor
      · rintro (⟨rfl, rfl⟩ | ⟨t, h⟩)
        · exact ⟨t', Or.inl ⟨rfl, rfl, rfl⟩⟩
        · exact ⟨t, Or.inr h⟩
      · rintro ⟨t, ⟨_, h1, h2⟩ | h⟩
        · exact Or.inl ⟨h1, h2⟩
        · exact Or.inr ⟨t, h⟩
    | pushed _ _ _ => simp [popped, ih]
    | empty _ => simp [popped, ih]

/-- Two positions of the same inner queue differ by at least `n`. -/
theorem apart {n a b : Nat} (hm : a % n = b % n) (h : a < b) : a + n ≤ b := by
  have h1 : (b - a) % n = 0 := Nat.sub_mod_eq_zero_of_mod_eq hm.symm
  have := Nat.le_of_dvd (by omega) (Nat.dvd_of_mod_eq_zero h1)
  omega

theorem init_inv {n : Nat} (hn : 0 < n) : Inv n (init T A) id id where
  n0 := hn
  len := rfl
  mP i hi := Nat.mod_eq_of_lt hi
  mC i hi := Nat.mod_eq_of_lt hi
  bP i hi := by simp [init]; exact hi
  bC i hi := by simp [init]; exact hi
  hw i _ := Or.inl rfl
  hr i _ := Or.inl rfl
  ln i _ := by simp [init]
  el i _ j hj := by simp [init] at hj
  pc t := trivial
  uP t t' p h := by simp [init, Pc.posP] at h
  uC t t' p h := by simp [init, Pc.posC] at h
  eP i _ h := by simp [init] at h
  eC i _ h := by simp [init] at h
  evP t p a h := by simp [init] at h
  evC t p a h := by simp [init] at h
  ndP := by simp [init, accepted]
  ndC := by simp [init, popped]
  cvP p h := by simp [init] at h; exact absurd (Nat.mod_le p n) (by omega)
  cvC p h := by simp [init] at h; exact absurd (Nat.mod_le p n) (by omega)

variable [DecidableEq T]

/-- A step that only moves a thread between places without position. -/
theorem Inv.move {n : Nat} {s : St T A} {w r : Nat → Nat} (hI : Inv n s w r) (t : T) (c : Pc A)
    (hp : (s.pc t).posP = none) (hc : (s.pc t).posC = none) (hp' : c.posP = none)
    (hc' : c.posC = none) (hok : PcOk n s w r c) : Inv n { s with pc := upd s.pc t c } w r :=
  { hI with
    pc := fun u => by
      by_cases h : u = t
      · subst h
        have e : upd s.pc u c u = c := upd_same _ _ _
        show PcOk n _ w r (upd s.pc u c u)
        rw [e]
        revert hok
        cases c <;> exact id
      · have e : upd s.pc t c u = s.pc u := upd_ne _ _ h
        show PcOk n _ w r (upd s.pc t c u)
        rw [e]
        have := hI.pc u
        revert this
        cases s.pc u <;> exact id
    uP := fun u u' p h h' => by
      have : ∀ u, (upd s.pc t c u).posP = some p → (s.pc u).posP = some p := by
        intro u h
        by_cases hu : u = t
        · subst hu; rw [upd_same, hp'] at h; cases h
        · rwa [upd_ne _ _ hu] at h
      exact hI.uP u u' p (this u h) (this u' h')
    uC := fun u u' p h h' => by
      have : ∀ u, (upd s.pc t c u).posC = some p → (s.pc u).posC = some p := by
        intro u h
        by_cases hu : u = t
        · subst hu; rw [upd_same, hc'] at h; cases h
        · rwa [upd_ne _ _ hu] at h
      exact hI.uC u u' p (this u h) (this u' h')
    eP := fun i hi h => by
      obtain ⟨u, hu⟩ := hI.eP i hi h
      refine ⟨u, ?_⟩
      have : u ≠ t := by rintro rfl; rw [hp] at hu; cases hu
      show (upd s.pc t c u).posP = _
      rw [upd_ne _ _ this]; exact hu
    eC := fun i hi h => by
      obtain ⟨u, hu⟩ := hI.eC i hi h
      refine ⟨u, ?_⟩
      have : u ≠ t := by rintro rfl; rw [hc] at hu; cases hu
      show (upd s.pc t c u).posC = _
      rw [upd_ne _ _ this]; exact hu }

/-- Adding an `empty` answer to the history. -/
theorem Inv.empty {n : Nat} {s : St T A} {w r : Nat → Nat} (hI : Inv n s w r) (t : T) :
    Inv n { s with log := .empty t :: s.log } w r :=
  { hI with
    pc := fun u => by
      have := hI.pc u
      revert this
      cases hu : s.pc u <;> simp only [PcOk, hu] <;> exact id
    evP := fun u p a h => hI.evP u p a (by simpa using h)
    evC := fun u p a h => hI.evC u p a (by simpa using h)
    ndP := by simpa [accepted] using hI.ndP
    ndC := by simpa [popped] using hI.ndC
    cvP := fun p h => by simpa [accepted] using hI.cvP p h
    cvC := fun p h => by simpa [popped] using hI.cvC p h }

end FF.Umpmc
