import Verif.Parfor.For
/-!
# Loops with the default static scheduling complete, also over an empty range (C30)
-/
namespace FF.Parfor
open FF.Farm (sumN)
open FF.Node (upd)

variable {P : Par}

/-- a worker of a loop with an empty range: nobody else changes its entry of the table -/
structure EInv2 (P : Par) (s : A) : Prop where
  inv : EInv P s
  own : ∀ w id old, w < P.nw → s.pc w = .cas id old → (s.d w).start = old

/-- steps a worker of a loop with an empty range still has to make -/
def erank : PC → Nat
  | .run _ _ => 5
  | .l1 _ => 4
  | .ld _ => 3
  | .cas _ _ => 2
  | .sub _ _ => 1
  | _ => 0

def emeas (P : Par) (s : A) : Nat := sumN (fun w => erank (s.pc w)) P.nw

theorem emeas_move {s : A} {w : Nat} {p : PC} {d : Nat → Range} {l : List (Nat × Int)} {a b : Nat} (hw : w < P.nw)
    (ha : erank (s.pc w) = a) (hb : erank p = b) :
    emeas P ⟨d, upd s.pc w p, l⟩ + a = emeas P s + b :=
  sum_move erank s.pc hw rfl ha hb

theorem EInv2.step {s s' : A} {a : Act} (hst : P.static = true) (h : EInv2 P s)
    (ha : Parfor.step P s a = some s') :
    EInv2 P s' ∧ emeas P s' + 1 ≤ emeas P s + (if a.spurious then 6 else 0) := by
  have haw : P.away = .out := by unfold Par.away; rw [hst]; rfl
  have hi' := h.inv.step hst ha
  -- a step of `w` that does not change the table
  have still : ∀ w p, w < P.nw → (∀ id old, p = .cas id old → (s.d w).start = old) →
      ∀ v id old, v < P.nw → upd s.pc w p v = .cas id old → (s.d v).start = old := by
    intro w p hw hp v id old hv hc
    by_cases hvw : v = w
    · subst hvw; simp only [upd, if_true] at hc; exact hp id old hc
    · simp only [upd, if_neg hvw] at hc; exact h.own v id old hv hc
  -- a step of `w` that changes its own entry
  have own : ∀ w p r, w < P.nw → (∀ id old, p ≠ .cas id old) →
      ∀ v id old, v < P.nw → upd s.pc w p v = .cas id old → (upd s.d w r v).start = old := by
    intro w p r hw hp v id old hv hc
    by_cases hvw : v = w
    · subst hvw; simp only [upd, if_true] at hc; exact absurd hc (hp id old)
    · simp only [upd, if_neg hvw] at hc ⊢; exact h.own v id old hv hc
  cases a with
  | pick w m =>
    simp only [Parfor.step] at ha
    split at ha
    · rename_i hc
      have := h.inv.ok w hc.1
      rw [hc.2.2] at this; exact this.elim
    · simp at ha
  | casFail w =>
    simp only [Parfor.step] at ha
    split at ha
    · rename_i hw
      split at ha
      · rename_i id old hp
        simp only [Option.some.injEq] at ha; subst ha
        refine ⟨⟨hi', still w _ hw (by simp)⟩, ?_⟩
        have := emeas_move (P := P) (s := s) (p := .l1 id) (d := s.d) (l := s.log) hw (by rw [hp]; rfl : _ = 2) (rfl : _ = 4)
        simp only [Act.spurious, if_true]
        omega
      · simp at ha
    · simp at ha
  | go w =>
    simp only [Parfor.step] at ha
    split at ha
    swap
    · simp at ha
    rename_i hw
    unfold go at ha
    have ho := h.inv.ok w hw
    simp only [Act.spurious, Bool.false_eq_true, if_false, Nat.add_zero]
    cases hp : s.pc w with
    | idle => rw [hp] at ha; simp at ha
    | mx => rw [hp] at ha; simp at ha
    | out => rw [hp] at ha; simp at ha
    | nt m => rw [hp] at ho; exact ho.elim
    | run cur stop =>
      rw [hp] at ha ho
      dsimp only at ha
      have ho : stop ≤ cur ∧ _ := ho
      rw [if_neg (by omega)] at ha
      simp only [Option.some.injEq] at ha; subst ha
      refine ⟨⟨hi', still w _ hw (by simp)⟩, ?_⟩
      have := emeas_move (P := P) (s := s) (p := .l1 w) (d := s.d) (l := s.log) hw (by rw [hp]; rfl : _ = 5) (rfl : _ = 4)
      omega
    | l1 id =>
      rw [hp] at ha ho; simp only [Option.some.injEq] at ha; subst ha
      by_cases hn : 0 < (s.d id).ntask
      · rw [if_pos hn] at hi' ⊢
        refine ⟨⟨hi', still w _ hw (by simp)⟩, ?_⟩
        have := emeas_move (P := P) (s := s) (p := .ld id) (d := s.d) (l := s.log) hw (by rw [hp]; rfl : _ = 4) (rfl : _ = 3)
        omega
      · rw [if_neg hn, haw] at hi' ⊢
        refine ⟨⟨hi', still w _ hw (by simp)⟩, ?_⟩
        have := emeas_move (P := P) (s := s) (p := .out) (d := s.d) (l := s.log) hw (by rw [hp]; rfl : _ = 4) (rfl : _ = 0)
        omega
    | ld id =>
      rw [hp] at ha ho; simp only [Option.some.injEq] at ha; subst ha
      obtain ⟨rfl, ho⟩ := ho
      refine ⟨⟨hi', still id _ hw (by rintro _ _ h; injection h)⟩, ?_⟩
      have := emeas_move (P := P) (s := s) (p := .cas id (s.d id).start) (d := s.d) (l := s.log) hw
        (by rw [hp]; rfl : _ = 3) (rfl : _ = 2)
      omega
    | cas id old =>
      rw [hp] at ha ho
      obtain ⟨rfl, h1, h2, h3⟩ := ho
      dsimp only at ha
      rw [if_pos (h.own id id old hw hp)] at ha
      simp only [Option.some.injEq] at ha; subst ha
      refine ⟨⟨hi', own id _ _ hw (by simp)⟩, ?_⟩
      have := emeas_move (P := P) (s := s) (p := .sub id old)
        (d := upd s.d id { s.d id with start := P.next (s.d id).stop old }) (l := s.log) hw
        (by rw [hp]; rfl : _ = 2) (rfl : _ = 1)
      exact Nat.le_of_eq (Nat.add_right_cancel (m := 1) this)
    | sub id old =>
      rw [hp] at ha ho
      obtain ⟨rfl, h1, h2⟩ := ho
      simp only [Option.some.injEq] at ha; subst ha
      have hc : ¬ old < P.endOf (s.d id).stop old := by
        unfold Par.endOf; rw [min_def']; split <;> omega
      rw [if_neg hc, haw] at hi' ⊢
      refine ⟨⟨hi', own id _ _ hw (by simp)⟩, ?_⟩
      have := emeas_move (P := P) (s := s) (p := .out)
        (d := upd s.d id { s.d id with ntask := (s.d id).ntask - 1 }) (l := s.log) hw
        (by rw [hp]; rfl : _ = 1) (rfl : _ = 0)
      exact Nat.le_of_eq this

theorem EInv2.bound {s s' : A} (hst : P.static = true) (acts : List Act) (h : EInv2 P s)
    (he : exec (Parfor.step P) s acts = some s') :
    acts.length ≤ emeas P s + 6 * acts.countP Act.spurious ∧ EInv2 P s' := by
  induction acts generalizing s with
  | nil => simp only [exec, Option.some.injEq] at he; subst he; exact ⟨by simp, h⟩
  | cons a acts ih =>
    simp only [exec] at he
    split at he
    · simp at he
    rename_i s1 h1
    obtain ⟨h2, hm⟩ := h.step hst h1
    obtain ⟨hi, h3⟩ := ih h2 he
    refine ⟨?_, h3⟩
    simp only [List.length_cons, List.countP_cons]
    cases ha : a.spurious <;> rw [ha] at hm <;> simp at hm ⊢ <;> omega

theorem EInv2.progress {s : A} (h : EInv2 P s) {w : Nat} (hw : w < P.nw) (hp : s.pc w ≠ .out) :
    ∃ a s', a.spurious = false ∧ Parfor.step P s a = some s' := by
  have ho := h.inv.ok w hw
  have key : ∃ s', go P s w = some s' := by
    unfold go
    cases hc : s.pc w with
    | out => exact absurd hc hp
    | idle => rw [hc] at ho; exact ho.elim
    | mx => rw [hc] at ho; exact ho.elim
    | nt m => rw [hc] at ho; exact ho.elim
    | run c e => dsimp only; split <;> exact ⟨_, rfl⟩
    | cas id old => dsimp only; split <;> exact ⟨_, rfl⟩
    | l1 id => exact ⟨_, rfl⟩
    | ld id => exact ⟨_, rfl⟩
    | sub id old => exact ⟨_, rfl⟩
  obtain ⟨s', hs'⟩ := key
  exact ⟨.go w, s', rfl, by simp only [Parfor.step]; rw [if_pos hw]; exact hs'⟩

theorem EInv2.start {L : Loop} {st : Int} {nw : Nat} (hnw : L.nw = nw) (spin : Bool)
    (h1 : ∀ i, i < nw → (L.d i).ntask = 1 ∧ (L.d i).stop ≤ (L.d i).start) (h2 : ∀ i, nw ≤ i → (L.d i).ntask ≤ 0) :
    EInv2 (L.par st nw) (A.start (L.par st nw) L spin) := by
  cases spin with
  | true =>
    refine ⟨⟨rfl, ?_, ?_⟩, ?_⟩
    · intro w hw
      have := h1 w (by have : w < L.nw := hw; omega)
      exact ⟨by omega, Or.inr ⟨Int.le_of_eq this.1, this.2⟩⟩
    · intro i hi; exact h2 i (by have : L.nw ≤ i := hi; omega)
    · intro w id old _ h; simp [A.start] at h
  | false =>
    refine ⟨⟨rfl, ?_, ?_⟩, ?_⟩
    · intro w hw
      have hw : w < L.nw := hw
      have := h1 w (by omega)
      simp only [A.start, Bool.false_eq_true, if_false]
      rw [if_pos ⟨hw, by omega⟩, if_pos (by omega)]
      refine ⟨?_, Or.inl (by simp only; omega)⟩
      unfold Par.endOf
      rw [min_def']; split <;> omega
    · intro i hi
      have hi : L.nw ≤ i := hi
      simp only [A.start, Bool.false_eq_true, if_false]
      rw [if_neg (by omega)]
      exact h2 i (by omega)
    · intro w id old _ h
      simp only [A.start, Bool.false_eq_true, if_false] at h
      split at h <;> simp at h

/-- **C30.** Every loop with the default static scheduling completes, also one over an empty range: a worker
that has not returned can go on, and there is a bound on the number of steps, up to spurious failures of
compare and exchange. -/
theorem C30_ends {old : Nat → Range} {first last st : Int} {nw : Nat} {L : Loop}
    (hT : Table old) (hs : 1 ≤ st) (hn : 1 ≤ nw) (hb : last - first < 2 ^ 63)
    (hL : setloopStatic old first last st nw = some L) (spin : Bool) :
    ∃ B : Nat, ∀ (acts : List Act) (s : A),
      exec (step (L.par st nw)) (A.start (L.par st nw) L spin) acts = some s →
      (¬ s.over (L.par st nw) → ∃ a s', a.spurious = false ∧ step (L.par st nw) s a = some s') ∧
      acts.length ≤ B + 6 * acts.countP Act.spurious := by
  by_cases hr : first < last
  · exact ⟨meas (L.par st nw) (A.start (L.par st nw) L spin), fun acts s he => C30_completes hT hs hn hr hb hL he⟩
  · obtain ⟨hst, hnw, h1, h2⟩ := static_empty hs hn (by omega) (table_clean hT) hL
    refine ⟨emeas (L.par st nw) (A.start (L.par st nw) L spin), fun acts s he => ?_⟩
    obtain ⟨h3, h4⟩ := EInv2.bound (P := L.par st nw) hst acts (EInv2.start hnw spin h1 h2) he
    refine ⟨fun ho => ?_, h3⟩
    have : ∃ w, w < L.nw ∧ s.pc w ≠ .out := by
      by_contra hc
      apply ho
      intro w hw
      by_contra h
      exact hc ⟨w, hw, h⟩
    obtain ⟨w, hw, hp⟩ := this
    exact h4.progress hw hp

theorem exec_then {S Act : Type} {step : S → Act → Option S} {s s1 s2 : S} {as : List Act} {a : Act}
    (h : exec step s as = some s1) (h' : step s1 a = some s2) : exec step s (as ++ [a]) = some s2 := by
  rw [exec_append, h]; simp [exec, h']

/-- From any moment of a loop with the default static scheduling the workers can complete it. -/
theorem static_over {old : Nat → Range} {first last st : Int} {nw : Nat} {L : Loop}
    (hT : Table old) (hs : 1 ≤ st) (hn : 1 ≤ nw) (hb : last - first < 2 ^ 63)
    (hL : setloopStatic old first last st nw = some L) (spin : Bool) :
    ∃ s, Reach (step (L.par st nw)) (A.start (L.par st nw) L spin) s ∧ s.over (L.par st nw) := by
  obtain ⟨B, hB⟩ := C30_ends hT hs hn hb hL spin
  have key : ∀ k (acts : List Act) (s : A), B - acts.length ≤ k → acts.countP Act.spurious = 0 →
      exec (step (L.par st nw)) (A.start (L.par st nw) L spin) acts = some s →
      ∃ s, Reach (step (L.par st nw)) (A.start (L.par st nw) L spin) s ∧ s.over (L.par st nw) := by
    intro k
    induction k with
    | zero =>
      intro acts s hk hc he
      by_cases ho : s.over (L.par st nw)
      · exact ⟨s, ⟨acts, he⟩, ho⟩
      · obtain ⟨a, s', ha, hs'⟩ := (hB acts s he).1 ho
        have he' := exec_then he hs'
        have := (hB _ _ he').2
        rw [List.countP_append, hc] at this
        simp [ha] at this
        omega
    | succ k ih =>
      intro acts s hk hc he
      by_cases ho : s.over (L.par st nw)
      · exact ⟨s, ⟨acts, he⟩, ho⟩
      · obtain ⟨a, s', ha, hs'⟩ := (hB acts s he).1 ho
        have he' := exec_then he hs'
        refine ih _ _ ?_ ?_ he'
        · simp; omega
        · rw [List.countP_append, hc]; simp [ha]
  exact key B [] _ (by simp) (by simp) rfl

/-- Every loop with the default static scheduling has a complete run. -/
theorem static_run {old : Nat → Range} {first last st : Int} {nw : Nat}
    (hT : Table old) (hs : 1 ≤ st) (hn : 1 ≤ nw) (hb : last - first < 2 ^ 63) :
    ∃ L log d, setloopStatic old first last st nw = some L ∧ RunFor first last st nw L log d := by
  obtain ⟨L, hL⟩ := C30_accepted old first last st hn
  obtain ⟨s, h1, h2⟩ := static_over hT hs hn hb hL true
  have hnw : L.nw = nw := by
    have hf := finish_nw hL
    simp only [initStatic] at hf
    rw [hf.2.2.2.2.2.1 (by omega)]; simp
  by_cases h : nw = 1
  · exact ⟨L, _, _, hL, .seq (by omega)⟩
  · exact ⟨L, _, _, hL, .noSched true s (by omega) h1 h2⟩

end FF.Parfor
