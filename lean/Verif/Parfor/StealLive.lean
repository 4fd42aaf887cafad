import Verif.Parfor.Steal
import Mathlib.Data.List.Perm.Basic
/-!
# Results for the loop without scheduler thread (C29)
-/
namespace FF.Parfor
open FF.Farm (sumN)
open FF.Node (upd)

variable {first last : Int} {P : Par}

/-- every index has been executed at most once, and no other index -/
theorem partial_of {s : A} (hs : 1 ≤ P.step) (h : Inv first last P s) :
    s.calls.Nodup ∧ ∀ x ∈ s.calls, x ∈ indices first last P.step := by
  have hle : ∀ x, s.calls.count x ≤ on first last P.step x := fun x => by have := h.cover x; omega
  constructor
  · rw [List.nodup_iff_count_le_one]
    intro x
    exact Nat.le_trans (hle x) (on_le _ _ _ _)
  · intro x hx
    rw [← List.count_pos_iff, count_indices hs]
    exact Nat.lt_of_lt_of_le (List.count_pos_iff.2 hx) (hle x)

theorem over_of {s : A} (hs : 1 ≤ P.step) (hk : 1 ≤ P.chunk) (h : Inv first last P s) (ho : s.over P) :
    s.calls.Perm (indices first last P.step) ∧ (P.static = false → ∀ i, (s.d i).ntask ≤ 0) := by
  constructor
  · rw [List.perm_iff_count]
    intro x
    rw [count_indices hs, ← h.cover x]
    rw [sumN_zero (f := fun w => pend P s.d x (s.pc w)) (fun i hi => by rw [ho i hi]; rfl)]
    rw [sumN_zero (f := fun i => on _ _ _ _) (fun i hi => on_empty (h.left i hi (by rw [ho i hi]; trivial)))]
    rfl
  · intro hns i
    by_cases hi : i < P.nw
    · have hl := h.left i hi (by rw [ho i hi]; trivial)
      have ht := h.tight hns i hi
      rw [sumN_zero (f := fun w => isSub i (s.pc w)) (fun v hv => by rw [ho v hv]; rfl)] at ht
      rcases ht with ht | ht
      · simpa using ht
      · by_contra hc
        have : 0 ≤ ((s.d i).ntask - ((0 : Nat) : Int) - 1) * (P.chunk * P.step) := by
          apply mul_nonneg
          · push_cast; omega
          · apply mul_nonneg <;> omega
        omega
    · exact h.rest i (by omega)

/-! ## Completion -/

def cost (n : Nat) (d : Nat → Range) : PC → Nat
  | .idle => 0
  | .out => 0
  | .sub _ _ => 1
  | .cas id old => if (d id).start = old then 9 * n + 10 else 9 * n + 16
  | .ld _ => 9 * n + 11
  | .l1 id => if 0 < (d id).ntask then 9 * n + 12 else 9 * n + 15
  | .nt _ => 9 * n + 13
  | .mx => 9 * n + 14
  | .run c e => 9 * n + 16 + (e - c).toNat

def Par.K (P : Par) : Nat := 12 * P.nw + 20 + ((P.chunk - 1) * P.step + 1).toNat

def meas (P : Par) (s : A) : Nat :=
  P.K * sumN (fun i => ((s.d i).ntask + P.nw).toNat) P.nw + sumN (fun w => cost P.nw s.d (s.pc w)) P.nw

theorem sumN_rise {f g : Nat → Nat} {n i Y c : Nat} (hi : i < n) (h0 : f i ≤ g i + Y)
    (h : ∀ j, j < n → j ≠ i → f j ≤ g j + c) : sumN f n ≤ sumN g n + Y + c * n := by
  have h1 := sumN_drop (f := f) (g := upd g i (g i + Y)) (X := 0) (c := c) hi (by simp only [upd, if_true]; omega)
    (fun j hj hji => by simp only [upd, if_neg hji]; exact h j hj hji)
  have h2 := sumN_change (f := upd g i (g i + Y)) (g := g) hi (fun j _ hji => by simp only [upd, if_neg hji])
  have h3 : upd g i (g i + Y) i = g i + Y := by simp only [upd, if_true]
  rw [h3] at h2
  omega

/-- the failed compare and exchange without reason -/
def Act.spurious : Act → Bool
  | .casFail _ => true
  | _ => false

/-- moving one worker only -/
theorem meas_move {s : A} {w : Nat} {p : PC} {c : Nat} (hw : w < P.nw)
    (hc : cost P.nw s.d p + 1 ≤ cost P.nw s.d (s.pc w) + c) (l : List (Nat × Int)) :
    meas P { s with pc := upd s.pc w p, log := l } + 1 ≤ meas P s + c := by
  have := sum_move (cost P.nw s.d) s.pc hw (p := p) rfl rfl rfl
  simp only [meas]
  omega

theorem meas_step {s s' : A} {a : Act} (hs : 1 ≤ P.step) (hk : 1 ≤ P.chunk) (h : Inv first last P s)
    (hst : step P s a = some s') : meas P s' + 1 ≤ meas P s + if a.spurious then 6 else 0 := by
  cases a with
  | casFail w =>
    simp only [step] at hst
    split at hst
    · rename_i hw
      split at hst
      · rename_i id old hp
        simp only [Option.some.injEq] at hst; subst hst
        apply meas_move hw
        rw [hp]; simp only [cost, Act.spurious, if_true]
        split <;> split <;> omega
      · simp at hst
    · simp at hst
  | pick w m =>
    simp only [step] at hst
    split at hst
    · rename_i hc
      obtain ⟨hw, hm, hp⟩ := hc
      simp only [Option.some.injEq] at hst; subst hst
      apply meas_move hw
      rw [hp]; simp only [cost, Act.spurious]; omega
    · simp at hst
  | go w =>
    simp only [step] at hst
    split at hst
    swap
    · simp at hst
    rename_i hw
    simp only [Act.spurious, Bool.false_eq_true, if_false, Nat.add_zero]
    unfold go at hst
    have haway : cost P.nw s.d P.away ≤ 9 * P.nw + 14 := by
      rcases away_cases P with e | e <;> rw [e] <;> simp [cost]
    cases hp : s.pc w with
    | idle => rw [hp] at hst; simp at hst
    | mx => rw [hp] at hst; simp at hst
    | out => rw [hp] at hst; simp at hst
    | l1 id =>
      rw [hp] at hst; simp only [Option.some.injEq] at hst; subst hst
      apply meas_move (c := 0) hw
      rw [hp]
      by_cases hn : 0 < (s.d id).ntask
      · simp only [hn, if_true, cost]; omega
      · rw [if_neg hn, show cost P.nw s.d (.l1 id) = 9 * P.nw + 15 by simp only [cost, hn, if_false]]; omega
    | ld id =>
      rw [hp] at hst; simp only [Option.some.injEq] at hst; subst hst
      apply meas_move (c := 0) hw
      rw [hp]; simp only [cost, if_true]; omega
    | nt m =>
      rw [hp] at hst; simp only [Option.some.injEq] at hst; subst hst
      apply meas_move (c := 0) hw
      rw [hp]
      by_cases hn : 0 < (s.d m).ntask
      · simp only [hn, if_true, cost]; omega
      · simp only [hn, if_false, cost]; omega
    | run cur stop =>
      rw [hp] at hst
      dsimp only at hst
      split at hst
      · simp only [Option.some.injEq] at hst; subst hst
        apply meas_move (c := 0) hw
        rw [hp]; simp only [cost]; omega
      · simp only [Option.some.injEq] at hst; subst hst
        apply meas_move (c := 0) hw
        rw [hp]; simp only [cost]; split <;> omega
    | cas id old =>
      rw [hp] at hst
      dsimp only at hst
      split at hst
      · rename_i hst0
        simp only [Option.some.injEq] at hst; subst hst
        obtain ⟨d', hd'⟩ : ∃ d', d' = upd s.d id ⟨(s.d id).ntask, P.next (s.d id).stop old, (s.d id).stop⟩ := ⟨_, rfl⟩
        have hnt : ∀ i, (d' i).ntask = (s.d i).ntask := by
          intro i; rw [hd']
          by_cases e : i = id
          · subst e; simp only [upd, if_true]
          · simp only [upd, if_neg e]
        have hd := sumN_drop (f := fun v => cost P.nw d' (upd s.pc w (.sub id old) v))
          (g := fun v => cost P.nw s.d (s.pc v)) (X := 9 * P.nw + 9) (c := 6) hw
          (by
            rw [show upd s.pc w (.sub id old) w = .sub id old by simp only [upd, if_true], hp]
            simp only [cost, hst0, if_true]; omega)
          (fun j _ hj => by
            rw [show upd s.pc w (.sub id old) j = s.pc j by simp only [upd, if_neg hj]]
            cases s.pc j <;> simp only [cost] <;> try omega
            · rw [hnt]; omega
            · split <;> split <;> omega)
        have hm : meas P ⟨d', upd s.pc w (.sub id old), s.log⟩ + 1 ≤ meas P s := by
          simp only [meas, hnt]
          omega
        rw [hd'] at hm
        exact hm
      · rename_i hst0
        simp only [Option.some.injEq] at hst; subst hst
        apply meas_move (c := 0) hw
        rw [hp]; simp only [cost, hst0, if_false]; split <;> omega
    | sub id old =>
      rw [hp] at hst; simp only [Option.some.injEq] at hst; subst hst
      have hid : id < P.nw := h.fl w id hw (by rw [hp]; simp [inFl])
      have hlb := h.lb id hid
      have hge := sumN_ge (f := fun v => inFl id (s.pc v)) hw
      simp only [hp] at hge
      rw [show inFl id (.sub id old) = 1 by simp [inFl]] at hge
      generalize hpp : (if old < P.endOf (s.d id).stop old then PC.run old (P.endOf (s.d id).stop old) else P.away) = p
      have hcp : cost P.nw s.d p ≤ 9 * P.nw + 16 + ((P.chunk - 1) * P.step + 1).toNat := by
        rw [← hpp]; split
        · simp only [cost, Par.endOf]; rw [min_def']; split <;> omega
        · omega
      have hpi : ∀ d', cost P.nw d' p = cost P.nw s.d p := by
        intro d'; rw [← hpp]; split
        · rfl
        · rcases away_cases P with e | e <;> rw [e] <;> rfl
      obtain ⟨d', hd'⟩ : ∃ d', d' = upd s.d id ⟨(s.d id).ntask - 1, (s.d id).start, (s.d id).stop⟩ := ⟨_, rfl⟩
      have hstart : ∀ i, (d' i).start = (s.d i).start := by
        intro i; rw [hd']
        by_cases e : i = id
        · subst e; simp only [upd, if_true]
        · simp only [upd, if_neg e]
      have hr := sumN_rise (f := fun v => cost P.nw d' (upd s.pc w p v)) (g := fun v => cost P.nw s.d (s.pc v))
          (Y := 9 * P.nw + 16 + ((P.chunk - 1) * P.step + 1).toNat) (c := 3) hw
        (by
          rw [show upd s.pc w p w = p by simp only [upd, if_true], hpi]
          omega)
        (fun j _ hj => by
          rw [show upd s.pc w p j = s.pc j by simp only [upd, if_neg hj]]
          cases s.pc j <;> simp only [cost] <;> try omega
          · split <;> split <;> omega
          · rw [hstart]; omega)
      have hch := sumN_change (f := fun i => ((d' i).ntask + (P.nw : Int)).toNat)
        (g := fun i => ((s.d i).ntask + (P.nw : Int)).toNat) hid (fun j _ hj => by rw [hd']; simp only [upd, if_neg hj])
      have hdid : (d' id).ntask = (s.d id).ntask - 1 := by rw [hd']; simp only [upd, if_true]
      rw [hdid] at hch
      have hS : sumN (fun i => ((s.d i).ntask + (P.nw : Int)).toNat) P.nw =
          sumN (fun i => ((d' i).ntask + (P.nw : Int)).toNat) P.nw + 1 := by
        omega
      have hK : P.K = 12 * P.nw + 20 + ((P.chunk - 1) * P.step + 1).toNat := rfl
      have hm : meas P ⟨d', upd s.pc w p, s.log⟩ + 1 ≤ meas P s := by
        simp only [meas, hS, Nat.mul_add, Nat.mul_one]
        omega
      rw [hd'] at hm
      exact hm

/-- as long as a worker has not returned, it can go on -/
theorem progress_of {s : A} {w : Nat} (hD : 1 ≤ P.D) (h : Inv first last P s) (hw : w < P.nw)
    (ho : s.pc w ≠ .out) : ∃ a s', a.spurious = false ∧ step P s a = some s' := by
  cases hp : s.pc w with
  | idle => exact absurd hp (h.busy w hw)
  | out => exact absurd hp ho
  | mx => exact ⟨.pick w 0, _, rfl, by simp only [step]; rw [if_pos ⟨hw, by omega, hp⟩]⟩
  | run cur stop =>
    by_cases hc : cur < stop
    · exact ⟨.go w, _, rfl, by simp only [step, if_pos hw, go, hp, if_pos hc]; rfl⟩
    · exact ⟨.go w, _, rfl, by simp only [step, if_pos hw, go, hp, if_neg hc]; rfl⟩
  | l1 id => exact ⟨.go w, _, rfl, by simp only [step, if_pos hw, go, hp]; rfl⟩
  | ld id => exact ⟨.go w, _, rfl, by simp only [step, if_pos hw, go, hp]; rfl⟩
  | cas id old =>
    by_cases hc : (s.d id).start = old
    · exact ⟨.go w, _, rfl, by simp only [step, if_pos hw, go, hp, if_pos hc]; rfl⟩
    · exact ⟨.go w, _, rfl, by simp only [step, if_pos hw, go, hp, if_neg hc]; rfl⟩
  | sub id old => exact ⟨.go w, _, rfl, by simp only [step, if_pos hw, go, hp]; rfl⟩
  | nt m => exact ⟨.go w, _, rfl, by simp only [step, if_pos hw, go, hp]; rfl⟩

/-- the number of steps of an execution is bounded, up to spurious failures -/
theorem exec_bound {s s' : A} (hs : 1 ≤ P.step) (hk : 1 ≤ P.chunk) (acts : List Act) (h : Inv first last P s)
    (he : exec (step P) s acts = some s') :
    acts.length ≤ meas P s + 6 * acts.countP Act.spurious := by
  induction acts generalizing s with
  | nil => simp
  | cons a acts ih =>
    simp only [exec] at he
    split at he
    · simp at he
    rename_i s1 h1
    have h2 := he
    have hm := meas_step hs hk h h1
    have hi := ih (h.step hs hk h1) h2
    simp only [List.length_cons, List.countP_cons]
    cases ha : a.spurious <;> rw [ha] at hm <;> simp at hm ⊢ <;> omega

end FF.Parfor
