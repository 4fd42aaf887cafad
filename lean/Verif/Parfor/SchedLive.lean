import Verif.Parfor.Sched
/-!
# Results for the loop with a scheduler thread (C29)
-/
namespace FF.Parfor
open FF.Farm (sumN)
open FF.Node (upd)

variable {first last : Int} {P : Par}

theorem bpartial_of {s : B} (hs : 1 ≤ P.step) (h : BInv first last P s) :
    s.calls.Nodup ∧ ∀ x ∈ s.calls, x ∈ indices first last P.step := by
  have hle : ∀ x, s.calls.count x ≤ on first last P.step x := fun x => by have := h.cover x; omega
  constructor
  · rw [List.nodup_iff_count_le_one]
    intro x
    exact Nat.le_trans (hle x) (on_le _ _ _ _)
  · intro x hx
    rw [← List.count_pos_iff, count_indices hs]
    exact Nat.lt_of_lt_of_le (List.count_pos_iff.2 hx) (hle x)

theorem sum_zero {f : Msg → Nat} (l : List Msg) (h : ∀ m ∈ l, f m = 0) : (l.map f).sum = 0 := by
  induction l with
  | nil => rfl
  | cons m l ih => simp only [List.map_cons, List.sum_cons]; rw [h m (by simp), ih (fun m hm => h m (by simp [hm]))]

/-- when the scheduler has ended, everything has been executed -/
theorem bover_of {s : B} (hs : 1 ≤ P.step) (h : BInv first last P s) (ho : s.e = .over) :
    s.calls.Perm (indices first last P.step) ∧ ∀ i, (s.d i).ntask ≤ 0 := by
  obtain ⟨htt, _⟩ := h.over ho
  have htot := h.tot
  have hn0 : ∀ i, i < P.nw → (s.d i).ntask = 0 := by
    intro i hi
    have h1 := sumN_ge (f := fun i => (s.d i).ntask.toNat) hi
    have h2 := h.nonneg i hi
    omega
  constructor
  · rw [List.perm_iff_count]
    intro x
    rw [count_indices hs, ← h.cover x]
    rw [sumN_zero (f := fun w => s.on P x w) (fun w hw => by
      have h1 := sumN_ge (f := s.outst) hw
      have h2 : s.outst w = 0 := by omega
      simp only [B.outst] at h2
      have h3 : (s.q w).countP Msg.isTask = 0 := by omega
      have h4 : (s.pc w).isRun = 0 := by omega
      rw [List.countP_eq_zero] at h3
      have h5 : ((s.q w).map (Msg.on P x)).sum = 0 := by
        apply sum_zero
        intro m hm
        have := h3 m hm
        cases m <;> simp [Msg.isTask, Msg.on] at this ⊢
      have h6 : (s.pc w).on P x = 0 := by
        cases hp : s.pc w <;> rw [hp] at h4 <;> simp [WPC.isRun, WPC.on] at h4 ⊢
      simp only [B.on, h5, h6])]
    rw [sumN_zero (f := fun i => on _ _ _ _) (fun i hi => on_empty (by
      have h1 := h.cap i hi
      rw [hn0 i hi] at h1
      omega))]
    rfl
  · intro i
    by_cases hi : i < P.nw
    · rw [hn0 i hi]
    · exact h.rest i (by omega)

/-! ## Completion -/

def Msg.cost : Msg → Nat
  | .task a b => 4 + (b - a).toNat
  | .out => 1

def WPC.cost : WPC → Nat
  | .run c e => 3 + (e - c).toNat
  | _ => 0

def B.wcost (s : B) (w : Nat) : Nat := ((s.q w).map Msg.cost).sum + (s.pc w).cost + 2 * s.back w

def EPC.cost (n : Nat) : EPC → Nat
  | .send k w => 1 + k * (n + 2) + (n + 1 - w)
  | _ => 0

def Par.L (P : Par) : Nat := ((P.chunk - 1) * P.step + 1).toNat

def bmeas (P : Par) (s : B) : Nat :=
  (P.L + 5) * sumN (fun i => (s.d i).ntask.toNat) P.nw + sumN s.wcost P.nw + s.e.cost P.nw

theorem send_meas {s : B} {id w : Nat} (hid : id < P.nw) (hw : w < P.nw) (h : 0 < (s.d id).ntask) :
    bmeas P (s.send P id w) + 1 ≤ bmeas P s := by
  have h1 := send_sum (P := P) (w := w) hid h
  have h2 := sumN_change (f := (s.send P id w).wcost) (g := s.wcost) hw
    (fun j _ hj => by simp only [B.wcost, B.send, upd, if_neg hj])
  have h3 : (s.send P id w).wcost w = s.wcost w +
      (4 + (P.endOf (s.d id).stop (s.d id).start - (s.d id).start).toNat) := by
    simp only [B.wcost, B.send, upd, if_true, List.map_append, List.sum_append, List.map_cons, List.map_nil,
      List.sum_cons, List.sum_nil, Msg.cost]
    omega
  have h4 : (P.endOf (s.d id).stop (s.d id).start - (s.d id).start).toNat ≤ P.L := by
    unfold Par.endOf Par.L; rw [min_def']; split <;> omega
  have h5 : (s.send P id w).e = s.e := rfl
  simp only [bmeas, h5]
  rw [← h1, Nat.mul_add, Nat.mul_one]
  omega

theorem end1_meas {s : B} {w : Nat} (hw : w < P.nw) : bmeas P (s.end1 w) ≤ bmeas P s + 1 := by
  unfold B.end1
  split
  · omega
  · have h2 := sumN_change (f := (B.mk s.d s.maxid s.tt (upd s.eos w true) s.e (upd s.q w (s.q w ++ [.out])) s.pc s.back s.log).wcost)
      (g := s.wcost) hw (fun j _ hj => by simp only [B.wcost, upd, if_neg hj])
    have h3 : (B.mk s.d s.maxid s.tt (upd s.eos w true) s.e (upd s.q w (s.q w ++ [.out])) s.pc s.back s.log).wcost w =
        s.wcost w + 1 := by
      simp only [B.wcost, upd, if_true, List.map_append, List.sum_append, List.map_cons, List.map_nil,
        List.sum_cons, List.sum_nil, Msg.cost]
      omega
    simp only [bmeas]
    omega

theorem bmeas_worker {s s' : B} {w : Nat} (hw : w < P.nw) (hd : s'.d = s.d) (he : s'.e = s.e)
    (ho : ∀ v, v ≠ w → s'.wcost v = s.wcost v) (hlt : s'.wcost w + 1 ≤ s.wcost w) :
    bmeas P s' + 1 ≤ bmeas P s := by
  have h2 := sumN_change (f := s'.wcost) (g := s.wcost) hw (fun j _ hj => ho j hj)
  simp only [bmeas, hd, he]
  omega

theorem bmeas_step {s s' : B} {a : BAct} (hs : 1 ≤ P.step) (h : BInv first last P s)
    (hst : bstep P s a = some s') : bmeas P s' + 1 ≤ bmeas P s := by
  cases a with
  | get w =>
    simp only [bstep] at hst
    split at hst
    swap
    · simp at hst
    rename_i hc
    obtain ⟨hw, hp⟩ := hc
    split at hst
    · simp at hst
    · rename_i a b r hq
      simp only [Option.some.injEq] at hst; subst hst
      refine bmeas_worker (s := s) hw ?_ ?_ ?_ ?_
      · rfl
      · rfl
      · intro v hv; simp only [B.wcost, upd, if_neg hv]
      · simp only [B.wcost, upd, if_true, hq, hp, List.map_cons, List.sum_cons, Msg.cost, WPC.cost]; omega
    · rename_i r hq
      simp only [Option.some.injEq] at hst; subst hst
      refine bmeas_worker (s := s) hw ?_ ?_ ?_ ?_
      · rfl
      · rfl
      · intro v hv; simp only [B.wcost, upd, if_neg hv]
      · simp only [B.wcost, upd, if_true, hq, hp, List.map_cons, List.sum_cons, Msg.cost, WPC.cost]; omega
  | go w =>
    simp only [bstep] at hst
    split at hst
    swap
    · simp at hst
    rename_i hw
    split at hst
    swap
    · simp at hst
    rename_i cur stop hp
    split at hst
    · simp only [Option.some.injEq] at hst; subst hst
      refine bmeas_worker (s := s) hw ?_ ?_ ?_ ?_
      · rfl
      · rfl
      · intro v hv; simp only [B.wcost, upd, if_neg hv]
      · simp only [B.wcost, upd, if_true, hp, WPC.cost]; omega
    · simp only [Option.some.injEq] at hst; subst hst
      refine bmeas_worker (s := s) hw ?_ ?_ ?_ ?_
      · rfl
      · rfl
      · intro v hv; simp only [B.wcost, upd, if_neg hv]
      · simp only [B.wcost, upd, if_true, hp, WPC.cost]; omega
  | send =>
    simp only [bstep] at hst
    split at hst
    swap
    · simp at hst
    rename_i k w he
    have hm : ∀ (t : B) (e' : EPC), t.e = s.e → e'.cost P.nw + 1 ≤ s.e.cost P.nw →
        bmeas P { t with e := e' } + 1 ≤ bmeas P t := by
      intro t e' h1 h2
      have : sumN (B.wcost { t with e := e' }) P.nw = sumN t.wcost P.nw := rfl
      simp only [bmeas, h1]
      omega
    split at hst
    · rename_i hw
      simp only [Option.some.injEq] at hst; subst hst
      have hc : (EPC.send k (w + 1)).cost P.nw + 1 ≤ s.e.cost P.nw := by rw [he]; simp only [EPC.cost]; omega
      by_cases hn : 0 < (s.d w).ntask
      · rw [if_pos hn]
        have h1 := hm (s.send P w w) (.send k (w + 1)) rfl hc
        have h2 := send_meas (P := P) hw hw hn
        omega
      · rw [if_neg hn]
        exact hm s _ rfl hc
    · split at hst
      · simp only [Option.some.injEq] at hst; subst hst
        exact hm s _ rfl (by rw [he]; simp only [EPC.cost]; omega)
      · rename_i hk
        simp only [Option.some.injEq] at hst; subst hst
        refine hm s _ rfl ?_
        rw [he]; simp only [EPC.cost]
        obtain ⟨k', rfl⟩ : ∃ k', k = k' + 1 := ⟨k - 1, by omega⟩
        rw [Nat.add_sub_cancel, Nat.add_mul]
        omega
  | recv w =>
    simp only [bstep] at hst
    split at hst
    swap
    · simp at hst
    rename_i hc
    obtain ⟨he, hw, hb⟩ := hc
    have h1 : ∀ m, bmeas P (B.mk s.d m (s.tt - 1) s.eos s.e s.q s.pc (upd s.back w (s.back w - 1)) s.log) + 2 ≤ bmeas P s := by
      intro m
      have h2 := sumN_change (f := (B.mk s.d m (s.tt - 1) s.eos s.e s.q s.pc (upd s.back w (s.back w - 1)) s.log).wcost)
        (g := s.wcost) hw (fun j _ hj => by simp only [B.wcost, upd, if_neg hj])
      have h3 : (B.mk s.d m (s.tt - 1) s.eos s.e s.q s.pc (upd s.back w (s.back w - 1)) s.log).wcost w + 2 = s.wcost w := by
        simp only [B.wcost, upd, if_true]; omega
      simp only [bmeas]
      omega
    split at hst
    · simp only [Option.some.injEq] at hst; subst hst
      have h2 := end1_meas (s := B.mk s.d s.maxid (s.tt - 1) s.eos s.e s.q s.pc (upd s.back w (s.back w - 1)) s.log) hw
      have h3 := h1 s.maxid
      obtain ⟨t, ht⟩ : ∃ t, t = B.end1 (B.mk s.d s.maxid (s.tt - 1) s.eos s.e s.q s.pc (upd s.back w (s.back w - 1)) s.log) w := ⟨_, rfl⟩
      rw [← ht] at h2
      have h4 : bmeas P { t with e := .over } ≤ bmeas P t := by
        have : sumN (B.wcost { t with e := .over }) P.nw = sumN t.wcost P.nw := rfl
        simp only [bmeas, EPC.cost]
        omega
      show bmeas P { (B.end1 (B.mk s.d s.maxid (s.tt - 1) s.eos s.e s.q s.pc (upd s.back w (s.back w - 1)) s.log) w) with e := .over } + 1 ≤ _
      rw [← ht]
      exact Nat.le_trans (Nat.add_le_add_right h4 1) (by omega)
    · split at hst
      · rename_i id m hnx
        simp only [Option.some.injEq] at hst; subst hst
        obtain ⟨hid, hpos⟩ := nextId_some hw h.nonneg h.rest hnx
        have h2 := send_meas (P := P) (s := B.mk s.d m (s.tt - 1) s.eos s.e s.q s.pc (upd s.back w (s.back w - 1)) s.log) hid hw hpos
        have h3 := h1 m
        omega
      · rename_i m hnx
        simp only [Option.some.injEq] at hst; subst hst
        have h2 := end1_meas (P := P) (s := B.mk s.d m (s.tt - 1) s.eos s.e s.q s.pc (upd s.back w (s.back w - 1)) s.log) hw
        have h3 := h1 m
        omega

/-- the scheduler has ended and all workers have been told -/
def B.finished (P : Par) (s : B) : Prop := s.e = .over ∧ ∀ w, w < P.nw → s.pc w = .gone

/-- a worker that is not waiting without messages can go on -/
theorem worker_go {s : B} {w : Nat} (hw : w < P.nw) (h1 : s.pc w ≠ .gone) (h2 : s.q w ≠ [] ∨ s.pc w ≠ .idle) :
    ∃ a s', bstep P s a = some s' := by
  cases hp : s.pc w with
  | gone => exact absurd hp h1
  | run cur stop =>
    by_cases hc : cur < stop
    · exact ⟨.go w, _, by simp only [bstep, if_pos hw, hp, if_pos hc]; rfl⟩
    · exact ⟨.go w, _, by simp only [bstep, if_pos hw, hp, if_neg hc]; rfl⟩
  | idle =>
    cases hq : s.q w with
    | nil => rcases h2 with h2 | h2
             · exact absurd hq h2
             · exact absurd hp h2
    | cons m r =>
      cases m with
      | task a b => exact ⟨.get w, _, by simp only [bstep, hp, hq]; rw [if_pos ⟨hw, trivial⟩]⟩
      | out => exact ⟨.get w, _, by simp only [bstep, hp, hq]; rw [if_pos ⟨hw, trivial⟩]⟩

theorem bprogress_of {s : B} (h1 : 1 ≤ P.nw) (h : BInv first last P s) (hf : ¬ s.finished P) :
    ∃ a s', bstep P s a = some s' := by
  cases he : s.e with
  | send k w =>
    by_cases hw : w < P.nw
    · exact ⟨.send, _, by simp only [bstep, he, if_pos hw]; rfl⟩
    · by_cases hk : k = 0
      · exact ⟨.send, _, by simp only [bstep, he, if_neg hw, if_pos hk]; rfl⟩
      · exact ⟨.send, _, by simp only [bstep, he, if_neg hw, if_neg hk]; rfl⟩
  | loop =>
    -- some worker has a task
    have hex : ∃ w, w < P.nw ∧ 1 ≤ s.outst w := by
      cases h0 : s.eos 0 with
      | false =>
        rcases h.e1 0 (by omega) h0 with h2 | ⟨k, v, e, _⟩
        · exact ⟨0, by omega, h2⟩
        · rw [he] at e; simp at e
      | true =>
        have hz := h.e2 0 (by omega) h0
        by_contra hc
        have hz2 : sumN s.outst P.nw = 0 := sumN_zero fun w hw => by
          by_contra hn
          exact hc ⟨w, hw, by omega⟩
        have hz3 : sumN (fun i => (s.d i).ntask.toNat) P.nw = 0 := sumN_zero fun i hi => by rw [hz i hi]; rfl
        -- all have been told, so the scheduler has ended
        have htt : s.tt = 0 := by have := h.tot; omega
        exact absurd (h.alive he) (by omega)
    obtain ⟨w, hw, ho⟩ := hex
    by_cases hb : 0 < s.back w
    · have hc : s.e = .loop ∧ w < P.nw ∧ 0 < s.back w := ⟨he, hw, hb⟩
      by_cases ht : s.tt - 1 = 0
      · exact ⟨.recv w, _, by simp only [bstep]; rw [if_pos hc, if_pos ht]⟩
      · cases hnx : nextId P s.d s.maxid w with
        | mk o m =>
          cases o with
          | none => exact ⟨.recv w, _, by simp only [bstep, hnx]; rw [if_pos hc, if_neg ht]⟩
          | some id => exact ⟨.recv w, _, by simp only [bstep, hnx]; rw [if_pos hc, if_neg ht]⟩
    · simp only [B.outst] at ho
      apply worker_go hw
      · intro hg
        cases hew : s.eos w with
        | false => exact (h.noout w hw hew).2 hg
        | true =>
          rcases h.out w hw hew with ⟨_, _, _, h3⟩ | ⟨h3, _⟩
          · exact h3 hg
          · rw [h3, hg] at ho; simp [WPC.isRun] at ho; omega
      · by_contra hc
        have hq : s.q w = [] := by by_contra hq; exact hc (Or.inl hq)
        have hp : s.pc w = .idle := by by_contra hp; exact hc (Or.inr hp)
        rw [hq, hp] at ho; simp [WPC.isRun] at ho; omega
  | over =>
    have : ∃ w, w < P.nw ∧ s.pc w ≠ .gone := by
      by_contra hc
      exact hf ⟨he, fun w hw => by by_contra hg; exact hc ⟨w, hw, hg⟩⟩
    obtain ⟨w, hw, hg⟩ := this
    apply worker_go hw hg
    rcases h.out w hw ((h.over he).2 w hw) with ⟨ts, h3, _⟩ | ⟨_, h3⟩
    · left; rw [h3]; simp
    · exact absurd h3 hg

/-- the number of steps of an execution is bounded -/
theorem bexec_bound {s s' : B} (hs : 1 ≤ P.step) (hk : 1 ≤ P.chunk) (hn1 : 1 ≤ P.nw) (hD : P.nw ≤ P.D) (acts : List BAct)
    (h : BInv first last P s) (he : exec (bstep P) s acts = some s') : acts.length ≤ bmeas P s := by
  induction acts generalizing s with
  | nil => simp
  | cons a acts ih =>
    simp only [exec] at he
    split at he
    · simp at he
    rename_i s1 h1
    have hm := bmeas_step hs h h1
    have hi := ih (h.step hs hk hn1 hD h1) he
    simp only [List.length_cons]
    omega

end FF.Parfor
