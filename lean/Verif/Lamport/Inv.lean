import Verif.Lamport.Model
import Verif.SwsrConc.Lemmas
namespace FF.Lamport
open FF.Swsr (next)
open FF.SwsrConc (next_mod split_at)
variable {A : Type}

theorem mod_inj_window {n a b c : Nat} (h1 : c ≤ a) (h2 : a < c + n) (h3 : c ≤ b) (h4 : b < c + n)
    (h : a % n = b % n) : a = b := by
  rcases Nat.lt_trichotomy a b with hlt | he | hgt
  · have h0 := Nat.sub_mod_eq_zero_of_mod_eq h.symm
    rw [Nat.mod_eq_of_lt (by omega)] at h0; omega
  · exact he
  · have h0 := Nat.sub_mod_eq_zero_of_mod_eq h
    rw [Nat.mod_eq_of_lt (by omega)] at h0; omega

structure Inv (s : St A) : Prop where
  npos : 0 < s.n
  crc : s.cr ≤ s.popped.length
  ccw : s.popped.length ≤ s.cw
  cwp : s.cw ≤ s.pushed.length
  cap : s.pushed.length < s.cr + s.n
  room : ∀ a, s.ppc = .room a → s.pushed.length + 1 < s.cr + s.n
  pw : s.ppc = .idle ∨ (∃ a, s.ppc = .room a) →
    s.pw = s.pushed.length % s.n ∧ s.ep = s.pushed.length
  pws : s.ppc = .stored → 0 < s.pushed.length ∧ s.pw = (s.pushed.length - 1) % s.n ∧
    s.ep + 1 = s.pushed.length
  pwf : s.ppc = .fenced → 0 < s.pushed.length ∧ s.pw = (s.pushed.length - 1) % s.n ∧
    s.ep = s.pushed.length
  busy : s.ppc = .stored ∨ s.ppc = .fenced → s.cw < s.pushed.length ∧
    ∀ e v, PEnt.idx e v s.pushed.length ∉ s.sb
  pr : s.pr = s.popped.length % s.n
  mpw : s.mpw = s.cw % s.n
  mpr : s.mpr = s.cr % s.n
  nd : s.sb.Nodup
  sbslot : ∀ e i a k, PEnt.slot e i a k ∈ s.sb →
    e = k ∧ i = k % s.n ∧ s.cw ≤ k ∧ k < s.pushed.length ∧ s.pushed[k]? = some a
  sbidx : ∀ e v j, PEnt.idx e v j ∈ s.sb → e = j ∧ v = j % s.n ∧ s.cw < j ∧ j ≤ s.pushed.length
  full : ∀ j, s.cw < j → j ≤ s.pushed.length →
    (∃ e v, PEnt.idx e v j ∈ s.sb) ∨ (j = s.pushed.length ∧ (s.ppc = .stored ∨ s.ppc = .fenced))
  csb : s.csb = (List.range' (s.cr + 1) (s.popped.length - s.cr)).map (· % s.n)
  live : ∀ k, s.cr ≤ k → k < s.pushed.length → (∀ e i a, PEnt.slot e i a k ∉ s.sb) →
    s.buf (k % s.n) = s.pushed[k]?
  seen : s.cpc = .seen → s.popped.length < s.cw
  loaded : ∀ x, s.cpc = .loaded x → s.popped.length < s.cw ∧ x = s.pushed[s.popped.length]?
  popped : ∀ k, k < s.popped.length → s.popped[k]? = s.pushed[k]?.map some

theorem Inv.init (n : Nat) (hn : 0 < n) : Inv (init n : St A) := by
  constructor <;> simp [Lamport.init, hn]
  intro j h1 h2; omega

theorem Inv.step {s s' : St A} {act : Act A} (h : Inv s) (hs : step s act = some s') : Inv s' := by
  have hcrc := h.crc
  have hccw := h.ccw
  have hcwp := h.cwp
  have hcap := h.cap
  have hnp := h.npos
  cases act with
  | pCheck a =>
    simp only [Lamport.step] at hs
    split at hs
    · rename_i hidle
      split at hs
      · rename_i hne
        simp only [Option.some.injEq] at hs; subst hs
        obtain ⟨g1, g2⟩ := h.pw (Or.inl hidle)
        have hroom : s.pushed.length + 1 < s.cr + s.n := by
          rw [g1, next_mod hnp, h.mpr] at hne
          apply Classical.byContradiction
          intro hc
          have : s.pushed.length + 1 = s.cr + s.n := by omega
          rw [this] at hne
          simp at hne
        exact ⟨hnp, hcrc, hccw, hcwp, hcap, fun _ _ => hroom, fun _ => ⟨g1, g2⟩, by simp, by simp,
          by simp, h.pr, h.mpw, h.mpr, h.nd, h.sbslot, h.sbidx, fun j h1 h2 => by
            rcases h.full j h1 h2 with h3 | ⟨-, h4⟩
            · exact Or.inl h3
            · rw [hidle] at h4; simp at h4, h.csb, h.live, h.seen, h.loaded, h.popped⟩
      · simp only [Option.some.injEq] at hs; subst hs; exact h
    · simp at hs
  | pStore =>
    simp only [Lamport.step] at hs
    split at hs
    · rename_i a hp
      simp only [Option.some.injEq] at hs; subst hs
      have hroom := h.room a hp
      obtain ⟨g1, g2⟩ := h.pw (Or.inr ⟨a, hp⟩)
      have hget : ∀ k, k < s.pushed.length → (s.pushed ++ [a])[k]? = s.pushed[k]? :=
        fun k hk => List.getElem?_append_left hk
      have hlen : (s.pushed ++ [a]).length = s.pushed.length + 1 := by simp
      constructor <;> simp only [hlen]
      · exact hnp
      · exact hcrc
      · exact hccw
      · omega
      · omega
      · simp
      · simp
      · intro _; exact ⟨by omega, by simpa using g1, by omega⟩
      · simp
      · intro _
        refine ⟨by omega, ?_⟩
        intro e v hm
        simp only [List.mem_append, List.mem_singleton, reduceCtorEq, or_false] at hm
        have := (h.sbidx _ _ _ hm).2.2.2
        omega
      · exact h.pr
      · exact h.mpw
      · exact h.mpr
      · rw [List.nodup_append]
        refine ⟨h.nd, by simp, ?_⟩
        intro x hx y hy
        simp only [List.mem_singleton] at hy
        subst hy
        rintro rfl
        have := (h.sbslot _ _ _ _ hx).2.2.2.1
        omega
      · intro e i b k hm
        simp only [List.mem_append, List.mem_singleton, PEnt.slot.injEq] at hm
        rcases hm with hm | ⟨rfl, rfl, rfl, rfl⟩
        · obtain ⟨k1, k2, k3, k4, k5⟩ := h.sbslot _ _ _ _ hm
          exact ⟨k1, k2, k3, by omega, by rw [hget _ k4]; exact k5⟩
        · exact ⟨g2, g1, hcwp, by omega, by simp⟩
      · intro e v j hm
        simp only [List.mem_append, List.mem_singleton, reduceCtorEq, or_false] at hm
        obtain ⟨k1, k2, k3, k4⟩ := h.sbidx _ _ _ hm
        exact ⟨k1, k2, k3, by omega⟩
      · intro j h1 h2
        by_cases hj : j = s.pushed.length + 1
        · exact Or.inr ⟨hj, Or.inl trivial⟩
        · left
          rcases h.full j h1 (by omega) with ⟨e, v, h3⟩ | ⟨-, h4⟩
          · exact ⟨e, v, by simp [h3]⟩
          · rw [hp] at h4; simp at h4
      · exact h.csb
      · intro k hk1 hk2 hk3
        have hk : k ≠ s.pushed.length := by
          rintro rfl; exact hk3 s.ep s.pw a (by simp)
        rw [hget k (by omega)]
        exact h.live k hk1 (by omega) (fun e i b hm => hk3 e i b (by simp [hm]))
      · exact h.seen
      · intro x hx
        obtain ⟨k1, k2⟩ := h.loaded x hx
        exact ⟨k1, by rw [hget _ (by omega)]; exact k2⟩
      · intro k hk; rw [hget k (by omega)]; exact h.popped k hk
    · simp at hs
  | pFence =>
    simp only [Lamport.step] at hs
    split at hs
    · rename_i hp
      simp only [Option.some.injEq] at hs; subst hs
      obtain ⟨g1, g2, g3⟩ := h.pws hp
      have hb := h.busy (Or.inl hp)
      exact ⟨hnp, hcrc, hccw, hcwp, hcap, by simp, by simp, by simp, fun _ => ⟨g1, g2, g3⟩,
          fun _ => hb, h.pr, h.mpw, h.mpr, h.nd, h.sbslot, h.sbidx, fun j h1 h2 => by
            rcases h.full j h1 h2 with h3 | ⟨h3, -⟩
            · exact Or.inl h3
            · exact Or.inr ⟨h3, Or.inr rfl⟩, h.csb, h.live, h.seen, h.loaded, h.popped⟩
    · simp at hs
  | pIndex =>
    simp only [Lamport.step] at hs
    split at hs
    · rename_i hp
      simp only [Option.some.injEq] at hs; subst hs
      obtain ⟨g1, g2, g3⟩ := h.pwf hp
      obtain ⟨hb1, hb2⟩ := h.busy (Or.inr hp)
      have hnx : next s.n s.pw = s.pushed.length % s.n := by
        rw [g2, next_mod hnp]; congr 1; omega
      constructor <;> simp only
      · exact hnp
      · exact hcrc
      · exact hccw
      · exact hcwp
      · exact hcap
      · simp
      · intro _; exact ⟨hnx, g3⟩
      · simp
      · simp
      · simp
      · exact h.pr
      · exact h.mpw
      · exact h.mpr
      · rw [List.nodup_append]
        refine ⟨h.nd, by simp, ?_⟩
        intro x hx y hy
        simp only [List.mem_singleton] at hy
        subst hy
        rintro rfl
        exact hb2 _ _ hx
      · intro e i b k hm
        simp only [List.mem_append, List.mem_singleton, reduceCtorEq, or_false] at hm
        exact h.sbslot _ _ _ _ hm
      · intro e v j hm
        simp only [List.mem_append, List.mem_singleton, PEnt.idx.injEq] at hm
        rcases hm with hm | ⟨rfl, rfl, rfl⟩
        · exact h.sbidx _ _ _ hm
        · exact ⟨g3, hnx, hb1, Nat.le_refl _⟩
      · intro j h1 h2
        left
        rcases h.full j h1 h2 with ⟨e, v, h3⟩ | ⟨h3, -⟩
        · exact ⟨e, v, by simp [h3]⟩
        · exact ⟨s.ep, next s.n s.pw, by simp [h3]⟩
      · exact h.csb
      · intro k hk1 hk2 hk3
        exact h.live k hk1 hk2 (fun e i b hm => hk3 e i b (by simp [hm]))
      · exact h.seen
      · exact h.loaded
      · exact h.popped
    · simp at hs
  | pCommit m =>
    simp only [Lamport.step] at hs
    split at hs
    · simp at hs
    · rename_i e he
      split at hs
      · rename_i hc
        obtain ⟨hc1, -⟩ := hc
        obtain ⟨ys, hsb, her⟩ := split_at he
        have hsub : ∀ x, x ∈ s.sb.eraseIdx m → x ∈ s.sb ∧ x ≠ e := by
          intro x hx
          refine ⟨List.mem_of_mem_eraseIdx hx, ?_⟩
          rintro rfl
          have hnd := h.nd
          rw [hsb] at hnd
          rw [her] at hx
          simp only [List.nodup_append, List.nodup_cons] at hnd
          rcases List.mem_append.1 hx with h1 | h1
          · exact hnd.2.2 x h1 x (by simp) rfl
          · exact hnd.2.1.1 h1
        have hsup : ∀ x, x ∈ s.sb → x ≠ e → x ∈ s.sb.eraseIdx m := by
          intro x hx hne
          rw [hsb] at hx
          rw [her]
          simp only [List.mem_append, List.mem_cons] at hx ⊢
          rcases hx with h1 | h1 | h1
          · exact Or.inl h1
          · exact absurd h1 hne
          · exact Or.inr h1
        have hin : e ∈ s.sb := by rw [hsb]; simp
        have hnd' : (s.sb.eraseIdx m).Nodup := h.nd.sublist (List.eraseIdx_sublist ..)
        have hmin : ∀ x ∈ s.sb, e.ep ≤ x.ep := by
          intro x hx
          simpa using List.all_eq_true.1 hc1 x hx
        split at hs
        · rename_i ep i a k
          simp only [Option.some.injEq] at hs; subst hs
          obtain ⟨k1, k2, k3, k4, k5⟩ := h.sbslot _ _ _ _ hin
          refine ⟨hnp, hcrc, hccw, hcwp, hcap, h.room, h.pw, h.pws, h.pwf, ?_, h.pr, h.mpw, h.mpr,
            hnd', ?_, ?_, ?_, h.csb, ?_, h.seen, h.loaded, h.popped⟩
          · intro hb
            exact ⟨(h.busy hb).1, fun e v hm => (h.busy hb).2 e v (hsub _ hm).1⟩
          · exact fun e i a k hm => h.sbslot e i a k (hsub _ hm).1
          · exact fun e v j hm => h.sbidx e v j (hsub _ hm).1
          · intro j h1 h2
            rcases h.full j h1 h2 with ⟨e, v, h3⟩ | h3
            · exact Or.inl ⟨e, v, hsup _ h3 (by simp)⟩
            · exact Or.inr h3
          · intro k' hk1 hk2 hk3
            simp only at hk1 hk2 hk3 ⊢
            by_cases hkk : k' = k
            · subst hkk
              rw [if_pos k2.symm, k5]
            · rw [if_neg]
              · refine h.live k' hk1 hk2 (fun e' i' b hm => hk3 e' i' b (hsup _ hm ?_))
                simp only [ne_eq, PEnt.slot.injEq, not_and]
                intro _ _ _; exact hkk
              · rw [k2]
                intro hmod
                exact hkk (mod_inj_window hk1 (by omega) (show s.cr ≤ k by omega) (by omega) hmod)
        · rename_i ep v j
          simp only [Option.some.injEq] at hs; subst hs
          obtain ⟨k1, k2, k3, k4⟩ := h.sbidx _ _ _ hin
          refine ⟨hnp, hcrc, ?_, k4, hcap, h.room, h.pw, h.pws, h.pwf, ?_, h.pr, k2, h.mpr,
            hnd', ?_, ?_, ?_, h.csb, ?_, ?_, ?_, h.popped⟩
          · simp only; omega
          · intro hb
            obtain ⟨b1, b2⟩ := h.busy hb
            refine ⟨?_, fun e v hm => b2 e v (hsub _ hm).1⟩
            simp only
            have : j ≠ s.pushed.length := by rintro rfl; exact b2 _ _ hin
            omega
          · intro e' i' b k hm
            obtain ⟨m1, m2, m3, m4, m5⟩ := h.sbslot e' i' b k (hsub _ hm).1
            have := hmin _ (hsub _ hm).1
            simp only [PEnt.ep] at this
            exact ⟨m1, m2, by simp only; omega, m4, m5⟩
          · intro e' v' j' hm
            obtain ⟨hm1, hm2⟩ := hsub _ hm
            obtain ⟨m1, m2, m3, m4⟩ := h.sbidx e' v' j' hm1
            have := hmin _ hm1
            simp only [PEnt.ep] at this
            refine ⟨m1, m2, ?_, m4⟩
            simp only
            have : j' ≠ j := by
              rintro rfl
              apply hm2
              rw [m1, m2, k1, k2]
            omega
          · intro j' h1 h2
            simp only at h1
            rcases h.full j' (by omega) h2 with ⟨e', v', h3⟩ | h3
            · refine Or.inl ⟨e', v', hsup _ h3 ?_⟩
              simp only [ne_eq, PEnt.idx.injEq, not_and]
              intro _ _; omega
            · exact Or.inr h3
          · intro k' hk1 hk2 hk3
            exact h.live k' hk1 hk2 (fun e' i' b hm => hk3 e' i' b (hsup _ hm (by simp)))
          · intro hsn
            have := h.seen hsn
            simp only; omega
          · intro x hx
            have := h.loaded x hx
            exact ⟨by simp only; omega, this.2⟩
      · simp at hs
  | cCheck =>
    simp only [Lamport.step] at hs
    split at hs
    · split at hs
      · simp only [Option.some.injEq] at hs; subst hs; exact h
      · rename_i hne
        simp only [Option.some.injEq] at hs; subst hs
        refine ⟨hnp, hcrc, hccw, hcwp, hcap, h.room, h.pw, h.pws, h.pwf, h.busy, h.pr, h.mpw, h.mpr,
            h.nd, h.sbslot, h.sbidx, h.full, h.csb, h.live, ?_, by simp, h.popped⟩
        intro _
        simp only
        apply Classical.byContradiction
        intro hc
        apply hne
        rw [h.mpw, h.pr, show s.cw = s.popped.length by omega]
    · simp at hs
  | cLoad =>
    simp only [Lamport.step] at hs
    split at hs
    · rename_i hsn
      simp only [Option.some.injEq] at hs; subst hs
      have hlt := h.seen hsn
      refine ⟨hnp, hcrc, hccw, hcwp, hcap, h.room, h.pw, h.pws, h.pwf, h.busy, h.pr, h.mpw, h.mpr,
            h.nd, h.sbslot, h.sbidx, h.full, h.csb, h.live, by simp, ?_, h.popped⟩
      intro x hx
      simp only [CPc.loaded.injEq] at hx
      refine ⟨hlt, ?_⟩
      rw [← hx]
      simp only
      rw [h.pr]
      refine h.live _ hcrc (by omega) ?_
      intro e i a hm
      have := (h.sbslot _ _ _ _ hm).2.2.1
      omega
    · simp at hs
  | cIndex =>
    simp only [Lamport.step] at hs
    split at hs
    · rename_i x hx
      simp only [Option.some.injEq] at hs; subst hs
      obtain ⟨l1, l2⟩ := h.loaded x hx
      have hlen : (s.popped ++ [x]).length = s.popped.length + 1 := by simp
      refine ⟨hnp, ?_, ?_, hcwp, hcap, h.room, h.pw, h.pws, h.pwf, h.busy, ?_, h.mpw, h.mpr,
            h.nd, h.sbslot, h.sbidx, h.full, ?_, h.live, by simp, by simp, ?_⟩ <;> simp only [hlen]
      · omega
      · omega
      · rw [h.pr, next_mod hnp]
      · rw [h.csb, show s.popped.length + 1 - s.cr = (s.popped.length - s.cr) + 1 by omega,
          List.range'_concat, List.map_append]
        congr 1
        simp only [List.map_cons, List.map_nil, h.pr, next_mod hnp]
        congr 2
        omega
      · intro k hk
        rcases Nat.lt_or_ge k s.popped.length with h1 | h1
        · rw [List.getElem?_append_left h1]; exact h.popped k h1
        · have : k = s.popped.length := by omega
          subst this
          rw [l2]
          simp [List.getElem?_eq_getElem (show s.popped.length < s.pushed.length by omega)]
    · simp at hs
  | cCommit =>
    simp only [Lamport.step] at hs
    split at hs
    · simp at hs
    · rename_i v rest hcsb
      simp only [Option.some.injEq] at hs; subst hs
      have hc := h.csb
      rw [hcsb] at hc
      have hpos : 0 < s.popped.length - s.cr := by
        rcases Nat.eq_zero_or_pos (s.popped.length - s.cr) with h0 | h0
        · rw [h0] at hc; simp at hc
        · exact h0
      obtain ⟨d, hd⟩ : ∃ d, s.popped.length - s.cr = d + 1 := ⟨_, (Nat.succ_pred_eq_of_pos hpos).symm⟩
      rw [hd, List.range'_succ] at hc
      simp only [List.map_cons, List.cons.injEq] at hc
      refine ⟨hnp, ?_, hccw, hcwp, ?_, ?_, h.pw, h.pws, h.pwf, h.busy, h.pr, h.mpw, hc.1,
            h.nd, h.sbslot, h.sbidx, h.full, ?_, ?_, h.seen, h.loaded, h.popped⟩ <;> simp only
      · omega
      · omega
      · intro a ha; have := h.room a ha; omega
      · rw [hc.2, show s.popped.length - (s.cr + 1) = d by omega]
      · intro k h1 h2 h3; exact h.live k (by omega) h2 h3

theorem reach_inv {n : Nat} (hn : 0 < n) {s : St A} (h : Reach Lamport.step (init n) s) : Inv s :=
  h.inv (Inv.init n hn) (fun _ _ _ hi hs => hi.step hs)

theorem step_n {s s' : St A} {act : Act A} (hs : step s act = some s') : s'.n = s.n := by
  cases act <;> simp only [Lamport.step] at hs <;> (repeat' split at hs) <;>
    simp only [Option.some.injEq, reduceCtorEq] at hs <;> subst hs <;> rfl

theorem reach_n {n : Nat} {s : St A} (h : Reach Lamport.step (init n) s) : s.n = n :=
  h.inv (Inv := fun s => s.n = n) rfl (fun _ _ _ hi hs => by rw [step_n hs, hi])

end FF.Lamport
