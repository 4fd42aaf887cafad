import Verif.SwsrConc.Lemmas
namespace FF.SwsrConc
open FF.Swsr (next)
variable {A V : Type}

/-- stream positions whose clearing store is still pending -/
def nulls (csb : List (Nat × Nat)) : List Nat := csb.map Prod.snd

/-- position `k` has been popped and its slot cleared in memory -/
def Done (s : St A V) (k : Nat) : Prop := k < s.popped.length ∧ k ∉ nulls s.csb

/-- memory holds the pointer pushed at position `k` -/
def Live (s : St A V) (k : Nat) : Prop :=
  k < s.pushed.length ∧ k ∉ pend s.sb ∧ (s.popped.length ≤ k ∨ k ∈ nulls s.csb)

/-- part 1 of the invariant: the ring -/
structure Ring (s : St A V) : Prop where
  npos : 0 < s.n
  pw : s.pw = s.pushed.length % s.n
  pr : s.pr = s.popped.length % s.n
  cp : s.popped.length ≤ s.pushed.length
  sbslot : ∀ ep i a k, PEnt.slot ep i a k ∈ s.sb →
    s.popped.length ≤ k ∧ k < s.pushed.length ∧ i = k % s.n ∧
      s.pushed[k]?.map Prod.fst = some a
  sbnd : (pend s.sb).Nodup
  csbslot : ∀ i k, (i, k) ∈ s.csb → k < s.popped.length ∧ i = k % s.n
  csbnd : (nulls s.csb).Nodup
  ring : ∀ k k', k < k' → k % s.n = k' % s.n → k' < s.pushed.length → Done s k
  checked : s.ppc ≠ .idle → ∀ k, k < s.pushed.length → k % s.n = s.pushed.length % s.n → Done s k
  live : ∀ k, Live s k → s.buf (k % s.n) = s.pushed[k]?.map Prod.fst
  nolive : ∀ i, (∀ k, Live s k → k % s.n ≠ i) → s.buf i = none
  seen : s.cpc = .seen → s.popped.length < s.pushed.length ∧ s.popped.length ∉ pend s.sb ∧
    ∀ k, k ∈ nulls s.csb → k % s.n ≠ s.popped.length % s.n
  loaded : ∀ x, s.cpc = .loaded x → s.popped.length < s.pushed.length ∧
    s.popped.length ∉ pend s.sb ∧ x = s.pushed[s.popped.length]?.map Prod.fst ∧
    ∀ k, k ∈ nulls s.csb → k % s.n ≠ s.popped.length % s.n
  popped : ∀ k, k < s.popped.length → s.popped[k]? = s.pushed[k]?.map (fun x => some x.1)

/-- part 2 of the invariant: the objects -/
structure Pay [DecidableEq A] (s : St A V) : Prop where
  epb : ∀ x ∈ s.sb, x.ep ≤ s.ep
  fenced : ∀ a, s.ppc = .fenced a → ∀ e b v, PEnt.pay e b v ∈ s.sb → e < s.ep
  ord : ∀ e i a k e' v, PEnt.slot e i a k ∈ s.sb → PEnt.pay e' a v ∈ s.sb → e' < e
  view : ∀ k a v, s.pushed[k]? = some (a, v) → (s.popped.length ≤ k ∨ k ∈ s.held) →
    s.prodView a = v
  vis : ∀ k a v, s.pushed[k]? = some (a, v) → k ∉ pend s.sb →
    (s.popped.length ≤ k ∨ k ∈ s.held) → ∀ e v', PEnt.pay e a v' ∉ s.sb
  heldlt : ∀ k ∈ s.held, k < s.popped.length
  obs : ∀ k w, (k, w) ∈ s.obs → ∃ a, s.pushed[k]? = some (a, w) ∧ s.popped[k]? = some (some a)

theorem Ring.init (n : Nat) (hn : 0 < n) (mem : A → V) : Ring (init n mem) := by
  constructor <;> simp [SwsrConc.init, hn, pend, nulls, Live]

theorem Pay.init [DecidableEq A] (n : Nat) (mem : A → V) : Pay (init n mem) := by
  constructor <;> simp [SwsrConc.init, pend]

/-! ## What loads see -/

theorem Ring.prodLoad_none {s : St A V} (h : Ring s) :
    s.prodLoad = none ↔
      ∀ k, k < s.pushed.length → k % s.n = s.pushed.length % s.n → Done s k := by
  unfold St.prodLoad
  constructor
  · intro hl k hk hkm
    cases hf : slotFwd s.sb s.pw with
    | some a => rw [hf] at hl; simp at hl
    | none =>
      rw [hf] at hl
      simp only at hl
      rw [slotFwd_none] at hf
      have hnp : k ∉ pend s.sb := by
        rw [mem_pend]; rintro ⟨ep, i, a, hm⟩
        have := (h.sbslot _ _ _ _ hm).2.2.1
        rw [this, hkm, ← h.pw] at hm
        exact hf _ _ _ hm
      apply Classical.byContradiction
      intro hd
      have hlive : Live s k := by
        refine ⟨hk, hnp, ?_⟩
        unfold Done at hd
        by_cases hc : s.popped.length ≤ k
        · exact Or.inl hc
        · right; apply Classical.byContradiction; intro h2; exact hd ⟨by omega, h2⟩
      have := h.live k hlive
      rw [hkm, ← h.pw, hl, List.getElem?_eq_getElem hk] at this
      simp at this
  · intro hd
    have hf : slotFwd s.sb s.pw = none := by
      rw [slotFwd_none]
      intro ep a k hm
      obtain ⟨h1, h2, h3, -⟩ := h.sbslot _ _ _ _ hm
      have := (hd k h2 (by rw [← h3, h.pw])).1
      omega
    rw [hf]
    apply h.nolive
    intro k hk hkm
    have := hd k hk.1 (by rw [hkm, h.pw])
    rcases hk.2.2 with h1 | h1
    · have := this.1; omega
    · exact this.2 h1

theorem Ring.consLoad_some {s : St A V} (h : Ring s) (a : A) :
    s.consLoad = some a ↔ s.popped.length < s.pushed.length ∧ s.popped.length ∉ pend s.sb ∧
      s.pushed[s.popped.length]?.map Prod.fst = some a ∧
      ∀ k, k ∈ nulls s.csb → k % s.n ≠ s.popped.length % s.n := by
  unfold St.consLoad
  have hany : s.csb.any (fun e => e.1 = s.pr) = true ↔
      ∃ k, k ∈ nulls s.csb ∧ k % s.n = s.popped.length % s.n := by
    simp only [List.any_eq_true, nulls, List.mem_map, decide_eq_true_eq]
    constructor
    · rintro ⟨⟨i, k⟩, h1, h2⟩
      have := (h.csbslot _ _ h1).2
      simp only at h2
      exact ⟨k, ⟨_, h1, rfl⟩, by rw [← this, h2, h.pr]⟩
    · rintro ⟨k, ⟨⟨i, k'⟩, h1, h2⟩, h3⟩
      simp only at h2; subst h2
      have := (h.csbslot _ _ h1).2
      exact ⟨_, h1, by rw [this, h3, h.pr]⟩
  by_cases hc : s.csb.any (fun e => e.1 = s.pr) = true
  · rw [if_pos hc]
    obtain ⟨k, h1, h2⟩ := hany.1 hc
    constructor
    · intro h; simp at h
    · rintro ⟨_, _, _, h4⟩; exact absurd h2 (h4 k h1)
  · rw [if_neg hc]
    have hnn : ∀ k, k ∈ nulls s.csb → k % s.n ≠ s.popped.length % s.n :=
      fun k h1 h2 => hc (hany.2 ⟨k, h1, h2⟩)
    constructor
    · intro hb
      have : ∃ k, Live s k ∧ k % s.n = s.pr := by
        apply Classical.byContradiction
        intro hcon
        have := h.nolive s.pr (fun k hk hkm => hcon ⟨k, hk, hkm⟩)
        rw [hb] at this; simp at this
      obtain ⟨k, hk, hkm⟩ := this
      rw [h.pr] at hkm
      have hge : s.popped.length ≤ k := by
        rcases hk.2.2 with h1 | h1
        · exact h1
        · exact absurd hkm (hnn k h1)
      have hke : k = s.popped.length := by
        apply Classical.byContradiction
        intro hne
        have := (h.ring s.popped.length k (by omega) hkm.symm hk.1).1
        omega
      subst hke
      refine ⟨hk.1, hk.2.1, ?_, hnn⟩
      rw [← h.live _ hk, ← h.pr, hb]
    · rintro ⟨h1, h2, h3, -⟩
      have := h.live s.popped.length ⟨h1, h2, Or.inl (Nat.le_refl _)⟩
      rw [← h.pr, h3] at this
      exact this

/-! ## Preservation -/

/-- States that agree on everything the ring invariant mentions. -/
theorem Ring.congr {s t : St A V} (h : Ring s) (h1 : t.n = s.n) (h2 : t.pw = s.pw)
    (h3 : t.pr = s.pr) (h4 : t.buf = s.buf)
    (h5 : ∀ ep i a k, PEnt.slot ep i a k ∈ t.sb ↔ PEnt.slot ep i a k ∈ s.sb)
    (h5' : pend t.sb = pend s.sb) (h6 : t.csb = s.csb)
    (h7 : t.ppc ≠ .idle → s.ppc ≠ .idle) (h8 : t.cpc = s.cpc) (h9 : t.pushed = s.pushed)
    (h10 : t.popped = s.popped) : Ring t := by
  have hD : ∀ k, Done t k ↔ Done s k := by intro k; simp [Done, h10, h6]
  have hL : ∀ k, Live t k ↔ Live s k := by intro k; simp [Live, h10, h6, h9, h5']
  constructor
  · rw [h1]; exact h.npos
  · rw [h1, h2, h9]; exact h.pw
  · rw [h1, h3, h10]; exact h.pr
  · rw [h9, h10]; exact h.cp
  · intro ep i a k hm; rw [h1, h9, h10]; exact h.sbslot ep i a k ((h5 ..).1 hm)
  · rw [h5']; exact h.sbnd
  · rw [h1, h6, h10]; exact h.csbslot
  · rw [h6]; exact h.csbnd
  · intro k k' a b c; rw [hD]; rw [h1] at b; rw [h9] at c; exact h.ring k k' a b c
  · intro hp k; rw [hD, h1, h9]; exact h.checked (h7 hp) k
  · intro k hk; rw [h1, h4, h9]; exact h.live k ((hL k).1 hk)
  · intro i hi; rw [h4]; apply h.nolive; intro k hk; rw [← h1]; exact hi k ((hL k).2 hk)
  · rw [h1, h5', h6, h8, h9, h10]; exact h.seen
  · rw [h1, h5', h6, h8, h9, h10]; exact h.loaded
  · rw [h9, h10]; exact h.popped

theorem Ring.put {s : St A V} (h : Ring s) (a : A) (hp : s.ppc = .fenced a) (v : V) :
    Ring { s with
        sb := s.sb ++ [.slot s.ep s.pw a s.pushed.length]
        pw := next s.n s.pw
        ppc := .idle
        pushed := s.pushed ++ [(a, v)] } := by
  have hck := h.checked (by rw [hp]; simp)
  have hcp := h.cp
  have hpend : ∀ k, k ∈ pend (s.sb ++ [PEnt.slot (V := V) s.ep s.pw a s.pushed.length]) ↔
      k ∈ pend s.sb ∨ k = s.pushed.length := by
    intro k; rw [pend_append, List.mem_append]; simp [pend, posOf]
  have hL : ∀ k, Live { s with
        sb := s.sb ++ [.slot s.ep s.pw a s.pushed.length]
        pw := next s.n s.pw
        ppc := .idle
        pushed := s.pushed ++ [(a, v)] } k ↔ Live s k := by
    intro k
    simp only [Live, List.length_append, List.length_singleton, hpend, not_or]
    constructor
    · rintro ⟨h1, h2, h3⟩; exact ⟨by omega, h2.1, h3⟩
    · rintro ⟨h1, h2, h3⟩; exact ⟨by omega, ⟨h2, by omega⟩, h3⟩
  have hget : ∀ k, k < s.pushed.length → (s.pushed ++ [(a, v)])[k]? = s.pushed[k]? := by
    intro k hk; exact List.getElem?_append_left hk
  constructor
  · exact h.npos
  · simp only [List.length_append, List.length_singleton]; rw [h.pw, next_mod h.npos]
  · exact h.pr
  · simp only [List.length_append, List.length_singleton]; omega
  · intro ep i b k hm
    simp only [List.mem_append, List.mem_singleton] at hm
    simp only [List.length_append, List.length_singleton]
    rcases hm with hm | hm
    · obtain ⟨g1, g2, g3, g4⟩ := h.sbslot _ _ _ _ hm
      exact ⟨g1, by omega, g3, by rw [hget _ g2]; exact g4⟩
    · simp only [PEnt.slot.injEq] at hm
      obtain ⟨rfl, rfl, rfl, rfl⟩ := hm
      exact ⟨hcp, by omega, h.pw, by simp⟩
  · rw [pend_append, List.nodup_append]
    refine ⟨h.sbnd, by simp [pend, posOf], ?_⟩
    intro x hx y hy
    simp [pend, posOf] at hy
    subst hy
    rw [mem_pend] at hx
    obtain ⟨ep, i, b, hx⟩ := hx
    have := (h.sbslot _ _ _ _ hx).2.1
    omega
  · exact h.csbslot
  · exact h.csbnd
  · intro k k' hlt hmod hk'
    simp only [List.length_append, List.length_singleton] at hk'
    simp only [Done]
    rcases Nat.lt_or_ge k' s.pushed.length with h1 | h1
    · exact h.ring k k' hlt hmod h1
    · have : k' = s.pushed.length := by omega
      subst this
      exact hck k hlt hmod
  · intro hc; simp at hc
  · intro k hk
    have hk' := (hL k).1 hk
    simp only
    rw [hget k hk'.1]
    exact h.live k hk'
  · intro i hi
    exact h.nolive i (fun k hk => hi k ((hL k).2 hk))
  · intro hs
    obtain ⟨h1, h2, h3⟩ := h.seen hs
    simp only [List.length_append, List.length_singleton, hpend]
    exact ⟨by omega, by simp [h2]; omega, h3⟩
  · intro x hs
    obtain ⟨h1, h2, h3, h4⟩ := h.loaded x hs
    simp only [List.length_append, List.length_singleton, hpend]
    exact ⟨by omega, by simp [h2]; omega, by rw [hget _ h1]; exact h3, h4⟩
  · intro k hk
    simp only at hk ⊢
    rw [hget k (by omega)]
    exact h.popped k hk

theorem Ring.commitSlot {s : St A V} (h : Ring s) {m e i k : Nat} {a : A}
    (hm : s.sb[m]? = some (.slot e i a k)) :
    Ring { s with
        sb := s.sb.eraseIdx m
        buf := fun j => if j = i then some a else s.buf j } := by
  obtain ⟨ys, hsb, her⟩ := split_at hm
  rw [her]
  generalize s.sb.take m = xs at *
  have hin : PEnt.slot e i a k ∈ s.sb := by rw [hsb]; simp
  obtain ⟨g1, g2, g3, g4⟩ := h.sbslot _ _ _ _ hin
  have hnd := h.sbnd
  have hpe : pend s.sb = pend xs ++ k :: pend ys := by rw [hsb, pend_append]; rfl
  have hkn : k ∉ pend (xs ++ ys) := by
    rw [hpe] at hnd
    rw [pend_append, List.mem_append]
    simp only [List.nodup_append, List.nodup_cons] at hnd
    rintro (h1 | h1)
    · exact hnd.2.2 k h1 k (by simp) rfl
    · exact hnd.2.1.1 h1
  have hpend : ∀ k', k' ∈ pend s.sb ↔ k' = k ∨ k' ∈ pend (xs ++ ys) := by
    intro k'
    rw [hpe, pend_append]
    simp only [List.mem_append, List.mem_cons]
    constructor
    · rintro (h1 | h1 | h1)
      · exact Or.inr (Or.inl h1)
      · exact Or.inl h1
      · exact Or.inr (Or.inr h1)
    · rintro (h1 | h1 | h1)
      · exact Or.inr (Or.inl h1)
      · exact Or.inl h1
      · exact Or.inr (Or.inr h1)
  have hL : ∀ k', Live { s with
        sb := xs ++ ys
        buf := fun j => if j = i then some a else s.buf j } k' ↔ k' = k ∨ Live s k' := by
    intro k'
    simp only [Live, hpend, not_or]
    constructor
    · rintro ⟨h1, h2, h3⟩
      by_cases hk : k' = k
      · exact Or.inl hk
      · exact Or.inr ⟨h1, ⟨hk, h2⟩, h3⟩
    · rintro (rfl | ⟨h1, ⟨h2, h3⟩, h4⟩)
      · exact ⟨g2, hkn, Or.inl g1⟩
      · exact ⟨h1, h3, h4⟩
  constructor
  · exact h.npos
  · exact h.pw
  · exact h.pr
  · exact h.cp
  · intro ep i' b k' hm'
    apply h.sbslot ep i' b k'
    rw [hsb]
    simp only [List.mem_append, List.mem_cons] at hm' ⊢
    rcases hm' with h1 | h1
    · exact Or.inl h1
    · exact Or.inr (Or.inr h1)
  · rw [hpe] at hnd
    rw [pend_append]
    simp only [List.nodup_append, List.nodup_cons] at hnd ⊢
    exact ⟨hnd.1, hnd.2.1.2, fun x hx y hy => hnd.2.2 x hx y (by simp [hy])⟩
  · exact h.csbslot
  · exact h.csbnd
  · exact h.ring
  · exact h.checked
  · intro k' hk'
    simp only
    rcases (hL k').1 hk' with rfl | h1
    · rw [if_pos g3.symm, g4]
    · rw [if_neg]
      · exact h.live k' h1
      · intro he
        have hmod : k' % s.n = k % s.n := by rw [he, g3]
        have hne : k' ≠ k := by
          rintro rfl; exact h1.2.1 ((hpend k').2 (Or.inl rfl))
        rcases Nat.lt_or_gt_of_ne hne with hlt | hgt
        · have hd := h.ring k' k hlt hmod g2
          rcases h1.2.2 with h2 | h2
          · have := hd.1; omega
          · exact hd.2 h2
        · have hd := h.ring k k' hgt hmod.symm h1.1
          have := hd.1; omega
  · intro j hj
    simp only
    have : j ≠ i := by
      rintro rfl
      exact hj k ((hL k).2 (Or.inl rfl)) g3.symm
    rw [if_neg this]
    apply h.nolive
    intro k' hk'
    exact hj k' ((hL k').2 (Or.inr hk'))
  · intro hs
    obtain ⟨h1, h2, h3⟩ := h.seen hs
    refine ⟨h1, ?_, h3⟩
    simp only
    intro hc
    exact h2 ((hpend _).2 (Or.inr hc))
  · intro x hs
    obtain ⟨h1, h2, h3, h4⟩ := h.loaded x hs
    refine ⟨h1, ?_, h3, h4⟩
    simp only
    intro hc
    exact h2 ((hpend _).2 (Or.inr hc))
  · exact h.popped

theorem Ring.clear {s : St A V} (h : Ring s) {x : Option A} (hp : s.cpc = .loaded x) (hd : List Nat) :
    Ring { s with
        csb := s.csb ++ [(s.pr, s.popped.length)]
        pr := next s.n s.pr
        cpc := .idle
        popped := s.popped ++ [x]
        held := hd } := by
  obtain ⟨l1, l2, l3, l4⟩ := h.loaded x hp
  have hnl : ∀ k, k ∈ nulls (s.csb ++ [(s.pr, s.popped.length)]) ↔
      k ∈ nulls s.csb ∨ k = s.popped.length := by
    intro k; simp [nulls]
  have hDm : ∀ k, Done s k → Done { s with
        csb := s.csb ++ [(s.pr, s.popped.length)]
        pr := next s.n s.pr
        cpc := .idle
        popped := s.popped ++ [x]
        held := hd } k := by
    rintro k ⟨h1, h2⟩
    simp only [Done, List.length_append, List.length_singleton, hnl, not_or]
    exact ⟨by omega, h2, by omega⟩
  have hL : ∀ k, Live { s with
        csb := s.csb ++ [(s.pr, s.popped.length)]
        pr := next s.n s.pr
        cpc := .idle
        popped := s.popped ++ [x]
        held := hd } k ↔ Live s k := by
    intro k
    simp only [Live, List.length_append, List.length_singleton, hnl]
    constructor
    · rintro ⟨h1, h2, h3 | h3 | h3⟩
      · exact ⟨h1, h2, Or.inl (by omega)⟩
      · exact ⟨h1, h2, Or.inr h3⟩
      · exact ⟨h1, h2, Or.inl (by omega)⟩
    · rintro ⟨h1, h2, h3 | h3⟩
      · refine ⟨h1, h2, ?_⟩
        by_cases hk : k = s.popped.length
        · exact Or.inr (Or.inr hk)
        · exact Or.inl (by omega)
      · exact ⟨h1, h2, Or.inr (Or.inl h3)⟩
  constructor
  · exact h.npos
  · exact h.pw
  · simp only [List.length_append, List.length_singleton]; rw [h.pr, next_mod h.npos]
  · simp only [List.length_append, List.length_singleton]; omega
  · intro ep i a k hm
    obtain ⟨g1, g2, g3, g4⟩ := h.sbslot _ _ _ _ hm
    simp only [List.length_append, List.length_singleton]
    have : k ≠ s.popped.length := by
      rintro rfl; exact l2 (mem_pend.2 ⟨_, _, _, hm⟩)
    exact ⟨by omega, g2, g3, g4⟩
  · exact h.sbnd
  · intro i k hm
    simp only [List.mem_append, List.mem_singleton, Prod.mk.injEq] at hm
    simp only [List.length_append, List.length_singleton]
    rcases hm with hm | ⟨rfl, rfl⟩
    · obtain ⟨g1, g2⟩ := h.csbslot _ _ hm
      exact ⟨by omega, g2⟩
    · exact ⟨by omega, h.pr⟩
  · have := h.csbnd
    simp only [nulls, List.map_append, List.nodup_append]
    refine ⟨this, by simp, ?_⟩
    intro k hk y hy
    simp at hy
    subst hy
    simp only [List.mem_map] at hk
    obtain ⟨⟨i, k'⟩, h1, h2⟩ := hk
    have := (h.csbslot _ _ h1).1
    simp only at h2
    omega
  · intro k k' h1 h2 h3
    exact hDm k (h.ring k k' h1 h2 h3)
  · intro hpc k h1 h2
    exact hDm k (h.checked hpc k h1 h2)
  · intro k hk; exact h.live k ((hL k).1 hk)
  · intro i hi; exact h.nolive i (fun k hk => hi k ((hL k).2 hk))
  · intro hc; simp at hc
  · intro x hc; simp at hc
  · intro k hk
    simp only [List.length_append, List.length_singleton] at hk ⊢
    rcases Nat.lt_or_ge k s.popped.length with h1 | h1
    · rw [List.getElem?_append_left h1]; exact h.popped k h1
    · have : k = s.popped.length := by omega
      subst this
      rw [l3]
      simp [List.getElem?_eq_getElem l1]

theorem Ring.commitClear {s : St A V} (h : Ring s) {m i k : Nat} (hm : s.csb[m]? = some (i, k)) :
    Ring { s with
        csb := s.csb.eraseIdx m
        buf := fun j => if j = i then none else s.buf j } := by
  obtain ⟨ys, hsb, her⟩ := split_at hm
  rw [her]
  generalize s.csb.take m = xs at *
  have hin : (i, k) ∈ s.csb := by rw [hsb]; simp
  obtain ⟨g1, g2⟩ := h.csbslot _ _ hin
  have hcp := h.cp
  have hnd := h.csbnd
  have hpe : nulls s.csb = nulls xs ++ k :: nulls ys := by rw [hsb]; simp [nulls]
  have hap : nulls (xs ++ ys) = nulls xs ++ nulls ys := by simp [nulls]
  have hkn : k ∉ nulls (xs ++ ys) := by
    rw [hpe] at hnd
    rw [hap, List.mem_append]
    simp only [List.nodup_append, List.nodup_cons] at hnd
    rintro (h1 | h1)
    · exact hnd.2.2 k h1 k (by simp) rfl
    · exact hnd.2.1.1 h1
  have hnl : ∀ k', k' ∈ nulls s.csb ↔ k' = k ∨ k' ∈ nulls (xs ++ ys) := by
    intro k'
    rw [hpe, hap]
    simp only [List.mem_append, List.mem_cons]
    constructor
    · rintro (h1 | h1 | h1)
      · exact Or.inr (Or.inl h1)
      · exact Or.inl h1
      · exact Or.inr (Or.inr h1)
    · rintro (h1 | h1 | h1)
      · exact Or.inr (Or.inl h1)
      · exact Or.inl h1
      · exact Or.inr (Or.inr h1)
  have hlivek : Live s k := by
    refine ⟨by omega, ?_, Or.inr ((hnl k).2 (Or.inl rfl))⟩
    rw [mem_pend]; rintro ⟨ep, i', a, hx⟩
    have := (h.sbslot _ _ _ _ hx).1
    omega
  have hDm : ∀ k', Done s k' → Done { s with
        csb := xs ++ ys
        buf := fun j => if j = i then none else s.buf j } k' := by
    rintro k' ⟨h1, h2⟩
    exact ⟨h1, fun hc => h2 ((hnl k').2 (Or.inr hc))⟩
  have hL : ∀ k', Live { s with
        csb := xs ++ ys
        buf := fun j => if j = i then none else s.buf j } k' ↔ k' ≠ k ∧ Live s k' := by
    intro k'
    simp only [Live, hnl]
    constructor
    · rintro ⟨h1, h2, h3 | h3⟩
      · exact ⟨by omega, h1, h2, Or.inl h3⟩
      · exact ⟨by rintro rfl; exact hkn h3, h1, h2, Or.inr (Or.inr h3)⟩
    · rintro ⟨h0, h1, h2, h3 | h3 | h3⟩
      · exact ⟨h1, h2, Or.inl h3⟩
      · exact absurd h3 h0
      · exact ⟨h1, h2, Or.inr h3⟩
  constructor
  · exact h.npos
  · exact h.pw
  · exact h.pr
  · exact h.cp
  · exact h.sbslot
  · exact h.sbnd
  · intro i' k' hm'
    apply h.csbslot
    rw [hsb]
    simp only [List.mem_append, List.mem_cons] at hm' ⊢
    rcases hm' with h1 | h1
    · exact Or.inl h1
    · exact Or.inr (Or.inr h1)
  · simp only
    rw [hpe] at hnd
    rw [hap]
    simp only [List.nodup_append, List.nodup_cons] at hnd ⊢
    exact ⟨hnd.1, hnd.2.1.2, fun x hx y hy => hnd.2.2 x hx y (by simp [hy])⟩
  · intro k1 k2 h1 h2 h3; exact hDm _ (h.ring k1 k2 h1 h2 h3)
  · intro hp k1 h1 h2; exact hDm _ (h.checked hp k1 h1 h2)
  · intro k' hk'
    obtain ⟨hne, h1⟩ := (hL k').1 hk'
    simp only
    rw [if_neg]
    · exact h.live k' h1
    · intro he
      have hmod : k' % s.n = k % s.n := by rw [he, g2]
      rcases Nat.lt_or_gt_of_ne hne with hlt | hgt
      · have hd := h.ring k' k hlt hmod (by omega)
        rcases h1.2.2 with h2 | h2
        · have := hd.1; omega
        · exact hd.2 h2
      · have hd := h.ring k k' hgt hmod.symm h1.1
        exact hd.2 ((hnl k).2 (Or.inl rfl))
  · intro j hj
    simp only
    by_cases hji : j = i
    · rw [if_pos hji]
    · rw [if_neg hji]
      apply h.nolive
      intro k' hk'
      by_cases hk : k' = k
      · subst hk; rw [← g2]; exact Ne.symm hji
      · exact hj k' ((hL k').2 ⟨hk, hk'⟩)
  · intro hs
    obtain ⟨h1, h2, h3⟩ := h.seen hs
    exact ⟨h1, h2, fun k' hk' => h3 k' ((hnl k').2 (Or.inr hk'))⟩
  · intro x hs
    obtain ⟨h1, h2, h3, h4⟩ := h.loaded x hs
    exact ⟨h1, h2, h3, fun k' hk' => h4 k' ((hnl k').2 (Or.inr hk'))⟩
  · exact h.popped

variable [DecidableEq A]

theorem Ring.step {s s' : St A V} {act : Act A V} (h : Ring s) (hs : step s act = some s') :
    Ring s' := by
  cases act with
  | pStore a v =>
    simp only [SwsrConc.step] at hs
    split at hs
    · rename_i hc
      simp only [Option.some.injEq] at hs; subst hs
      refine h.congr rfl rfl rfl rfl ?_ ?_ rfl ?_ rfl rfl rfl
      · intro ep i a k; simp
      · simp [pend, posOf]
      · intro hp; exact hp
    · simp at hs
  | pCheck a =>
    simp only [SwsrConc.step] at hs
    split at hs
    · split at hs
      · rename_i h1 h2
        simp only [Option.some.injEq] at hs; subst hs
        have hck := h.prodLoad_none.1 h2
        exact ⟨h.npos, h.pw, h.pr, h.cp, h.sbslot, h.sbnd, h.csbslot, h.csbnd, h.ring,
          fun _ => hck, h.live, h.nolive, h.seen, h.loaded, h.popped⟩
      · simp only [Option.some.injEq] at hs; subst hs; exact h
    · simp at hs
  | pFence =>
    simp only [SwsrConc.step] at hs
    split at hs
    · rename_i a hp
      simp only [Option.some.injEq] at hs; subst hs
      refine h.congr rfl rfl rfl rfl ?_ rfl rfl ?_ rfl rfl rfl
      · intro ep i a k; rfl
      · intro _; rw [hp]; simp
    · simp at hs
  | pPut =>
    simp only [SwsrConc.step] at hs
    split at hs
    · rename_i a hp
      simp only [Option.some.injEq] at hs; subst hs
      exact h.put a hp _
    · simp at hs
  | pCommit m =>
    simp only [SwsrConc.step] at hs
    split at hs
    · simp at hs
    · rename_i e he
      split at hs
      · rename_i hcond
        split at hs
        · rename_i ep a v
          simp only [Option.some.injEq] at hs; subst hs
          obtain ⟨ys, hsb, her⟩ := split_at he
          refine h.congr rfl rfl rfl rfl ?_ ?_ rfl (fun hp => hp) rfl rfl rfl
          · intro ep' i b k
            simp only [her]
            rw [show (PEnt.slot ep' i b k ∈ s.sb ↔
              PEnt.slot ep' i b k ∈ s.sb.take m ++ PEnt.pay ep a v :: ys) by rw [← hsb]]
            simp
          · simp only [her]
            rw [show pend s.sb = pend (s.sb.take m ++ PEnt.pay ep a v :: ys) by rw [← hsb]]
            simp [pend, List.filterMap_append, List.filterMap_cons, posOf]
        · rename_i ep i a k
          simp only [Option.some.injEq] at hs; subst hs
          exact h.commitSlot he
      · simp at hs
  | cCheck =>
    simp only [SwsrConc.step] at hs
    split at hs
    · split at hs
      · simp only [Option.some.injEq] at hs; subst hs; exact h
      · rename_i h1 h2
        simp only [Option.some.injEq] at hs; subst hs
        obtain ⟨a, ha⟩ := Option.ne_none_iff_exists'.1 h2
        obtain ⟨g1, g2, g3, g4⟩ := (h.consLoad_some a).1 ha
        exact ⟨h.npos, h.pw, h.pr, h.cp, h.sbslot, h.sbnd, h.csbslot, h.csbnd, h.ring,
          h.checked, h.live, h.nolive, fun _ => ⟨g1, g2, g4⟩, by simp, h.popped⟩
    · simp at hs
  | cLoad =>
    simp only [SwsrConc.step] at hs
    split at hs
    · rename_i h1
      simp only [Option.some.injEq] at hs; subst hs
      obtain ⟨g1, g2, g3⟩ := h.seen h1
      have hx : s.consLoad = s.pushed[s.popped.length]?.map Prod.fst := by
        have h4 : s.pushed[s.popped.length]?.map Prod.fst =
            some (s.pushed[s.popped.length]).1 := by
          rw [List.getElem?_eq_getElem g1]; rfl
        rw [h4]
        exact (h.consLoad_some _).2 ⟨g1, g2, h4, g3⟩
      refine ⟨h.npos, h.pw, h.pr, h.cp, h.sbslot, h.sbnd, h.csbslot, h.csbnd, h.ring,
          h.checked, h.live, h.nolive, by simp, ?_, h.popped⟩
      intro x hxx
      simp only [CPc.loaded.injEq] at hxx
      exact ⟨g1, g2, by rw [← hxx]; exact hx, g3⟩
    · simp at hs
  | cClear =>
    simp only [SwsrConc.step] at hs
    split at hs
    · rename_i x hp
      simp only [Option.some.injEq] at hs; subst hs
      exact h.clear hp _
    · simp at hs
  | cCommit m =>
    simp only [SwsrConc.step] at hs
    split at hs
    · simp at hs
    · rename_i e he
      split at hs
      · simp only [Option.some.injEq] at hs; subst hs
        exact h.commitClear (i := e.1) (k := e.2) he
      · simp at hs
  | cRead k =>
    simp only [SwsrConc.step] at hs
    split at hs
    · split at hs
      · simp only [Option.some.injEq] at hs; subst hs
        exact h.congr rfl rfl rfl rfl (fun _ _ _ _ => Iff.rfl) rfl rfl (fun hp => hp) rfl rfl rfl
      · simp at hs
    · simp at hs
  | cRelease k =>
    simp only [SwsrConc.step, Option.some.injEq] at hs
    subst hs
    exact h.congr rfl rfl rfl rfl (fun _ _ _ _ => Iff.rfl) rfl rfl (fun hp => hp) rfl rfl rfl

theorem Pay.step {s s' : St A V} {act : Act A V} (hr : Ring s) (h : Pay s)
    (hs : step s act = some s') : Pay s' := by
  have hcp := hr.cp
  cases act with
  | pStore a v =>
    simp only [SwsrConc.step] at hs
    split at hs
    · rename_i hc
      obtain ⟨hidle, hw⟩ := hc
      simp only [Option.some.injEq] at hs; subst hs
      have hfl : ∀ k w, s.pushed[k]? = some (a, w) → ¬ (s.popped.length ≤ k ∨ k ∈ s.held) := by
        intro k w hk hc
        have hlt : k < s.pushed.length := by
          apply Classical.byContradiction; intro hn
          rw [List.getElem?_eq_none (by omega)] at hk; simp at hk
        have := hw k hlt (by rw [hk]; rfl)
        rcases hc with h1 | h1
        · omega
        · exact this.2 h1
      constructor
      · intro x hx
        simp only [List.mem_append, List.mem_singleton] at hx
        rcases hx with hx | rfl
        · exact h.epb x hx
        · exact Nat.le_refl _
      · intro b hb; simp only at hb; rw [hidle] at hb; simp at hb
      · intro e i b k e' w h1 h2
        simp only [List.mem_append, List.mem_singleton, reduceCtorEq, or_false,
          PEnt.pay.injEq] at h1 h2
        rcases h2 with h2 | ⟨rfl, rfl, rfl⟩
        · exact h.ord _ _ _ _ _ _ h1 h2
        · obtain ⟨g1, g2, -, g4⟩ := hr.sbslot _ _ _ _ h1
          rw [List.getElem?_eq_getElem g2] at g4
          simp only [Option.map_some, Option.some.injEq] at g4
          exact absurd (Or.inl g1) (hfl k s.pushed[k].2 (by
            rw [List.getElem?_eq_getElem g2]; congr 1; rw [← g4]))
      · intro k b w hk hc
        have hne : a ≠ b := by rintro rfl; exact hfl k w hk hc
        have := h.view k b w hk hc
        unfold St.prodView at this ⊢
        simp only [payFwd_append]
        have h0 : payFwd [PEnt.pay s.ep a v] b = none := by simp [payFwd, hne]
        rw [h0]
        simpa using this
      · intro k b w hk hp hc e v' hm
        have hne : a ≠ b := by rintro rfl; exact hfl k w hk hc
        simp only [List.mem_append, List.mem_singleton, PEnt.pay.injEq] at hm
        have hp' : k ∉ pend s.sb := by
          simp only [pend_append, List.mem_append, not_or] at hp; exact hp.1
        rcases hm with hm | ⟨-, h2, -⟩
        · exact h.vis k b w hk hp' hc e v' hm
        · exact hne h2.symm
      · exact h.heldlt
      · exact h.obs
    · simp at hs
  | pCheck a =>
    simp only [SwsrConc.step] at hs
    split at hs
    · split at hs
      · simp only [Option.some.injEq] at hs; subst hs
        exact ⟨h.epb, by simp, h.ord, h.view, h.vis, h.heldlt, h.obs⟩
      · simp only [Option.some.injEq] at hs; subst hs; exact h
    · simp at hs
  | pFence =>
    simp only [SwsrConc.step] at hs
    split at hs
    · simp only [Option.some.injEq] at hs; subst hs
      refine ⟨fun x hx => Nat.le_succ_of_le (h.epb x hx), ?_, h.ord, h.view, h.vis, h.heldlt, h.obs⟩
      intro a _ e b v hm
      have := h.epb _ hm
      simp only [PEnt.ep] at this ⊢
      omega
    · simp at hs
  | pPut =>
    simp only [SwsrConc.step] at hs
    split at hs
    · rename_i a hp
      simp only [Option.some.injEq] at hs; subst hs
      have hpv : ∀ b, payFwd (s.sb ++ [PEnt.slot s.ep s.pw a s.pushed.length]) b
          = payFwd s.sb b := by
        intro b; rw [payFwd_append]; simp [payFwd]
      have hget : ∀ k b w, (s.pushed ++ [(a, s.prodView a)])[k]? = some (b, w) →
          (k < s.pushed.length ∧ s.pushed[k]? = some (b, w)) ∨
          (k = s.pushed.length ∧ b = a ∧ w = s.prodView a) := by
        intro k b w hk
        rcases Nat.lt_or_ge k s.pushed.length with h1 | h1
        · rw [List.getElem?_append_left h1] at hk; exact Or.inl ⟨h1, hk⟩
        · rcases Nat.lt_or_ge s.pushed.length k with h2 | h2
          · rw [List.getElem?_eq_none (by simp; omega)] at hk; simp at hk
          · have : k = s.pushed.length := by omega
            subst this
            simp at hk
            exact Or.inr ⟨rfl, hk.1.symm, hk.2.symm⟩
      constructor
      · intro x hx
        simp only [List.mem_append, List.mem_singleton] at hx
        rcases hx with hx | rfl
        · exact h.epb x hx
        · exact Nat.le_refl _
      · simp
      · intro e i b k e' w h1 h2
        simp only [List.mem_append, List.mem_singleton, reduceCtorEq, or_false,
          PEnt.slot.injEq] at h1 h2
        rcases h1 with h1 | ⟨rfl, rfl, rfl, rfl⟩
        · exact h.ord _ _ _ _ _ _ h1 h2
        · exact h.fenced _ hp _ _ _ h2
      · intro k b w hk hc
        simp only [St.prodView, hpv]
        rcases hget k b w hk with ⟨h1, h2⟩ | ⟨-, rfl, h3⟩
        · exact h.view k b w h2 hc
        · rw [h3]; rfl
      · intro k b w hk hpd hc e v' hm
        simp only [pend_append, List.mem_append, not_or] at hpd
        simp only [List.mem_append, List.mem_singleton, reduceCtorEq, or_false] at hm
        rcases hget k b w hk with ⟨h1, h2⟩ | ⟨h1, -, -⟩
        · exact h.vis k b w h2 hpd.1 hc e v' hm
        · exact hpd.2 (by simp [pend, posOf, h1])
      · exact h.heldlt
      · intro k w hm
        obtain ⟨b, h1, h2⟩ := h.obs k w hm
        refine ⟨b, ?_, h2⟩
        simp only
        rw [List.getElem?_append_left]
        · exact h1
        · apply Classical.byContradiction; intro hn
          rw [List.getElem?_eq_none (by omega)] at h1; simp at h1
    · simp at hs
  | pCommit m =>
    simp only [SwsrConc.step] at hs
    split at hs
    · simp at hs
    · rename_i e he
      split at hs
      · rename_i hc
        obtain ⟨hc1, hc2⟩ := hc
        obtain ⟨ys, hsb, her⟩ := split_at he
        have hsub : ∀ x, x ∈ s.sb.eraseIdx m → x ∈ s.sb := fun x hx => List.mem_of_mem_eraseIdx hx
        have hmin : ∀ x ∈ s.sb, e.ep ≤ x.ep := by
          intro x hx
          simpa using List.all_eq_true.1 hc1 x hx
        have hold : ∀ x ∈ s.sb.take m, x.sameLoc e = false := by
          intro x hx
          simpa using List.all_eq_true.1 hc2 x hx
        split at hs
        · rename_i ep a v
          simp only [Option.some.injEq] at hs; subst hs
          have hpe : pend (s.sb.eraseIdx m) = pend s.sb := by
            simp only [her]
            rw [show pend s.sb = pend (s.sb.take m ++ PEnt.pay ep a v :: ys) by rw [← hsb]]
            simp [pend, List.filterMap_append, List.filterMap_cons, posOf]
          have hview : ∀ b, St.prodView { s with
              sb := s.sb.eraseIdx m
              mem := fun b => if b = a then v else s.mem b } b = s.prodView b := by
            intro b
            simp only [St.prodView, her]
            rw [show payFwd s.sb b = payFwd (s.sb.take m ++ PEnt.pay ep a v :: ys) b by rw [← hsb]]
            rw [payFwd_append, payFwd_append, payFwd_cons]
            by_cases hb : b = a
            · subst hb
              have h1 : payFwd (s.sb.take m) b = none := by
                rw [payFwd_none]
                intro e' v' hx
                have := hold _ hx
                simp [PEnt.sameLoc] at this
              have h2 : payFwd [PEnt.pay ep b v] b = some v := by simp [payFwd]
              rw [h1, h2]
              cases payFwd ys b <;> simp
            · have h2 : payFwd [PEnt.pay ep a v] b = none := by
                simp [payFwd]; exact fun h => hb h.symm
              rw [h2]
              simp [hb]
          constructor
          · exact fun x hx => h.epb x (hsub x hx)
          · exact fun a hp e b v hm => h.fenced a hp e b v (hsub _ hm)
          · exact fun e i a k e' v h1 h2 => h.ord e i a k e' v (hsub _ h1) (hsub _ h2)
          · intro k b w hk hc
            rw [hview]
            exact h.view k b w hk hc
          · intro k b w hk hp hc e' v' hm
            simp only [hpe] at hp
            exact h.vis k b w hk hp hc e' v' (hsub _ hm)
          · exact h.heldlt
          · exact h.obs
        · rename_i ep i a k
          simp only [Option.some.injEq] at hs; subst hs
          have hin : PEnt.slot ep i a k ∈ s.sb := by rw [hsb]; simp
          have hpay : ∀ b, payFwd (s.sb.eraseIdx m) b = payFwd s.sb b := by
            intro b
            simp only [her]
            rw [show payFwd s.sb b = payFwd (s.sb.take m ++ PEnt.slot ep i a k :: ys) b by
              rw [← hsb]]
            rw [payFwd_append, payFwd_append, payFwd_cons]
            simp [payFwd]
          constructor
          · exact fun x hx => h.epb x (hsub x hx)
          · exact fun a hp e b v hm => h.fenced a hp e b v (hsub _ hm)
          · exact fun e i a k e' v h1 h2 => h.ord e i a k e' v (hsub _ h1) (hsub _ h2)
          · intro k' b w hk hc
            simp only [St.prodView, hpay]
            exact h.view k' b w hk hc
          · intro k' b w hk hp hc e' v' hm
            simp only at hp hk hc
            by_cases hpk : k' ∈ pend s.sb
            · have hkk : k' = k := by
                rw [show pend s.sb = pend (s.sb.take m ++ PEnt.slot ep i a k :: ys) by
                  rw [← hsb], pend_append] at hpk
                rw [her, pend_append] at hp
                simp only [List.mem_append, not_or] at hp hpk
                rcases hpk with h1 | h1
                · exact absurd h1 hp.1
                · simp only [pend, List.filterMap_cons, posOf, List.mem_cons] at h1
                  rcases h1 with h1 | h1
                  · exact h1
                  · exact absurd h1 hp.2
              subst hkk
              have h4 := (hr.sbslot _ _ _ _ hin).2.2.2
              simp only [hk, Option.map_some, Option.some.injEq] at h4
              subst h4
              have h1 := h.ord _ _ _ _ _ _ hin (hsub _ hm)
              have h2 := hmin _ (hsub _ hm)
              simp only [PEnt.ep] at h2
              omega
            · exact h.vis k' b w hk hpk hc e' v' (hsub _ hm)
          · exact h.heldlt
          · exact h.obs
      · simp at hs
  | cCheck =>
    simp only [SwsrConc.step] at hs
    split at hs
    · split at hs
      · simp only [Option.some.injEq] at hs; subst hs; exact h
      · simp only [Option.some.injEq] at hs; subst hs
        exact ⟨h.epb, h.fenced, h.ord, h.view, h.vis, h.heldlt, h.obs⟩
    · simp at hs
  | cLoad =>
    simp only [SwsrConc.step] at hs
    split at hs
    · simp only [Option.some.injEq] at hs; subst hs
      exact ⟨h.epb, h.fenced, h.ord, h.view, h.vis, h.heldlt, h.obs⟩
    · simp at hs
  | cClear =>
    simp only [SwsrConc.step] at hs
    split at hs
    · simp only [Option.some.injEq] at hs; subst hs
      have hc : ∀ k, (s.popped.length + 1 ≤ k ∨ k ∈ s.popped.length :: s.held) →
          (s.popped.length ≤ k ∨ k ∈ s.held) := by
        intro k hk
        simp only [List.mem_cons] at hk
        rcases hk with h1 | h1 | h1
        · exact Or.inl (by omega)
        · exact Or.inl (by omega)
        · exact Or.inr h1
      refine ⟨h.epb, h.fenced, h.ord, ?_, ?_, ?_, ?_⟩
      · intro k a v hk hh
        simp only [List.length_append, List.length_singleton] at hh
        exact h.view k a v hk (hc k hh)
      · intro k a v hk hp hh
        simp only [List.length_append, List.length_singleton] at hh
        exact h.vis k a v hk hp (hc k hh)
      · intro k hk
        simp only [List.mem_cons, List.length_append, List.length_singleton] at hk ⊢
        rcases hk with h1 | h1
        · omega
        · have := h.heldlt k h1; omega
      · intro k w hm
        obtain ⟨b, h1, h2⟩ := h.obs k w hm
        refine ⟨b, h1, ?_⟩
        simp only
        rw [List.getElem?_append_left]
        · exact h2
        · apply Classical.byContradiction; intro hn
          rw [List.getElem?_eq_none (by omega)] at h2; simp at h2
    · simp at hs
  | cCommit m =>
    simp only [SwsrConc.step] at hs
    split at hs
    · simp at hs
    · split at hs
      · simp only [Option.some.injEq] at hs; subst hs
        exact ⟨h.epb, h.fenced, h.ord, h.view, h.vis, h.heldlt, h.obs⟩
      · simp at hs
  | cRead k =>
    simp only [SwsrConc.step] at hs
    split at hs
    · rename_i a hk
      split at hs
      · rename_i hheld
        simp only [Option.some.injEq] at hs; subst hs
        refine ⟨h.epb, h.fenced, h.ord, h.view, h.vis, h.heldlt, ?_⟩
        intro k' w hm
        simp only [List.mem_append, List.mem_singleton, Prod.mk.injEq] at hm
        rcases hm with hm | ⟨rfl, rfl⟩
        · exact h.obs k' w hm
        · have hlt := h.heldlt _ hheld
          have hp := hr.popped _ hlt
          rw [hk] at hp
          have hlt2 : k' < s.pushed.length := by omega
          rw [List.getElem?_eq_getElem hlt2] at hp
          simp only [Option.map_some, Option.some.injEq] at hp
          refine ⟨a, ?_, hk⟩
          have hpk : s.pushed[k']? = some (a, s.pushed[k'].2) := by
            rw [List.getElem?_eq_getElem hlt2]; congr 1; rw [hp]
          have hnp : k' ∉ pend s.sb := by
            rw [mem_pend]; rintro ⟨e, i, b, hx⟩
            have := (hr.sbslot _ _ _ _ hx).1
            omega
          have h1 := h.view k' a _ hpk (Or.inr hheld)
          have h2 := h.vis k' a _ hpk hnp (Or.inr hheld)
          unfold St.prodView at h1
          rw [payFwd_none.2 h2] at h1
          simp only at h1
          simp only
          rw [hpk, h1]
      · simp at hs
    · simp at hs
  | cRelease k =>
    simp only [SwsrConc.step, Option.some.injEq] at hs
    subst hs
    have hc : ∀ k', (s.popped.length ≤ k' ∨ k' ∈ s.held.filter (· ≠ k)) →
        (s.popped.length ≤ k' ∨ k' ∈ s.held) := by
      intro k' hk
      rcases hk with h1 | h1
      · exact Or.inl h1
      · exact Or.inr (List.mem_filter.1 h1).1
    exact ⟨h.epb, h.fenced, h.ord, fun k' a v hk hh => h.view k' a v hk (hc k' hh),
      fun k' a v hk hp hh => h.vis k' a v hk hp (hc k' hh),
      fun k' hk => h.heldlt k' (List.mem_filter.1 hk).1, h.obs⟩

theorem reach_inv {n : Nat} (hn : 0 < n) {mem : A → V} {s : St A V}
    (h : Reach SwsrConc.step (init n mem) s) : Ring s ∧ Pay s :=
  h.inv (Inv := fun s => Ring s ∧ Pay s) ⟨Ring.init n hn mem, Pay.init n mem⟩
    (fun _ _ _ hi hs => ⟨hi.1.step hs, hi.2.step hi.1 hs⟩)

theorem step_n {s s' : St A V} {act : Act A V} (hs : step s act = some s') : s'.n = s.n := by
  cases act <;> simp only [SwsrConc.step] at hs <;> (repeat' split at hs) <;>
    simp only [Option.some.injEq, reduceCtorEq] at hs <;> subst hs <;> rfl

theorem reach_n {n : Nat} {mem : A → V} {s : St A V}
    (h : Reach SwsrConc.step (init n mem) s) : s.n = n :=
  h.inv (Inv := fun s => s.n = n) rfl (fun _ _ _ hi hs => by rw [step_n hs, hi])

end FF.SwsrConc
