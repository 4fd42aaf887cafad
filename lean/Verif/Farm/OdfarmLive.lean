import Verif.Farm.Odfarm
import Mathlib.Data.List.Nodup
import Mathlib.Data.List.Perm.Subperm
/-!
# C24: memory, completion, and where order is lost
-/
namespace FF.Odfarm
open FF.Node FF.Farm
variable {D : Type} {n ci co sz ms : Nat} {R : Nat → D → D → Bool}

/-! ## Bounds -/

/-- what is bounded by the queues -/
structure BInv (n ci co ms : Nat) (s : S D) : Prop where
  inq : ∀ i, (s.inq i).length ≤ ci
  outq : ∀ i, (s.outq i).length ≤ co
  far : ∀ i, n ≤ i → s.inq i = [] ∧ s.w i = .idle ∧ s.outq i = []
  q : s.err = false → s.Q.length ≤ ms

theorem upd_le {f : Nat → List (Option Nat)} {c i : Nat} {v : List (Option Nat)}
    (h : ∀ j, (f j).length ≤ c) (hv : v.length ≤ c) : ∀ j, (upd f i v j).length ≤ c := by
  intro j
  by_cases hj : j = i
  · subst hj; simpa [upd] using hv
  · simpa [upd, hj] using h j

theorem BInv.step {s s' : S D} {a : Act D} (h : BInv n ci co ms s)
    (hs : step n ci co sz ms R s a = some s') : BInv n ci co ms s' := by
  have far1 : ∀ {i : Nat}, s.w i ≠ .idle → i < n := fun {i} hw =>
    Classical.byContradiction fun hh => hw (h.far i (by omega)).2.1
  have far2 : ∀ {i : Nat}, s.inq i ≠ [] → i < n := fun {i} hw =>
    Classical.byContradiction fun hh => hw (h.far i (by omega)).1
  have farset : ∀ {i : Nat}, i < n → ∀ (a : List (Option Nat)) (b : WPc D) (c : List (Option Nat)),
      ∀ j, n ≤ j → upd s.inq i a j = [] ∧ upd s.w i b j = .idle ∧ upd s.outq i c j = [] := by
    intro i hi a b c j hj
    have : j ≠ i := by omega
    simp only [upd, this, if_false]
    exact h.far j hj
  have self1 : ∀ i, upd s.inq i (s.inq i) = s.inq := by
    intro i; funext j; by_cases hj : j = i
    · subst hj; simp [upd]
    · simp [upd, hj]
  have self2 : ∀ i, upd s.w i (s.w i) = s.w := by
    intro i; funext j; by_cases hj : j = i
    · subst hj; simp [upd]
    · simp [upd, hj]
  have self3 : ∀ i, upd s.outq i (s.outq i) = s.outq := by
    intro i; funext j; by_cases hj : j = i
    · subst hj; simp [upd]
    · simp [upd, hj]
  cases a <;> simp only [Odfarm.step] at hs
  case write d =>
    split at hs <;> simp only [Option.some.injEq, reduceCtorEq] at hs; subst hs
    exact ⟨h.inq, h.outq, h.far, h.q⟩
  case push i =>
    split at hs <;> simp only [Option.some.injEq, reduceCtorEq] at hs; subst hs
    rename_i hc
    have hf := farset hc.2.1 (s.inq i ++ [some s.idx]) (s.w i) (s.outq i)
    rw [self2, self3] at hf
    exact ⟨upd_le h.inq (by simp; omega), h.outq, hf, h.q⟩
  case close =>
    split at hs <;> simp only [Option.some.injEq, reduceCtorEq] at hs; subst hs
    exact ⟨h.inq, h.outq, h.far, h.q⟩
  case eos i =>
    split at hs <;> simp only [Option.some.injEq, reduceCtorEq] at hs; subst hs
    rename_i hc
    have hf := farset hc.2.1 (s.inq i ++ [none]) (s.w i) (s.outq i)
    rw [self2, self3] at hf
    exact ⟨upd_le h.inq (by simp; omega), h.outq, hf, h.q⟩
  case wpop i =>
    split at hs <;> simp only [Option.some.injEq, reduceCtorEq] at hs <;> subst hs
    all_goals
      rename_i q hw hq
      have hi : i < n := far2 (by rw [hq]; simp)
      have hl := h.inq i
      rw [hq] at hl
      refine ⟨upd_le h.inq (by simp at hl; omega), h.outq, ?_, h.q⟩
      intro j hj
      have : j ≠ i := by omega
      simp only [upd, this, if_false]
      exact h.far j hj
  case wread i =>
    split at hs <;> simp only [Option.some.injEq, reduceCtorEq] at hs; subst hs
    rename_i k hw
    have hf := farset (far1 (by rw [hw]; simp)) (s.inq i) (.calling k (s.M k).2) (s.outq i)
    rw [self1, self3] at hf
    exact ⟨h.inq, h.outq, hf, h.q⟩
  case wret i r =>
    split at hs
    · rename_i k d hw
      split at hs <;> simp only [Option.some.injEq, reduceCtorEq] at hs; subst hs
      have hf := farset (far1 (by rw [hw]; simp)) (s.inq i) (.back k r) (s.outq i)
      rw [self1, self3] at hf
      exact ⟨h.inq, h.outq, hf, h.q⟩
    · simp at hs
  case wwrite i =>
    split at hs <;> simp only [Option.some.injEq, reduceCtorEq] at hs; subst hs
    rename_i k r hw
    have hf := farset (far1 (by rw [hw]; simp)) (s.inq i) (.done (some k)) (s.outq i)
    rw [self1, self3] at hf
    exact ⟨h.inq, h.outq, hf, h.q⟩
  case wpush i =>
    split at hs
    · rename_i k hw
      split at hs <;> simp only [Option.some.injEq, reduceCtorEq] at hs; subst hs
      have hf := farset (far1 (by rw [hw]; simp)) (s.inq i) .idle (s.outq i ++ [some k])
      rw [self1] at hf
      exact ⟨h.inq, upd_le h.outq (by simp; omega), hf, h.q⟩
    · rename_i hw
      split at hs <;> simp only [Option.some.injEq, reduceCtorEq] at hs; subst hs
      have hf := farset (far1 (by rw [hw]; simp)) (s.inq i) .exited (s.outq i ++ [none])
      rw [self1] at hf
      exact ⟨h.inq, upd_le h.outq (by simp; omega), hf, h.q⟩
    · simp at hs
  case top =>
    split at hs
    · simp at hs
    · split at hs <;> simp only [Option.some.injEq, reduceCtorEq] at hs; subst hs
      refine ⟨h.inq, h.outq, h.far, fun he => ?_⟩
      have h1 := h.q he
      have h2 := List.length_erase_le (a := ‹Nat›) (l := s.Q)
      exact Nat.le_trans h2 h1
  case cpop i =>
    split at hs
    · rename_i hc
      have hrest : ∀ m q, s.outq i = m :: q → (∀ j, (upd s.outq i q j).length ≤ co) ∧
          ∀ j, n ≤ j → s.inq j = [] ∧ s.w j = .idle ∧ upd s.outq i q j = [] := by
        intro m q hq
        have hl := h.outq i
        rw [hq] at hl
        refine ⟨upd_le h.outq (by simp at hl; omega), ?_⟩
        have hf := farset hc.2.2.1 (s.inq i) (s.w i) q
        rw [self1, self2] at hf
        exact hf
      split at hs
      · simp at hs
      · rename_i q hq
        simp only [Option.some.injEq] at hs; subst hs
        exact ⟨h.inq, (hrest _ _ hq).1, (hrest _ _ hq).2, h.q⟩
      · rename_i k q hq
        split at hs <;> simp only [Option.some.injEq] at hs <;> subst hs
        · exact ⟨h.inq, (hrest _ _ hq).1, (hrest _ _ hq).2, h.q⟩
        · refine ⟨h.inq, (hrest _ _ hq).1, (hrest _ _ hq).2, fun he => ?_⟩
          simp only [Bool.or_eq_false_iff, decide_eq_false_iff_not] at he
          simp only [List.length_append, List.length_singleton]
          omega
    · simp at hs

theorem BInv.reach {M : Nat → Nat × D} {s : S D}
    (hr : Reach (Odfarm.step n ci co sz ms R) (S.start M) s) : BInv n ci co ms s :=
  hr.inv ⟨by simp [S.start], by simp [S.start], by simp [S.start], by simp [S.start]⟩
    (fun _ _ _ h hs => h.step hs)

/-- the cells in use are at most the room in the queues, one per worker and the collector's buffer -/
theorem in_use {s : S D} (hI : Inv sz R s) (hb : BInv n ci co ms s) (he : s.err = false)
    (hh : s.hand = false) : s.given - s.next ≤ n * (ci + co + 1) + ms := by
  -- all the cells in use, in one list
  let cells : List Nat := (List.range n).flatMap (fun i => s.at_ (.chan i)) ++ s.Q
  have hmem : ∀ j, s.next ≤ j → j < s.given → j % sz ∈ cells := by
    intro j h1 h2
    obtain ⟨l, hl⟩ := hI.all j h1 h2
    cases l with
    | hand => simp [S.at_, hh] at hl
    | q => exact List.mem_append_right _ hl
    | chan i =>
      refine List.mem_append_left _ (List.mem_flatMap.2 ⟨i, ?_, hl⟩)
      rw [List.mem_range]
      refine Classical.byContradiction fun hin => ?_
      obtain ⟨a, b, c⟩ := hb.far i (by omega)
      simp [S.at_, S.msgs, a, b, c, WPc.msg] at hl
  have hlen : cells.length ≤ n * (ci + co + 1) + ms := by
    have h1 : ∀ m, ((List.range m).flatMap (fun i => s.at_ (.chan i))).length ≤ m * (ci + co + 1) := by
      intro m
      induction m with
      | zero => simp
      | succ m ih =>
        rw [List.range_succ, List.flatMap_append, List.length_append, Nat.succ_mul]
        have h2 : (s.at_ (.chan m)).length ≤ ci + co + 1 := by
          have h3 : (s.at_ (.chan m)).length ≤ (s.msgs m).length := List.length_filterMap_le _ _
          have h4 : (s.w m).msg.length ≤ 1 := by cases s.w m <;> simp [WPc.msg]
          have h5 := hb.inq m
          have h6 := hb.outq m
          simp only [S.msgs, List.length_append] at h3
          omega
        simp only [List.flatMap_cons, List.flatMap_nil, List.append_nil]
        omega
    have := h1 n
    have := hb.q he
    simp only [cells, List.length_append]
    omega
  -- the numbers in the window are in different cells
  have hnd : ((List.range (s.given - s.next)).map fun d => (s.next + d) % sz).Nodup := by
    rw [List.nodup_map_iff_inj_on List.nodup_range]
    intro a ha b hb' hab
    simp only [List.mem_range] at ha hb'
    have hw := hI.window
    have := window_inj (sz := sz) (a := s.next) (p := s.next + a) (q := s.next + b) (by omega) (by omega)
      (by omega) (by omega) hab
    omega
  have hsub : ((List.range (s.given - s.next)).map fun d => (s.next + d) % sz) ⊆ cells := by
    intro x hx
    simp only [List.mem_map, List.mem_range] at hx
    obtain ⟨d, hd, rfl⟩ := hx
    exact hmem _ (by omega) (by omega)
  have := (List.Nodup.subperm hnd hsub).length_le
  simp only [List.length_map, List.length_range] at this
  omega

/-- **C24, the reserved memory is enough as long as no error is reported**: with the memory that the
farm reserves (`nworkers * (2*ondemand + 3) + memsize` cells), input queues of `ondemand` entries, and
output queues bounded by `ondemand + 1` entries, no cell is reused too early as long as the collector
has not reported "not enough memory". -/
theorem C24_no_overrun_partial (hn : 0 < n) (hsz : sz = n * (2 * ci + 3) + ms) (hco : co ≤ ci + 1)
    {M : Nat → Nat × D} {s : S D} (hr : Reach (Odfarm.step n ci co sz ms R) (S.start M) s)
    (he : s.err = false) : s.over = false := by
  have hsz0 : 0 < sz := by
    rw [hsz]
    have : 0 < n * (2 * ci + 3) := Nat.mul_pos hn (by omega)
    omega
  have errmono : ∀ {s s' : S D} {a : Act D}, Odfarm.step n ci co sz ms R s a = some s' →
      s'.err = false → s.err = false := by
    intro s s' a hs h
    cases a <;> simp only [Odfarm.step] at hs
    case cpop i =>
      split at hs
      · split at hs
        · simp at hs
        · simp only [Option.some.injEq] at hs; subst hs; exact h
        · split at hs <;> simp only [Option.some.injEq] at hs <;> subst hs
          · exact h
          · simp only [Bool.or_eq_false_iff] at h; exact h.1
      · simp at hs
    case write d => split at hs <;> simp only [Option.some.injEq, reduceCtorEq] at hs; subst hs; exact h
    case push i => split at hs <;> simp only [Option.some.injEq, reduceCtorEq] at hs; subst hs; exact h
    case close => split at hs <;> simp only [Option.some.injEq, reduceCtorEq] at hs; subst hs; exact h
    case eos i => split at hs <;> simp only [Option.some.injEq, reduceCtorEq] at hs; subst hs; exact h
    case wpop i =>
      split at hs <;> simp only [Option.some.injEq, reduceCtorEq] at hs <;> subst hs <;> exact h
    case wread i => split at hs <;> simp only [Option.some.injEq, reduceCtorEq] at hs; subst hs; exact h
    case wret i r =>
      split at hs
      · split at hs <;> simp only [Option.some.injEq, reduceCtorEq] at hs; subst hs; exact h
      · simp at hs
    case wwrite i => split at hs <;> simp only [Option.some.injEq, reduceCtorEq] at hs; subst hs; exact h
    case wpush i =>
      split at hs
      · split at hs <;> simp only [Option.some.injEq, reduceCtorEq] at hs; subst hs; exact h
      · split at hs <;> simp only [Option.some.injEq, reduceCtorEq] at hs; subst hs; exact h
      · simp at hs
    case top =>
      split at hs
      · simp at hs
      · split at hs <;> simp only [Option.some.injEq, reduceCtorEq] at hs; subst hs; exact h
  have key : s.err = false → s.over = false ∧ Inv sz R s ∧ BInv n ci co ms s := by
    refine hr.inv (Inv := fun s : S D => s.err = false → s.over = false ∧ Inv sz R s ∧ BInv n ci co ms s)
      (fun _ => ⟨rfl, Inv.start M, by simp [S.start], by simp [S.start], by simp [S.start],
        by simp [S.start]⟩) ?_
    intro s a s' h hs he'
    have he0 := errmono hs he'
    obtain ⟨h1, h2, h3⟩ := h he0
    have ho : s'.over = false := by
      cases a with
      | write d =>
        have hs0 := hs
        simp only [Odfarm.step] at hs
        split at hs
        · rename_i hc
          simp only [Option.some.injEq] at hs
          subst hs
          simp only [Bool.or_eq_false_iff, decide_eq_false_iff_not]
          refine ⟨h1, ?_⟩
          have hu := in_use h2 h3 he0 hc.1
          have hg : s.given = s.cnt := by simp [S.given, hc.1]
          rw [hg] at hu
          have : n * (ci + co + 1) + 1 ≤ n * (2 * ci + 3) := by
            have hle : n * (ci + co + 1) ≤ n * (2 * ci + 2) := Nat.mul_le_mul_left _ (by omega)
            have : n * (2 * ci + 3) = n * (2 * ci + 2) + n := by rw [← Nat.mul_succ]
            omega
          omega
        · simp at hs
      | _ =>
        have : s'.over = s.over := by
          simp only [Odfarm.step] at hs
          revert hs
          repeat' split
          all_goals first
            | (intro hs; simp only [Option.some.injEq] at hs; subst hs; rfl)
            | (intro hs; simp at hs)
        rw [this]; exact h1
    exact ⟨ho, h2.step hsz0 hs ho, h3.step hs⟩
  exact (key he).1

/-- **C24 for bounded queues**: in that configuration, as long as no error is reported the results are
delivered in the order of the tasks, and at most `memsize` of them are held back. -/
theorem C24_bounded_partial (hn : 0 < n) (hsz : sz = n * (2 * ci + 3) + ms) (hco : co ≤ ci + 1)
    {M : Nat → Nat × D} {s : S D} (hr : Reach (Odfarm.step n ci co sz ms R) (S.start M) s)
    (he : s.err = false) : InOrder R s.tasks s.out ∧ s.Q.length ≤ ms := by
  have hsz0 : 0 < sz := by
    rw [hsz]
    have : 0 < n * (2 * ci + 3) := Nat.mul_pos hn (by omega)
    omega
  exact ⟨C24_order_partial hsz0 hr (C24_no_overrun_partial hn hsz hco hr he), (BInv.reach hr).q he⟩


/-! ## Completion -/

structure EInv (n : Nat) (s : S D) : Prop where
  hand : s.hand = true → s.closed = false
  eo : ∀ i, s.eosOut i = true → s.closed = true
  before : ∀ i, s.eosOut i = false → none ∉ s.msgs i ∧ s.offline i = false ∧ s.w i ≠ .exited
  after : ∀ i, s.eosOut i = true → (s.offline i = true ∧ s.msgs i = [] ∧ s.w i = .exited) ∨
    (s.offline i = false ∧ ∃ ks, s.msgs i = ks ++ [none] ∧ none ∉ ks)
  ex : ∀ i, s.w i = .exited → s.offline i = true ∨ none ∈ s.outq i
  ex2 : ∀ i, none ∈ s.outq i → s.w i = .exited
  neos : s.neos = offCount n s.offline
  ended : s.ended = decide (n ≤ s.neos)
  top : s.ended = true → s.top = none

/-- after the end nothing can happen -/
theorem EInv.stuck {s s' : S D} {a : Act D} (hn : 0 < n) (h : EInv n s) (hb : BInv n ci co ms s)
    (he : s.ended = true) : Odfarm.step n ci co sz ms R s a ≠ some s' := by
  have hall : ∀ i, i < n → s.offline i = true := by
    have h1 := h.ended
    rw [he] at h1
    have h2 : n ≤ s.neos := by simpa using h1.symm
    have h3 := offCount_le n s.offline
    have := h.neos
    exact fun i hi => offCount_eq (by omega) i hi
  have heos : ∀ i, i < n → s.eosOut i = true := by
    intro i hi
    cases hb : s.eosOut i with
    | true => rfl
    | false => have := (h.before i hb).2.1; rw [hall i hi] at this; simp at this
  have hcl : s.closed = true := h.eo 0 (heos 0 hn)
  have hha : s.hand = false := by
    cases hh : s.hand with
    | false => rfl
    | true => have := h.hand hh; rw [hcl] at this; simp at this
  have hw : ∀ i, s.inq i = [] ∧ (s.w i = .exited ∨ s.w i = .idle) ∧ s.outq i = [] := by
    intro i
    by_cases hi : i < n
    · rcases h.after i (heos i hi) with ⟨_, b, c⟩ | ⟨b, _⟩
      · simp only [S.msgs, List.append_eq_nil_iff] at b
        exact ⟨b.2, Or.inl c, b.1.1⟩
      · rw [hall i hi] at b; simp at b
    · obtain ⟨a, b, c⟩ := hb.far i (by omega)
      exact ⟨a, Or.inr b, c⟩
  intro hs
  cases a <;> simp only [Odfarm.step] at hs
  case write d => simp [hcl] at hs
  case push i => simp [hha] at hs
  case close => simp [hcl] at hs
  case eos i =>
    split at hs
    · rename_i hc; rw [heos i hc.2.1] at hc; simp at hc
    · simp at hs
  case wpop i => simp [(hw i).1] at hs
  case wread i => rcases (hw i).2.1 with hh | hh <;> simp [hh] at hs
  case wret i r => rcases (hw i).2.1 with hh | hh <;> simp [hh] at hs
  case wwrite i => rcases (hw i).2.1 with hh | hh <;> simp [hh] at hs
  case wpush i => rcases (hw i).2.1 with hh | hh <;> simp [hh] at hs
  case top => simp [he] at hs
  case cpop i => simp [he] at hs

theorem EInv.start (hn : 0 < n) (M : Nat → Nat × D) : EInv n (S.start M) where
  hand := by simp [S.start]
  eo := by simp [S.start]
  before := by simp [S.start, S.msgs, WPc.msg]
  after := by simp [S.start]
  ex := by simp [S.start]
  neos := by simp [S.start, offCount]
  ended := by simp [S.start]; omega
  ex2 := by simp [S.start]
  top := by simp [S.start]

/-- a step that changes channel `i` only by moving a message along it -/
theorem EInv.same {s s' : S D} (h : EInv n s) (hne : s.ended = false) (i : Nat)
    (e1 : s'.hand = s.hand) (e2 : s'.closed = s.closed) (e3 : s'.eosOut = s.eosOut)
    (e4 : s'.offline = s.offline) (e5 : s'.neos = s.neos) (e6 : s'.ended = s.ended)
    (hm : ∀ j, s'.msgs j = s.msgs j) (hw : s'.w i = .exited → none ∈ s'.outq i)
    (hwj : ∀ j, j ≠ i → s'.w j = s.w j ∧ s'.outq j = s.outq j)
    (hx : none ∈ s'.outq i → s'.w i = .exited) (hwi : s.w i ≠ .exited) (hwe : s'.w i = .exited → s.eosOut i = true) : EInv n s' := by
  refine ⟨by rw [e1, e2]; exact h.hand, by rw [e2, e3]; exact h.eo, ?_, ?_, ?_, ?_, by rw [e4, e5]; exact h.neos,
    by rw [e5, e6]; exact h.ended, by rw [e6, hne]; simp⟩
  · intro j hj
    rw [e3] at hj
    obtain ⟨a, b, c⟩ := h.before j hj
    rw [hm, e4]
    refine ⟨a, b, ?_⟩
    by_cases hji : j = i
    · subst hji
      intro hh
      have := hwe hh
      rw [hj] at this; simp at this
    · rw [(hwj j hji).1]; exact c
  · intro j hj
    rw [e3] at hj
    rw [hm, e4]
    rcases h.after j hj with ⟨a, b, c⟩ | hh
    · by_cases hji : j = i
      · subst hji; exact absurd c hwi
      · rw [(hwj j hji).1]; exact Or.inl ⟨a, b, c⟩
    · exact Or.inr hh
  · intro j hj
    rw [e4]
    by_cases hji : j = i
    · subst hji; exact Or.inr (hw hj)
    · rw [(hwj j hji).1] at hj
      rw [(hwj j hji).2]; exact h.ex j hj
  · intro j hj
    by_cases hji : j = i
    · subst hji; exact hx hj
    · rw [(hwj j hji).2] at hj
      rw [(hwj j hji).1]; exact h.ex2 j hj

theorem EInv.step {s s' : S D} {a : Act D} (hn : 0 < n) (h : EInv n s) (hb : BInv n ci co ms s)
    (hs : Odfarm.step n ci co sz ms R s a = some s') : EInv n s' := by
  have hne : s.ended = false := by
    cases he : s.ended with
    | false => rfl
    | true => exact absurd hs (h.stuck hn hb he)
  have hmsg : ∀ {s1 : S D} {i : Nat}, (∀ j, j ≠ i → s1.inq j = s.inq j ∧ s1.w j = s.w j ∧
      s1.outq j = s.outq j) → s1.msgs i = s.msgs i → ∀ j, s1.msgs j = s.msgs j := by
    intro s1 i h1 h2 j
    by_cases hj : j = i
    · subst hj; exact h2
    · obtain ⟨a, b, c⟩ := h1 j hj
      simp only [S.msgs, a, b, c]
  cases a <;> simp only [Odfarm.step] at hs
  case write d =>
    split at hs <;> simp only [Option.some.injEq, reduceCtorEq] at hs; subst hs
    rename_i hc
    exact ⟨fun _ => hc.2, h.eo, h.before, h.after, h.ex, h.ex2, h.neos, h.ended, by simp [hne]⟩
  case push i =>
    split at hs <;> simp only [Option.some.injEq, reduceCtorEq] at hs; subst hs
    rename_i hc
    have hcl := h.hand hc.1
    have heo : ∀ j, s.eosOut j = false := by
      intro j
      cases hj : s.eosOut j with
      | false => rfl
      | true => have := h.eo j hj; rw [hcl] at this; simp at this
    refine ⟨by simp, h.eo, ?_, ?_, h.ex, h.ex2, h.neos, h.ended, by simp [hne]⟩
    · intro j hj
      obtain ⟨a, b, c⟩ := h.before j hj
      refine ⟨?_, b, c⟩
      by_cases hji : j = i
      · subst hji
        simp only [S.msgs, upd, if_true]
        simp only [S.msgs] at a
        simp only [List.mem_append, not_or] at a ⊢
        exact ⟨a.1, a.2, by simp⟩
      · simpa [S.msgs, upd, hji] using a
    · intro j hj
      have hj' : s.eosOut j = true := hj
      rw [heo j] at hj'; simp at hj'
  case close =>
    split at hs <;> simp only [Option.some.injEq, reduceCtorEq] at hs; subst hs
    rename_i hc
    exact ⟨by simp [hc.1], fun _ _ => rfl, h.before, h.after, h.ex, h.ex2, h.neos, h.ended, by simp [hne]⟩
  case eos i =>
    split at hs <;> simp only [Option.some.injEq, reduceCtorEq] at hs; subst hs
    rename_i hc
    obtain ⟨a, b, c⟩ := h.before i hc.2.2.1
    refine ⟨h.hand, fun _ _ => hc.1, ?_, ?_, h.ex, h.ex2, h.neos, h.ended, by simp [hne]⟩
    · intro j hj
      by_cases hji : j = i
      · subst hji; simp [upd] at hj
      · simp only [upd, hji, if_false] at hj
        simpa [S.msgs, upd, hji] using h.before j hj
    · intro j hj
      by_cases hji : j = i
      · subst hji
        right
        exact ⟨b, s.msgs j, by simp [S.msgs, upd], a⟩
      · simp only [upd, hji, if_false] at hj
        simpa [S.msgs, upd, hji] using h.after j hj
  case wpop i =>
    split at hs <;> simp only [Option.some.injEq, reduceCtorEq] at hs <;> subst hs
    all_goals
      rename_i q hw hq
      refine h.same hne i rfl rfl rfl rfl rfl rfl (hmsg (i := i) ?_ ?_) ?_ ?_ ?_ ?_ ?_
      · intro j hj; simp [upd, hj]
      · simp [S.msgs, upd, hw, hq, WPc.msg]
      · simp [upd]
      · intro j hj; simp [upd, hj]
      · intro hx; exact absurd (h.ex2 i (by simpa [upd] using hx)) (by rw [hw]; simp)
      · rw [hw]; simp
      · simp [upd]
  case wread i =>
    split at hs <;> simp only [Option.some.injEq, reduceCtorEq] at hs; subst hs
    rename_i k hw
    refine h.same hne i rfl rfl rfl rfl rfl rfl (hmsg (i := i) ?_ ?_) ?_ ?_ ?_ ?_ ?_
    · intro j hj; simp [upd, hj]
    · simp [S.msgs, upd, hw, WPc.msg]
    · simp [upd]
    · intro j hj; simp [upd, hj]
    · intro hx; exact absurd (h.ex2 i (by simpa [upd] using hx)) (by rw [hw]; simp)
    · rw [hw]; simp
    · simp [upd]
  case wret i r =>
    split at hs
    · rename_i k d hw
      split at hs <;> simp only [Option.some.injEq, reduceCtorEq] at hs; subst hs
      refine h.same hne i rfl rfl rfl rfl rfl rfl (hmsg (i := i) ?_ ?_) ?_ ?_ ?_ ?_ ?_
      · intro j hj; simp [upd, hj]
      · simp [S.msgs, upd, hw, WPc.msg]
      · simp [upd]
      · intro j hj; simp [upd, hj]
      · intro hx; exact absurd (h.ex2 i (by simpa [upd] using hx)) (by rw [hw]; simp)
      · rw [hw]; simp
      · simp [upd]
    · simp at hs
  case wwrite i =>
    split at hs <;> simp only [Option.some.injEq, reduceCtorEq] at hs; subst hs
    rename_i k r hw
    refine h.same hne i rfl rfl rfl rfl rfl rfl (hmsg (i := i) ?_ ?_) ?_ ?_ ?_ ?_ ?_
    · intro j hj; simp [upd, hj]
    · simp [S.msgs, upd, hw, WPc.msg]
    · simp [upd]
    · intro j hj; simp [upd, hj]
    · intro hx; exact absurd (h.ex2 i (by simpa [upd] using hx)) (by rw [hw]; simp)
    · rw [hw]; simp
    · simp [upd]
  case wpush i =>
    split at hs
    · rename_i k hw
      split at hs <;> simp only [Option.some.injEq, reduceCtorEq] at hs; subst hs
      refine h.same hne i rfl rfl rfl rfl rfl rfl (hmsg (i := i) ?_ ?_) ?_ ?_ ?_ ?_ ?_
      · intro j hj; simp [upd, hj]
      · simp [S.msgs, upd, hw, WPc.msg]
      · simp [upd]
      · intro j hj; simp [upd, hj]
      · intro hx; exact absurd (h.ex2 i (by simpa [upd] using hx)) (by rw [hw]; simp)
      · rw [hw]; simp
      · simp [upd]
    · rename_i hw
      split at hs <;> simp only [Option.some.injEq, reduceCtorEq] at hs; subst hs
      refine h.same hne i rfl rfl rfl rfl rfl rfl (hmsg (i := i) ?_ ?_) ?_ ?_ ?_ ?_ ?_
      · intro j hj; simp [upd, hj]
      · simp [S.msgs, upd, hw, WPc.msg]
      · simp [upd]
      · intro j hj; simp [upd, hj]
      · intro _; simp [upd]
      · rw [hw]; simp
      · intro _
        cases hj : s.eosOut i with
        | true => rfl
        | false =>
          exact absurd (by simp [S.msgs, hw, WPc.msg]) (h.before i hj).1
    · simp at hs
  case top =>
    split at hs
    · simp at hs
    · split at hs <;> simp only [Option.some.injEq, reduceCtorEq] at hs; subst hs
      exact ⟨h.hand, h.eo, h.before, h.after, h.ex, h.ex2, h.neos, h.ended, by simp [hne]⟩
  case cpop i =>
    split at hs
    · rename_i hc
      obtain ⟨_, htop, hi, hoff⟩ := hc
      -- a data message at the head of the queue
      have hdata : ∀ k q, s.outq i = some k :: q → (∀ j, s.eosOut j = false →
            none ∉ upd s.outq i q j ++ (s.w j).msg ++ s.inq j) ∧
          (∀ j, s.eosOut j = true → (s.offline j = true ∧ upd s.outq i q j ++ (s.w j).msg ++ s.inq j = []
              ∧ s.w j = .exited) ∨
            (s.offline j = false ∧ ∃ ks, upd s.outq i q j ++ (s.w j).msg ++ s.inq j = ks ++ [none] ∧
              none ∉ ks)) ∧
          (∀ j, s.w j = .exited → s.offline j = true ∨ none ∈ upd s.outq i q j) := by
        intro k q hq
        refine ⟨?_, ?_, ?_⟩
        · intro j hj
          have := (h.before j hj).1
          by_cases hji : j = i
          · subst hji
            simpa [S.msgs, hq, upd] using this
          · simpa [S.msgs, hji, upd] using this
        · intro j hj
          by_cases hji : j = i
          · subst hji
            right
            rcases h.after j hj with ⟨a, _⟩ | ⟨a, ks, b, c⟩
            · rw [hoff] at a; simp at a
            · refine ⟨a, ?_⟩
              cases ks with
              | nil => simp [S.msgs, hq] at b
              | cons x ks =>
                simp only [S.msgs, hq, List.cons_append, List.cons.injEq] at b
                exact ⟨ks, by simpa [upd] using b.2, fun hx => c (by simp [hx])⟩
          · simpa [S.msgs, hji, upd] using h.after j hj
        · intro j hj
          by_cases hji : j = i
          · subst hji
            rcases h.ex j hj with a | a
            · exact Or.inl a
            · right; simpa [hq, upd] using a
          · simpa [hji, upd] using h.ex j hj
      have hx2 : ∀ k q, s.outq i = some k :: q → ∀ j, none ∈ upd s.outq i q j → s.w j = .exited := by
        intro k q hq j hj
        refine h.ex2 j ?_
        by_cases hji : j = i
        · subst hji; simpa [hq, upd] using hj
        · simpa [hji, upd] using hj
      split at hs
      · simp at hs
      · rename_i q hq
        simp only [Option.some.injEq] at hs; subst hs
        have heo : s.eosOut i = true := by
          cases hj : s.eosOut i with
          | true => rfl
          | false => exact absurd (by simp [S.msgs, hq]) (h.before i hj).1
        have hm : q ++ (s.w i).msg ++ s.inq i = [] := by
          rcases h.after i heo with ⟨a, _⟩ | ⟨a, ks, b, c⟩
          · rw [hoff] at a; simp at a
          · cases ks with
            | nil => simpa [S.msgs, hq] using b
            | cons x ks =>
              simp only [S.msgs, hq, List.cons_append, List.cons.injEq] at b
              exact absurd (by rw [b.1]; simp) c
        have hwe : s.w i = .exited := by
          -- the mark has been pushed by the worker
          cases hwi : s.w i with
          | exited => rfl
          | idle => exact absurd (h.ex2 i (by rw [hq]; simp)) (by rw [hwi]; simp)
          | got k => simp [hwi, WPc.msg] at hm
          | calling k d => simp [hwi, WPc.msg] at hm
          | back k r => simp [hwi, WPc.msg] at hm
          | done m => simp [hwi, WPc.msg] at hm
        refine ⟨h.hand, h.eo, ?_, ?_, ?_, ?_, ?_, ?_, ?_⟩
        · intro j hj
          by_cases hji : j = i
          · subst hji
            have hj' : s.eosOut j = false := hj
            rw [heo] at hj'; simp at hj'
          · simpa [S.msgs, hji, upd] using h.before j hj
        · intro j hj
          by_cases hji : j = i
          · subst hji
            left
            exact ⟨by simp [upd], by simpa [S.msgs, upd] using hm, hwe⟩
          · simpa [S.msgs, hji, upd] using h.after j hj
        · intro j hj
          by_cases hji : j = i
          · subst hji; left; simp [upd]
          · simpa [hji, upd] using h.ex j hj
        · intro j hj
          by_cases hji : j = i
          · subst hji; exact hwe
          · exact h.ex2 j (by simpa [hji, upd] using hj)
        · rw [offCount_upd hi hoff, ← h.neos]
        · rfl
        · intro _; exact htop
      · rename_i k q hq
        obtain ⟨a, b, c⟩ := hdata k q hq
        split at hs <;> simp only [Option.some.injEq] at hs <;> subst hs
        · exact ⟨h.hand, h.eo, fun j hj => ⟨a j hj, (h.before j hj).2⟩, b, c, hx2 k q hq, h.neos, h.ended, by simp [hne]⟩
        · exact ⟨h.hand, h.eo, fun j hj => ⟨a j hj, (h.before j hj).2⟩, b, c, hx2 k q hq, h.neos, h.ended, by simp [hne]⟩
    · simp at hs

theorem EInv.reach (hn : 0 < n) {M : Nat → Nat × D} {s : S D}
    (hr : Reach (Odfarm.step n ci co sz ms R) (S.start M) s) : EInv n s := by
  have := hr.inv (Inv := fun s : S D => EInv n s ∧ BInv n ci co ms s)
    ⟨EInv.start hn M, BInv.reach (sz := sz) (R := R) (Reach.refl _ _)⟩
    (fun _ _ _ h hs => ⟨h.1.step hn h.2 hs, h.2.step hs⟩)
  exact this.1

/-- **C24, nothing is left at the end**: when the farm has ended, and no cell was reused too early,
every task has its result delivered. -/
theorem C24_all_delivered_partial (hn : 0 < n) (hsz : 0 < sz) {M : Nat → Nat × D} {s : S D}
    (hr : Reach (Odfarm.step n ci co sz ms R) (S.start M) s) (ho : s.over = false)
    (he : s.ended = true) : s.out.length = s.tasks.length ∧ InOrder R s.tasks s.out := by
  refine ⟨?_, C24_order_partial hsz hr ho⟩
  have hI := Inv.reach hsz hr ho
  have h := EInv.reach hn hr
  have hb := BInv.reach hr
  have hall : ∀ i, i < n → s.offline i = true := by
    have h1 := h.ended
    rw [he] at h1
    have h2 : n ≤ s.neos := by simpa using h1.symm
    have h3 := offCount_le n s.offline
    have := h.neos
    exact fun i hi => offCount_eq (by omega) i hi
  have heos : ∀ i, i < n → s.eosOut i = true := by
    intro i hi
    cases hb : s.eosOut i with
    | true => rfl
    | false => have := (h.before i hb).2.1; rw [hall i hi] at this; simp at this
  have hha : s.hand = false := by
    cases hh : s.hand with
    | false => rfl
    | true => have := h.hand hh; rw [h.eo 0 (heos 0 hn)] at this; simp at this
  have hm : ∀ i, s.msgs i = [] := by
    intro i
    by_cases hi : i < n
    · rcases h.after i (heos i hi) with ⟨_, b, c⟩ | ⟨b, _⟩
      · exact b
      · rw [hall i hi] at b; simp at b
    · obtain ⟨a, b, c⟩ := hb.far i (by omega)
      simp [S.msgs, a, b, c, WPc.msg]
  rw [hI.len, hI.given]
  refine Nat.le_antisymm hI.le (Classical.byContradiction fun hlt => ?_)
  obtain ⟨l, hl⟩ := hI.all s.next (Nat.le_refl _) (by omega)
  cases l with
  | hand => simp [S.at_, hha] at hl
  | chan i => simp [S.at_, hm] at hl
  | q =>
    have hq : s.next % sz ∈ s.Q := hl
    obtain ⟨a, b, c⟩ := hI.ids _ _ hl
    have hw := hI.window
    have hk : (s.M (s.next % sz)).1 = s.next :=
      window_inj (sz := sz) (a := s.next) a (Nat.le_refl _) (by omega) (by omega) c
    have htop := h.top he
    unfold S.top at htop
    have hmin : (s.Q.map fun k => (s.M k).1).min? = some s.next := by
      rw [List.min?_eq_some_iff]
      refine ⟨List.mem_map.2 ⟨_, hq, hk⟩, ?_⟩
      intro x hx
      obtain ⟨k, hk1, rfl⟩ := List.mem_map.1 hx
      exact (hI.ids .q k hk1).1
    rw [if_pos hmin, List.find?_eq_none] at htop
    exact htop _ hq (by simp [hk])

/-! ### Progress -/

def WPc.cost : WPc D → Nat
  | .idle => 0
  | .got _ => 6
  | .calling _ _ => 5
  | .back _ _ => 4
  | .done _ => 3
  | .exited => 0

def S.chanCost (s : S D) (i : Nat) : Nat :=
  (if s.eosOut i then 0 else 8) + 7 * (s.inq i).length + (s.w i).cost + 2 * (s.outq i).length

/-- what remains to be done if no more task is given -/
def S.work (n : Nat) (s : S D) : Nat :=
  (if s.hand then 8 else 0) + (if s.closed then 0 else 1) + sumN s.chanCost n + s.Q.length

def Act.isWrite : Act D → Bool
  | .write _ => true
  | _ => false

/-- every action but a new task reduces the work -/
theorem work_dec {s s' : S D} {a : Act D} (hb : BInv n ci co ms s) (ha : a.isWrite = false)
    (hs : Odfarm.step n ci co sz ms R s a = some s') : s'.work n < s.work n := by
  have far1 : ∀ {i : Nat}, s.w i ≠ .idle → i < n := fun {i} hw =>
    Classical.byContradiction fun hh => hw (hb.far i (by omega)).2.1
  have far2 : ∀ {i : Nat}, s.inq i ≠ [] → i < n := fun {i} hw =>
    Classical.byContradiction fun hh => hw (hb.far i (by omega)).1
  -- a change in channel `i` only
  have chan : ∀ {s1 : S D} (i : Nat) (d : Nat), i < n → s1.chanCost i + d < s.chanCost i + 1 →
      (∀ j, j ≠ i → s1.chanCost j = s.chanCost j) → sumN s1.chanCost n + d < sumN s.chanCost n + 1 := by
    intro s1 i d hi hlt hne
    have : ∀ m, i < m → sumN s1.chanCost m + d < sumN s.chanCost m + 1 := by
      intro m
      induction m with
      | zero => intro h; omega
      | succ m ih =>
        intro him
        simp only [sumN]
        by_cases hm : i = m
        · subst hm
          have := sumN_congr (f := s1.chanCost) (g := s.chanCost) (n := i) fun j hj => hne j (by omega)
          omega
        · have := ih (by omega)
          have := hne m (by omega)
          omega
    exact this n hi
  cases a <;> simp only [Odfarm.step] at hs
  case write d => simp [Act.isWrite] at ha
  case push i =>
    split at hs <;> simp only [Option.some.injEq, reduceCtorEq] at hs
    rename_i hc
    have h1 : sumN s'.chanCost n < sumN s.chanCost n + 8 := by
      have : ∀ m, sumN s'.chanCost m ≤ sumN s.chanCost m + (if i < m then 7 else 0) := by
        intro m
        induction m with
        | zero => simp [sumN]
        | succ m ih =>
          simp only [sumN]
          by_cases hm : m = i
          · have e : s'.chanCost m = s.chanCost m + 7 := by
              subst hs; subst hm; simp only [S.chanCost, upd, if_true, List.length_append,
                List.length_singleton]; omega
            rw [e]
            subst hm
            simp only [Nat.lt_irrefl, if_false] at ih
            simp only [Nat.lt_succ_self, if_true]
            omega
          · have e : s'.chanCost m = s.chanCost m := by
              subst hs; simp only [S.chanCost, upd, hm, if_false]
            rw [e]
            by_cases h : i < m
            · rw [if_pos (by omega)]; rw [if_pos h] at ih; omega
            · rw [if_neg (by omega)]; rw [if_neg h] at ih; omega
      have := this n
      rw [if_pos hc.2.1] at this
      omega
    have e1 : s'.hand = false := by subst hs; rfl
    have e2 : s'.closed = s.closed := by subst hs; rfl
    have e3 : s'.Q = s.Q := by subst hs; rfl
    simp only [S.work, e1, e2, e3, hc.1, if_true]
    simp only [Bool.false_eq_true, if_false]
    omega
  case close =>
    split at hs <;> simp only [Option.some.injEq, reduceCtorEq] at hs; subst hs
    rename_i hc
    have : sumN (S.chanCost { s with closed := true }) n = sumN s.chanCost n := sumN_congr fun _ _ => rfl
    simp only [S.work, this, hc.2, if_true, Bool.false_eq_true, if_false]
    omega
  case eos i =>
    split at hs <;> simp only [Option.some.injEq, reduceCtorEq] at hs
    rename_i hc
    have h1 := chan (s1 := s') i 1 hc.2.1
      (by subst hs; simp only [S.chanCost, upd, if_true, hc.2.2.1, List.length_append,
            List.length_singleton, Bool.false_eq_true, if_false]; omega)
      (fun j hj => by subst hs; simp only [S.chanCost, upd, hj, if_false])
    have e1 : s'.hand = s.hand := by subst hs; rfl
    have e2 : s'.closed = s.closed := by subst hs; rfl
    have e3 : s'.Q = s.Q := by subst hs; rfl
    simp only [S.work, e1, e2, e3]
    omega
  case wpop i =>
    split at hs <;> simp only [Option.some.injEq, reduceCtorEq] at hs
    all_goals
      rename_i q hw hq
      have h1 := chan (s1 := s') i 1 (far2 (by rw [hq]; simp))
        (by subst hs; simp only [S.chanCost, upd, if_true, hw, hq, WPc.cost, List.length_cons]; omega)
        (fun j hj => by subst hs; simp only [S.chanCost, upd, hj, if_false])
      have e1 : s'.hand = s.hand := by subst hs; rfl
      have e2 : s'.closed = s.closed := by subst hs; rfl
      have e3 : s'.Q = s.Q := by subst hs; rfl
      simp only [S.work, e1, e2, e3]
      omega
  case wread i =>
    split at hs <;> simp only [Option.some.injEq, reduceCtorEq] at hs
    rename_i k hw
    have h1 := chan (s1 := s') i 1 (far1 (by rw [hw]; simp))
      (by subst hs; simp only [S.chanCost, upd, if_true, hw, WPc.cost]; omega)
      (fun j hj => by subst hs; simp only [S.chanCost, upd, hj, if_false])
    have e1 : s'.hand = s.hand := by subst hs; rfl
    have e2 : s'.closed = s.closed := by subst hs; rfl
    have e3 : s'.Q = s.Q := by subst hs; rfl
    simp only [S.work, e1, e2, e3]
    omega
  case wret i r =>
    split at hs
    · rename_i k d hw
      split at hs <;> simp only [Option.some.injEq, reduceCtorEq] at hs
      have h1 := chan (s1 := s') i 1 (far1 (by rw [hw]; simp))
        (by subst hs; simp only [S.chanCost, upd, if_true, hw, WPc.cost]; omega)
        (fun j hj => by subst hs; simp only [S.chanCost, upd, hj, if_false])
      have e1 : s'.hand = s.hand := by subst hs; rfl
      have e2 : s'.closed = s.closed := by subst hs; rfl
      have e3 : s'.Q = s.Q := by subst hs; rfl
      simp only [S.work, e1, e2, e3]
      omega
    · simp at hs
  case wwrite i =>
    split at hs <;> simp only [Option.some.injEq, reduceCtorEq] at hs
    rename_i k r hw
    have h1 := chan (s1 := s') i 1 (far1 (by rw [hw]; simp))
      (by subst hs; simp only [S.chanCost, upd, if_true, hw, WPc.cost]; omega)
      (fun j hj => by subst hs; simp only [S.chanCost, upd, hj, if_false])
    have e1 : s'.hand = s.hand := by subst hs; rfl
    have e2 : s'.closed = s.closed := by subst hs; rfl
    have e3 : s'.Q = s.Q := by subst hs; rfl
    simp only [S.work, e1, e2, e3]
    omega
  case wpush i =>
    split at hs
    · rename_i k hw
      split at hs <;> simp only [Option.some.injEq, reduceCtorEq] at hs
      have h1 := chan (s1 := s') i 1 (far1 (by rw [hw]; simp))
        (by subst hs; simp only [S.chanCost, upd, if_true, hw, WPc.cost, List.length_append,
              List.length_singleton]; omega)
        (fun j hj => by subst hs; simp only [S.chanCost, upd, hj, if_false])
      have e1 : s'.hand = s.hand := by subst hs; rfl
      have e2 : s'.closed = s.closed := by subst hs; rfl
      have e3 : s'.Q = s.Q := by subst hs; rfl
      simp only [S.work, e1, e2, e3]
      omega
    · rename_i hw
      split at hs <;> simp only [Option.some.injEq, reduceCtorEq] at hs
      have h1 := chan (s1 := s') i 1 (far1 (by rw [hw]; simp))
        (by subst hs; simp only [S.chanCost, upd, if_true, hw, WPc.cost, List.length_append,
              List.length_singleton]; omega)
        (fun j hj => by subst hs; simp only [S.chanCost, upd, hj, if_false])
      have e1 : s'.hand = s.hand := by subst hs; rfl
      have e2 : s'.closed = s.closed := by subst hs; rfl
      have e3 : s'.Q = s.Q := by subst hs; rfl
      simp only [S.work, e1, e2, e3]
      omega
    · simp at hs
  case top =>
    split at hs
    · simp at hs
    · split at hs <;> simp only [Option.some.injEq, reduceCtorEq] at hs
      rename_i k hk
      have hq := (top_spec hk).1
      have h1 : sumN s'.chanCost n = sumN s.chanCost n := sumN_congr fun _ _ => by subst hs; rfl
      have e1 : s'.hand = s.hand := by subst hs; rfl
      have e2 : s'.closed = s.closed := by subst hs; rfl
      have e3 : s'.Q = s.Q.erase k := by subst hs; rfl
      have h2 := List.length_erase_of_mem hq
      have h3 : 0 < s.Q.length := List.length_pos_of_mem hq
      simp only [S.work, e1, e2, e3, h1]
      omega
  case cpop i =>
    split at hs
    · rename_i hc
      split at hs
      · simp at hs
      · rename_i q hq
        simp only [Option.some.injEq] at hs
        have h1 := chan (s1 := s') i 1 hc.2.2.1
          (by subst hs; simp only [S.chanCost, upd, if_true, hq, List.length_cons]; omega)
          (fun j hj => by subst hs; simp only [S.chanCost, upd, hj, if_false])
        have e1 : s'.hand = s.hand := by subst hs; rfl
        have e2 : s'.closed = s.closed := by subst hs; rfl
        have e3 : s'.Q = s.Q := by subst hs; rfl
        simp only [S.work, e1, e2, e3]
        omega
      · rename_i k q hq
        split at hs <;> simp only [Option.some.injEq] at hs
        · have h1 := chan (s1 := s') i 1 hc.2.2.1
            (by subst hs; simp only [S.chanCost, upd, if_true, hq, List.length_cons]; omega)
            (fun j hj => by subst hs; simp only [S.chanCost, upd, hj, if_false])
          have e1 : s'.hand = s.hand := by subst hs; rfl
          have e2 : s'.closed = s.closed := by subst hs; rfl
          have e3 : s'.Q = s.Q := by subst hs; rfl
          simp only [S.work, e1, e2, e3]
          omega
        · have h1 := chan (s1 := s') i 2 hc.2.2.1
            (by subst hs; simp only [S.chanCost, upd, if_true, hq, List.length_cons]; omega)
            (fun j hj => by subst hs; simp only [S.chanCost, upd, hj, if_false])
          have e1 : s'.hand = s.hand := by subst hs; rfl
          have e2 : s'.closed = s.closed := by subst hs; rfl
          have e3 : s'.Q.length = s.Q.length + 1 := by subst hs; simp
          simp only [S.work, e1, e2, e3]
          omega
    · simp at hs

/-- **C24, no deadlock**: a farm that has not ended can always do something else than take a new task. -/
theorem C24_progress (hn : 0 < n) (hci : 0 < ci) (hco : 0 < co) (hR : ∀ i d, ∃ r, R i d r = true)
    {M : Nat → Nat × D} {s : S D} (hr : Reach (Odfarm.step n ci co sz ms R) (S.start M) s)
    (he : s.ended = false) :
    ∃ a s', a.isWrite = false ∧ Odfarm.step n ci co sz ms R s a = some s' := by
  have h := EInv.reach hn hr
  cases htop : s.top with
  | some k => exact ⟨.top, _, rfl, by simp only [Odfarm.step, he, htop]; rfl⟩
  | none =>
    by_cases hq : ∃ i, i < n ∧ s.offline i = false ∧ s.outq i ≠ []
    · obtain ⟨i, hi, ho, hq⟩ := hq
      cases hout : s.outq i with
      | nil => exact absurd hout hq
      | cons m q =>
        cases m with
        | none =>
          exact ⟨.cpop i, _, rfl, by simp only [Odfarm.step]; rw [if_pos ⟨he, htop, hi, ho⟩, hout]⟩
        | some k =>
          by_cases hk : (s.M k).1 = s.next
          · exact ⟨.cpop i, _, rfl, by
              simp only [Odfarm.step]; rw [if_pos ⟨he, htop, hi, ho⟩, hout]; simp only; rw [if_pos hk]⟩
          · exact ⟨.cpop i, _, rfl, by
              simp only [Odfarm.step]; rw [if_pos ⟨he, htop, hi, ho⟩, hout]; simp only; rw [if_neg hk]⟩
    · have hoff : ∃ i, i < n ∧ s.offline i = false := by
        refine Classical.byContradiction fun hh => ?_
        have hall : ∀ i, i < n → s.offline i = true := by
          intro i hi
          cases ho : s.offline i with
          | true => rfl
          | false => exact absurd ⟨i, hi, ho⟩ hh
        have h1 := h.ended
        rw [he, h.neos, offCount_all hall] at h1
        simp at h1
      obtain ⟨i, hi, ho⟩ := hoff
      have hout : s.outq i = [] := Classical.byContradiction fun hh => hq ⟨i, hi, ho, hh⟩
      cases hw : s.w i with
      | got k => exact ⟨.wread i, _, rfl, by simp only [Odfarm.step, hw]; rfl⟩
      | calling k d =>
        obtain ⟨r, hr⟩ := hR i d
        exact ⟨.wret i r, _, rfl, by simp only [Odfarm.step, hw, hr, if_true]; rfl⟩
      | back k r => exact ⟨.wwrite i, _, rfl, by simp only [Odfarm.step, hw]; rfl⟩
      | done m =>
        cases m with
        | none => exact ⟨.wpush i, _, rfl, by
            simp only [Odfarm.step, hw]; rw [if_pos (by rw [hout]; exact hco)]⟩
        | some k => exact ⟨.wpush i, _, rfl, by
            simp only [Odfarm.step, hw]; rw [if_pos (by rw [hout]; exact hco)]⟩
      | exited =>
        rcases h.ex i hw with h1 | h1
        · rw [ho] at h1; simp at h1
        · rw [hout] at h1; simp at h1
      | idle =>
        cases hin : s.inq i with
        | cons m q =>
          cases m with
          | none => exact ⟨.wpop i, _, rfl, by simp only [Odfarm.step, hw, hin]; rfl⟩
          | some k => exact ⟨.wpop i, _, rfl, by simp only [Odfarm.step, hw, hin]; rfl⟩
        | nil =>
          have hlen : (s.inq i).length < ci := by rw [hin]; exact hci
          have heo : s.eosOut i = false := by
            cases hj : s.eosOut i with
            | false => rfl
            | true =>
              rcases h.after i hj with ⟨a, _⟩ | ⟨_, ks, b, _⟩
              · rw [ho] at a; simp at a
              · simp [S.msgs, hout, hw, hin, WPc.msg] at b
          cases hh : s.hand with
          | true => exact ⟨.push i, _, rfl, by simp only [Odfarm.step]; rw [if_pos ⟨hh, hi, hlen⟩]⟩
          | false =>
            cases hc : s.closed with
            | false => exact ⟨.close, _, rfl, by simp only [Odfarm.step]; rw [if_pos ⟨hh, hc⟩]⟩
            | true =>
              exact ⟨.eos i, _, rfl, by simp only [Odfarm.step]; rw [if_pos ⟨hc, hi, heo, hlen⟩]⟩

/-- **C24, bounded work**: without new tasks only `s.work n` steps are possible, whatever the schedule. -/
theorem C24_bounded_work {M : Nat → Nat × D} {s s' : S D} {as : List (Act D)}
    (hr : Reach (Odfarm.step n ci co sz ms R) (S.start M) s) (has : ∀ a ∈ as, a.isWrite = false)
    (he : exec (Odfarm.step n ci co sz ms R) s as = some s') : as.length ≤ s.work n := by
  induction as generalizing s with
  | nil => simp
  | cons a as ih =>
    simp only [exec] at he
    cases hs : Odfarm.step n ci co sz ms R s a with
    | none => rw [hs] at he; simp at he
    | some s1 =>
      rw [hs] at he
      have h1 := ih (hr.tail hs) (fun b hb => has b (by simp [hb])) he
      have h2 := work_dec (BInv.reach hr) (has a (by simp)) hs
      simp only [List.length_cons]
      omega

/-- **C24, completion**: from every state without a cell reused too early the farm can end; then every
task has its result delivered, in the order of the tasks.  (With `C24_progress` and
`C24_bounded_work`: every schedule that stops giving tasks ends that way.) -/
theorem C24_completes_partial (hn : 0 < n) (hsz : 0 < sz) (hci : 0 < ci) (hco : 0 < co)
    (hR : ∀ i d, ∃ r, R i d r = true) {M : Nat → Nat × D} {s : S D}
    (hr : Reach (Odfarm.step n ci co sz ms R) (S.start M) s) (ho : s.over = false) :
    ∃ s', Reach (Odfarm.step n ci co sz ms R) s s' ∧ s'.ended = true ∧ s'.tasks = s.tasks ∧
      s'.out.length = s.tasks.length ∧ InOrder R s.tasks s'.out := by
  have key : ∀ w, ∀ s : S D, s.work n = w → Reach (Odfarm.step n ci co sz ms R) (S.start M) s →
      s.over = false → ∃ s', Reach (Odfarm.step n ci co sz ms R) s s' ∧ s'.ended = true ∧
        s'.tasks = s.tasks ∧ s'.over = false := by
    intro w
    induction w using Nat.strongRecOn with
    | _ w ih =>
      intro s hw hr ho
      cases he : s.ended with
      | true => exact ⟨s, Reach.refl _ _, he, rfl, ho⟩
      | false =>
        obtain ⟨a, s1, ha, hs⟩ := C24_progress hn hci hco hR hr he
        have hd := work_dec (BInv.reach hr) ha hs
        have hkeep : s1.over = s.over ∧ s1.tasks = s.tasks := by
          cases a with
          | write d => simp [Act.isWrite] at ha
          | _ =>
            simp only [Odfarm.step] at hs
            revert hs
            repeat' split
            all_goals first
              | (intro hs; simp only [Option.some.injEq] at hs; subst hs; exact ⟨rfl, rfl⟩)
              | (intro hs; simp at hs)
        obtain ⟨s2, h1, h2, h3, h4⟩ := ih _ (by omega) s1 rfl (hr.tail hs) (by rw [hkeep.1]; exact ho)
        exact ⟨s2, (Reach.tail (Reach.refl _ _) hs).trans h1, h2, by rw [h3, hkeep.2], h4⟩
  obtain ⟨s', h1, h2, h3, h4⟩ := key _ s rfl hr ho
  obtain ⟨h5, h6⟩ := C24_all_delivered_partial hn hsz (hr.trans h1) h4 h2
  rw [h3] at h5 h6
  exact ⟨s', h1, h2, h3, h5, h6⟩

/-! ## Where the order is lost -/

/-- the schedule in which worker `i` processes task `d` from start to end -/
def oneTask (i d : Nat) : List (Act Nat) :=
  [.write d, .push i, .wpop i, .wread i, .wret i d, .wwrite i, .wpush i]

/-- the workers return the task they get -/
def same : Nat → Nat → Nat → Bool := fun _ d r => d == r

/-- **C24, the output queues are not bounded by the farm**: with one worker, a queue of one entry and
no additional memory the ring has five cells.  The output queue of a worker has whatever size the user
chose (`farm.hpp` 327-330 bounds only the input queues); with room for six results the emitter
reuses the first cell before its result is collected, and the farm ends with nothing delivered. -/
theorem C24_overrun_counterexample :
    (exec (Odfarm.step 1 1 100 (1 * (2 * 1 + 3) + 0) 0 same) (S.start fun _ => (0, 0))
      ((List.range 6).flatMap (oneTask 0) ++ List.replicate 6 (.cpop 0) ++
        [.close, .eos 0, .wpop 0, .wpush 0, .cpop 0])).map
      (fun s => (s.tasks, s.out, s.ended)) = some ([0, 1, 2, 3, 4, 5], [], true) := by
  decide +kernel

/-- **C24, the memory of the collector**: with bounded output queues a slow task on worker 0 is enough
to make the collector hold more than `memsize` results: the error is only printed.  When the slow task
lasts long enough, its cell is reused: all is lost. -/
theorem C24_memory_counterexample :
    (exec (Odfarm.step 2 1 2 (2 * (2 * 1 + 3) + 1) 1 same) (S.start fun _ => (0, 0))
      ([.write 0, .push 0, .wpop 0, .wread 0] ++
        (List.range 2).flatMap (fun d => oneTask 1 (d + 1) ++ [.cpop 1]))).map
      (fun s => (s.Q.length, s.err, s.over)) = some (2, true, false) ∧
    (exec (Odfarm.step 2 1 2 (2 * (2 * 1 + 3) + 1) 1 same) (S.start fun _ => (0, 0))
      ([.write 0, .push 0, .wpop 0, .wread 0] ++
        (List.range 11).flatMap (fun d => oneTask 1 (d + 1) ++ [.cpop 1]) ++
        [.wret 0 0, .wwrite 0, .wpush 0, .cpop 0, .close, .eos 0, .eos 1, .wpop 0, .wpop 1, .wpush 0,
          .wpush 1, .cpop 0, .cpop 1])).map
      (fun s => (s.tasks.length, s.out, s.ended)) = some (12, [], true) := by
  decide +kernel

/-- `ordered_lb::broadcast_task` of a task (ordering_policies.hpp 69-72): one cell, sent to all
workers; simplified to one action (there is room in all the queues). -/
def S.bcast (n sz : Nat) (s : S D) (d : D) : S D :=
  { s with M := upd s.M s.idx (s.cnt, d), inq := fun i => if i < n then s.inq i ++ [some s.idx] else s.inq i
           cnt := s.cnt + 1, idx := (s.idx + 1) % sz, tasks := s.tasks ++ [d] }

/-- **C24, broadcast**: after a broadcast to two workers, the second copy stays at the top of the
collector's buffer for ever; the result of task 2, which arrives before the result of task 1, is never
delivered. -/
theorem C24_broadcast_counterexample :
    (exec (Odfarm.step 2 1 2 20 10 same) ((S.start fun _ => (0, 0)).bcast 2 20 7)
      ([.wpop 0, .wread 0, .wret 0 7, .wwrite 0, .wpush 0, .cpop 0,
        .wpop 1, .wread 1, .wret 1 7, .wwrite 1, .wpush 1, .cpop 1] ++
        [.write 1, .push 0] ++ oneTask 1 2 ++ [.cpop 1, .wpop 0, .wread 0, .wret 0 1, .wwrite 0, .wpush 0,
        .cpop 0, .close, .eos 0, .eos 1, .wpop 0, .wpop 1, .wpush 0, .wpush 1, .cpop 0, .cpop 1])).map
      (fun s => (s.tasks, s.out, s.ended)) = some ([7, 1, 2], [7, 1], true) := by
  decide +kernel

/-- a run of two workers that finish in the opposite order: the hypotheses of the theorems hold, and
the results come in the order of the tasks -/
example : (exec (Odfarm.step 2 1 2 (2 * (2 * 1 + 3) + 1) 1 same) (S.start fun _ => (0, 0))
      ([.write 4, .push 0, .wpop 0, .wread 0] ++ oneTask 1 5 ++ [.cpop 1, .wret 0 4, .wwrite 0, .wpush 0,
        .cpop 0, .top, .close, .eos 0, .eos 1, .wpop 0, .wpop 1, .wpush 0, .wpush 1, .cpop 0, .cpop 1])).map
      (fun s => (s.out, s.err, s.over, s.ended)) = some ([4, 5], false, false, true) := by
  decide +kernel

end FF.Odfarm
