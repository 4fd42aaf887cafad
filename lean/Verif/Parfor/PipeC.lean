import Verif.Parfor.Pipe
import Verif.Parfor.Empty
/-!
# ParallelForPipeReduce: the claims (C81)

**Specification.** `parallel_reduce_idx(first, last, step, grain, Map, Reduce, nw)`, where `Map` sends the
values `f i` when it gets to index `i`: `Reduce` is called exactly once for each value sent, that is the calls
of `Reduce` are a permutation of `(indices first last step).flatMap f`, and the values of one worker keep their
order.
-/
namespace FF.PipeReduce
open FF FF.Node FF.Farm
open FF.Parfor (Range Loop A B Act BAct indices Good)

variable {D : Type}

theorem growA (P : Parfor.Par) (m m' : A) (a : Act) (h : Parfor.step P m a = some m') :
    ∃ l, m'.log = m.log ++ l ∧
      ∀ x, decide (m.pc x = .out) = true → decide (m'.pc x = .out) = true ∧ ∀ e ∈ l, e.1 ≠ x := by
  have upd_ret : ∀ (w : Nat) (p : Parfor.PC) (x : Nat), m.pc w ≠ .out → m.pc x = .out →
      upd m.pc w p x = .out := by
    intro w p x h1 h2
    have : x ≠ w := fun hh => h1 (hh ▸ h2)
    simp only [upd, this, if_false]; exact h2
  have same : ∀ (d : Nat → Range) (w : Nat) (p : Parfor.PC), m.pc w ≠ .out →
      some (A.mk d (upd m.pc w p) m.log) = some m' → ∃ l, m'.log = m.log ++ l ∧
      ∀ x, decide (m.pc x = .out) = true → decide (m'.pc x = .out) = true ∧ ∀ e ∈ l, e.1 ≠ x := by
    intro d w p hp he
    simp only [Option.some.injEq] at he
    subst he
    exact ⟨[], by simp, fun x hx => ⟨by simpa using upd_ret w p x hp (by simpa using hx), by simp⟩⟩
  cases a with
  | go w =>
    simp only [Parfor.step] at h
    split at h
    · unfold Parfor.go at h
      cases hp : m.pc w with
      | run cur stop =>
        simp only [hp] at h
        split at h
        · simp only [Option.some.injEq] at h
          subst h
          refine ⟨[(w, cur)], rfl, fun x hx => ⟨?_, ?_⟩⟩
          · simpa using upd_ret w _ x (by rw [hp]; simp) (by simpa using hx)
          · intro e he
            simp only [List.mem_singleton] at he
            subst he
            intro hwx
            simp only at hwx
            subst hwx
            rw [hp] at hx; simp at hx
        · exact same _ w _ (by rw [hp]; simp) h
      | cas id old =>
        simp only [hp] at h
        split at h
        · exact same _ w _ (by rw [hp]; simp) h
        · exact same _ w _ (by rw [hp]; simp) h
      | idle => simp [hp] at h
      | mx => simp [hp] at h
      | out => simp [hp] at h
      | _ =>
        simp only [hp] at h
        exact same _ w _ (by rw [hp]; simp) h
    · simp at h
  | casFail w =>
    simp only [Parfor.step] at h
    split at h
    · cases hp : m.pc w with
      | cas id old =>
        simp only [hp] at h
        exact same _ w _ (by rw [hp]; simp) h
      | _ => simp [hp] at h
    · simp at h
  | pick w v =>
    simp only [Parfor.step] at h
    split at h
    · rename_i hc
      exact same _ w _ (by rw [hc.2.2]; simp) h
    · simp at h

theorem okA (P : Parfor.Par) : MapOk (partA P) := ⟨fun h => growA P _ _ _ h⟩

theorem growB (P : Parfor.Par) (m m' : B) (a : BAct) (h : Parfor.bstep P m a = some m') :
    ∃ l, m'.log = m.log ++ l ∧
      ∀ x, decide (m.pc x = .gone) = true → decide (m'.pc x = .gone) = true ∧ ∀ e ∈ l, e.1 ≠ x := by
  have quiet : m'.log = m.log → (∀ x, m.pc x = .gone → m'.pc x = .gone) → ∃ l, m'.log = m.log ++ l ∧
      ∀ x, decide (m.pc x = .gone) = true → decide (m'.pc x = .gone) = true ∧ ∀ e ∈ l, e.1 ≠ x :=
    fun h1 h2 => ⟨[], by simp [h1], fun x hx => ⟨by simpa using h2 x (by simpa using hx), by simp⟩⟩
  have upd_ret : ∀ (w : Nat) (p : Parfor.WPC) (x : Nat), m.pc w ≠ .gone → m.pc x = .gone →
      upd m.pc w p x = .gone := by
    intro w p x h1 h2
    have : x ≠ w := fun hh => h1 (hh ▸ h2)
    simp only [upd, this, if_false]; exact h2
  have end1 : ∀ (s : B) (w : Nat), (B.end1 s w).log = s.log ∧ (B.end1 s w).pc = s.pc := by
    intro s w; unfold B.end1; split <;> exact ⟨rfl, rfl⟩
  cases a with
  | send =>
    simp only [Parfor.bstep] at h
    split at h
    · split at h
      · simp only [Option.some.injEq] at h
        subst h
        apply quiet
        · simp only; split <;> rfl
        · intro x hx; simp only; split <;> exact hx
      · split at h <;>
        · simp only [Option.some.injEq] at h
          subst h
          exact quiet rfl fun _ hx => hx
    · simp at h
  | recv w =>
    simp only [Parfor.bstep] at h
    split at h
    · split at h
      · simp only [Option.some.injEq] at h
        subst h
        exact quiet (end1 _ w).1 fun x hx => by simp only; rw [(end1 _ w).2]; exact hx
      · split at h
        · simp only [Option.some.injEq] at h
          subst h
          exact quiet rfl fun _ hx => hx
        · simp only [Option.some.injEq] at h
          subst h
          exact quiet (end1 _ w).1 fun x hx => by rw [(end1 _ w).2]; exact hx
    · simp at h
  | get w =>
    simp only [Parfor.bstep] at h
    split at h
    · rename_i hc
      split at h
      · simp at h
      all_goals
        simp only [Option.some.injEq] at h
        subst h
        exact quiet rfl fun x hx => upd_ret w _ x (by rw [hc.2]; simp) hx
    · simp at h
  | go w =>
    simp only [Parfor.bstep] at h
    split at h
    · cases hp : m.pc w with
      | run cur stop =>
        simp only [hp] at h
        split at h
        · simp only [Option.some.injEq] at h
          subst h
          refine ⟨[(w, cur)], rfl, fun x hx => ⟨?_, ?_⟩⟩
          · simpa using upd_ret w _ x (by rw [hp]; simp) (by simpa using hx)
          · intro e he
            simp only [List.mem_singleton] at he
            subst he
            intro hwx
            simp only at hwx
            subst hwx
            rw [hp] at hx; simp at hx
        · simp only [Option.some.injEq] at h
          subst h
          exact quiet rfl fun x hx => upd_ret w _ x (by rw [hp]; simp) hx
      | _ => simp [hp] at h
    · simp at h

theorem okB (P : Parfor.Par) : MapOk (partB P) := ⟨fun h => growB P _ _ _ h⟩

theorem startA_log (P : Parfor.Par) (L : Loop) (spin : Bool) : (A.start P L spin).log = [] := by
  unfold A.start; split <;> rfl

/-- nothing is left in the channels -/
theorem PInv.empty {M : MapPart} {n : Nat} (hn : 0 < n) {f : Int → List D} {m0 : M.S} {s : PR M D}
    (h : PInv M n f m0 s) (hx : s.red.g.exited = true) (hw : ∀ e ∈ M.log s.m, e.1 < n) (w : Nat) :
    s.red.chan w = [] := by
  by_cases hwn : w < n
  · exact ((h.final hn hx).2 w hwn).2
  · obtain ⟨vs, h1, h2⟩ := h.sent w
    rw [valsOf_none (w := w) (fun e he hh => hwn (hh ▸ hw e he))] at h2
    have hv : vs = [] := (List.append_eq_nil_iff.1 h2).1
    have he : s.eosd w = false := by
      cases he : s.eosd w with
      | false => rfl
      | true => exact absurd (h.done w he).1 hwn
    rw [hv, he] at h1
    have := (GSInv.reach h.red).order w
    rw [h1] at this
    exact (List.append_eq_nil_iff.1 this.symm).2

/-- **The values have been reduced**: each value of each index exactly once, those of one worker in the order in
which it sent them (`log` are the calls of the body). -/
def AllReduced (f : Int → List D) (idx : List Int) (n : Nat) (log : List (Nat × Int)) (reduced : List D) : Prop :=
  (log.map Prod.snd).Perm idx ∧ reduced.Perm (idx.flatMap f) ∧
  ∃ t : List (Nat × D), t.map Prod.snd = reduced ∧ (∀ e ∈ t, e.1 < n) ∧
    ∀ w, w < n → (t.filter fun e => e.1 = w).map Prod.snd =
      ((log.filter fun e => e.1 = w).map Prod.snd).flatMap f

/-- the calls of a loop without scheduler thread -/
theorem reducedA {first last st : Int} {nw : Nat} {L : Loop} {spin : Bool} {f : Int → List D}
    {s : PR (partA (L.par st nw)) D} (hs : 1 ≤ st) (hg : Good first last st nw L)
    (hr : Reach (pstep (partA (L.par st nw)) L.nw f)
      (PR.start _ (A.start (L.par st nw) L spin) fun _ => []) s) (hx : s.red.g.exited = true) :
    AllReduced f (indices first last st) L.nw s.m.log s.reduced ∧ (∀ w, s.red.chan w = []) ∧
    (L.static = false → ∀ i, (s.m.d i).ntask ≤ 0) := by
  have hi : PInv (partA (L.par st nw)) L.nw f (A.start (L.par st nw) L spin) s :=
    hr.inv (PInv.start _ _ _ _ (startA_log _ _ _)) fun _ _ _ h hst => h.step (okA _) hst
  have hI : Parfor.Inv first last (L.par st nw) s.m :=
    hi.m.inv (Parfor.Inv.start hs hg spin) fun _ _ _ h hst => h.step hs hg.chunk hst
  have ho : s.m.over (L.par st nw) := fun w hw => by
    have := ((hi.final hg.nw1 hx).1 w hw).2
    exact of_decide_eq_true this
  obtain ⟨h1, h2⟩ := Parfor.over_of (P := L.par st nw) hs hg.chunk hI ho
  obtain ⟨h3, h4⟩ := hi.all hg.nw1 hx hI.who
  exact ⟨⟨h1, h4.trans (h1.flatMap_right f), h3⟩, hi.empty hg.nw1 hx hI.who, h2⟩

/-- **C81.** `parallel_reduce_idx` with a positive grain, workers that fetch their tasks by themselves, blocking
or spinning: when the call returns, `Reduce` has been called exactly once on each value sent, and nothing is
left for the next call. -/
theorem C81_reduced {old : Nat → Range} {first last st grain : Int} {nw : Nat} {L : Loop} {spin : Bool} {f : Int → List D}
    {s : PR (partA (L.par st nw)) D} (hc : ∀ i, 1 ≤ i → (old i).ntask ≤ 0) (hs : 1 ≤ st) (hk : 1 ≤ grain) (hn : 1 ≤ nw)
    (hL : Parfor.setloopDyn old first last st grain nw = some L)
    (hr : Reach (pstep (partA (L.par st nw)) L.nw f)
      (PR.start _ (A.start (L.par st nw) L spin) fun _ => []) s) (hx : s.ended L.nw) :
    AllReduced f (indices first last st) L.nw s.m.log s.reduced ∧ (∀ w, s.red.chan w = []) ∧
    (L.static = false → ∀ i, (s.m.d i).ntask ≤ 0) :=
  reducedA hs (Parfor.setloopDyn_good hs hk hn hc hL) hr hx.1

/-- an empty range with the default static scheduling: no calls -/
theorem emptyA {old : Nat → Range} {first last st : Int} {nw : Nat} {L : Loop} {spin : Bool}
    (hc : ∀ i, 1 ≤ i → (old i).ntask ≤ 0) (hs : 1 ≤ st) (hn : 1 ≤ nw) (hle : last ≤ first)
    (hL : Parfor.setloopStatic old first last st nw = some L) :
    L.nw = nw ∧ L.static = true ∧ Parfor.EInv2 (L.par st nw) (A.start (L.par st nw) L spin) := by
  obtain ⟨hst, hnw, h1, h2⟩ := Parfor.static_empty hs hn hle hc hL
  exact ⟨hnw, hst, Parfor.EInv2.start hnw spin h1 h2⟩

/-- **C81.** The same with the default static scheduling (grain 0), also for an empty range. -/
theorem C81_reduced_static {old : Nat → Range} {first last st : Int} {nw : Nat} {L : Loop} {spin : Bool} {f : Int → List D}
    {s : PR (partA (L.par st nw)) D} (hc : ∀ i, 1 ≤ i → (old i).ntask ≤ 0) (hs : 1 ≤ st) (hn : 1 ≤ nw)
    (hb : last - first < 2 ^ 63) (hL : Parfor.setloopStatic old first last st nw = some L)
    (hr : Reach (pstep (partA (L.par st nw)) L.nw f)
      (PR.start _ (A.start (L.par st nw) L spin) fun _ => []) s) (hx : s.ended L.nw) :
    AllReduced f (indices first last st) L.nw s.m.log s.reduced ∧ (∀ w, s.red.chan w = []) := by
  by_cases hlt : first < last
  · have h := reducedA hs (Parfor.setloopStatic_good hs hn hlt hb hc hL).1 hr hx.1
    exact ⟨h.1, h.2.1⟩
  · obtain ⟨hnw, hst, hE⟩ := emptyA (spin := spin) hc hs hn (by omega) hL
    have hi : PInv (partA (L.par st nw)) L.nw f (A.start (L.par st nw) L spin) s :=
      hr.inv (PInv.start _ _ _ _ (startA_log _ _ _)) fun _ _ _ h hst => h.step (okA _) hst
    have hlog : s.m.log = [] := by
      obtain ⟨acts, he⟩ := hi.m
      exact (Parfor.EInv2.bound (P := L.par st nw) hst acts hE he).2.inv.log
    have hw : ∀ e ∈ (partA (L.par st nw)).log s.m, e.1 < L.nw := by
      intro e he
      have : e ∈ s.m.log := he
      rw [hlog] at this; simp at this
    obtain ⟨h3, h4⟩ := hi.all (by omega) hx.1 hw
    have h1 : (s.m.log.map Prod.snd).Perm (indices first last st) := by
      rw [hlog, Parfor.indices_nil hs (by omega)]; exact List.Perm.refl _
    exact ⟨⟨h1, h4.trans (h1.flatMap_right f), h3⟩, hi.empty (by omega) hx.1 hw⟩

/-- **C81.** The same with the scheduler thread, `k` tasks to each worker in advance; the call also waits for
the scheduler. -/
theorem C81_reduced_scheduler {old : Nat → Range} {first last st grain : Int} {nw : Nat} {L : Loop} {k : Nat}
    {f : Int → List D} {s : PR (partB (L.par st nw)) D} (hc : ∀ i, 1 ≤ i → (old i).ntask ≤ 0) (hs : 1 ≤ st)
    (hk : 1 ≤ grain) (hn : 1 ≤ nw) (hL : Parfor.setloopDyn old first last st grain nw = some L)
    (hr : Reach (pstep (partB (L.par st nw)) L.nw f) (PR.start _ (B.start L k) fun _ => []) s) (hx : s.ended L.nw)
    (ho : s.m.e = .over) :
    AllReduced f (indices first last st) L.nw s.m.log s.reduced ∧ (∀ w, s.red.chan w = []) ∧
    ∀ i, (s.m.d i).ntask ≤ 0 := by
  have hg := Parfor.setloopDyn_good hs hk hn hc hL
  have hi : PInv (partB (L.par st nw)) L.nw f (B.start L k) s :=
    hr.inv (PInv.start _ _ _ _ rfl) fun _ _ _ h hst => h.step (okB _) hst
  have hI : Parfor.BInv first last (L.par st nw) s.m :=
    hi.m.inv (Parfor.BInv.start hg k) fun _ _ _ h hst => h.step hs hg.chunk hg.nw1 hg.nwD hst
  obtain ⟨h1, h2⟩ := Parfor.bover_of (P := L.par st nw) hs hI ho
  obtain ⟨h3, h4⟩ := hi.all hg.nw1 hx.1 hI.who
  exact ⟨⟨h1, h4.trans (h1.flatMap_right f), h3⟩, hi.empty hg.nw1 hx.1 hI.who, h2⟩

theorem endsA {first last st : Int} {nw : Nat} {L : Loop} {spin : Bool} {f : Int → List D}
    {s : PR (partA (L.par st nw)) D} (hs : 1 ≤ st) (hg : Good first last st nw L)
    (hr : Reach (pstep (partA (L.par st nw)) L.nw f)
      (PR.start _ (A.start (L.par st nw) L spin) fun _ => []) s) :
    ∃ s', Reach (pstep (partA (L.par st nw)) L.nw f) s s' ∧ s'.ended L.nw := by
  have hi : PInv (partA (L.par st nw)) L.nw f (A.start (L.par st nw) L spin) s :=
    hr.inv (PInv.start _ _ _ _ (startA_log _ _ _)) fun _ _ _ h hst => h.step (okA _) hst
  obtain ⟨m', h1, h2⟩ := can_finish (step := Parfor.step (L.par st nw)) (bad := Parfor.Act.spurious)
    (fin := fun m => m.over (L.par st nw)) (b := Parfor.meas (L.par st nw) (A.start (L.par st nw) L spin))
    (fun acts m he => by
      have hI : Parfor.Inv first last (L.par st nw) m :=
        Reach.inv ⟨acts, he⟩ (Parfor.Inv.start hs hg spin) fun _ _ _ hi hst => hi.step hs hg.chunk hst
      refine ⟨fun ho => ?_, Parfor.exec_bound (P := L.par st nw) hs hg.chunk acts (Parfor.Inv.start hs hg spin) he⟩
      have : ∃ w, w < L.nw ∧ m.pc w ≠ .out := by
        by_contra hc
        apply ho
        intro w hw
        by_contra h
        exact hc ⟨w, hw, h⟩
      obtain ⟨w, hw, hp⟩ := this
      exact Parfor.progress_of (P := L.par st nw) (Nat.le_trans hg.nw1 hg.nwD) hI hw hp) hi.m
  obtain ⟨s', h3, h4, _⟩ := hi.canEnd (okA _) hg.nw1 h1 fun w hw => decide_eq_true (h2 w hw)
  exact ⟨s', h3, h4⟩

/-- **C81.** From every moment of a call with a positive grain, without scheduler thread, the call can end. -/
theorem C81_can_end {old : Nat → Range} {first last st grain : Int} {nw : Nat} {L : Loop} {spin : Bool} {f : Int → List D}
    {s : PR (partA (L.par st nw)) D} (hc : ∀ i, 1 ≤ i → (old i).ntask ≤ 0) (hs : 1 ≤ st) (hk : 1 ≤ grain) (hn : 1 ≤ nw)
    (hL : Parfor.setloopDyn old first last st grain nw = some L)
    (hr : Reach (pstep (partA (L.par st nw)) L.nw f)
      (PR.start _ (A.start (L.par st nw) L spin) fun _ => []) s) :
    ∃ s', Reach (pstep (partA (L.par st nw)) L.nw f) s s' ∧ s'.ended L.nw :=
  endsA hs (Parfor.setloopDyn_good hs hk hn hc hL) hr

/-- **C81.** The same with the default static scheduling, also for an empty range. -/
theorem C81_can_end_static {old : Nat → Range} {first last st : Int} {nw : Nat} {L : Loop} {spin : Bool} {f : Int → List D}
    {s : PR (partA (L.par st nw)) D} (hc : ∀ i, 1 ≤ i → (old i).ntask ≤ 0) (hs : 1 ≤ st) (hn : 1 ≤ nw)
    (hb : last - first < 2 ^ 63) (hL : Parfor.setloopStatic old first last st nw = some L)
    (hr : Reach (pstep (partA (L.par st nw)) L.nw f)
      (PR.start _ (A.start (L.par st nw) L spin) fun _ => []) s) :
    ∃ s', Reach (pstep (partA (L.par st nw)) L.nw f) s s' ∧ s'.ended L.nw := by
  by_cases hlt : first < last
  · exact endsA hs (Parfor.setloopStatic_good hs hn hlt hb hc hL).1 hr
  · obtain ⟨hnw, hst, hE⟩ := emptyA (spin := spin) hc hs hn (by omega) hL
    have hi : PInv (partA (L.par st nw)) L.nw f (A.start (L.par st nw) L spin) s :=
      hr.inv (PInv.start _ _ _ _ (startA_log _ _ _)) fun _ _ _ h hst => h.step (okA _) hst
    obtain ⟨m', h1, h2⟩ := can_finish (step := Parfor.step (L.par st nw)) (bad := Parfor.Act.spurious)
      (fin := fun m => m.over (L.par st nw)) (b := Parfor.emeas (L.par st nw) (A.start (L.par st nw) L spin))
      (fun acts m he => by
        obtain ⟨h3, h4⟩ := Parfor.EInv2.bound (P := L.par st nw) hst acts hE he
        refine ⟨fun ho => ?_, h3⟩
        have : ∃ w, w < L.nw ∧ m.pc w ≠ .out := by
          by_contra hc
          apply ho
          intro w hw
          by_contra h
          exact hc ⟨w, hw, h⟩
        obtain ⟨w, hw, hp⟩ := this
        exact h4.progress hw hp) hi.m
    obtain ⟨s', h3, h4, _⟩ := hi.canEnd (okA _) (by omega) h1 fun w hw => decide_eq_true (h2 w hw)
    exact ⟨s', h3, h4⟩

/-- **C81.** The same with the scheduler thread, which ends as well. -/
theorem C81_can_end_scheduler {old : Nat → Range} {first last st grain : Int} {nw : Nat} {L : Loop} {k : Nat}
    {f : Int → List D} {s : PR (partB (L.par st nw)) D} (hc : ∀ i, 1 ≤ i → (old i).ntask ≤ 0) (hs : 1 ≤ st)
    (hk : 1 ≤ grain) (hn : 1 ≤ nw) (hL : Parfor.setloopDyn old first last st grain nw = some L)
    (hr : Reach (pstep (partB (L.par st nw)) L.nw f) (PR.start _ (B.start L k) fun _ => []) s) :
    ∃ s', Reach (pstep (partB (L.par st nw)) L.nw f) s s' ∧ s'.ended L.nw ∧ s'.m.e = .over := by
  have hg := Parfor.setloopDyn_good hs hk hn hc hL
  have hi : PInv (partB (L.par st nw)) L.nw f (B.start L k) s :=
    hr.inv (PInv.start _ _ _ _ rfl) fun _ _ _ h hst => h.step (okB _) hst
  obtain ⟨m', h1, h2⟩ := can_finish (step := Parfor.bstep (L.par st nw)) (bad := fun _ => false)
    (fin := fun m => m.finished (L.par st nw)) (b := Parfor.bmeas (L.par st nw) (B.start L k))
    (fun acts m he => by
      have hI : Parfor.BInv first last (L.par st nw) m :=
        Reach.inv ⟨acts, he⟩ (Parfor.BInv.start hg k) fun _ _ _ hi hst => hi.step hs hg.chunk hg.nw1 hg.nwD hst
      refine ⟨fun ho => ?_, ?_⟩
      · obtain ⟨a, s', h⟩ := Parfor.bprogress_of (P := L.par st nw) hg.nw1 hI ho
        exact ⟨a, s', rfl, h⟩
      · have := Parfor.bexec_bound (P := L.par st nw) hs hg.chunk hg.nw1 hg.nwD acts (Parfor.BInv.start hg k) he
        omega) hi.m
  obtain ⟨s', h3, h4, h5⟩ := hi.canEnd (okB _) hg.nw1 h1 fun w hw => decide_eq_true (h2.2 w hw)
  exact ⟨s', h3, h4, by rw [h5]; exact h2.1⟩

/-- **C81.** Once all workers have sent `EOS` the Reduce part does not wait any more: until it ends, each of its
attempts takes a message out of the channels, of which there are `waiting`. -/
theorem C81_drains {old : Nat → Range} {first last st grain : Int} {nw : Nat} {L : Loop} {spin : Bool} {f : Int → List D}
    {s : PR (partA (L.par st nw)) D} (hc : ∀ i, 1 ≤ i → (old i).ntask ≤ 0) (hs : 1 ≤ st) (hk : 1 ≤ grain) (hn : 1 ≤ nw)
    (hL : Parfor.setloopDyn old first last st grain nw = some L)
    (hr : Reach (pstep (partA (L.par st nw)) L.nw f)
      (PR.start _ (A.start (L.par st nw) L spin) fun _ => []) s)
    (he : ∀ w, w < L.nw → s.eosd w = true) (hx : s.red.g.exited = false) :
    ∃ s', pstep (partA (L.par st nw)) L.nw f s .gather = some s' ∧ waiting L.nw s'.red.chan < waiting L.nw s.red.chan := by
  have hi : PInv (partA (L.par st nw)) L.nw f (A.start (L.par st nw) L spin) s :=
    hr.inv (PInv.start _ _ _ _ (startA_log _ _ _)) fun _ _ _ h hst => h.step (okA _) hst
  obtain ⟨s', h1, h2, _⟩ := hi.pop (Parfor.setloopDyn_good hs hk hn hc hL).nw1 he hx
  exact ⟨s', h1, h2⟩

/-- what has been reduced and what is still on the way are the values of the calls of the body -/
theorem PInv.partly {M : MapPart} {n : Nat} {f : Int → List D} {m0 : M.S} {s : PR M D}
    (h : PInv M n f m0 s) (hw : ∀ e ∈ M.log s.m, e.1 < n) :
    ∃ rest, (s.reduced ++ rest).Perm (((M.log s.m).map Prod.snd).flatMap f) := by
  have hg := GSInv.reach h.red
  have ht : ∀ e ∈ tagged s.red.g.got, e.1 < n := fun e he => hg.g.chan _ _ (tagged_mem he)
  have hparts : ∀ w, valsOf f (M.log s.m) w =
      ((tagged s.red.g.got).filter fun e => e.1 = w).map Prod.snd ++ (datas (s.red.chan w) ++ s.box w) := by
    intro w
    obtain ⟨vs, h1, h2⟩ := h.sent w
    rw [tagged_from, ← h2, ← List.append_assoc, ← datas_append, ← hg.order w, h1, datas_append, datas_map]
    split <;> simp [datas]
  refine ⟨(List.range n).flatMap fun w => datas (s.red.chan w) ++ s.box w, ?_⟩
  rw [h.reduced, ← tagged_snd]
  refine ((perm_parts ht).append_right _).trans ?_
  refine (List.flatMap_append_perm _ _ _).trans ?_
  have e1 : ((List.range n).flatMap fun w => ((tagged s.red.g.got).filter fun e => e.1 = w).map Prod.snd ++
      (datas (s.red.chan w) ++ s.box w)) =
      ((List.range n).flatMap fun w => ((M.log s.m).filter fun e => e.1 = w).map Prod.snd).flatMap f := by
    rw [List.flatMap_assoc, List.flatMap_def, List.flatMap_def]
    congr 1
    apply List.map_congr_left
    intro w _
    exact (hparts w).symm
  rw [e1]
  exact ((perm_parts hw).symm).flatMap_right f

/-- **C81.** At every moment of a call, not only at its end: no index has been given to the body twice, and what
has been reduced is part of the values of the indices executed so far, none twice. -/
theorem C81_at_most_once {old : Nat → Range} {first last st grain : Int} {nw : Nat} {L : Loop} {spin : Bool} {f : Int → List D}
    {s : PR (partA (L.par st nw)) D} (hc : ∀ i, 1 ≤ i → (old i).ntask ≤ 0) (hs : 1 ≤ st) (hk : 1 ≤ grain) (hn : 1 ≤ nw)
    (hL : Parfor.setloopDyn old first last st grain nw = some L)
    (hr : Reach (pstep (partA (L.par st nw)) L.nw f)
      (PR.start _ (A.start (L.par st nw) L spin) fun _ => []) s) :
    (s.m.calls.Nodup ∧ ∀ x ∈ s.m.calls, x ∈ indices first last st) ∧
    ∃ rest, (s.reduced ++ rest).Perm (s.m.calls.flatMap f) := by
  have hg := Parfor.setloopDyn_good hs hk hn hc hL
  have hi : PInv (partA (L.par st nw)) L.nw f (A.start (L.par st nw) L spin) s :=
    hr.inv (PInv.start _ _ _ _ (startA_log _ _ _)) fun _ _ _ h hst => h.step (okA _) hst
  have hI : Parfor.Inv first last (L.par st nw) s.m :=
    hi.m.inv (Parfor.Inv.start hs hg spin) fun _ _ _ h hst => h.step hs hg.chunk hst
  exact ⟨Parfor.partial_of (P := L.par st nw) hs hI, hi.partly hI.who⟩

/-- a new object, `parallel_reduce_idx(0, 9, 2, 1, Map, Reduce, 2)`: the hypotheses are met and the call has an
end, with the values of 0, 2, 4, 6 and 8 reduced -/
example : ∃ s : PR (partA (Parfor.demoL.par 2 2)) Int,
    Reach (pstep (partA (Parfor.demoL.par 2 2)) Parfor.demoL.nw fun i => [i, 10 * i])
      (PR.start _ (A.start (Parfor.demoL.par 2 2) Parfor.demoL true) fun _ => []) s ∧ s.ended Parfor.demoL.nw ∧
    s.reduced.Perm ((indices 0 9 2).flatMap fun i => [i, 10 * i]) := by
  have hL : Parfor.setloopDyn (fun _ => ⟨0, 0, 0⟩) 0 9 2 1 2 = some Parfor.demoL := by
    unfold Parfor.demoL; exact (Option.some_get _).symm
  obtain ⟨s, h1, h2⟩ := C81_can_end (D := Int) (spin := true) (f := fun i => [i, 10 * i]) (by simp) (by omega)
    (by omega) (by omega) hL (Reach.refl _ _)
  exact ⟨s, h1, h2, (C81_reduced (by simp) (by omega) (by omega) (by omega) hL h1 h2).1.2.1⟩

/-! ## threadPause -/

theorem pause_reach (n : Nat) (c : Node D) : ∀ k, k ≤ n →
    Reach (gstep n) (GS.start c) ⟨G.start c, pauseLeft k fun _ => [], pauseLeft k fun _ => []⟩ := by
  intro k
  induction k with
  | zero =>
    intro _
    have : (pauseLeft 0 fun _ => ([] : List (Msg D))) = fun _ => [] := by funext w; simp [pauseLeft]
    rw [this]; exact Reach.refl _ _
  | succ k ih =>
    intro hk
    refine (ih (by omega)).tail (a := .arrive k .eos) ?_
    have : upd (pauseLeft k fun _ => ([] : List (Msg D))) k ((pauseLeft k fun _ => []) k ++ [.eos]) =
        pauseLeft (k + 1) fun _ => [] := by
      funext w
      simp only [upd, pauseLeft]
      by_cases hw : w = k
      · subst hw; simp
      · by_cases h1 : w < k
        · simp [hw, h1, Nat.lt_succ_of_lt h1]
        · have : ¬ w < k + 1 := by omega
          simp [hw, h1, this]
    simp only [gstep, this]

structure QInv (M : MapPart) (n : Nat) (s : PR M D) : Prop where
  red : Reach (gstep n) (GS.start (redNode D)) s.red
  first : ∀ w, w < n → ∃ l, s.red.sent w = .eos :: l
  kinds : ∀ w, ∀ x ∈ s.red.sent w, (∃ d, x = .data d) ∨ x = .eos

theorem QInv.step {M : MapPart} {n : Nat} {f : Int → List D} {s s' : PR M D} {a : PAct M}
    (h : QInv M n s) (hs : pstep M n f s a = some s') : QInv M n s' := by
  have arr : ∀ (w : Nat) (m : Msg D) (g : GS (redNode D)), ((∃ d, m = .data d) ∨ m = .eos) →
      gstep n s.red (.arrive w m) = some g → (∀ w, w < n → ∃ l, g.sent w = .eos :: l) ∧
      ∀ w, ∀ x ∈ g.sent w, (∃ d, x = .data d) ∨ x = .eos := by
    intro w m g hm hg
    simp only [gstep, Option.some.injEq] at hg
    subst hg
    refine ⟨fun v hv => ?_, fun v x hx => ?_⟩
    · obtain ⟨l, hl⟩ := h.first v hv
      by_cases hvw : v = w
      · subst hvw; exact ⟨l ++ [m], by simp [upd, hl]⟩
      · exact ⟨l, by simp only [upd, hvw, if_false]; exact hl⟩
    · simp only [upd] at hx
      split at hx
      · rename_i hvw
        subst hvw
        rcases List.mem_append.1 hx with hx | hx
        · exact h.kinds v x hx
        · simp only [List.mem_singleton] at hx; subst hx; exact hm
      · exact h.kinds v x hx
  cases a with
  | map a =>
    simp only [pstep] at hs
    split at hs
    · simp at hs
    · simp only [Option.some.injEq] at hs
      subst hs; exact ⟨h.red, h.first, h.kinds⟩
  | push w =>
    simp only [pstep] at hs
    split at hs
    · simp at hs
    · rename_i d r hb
      split at hs
      · simp at hs
      · rename_i g hg
        simp only [Option.some.injEq] at hs
        subst hs
        exact ⟨h.red.tail hg, (arr w _ g (Or.inl ⟨d, rfl⟩) hg).1, (arr w _ g (Or.inl ⟨d, rfl⟩) hg).2⟩
  | eos w =>
    simp only [pstep] at hs
    split at hs
    · split at hs
      · simp at hs
      · rename_i g hg
        simp only [Option.some.injEq] at hs
        subst hs
        exact ⟨h.red.tail hg, (arr w _ g (Or.inr rfl) hg).1, (arr w _ g (Or.inr rfl) hg).2⟩
    · simp at hs
  | gather =>
    simp only [pstep] at hs
    split at hs
    · simp at hs
    · rename_i g hg
      simp only [Option.some.injEq] at hs
      subst hs
      exact ⟨h.red.tail hg, by simp only [gather_sent hg]; exact h.first, by simp only [gather_sent hg]; exact h.kinds⟩

/-- **C81, counterexample.** After `threadPause` with spinning workers the next call loses every value: whatever
`Map` sends and however the threads are scheduled, `Reduce` is never called in that call.  The `EOS` that each
worker sends when it is paused is still in its channel, and the Reduce part takes it for the end of the new
call. -/
theorem C81_pause_counterexample (M : MapPart) (m0 : M.S) (n : Nat) (f : Int → List D) (s : PR M D)
    (hr : Reach (pstep M n f) (PR.start M m0 (pauseLeft n fun _ => [])) s) : s.reduced = [] := by
  have hq : QInv M n s := hr.inv (Inv := QInv M n)
    ⟨pause_reach n _ n (Nat.le_refl _), fun w hw => ⟨[], by simp [PR.start, pauseLeft, hw]⟩, fun w x hx => by
      simp only [PR.start, pauseLeft] at hx
      split at hx
      · simp at hx; exact Or.inr hx
      · simp at hx⟩ fun _ _ _ h hs => h.step hs
  have hg := GSInv.reach hq.red
  have hcl : CleanSent s.red.sent := fun r => by
    constructor <;> intro hx <;> rcases hq.kinds r _ hx with ⟨d, hd⟩ | hd <;> simp at hd
  have hin : ∀ x ∈ s.red.g.got, x.2 ∈ s.red.sent x.1 := by
    rintro ⟨r, m⟩ hx
    rw [hg.order r]; exact List.mem_append_left _ (mem_from.2 hx)
  have heos : ∀ x ∈ s.red.g.got, x.2.isMark = true → x.2 = .eos := by
    intro x hx hm
    rcases hq.kinds _ _ (hin x hx) with ⟨d, hd⟩ | hd
    · rw [hd] at hm; simp [Msg.isMark] at hm
    · exact hd
  have hst := ((GOut.reach red_stays hq.red).out (hg.clean hcl) heos).1
  have hred : s.reduced = datas (s.red.g.got.map Prod.snd) := hst.trans (cstate_red _ [])
  rw [hred, ← tagged_snd]
  have hnil : tagged s.red.g.got = [] := by
    rw [List.eq_nil_iff_forall_not_mem]
    intro e he
    have hm := tagged_mem he
    have hlt := hg.g.chan _ _ hm
    have hf : Msg.data e.2 ∈ from_ s.red.g.got e.1 := mem_from.2 hm
    obtain ⟨l, hl⟩ := hq.first e.1 hlt
    have hor := hg.order e.1
    rw [hl] at hor
    cases hfr : from_ s.red.g.got e.1 with
    | nil => rw [hfr] at hf; simp at hf
    | cons y ys =>
      rw [hfr] at hor hf
      simp only [List.cons_append, List.cons.injEq] at hor
      obtain ⟨rfl, _⟩ := hor
      cases hoff : s.red.g.offline e.1 with
      | false =>
        have := hg.g.alive e.1 hoff .eos (by rw [hfr]; simp)
        simp [Msg.isMark] at this
      | true =>
        obtain ⟨ms, m, h1, h2, h3⟩ := hg.g.last e.1 hoff
        rw [hfr] at h1
        cases ms with
        | nil =>
          simp only [List.nil_append, List.cons.injEq] at h1
          rw [h1.2] at hf; simp at hf
        | cons z zs =>
          simp only [List.cons_append, List.cons.injEq] at h1
          have := h3 z (by simp)
          rw [← h1.1] at this
          simp [Msg.isMark] at this
  rw [hnil]; rfl

/-- and such a call returns: here with two workers, which call the body on all of 0, 2, 4, 6 and 8 -/
theorem C81_pause_returns_counterexample :
    ∃ s : PR (partA (Parfor.demoL.par 2 2)) Int,
    Reach (pstep (partA (Parfor.demoL.par 2 2)) 2 fun i => [i])
      (PR.start _ (A.start (Parfor.demoL.par 2 2) Parfor.demoL true) (pauseLeft 2 fun _ => [])) s ∧ s.ended 2 ∧
    (s.m.log.map Prod.snd).Perm (indices 0 9 2) ∧ s.reduced = [] := by
  have hL : Parfor.setloopDyn (fun _ => ⟨0, 0, 0⟩) 0 9 2 1 2 = some Parfor.demoL := by
    unfold Parfor.demoL; exact (Option.some_get _).symm
  have hg := Parfor.setloopDyn_good (by omega) (by omega) (by omega) (by simp) hL
  have hnw : Parfor.demoL.nw = 2 := by decide
  -- the Reduce part ends at once
  obtain ⟨s1, h1, h2, h3⟩ : ∃ s1 : PR (partA (Parfor.demoL.par 2 2)) Int,
      Reach (pstep (partA (Parfor.demoL.par 2 2)) 2 fun i => [i])
        (PR.start _ (A.start (Parfor.demoL.par 2 2) Parfor.demoL true) (pauseLeft 2 fun _ => [])) s1 ∧
      s1.red.g.exited = true ∧ s1.m = A.start (Parfor.demoL.par 2 2) Parfor.demoL true :=
    ⟨_, ⟨[.gather, .gather], rfl⟩, rfl, rfl⟩
  -- the workers complete the loop
  obtain ⟨t, h4, h5⟩ := endsA (D := Int) (spin := true) (f := fun _ => []) (by omega) hg (Reach.refl _ _)
  have hi : PInv (partA (Parfor.demoL.par 2 2)) Parfor.demoL.nw (fun _ => ([] : List Int))
      (A.start (Parfor.demoL.par 2 2) Parfor.demoL true) t :=
    h4.inv (PInv.start _ _ _ _ (startA_log _ _ _)) fun _ _ _ h hst => h.step (okA _) hst
  have hret := (hi.final hg.nw1 h5.1).1
  obtain ⟨s2, h6, h7, _, h8⟩ := map_reach (n := 2) (f := fun i => [i]) hi.m s1 h3
  obtain ⟨s3, h9, h10, h11, h12⟩ := eos_reach (n := 2) (f := fun i => [i]) s2
    (fun w hw => by rw [h7]; exact (hret w (by rw [hnw]; exact hw)).2) 2 (Nat.le_refl _)
  have hr := (h1.trans h6).trans h9
  refine ⟨s3, hr, ⟨by rw [h11, h8]; exact h2, h12⟩, ?_, C81_pause_counterexample _ _ _ _ _ hr⟩
  rw [h10, h7]
  exact (reducedA (by omega) hg h4 h5.1).1.1

end FF.PipeReduce
