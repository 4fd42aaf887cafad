import Verif.Gsearch.C
/-!
# C78: the search for one node

`search` with a pointer (gsearch.hpp 225-247; `all` is false).  The shared flag `found` is a plain `long` written by one thread and read by others without synchronisation:
here the values that a thread reads are given by arbitrary functions (`f`, `o`), so that the theorems hold whatever the threads see.
-/
namespace FF.Gs
open FF.Node FF.Farm
variable {V : Type}

/-- A worker (gsearch.hpp 78-105) without `all`; `o k` is the value of the flag read by the `k`-th call.  Returning `NULL` ends the stream of the worker. -/
def finder (p : V → Bool) (o : Nat → Bool) : Node V where
  σ := Nat × List V
  init := (0, [])
  comp := false
  src := false
  svc := fun st t => match t with
    | .data v =>
      if o st.1 then ((st.1 + 1, st.2), [], .nul)
      else if p v then ((st.1 + 1, st.2 ++ [v]), [], .nul)
      else ((st.1 + 1, st.2), [], .data v)
    | _ => (st, [], .goon)
  eosn := fun st => (st, [])

/-- The loop over the output nodes without `all` (gsearch.hpp 147-158): `k` counts up to `CHECK_FOUND_N`, then the flag is read (`f j` is the `j`-th value);
the third component says whether `svc` returned. -/
def freshOne (id : V → Nat) (f : Nat → Bool) : Nat → Nat → (Nat → Bool) → List V → (Nat → Bool) × List V × Bool
  | _, _, mask, [] => (mask, [], false)
  | j, k, mask, v :: vs =>
    let check := decide (k + 1 = 256)
    let j' := if check then j + 1 else j
    let k' := if check then 0 else k + 1
    if check && f j then (mask, [], true)
    else if mask (id v) then freshOne id f j' k' mask vs
    else
      let r := freshOne id f j' k' (fun i => mask i || decide (i = id v)) vs
      (r.1, v :: r.2.1, r.2.2)

/-- The emitter (gsearch.hpp 108-170) without `all`; `f k` are the values of the flag read by the `k`-th call on a node: `f k 0` at the beginning,
`f k 1` at the end, `f k (j + 2)` in the loop. -/
def seeker (out : V → List V) (id : V → Nat) (f : Nat → Nat → Bool) (start : Option V) : Em V where
  σ := St × Nat
  init := (⟨false, fun _ => false, 0⟩, 0)
  svc := fun st _ m =>
    if st.1.started then
      match m with
      | .data v =>
        if st.1.counter = 0 then (st, [], .goon)
        else if f st.2 0 then ((⟨true, st.1.mask, st.1.counter - 1⟩, st.2 + 1), [], .nul)
        else
          let r := freshOne id (fun j => f st.2 (j + 2)) 0 0 st.1.mask (out v)
          let c := st.1.counter - 1 + r.2.1.length
          ((⟨true, r.1, c⟩, st.2 + 1), r.2.1.map (fun w => Cmd.sched (.data w)),
            if r.2.2 then .nul else if c = 0 then .nul else if f st.2 1 then .nul else .goon)
      | _ => (st, [], .goon)
    else
      match m with
      | .nul =>
        ((⟨true, fun i => decide (i ∈ (roots out start).map id), (roots out start).length⟩, st.2),
          (roots out start).map (fun w => Cmd.sched (.data w)), if (roots out start).length = 0 then .nul else .goon)
      | _ => (st, [], .goon)
  eosn := fun st _ => (st, [])

/-- The farm of the search for one node. -/
def farm1 (p : V → Bool) (o : Nat → Nat → Bool) (nw : Nat) (ci : Nat → Nat) : Cfg V :=
  { n := nw, w := fun i => finder p (o i), ci, inpresent := false, frozen := true }

/-- What the workers have found, in the order in which `search` looks (gsearch.hpp 236-243); the last one of the first worker that has found something is given to the caller. -/
def found1 (p : V → Bool) (o : Nat → Nat → Bool) (i : Nat) {em : Em V} (s : M em) : List V :=
  (after (finder p (o i)) (s.consumed i)).st.2

abbrev run1 (p : V → Bool) (out : V → List V) (id : V → Nat) (f o : Nat → Nat → Bool) (start : Option V) (nw : Nat) (ci : Nat → Nat) :
    M (seeker out id f start) := M.init (farm1 p o nw ci) (seeker out id f start) []

section lemmas
variable (p : V → Bool) (o : Nat → Bool)

/-- one iteration of a worker -/
theorem finder_body (l : L (finder p o)) (m : Msg V) :
    (body (finder p o) l m).2.length ≤ 1 ∧
    (∀ v, .data v ∈ (body (finder p o) l m).2 → m = .data v) ∧
    (∀ v, m = .data v → p v = true → (body (finder p o) l m).2 = [.eos]) ∧
    (∀ v, v ∈ (body (finder p o) l m).1.st.2 → v ∈ l.st.2 ∨ (p v = true ∧ m = .data v)) := by
  have hmk : ∀ fwd : List (Msg V), fwd.length ≤ 1 → (∀ v, Msg.data v ∉ fwd) →
      (markBody (finder p o) l fwd).2.length ≤ 1 ∧ (∀ v, Msg.data v ∉ (markBody (finder p o) l fwd).2) ∧
      (markBody (finder p o) l fwd).1.st = l.st := by
    intro fwd h1 h2
    unfold markBody
    split
    · exact ⟨by simp, by simp, rfl⟩
    · exact ⟨by simpa [finder] using h1, by simpa [finder] using h2, rfl⟩
  cases m with
  | data d =>
    have hb : body (finder p o) l (.data d) = svcBody (finder p o) l (.data d) := rfl
    rw [hb]
    by_cases h1 : o l.st.1 = true
    · simp [svcBody, finder, h1, visible]
      intro v hv; exact Or.inl hv
    · by_cases h2 : p d = true
      · simp [svcBody, finder, h1, h2, visible]
        rintro v (h | rfl)
        · exact Or.inl h
        · exact Or.inr ⟨h2, rfl⟩
      · simp [svcBody, finder, h1, h2, visible]
        exact fun v hv => Or.inl hv
  | eos =>
    obtain ⟨a, b, c⟩ := hmk [.eos] (by simp) (by simp)
    exact ⟨a, fun v hv => absurd hv (b v), fun v h => by simp at h, fun v hv => Or.inl (by rw [← c]; exact hv)⟩
  | eosw =>
    obtain ⟨a, b, c⟩ := hmk [.eosw] (by simp) (by simp)
    exact ⟨a, fun v hv => absurd hv (b v), fun v h => by simp at h, fun v hv => Or.inl (by rw [← c]; exact hv)⟩
  | eosnf =>
    obtain ⟨a, b, c⟩ := hmk [] (by simp) (by simp)
    exact ⟨a, fun v hv => absurd hv (b v), fun v h => by simp at h, fun v hv => Or.inl (by rw [← c]; exact hv)⟩
  | goout => exact ⟨by simp [body], by simp [body], by simp, fun v hv => Or.inl hv⟩
  | goon => exact ⟨by simp [body, svcBody, finder, visible], by simp [body, svcBody, finder, visible], by simp, fun v hv => Or.inl hv⟩
  | nul => exact ⟨by simp [body, svcBody, finder, visible], by simp [body, svcBody, finder, visible], by simp, fun v hv => Or.inl hv⟩
  | flush => exact ⟨by simp [body, svcBody, finder, visible], by simp [body, svcBody, finder, visible], by simp, fun v hv => Or.inl hv⟩

theorem finder_run (ms : List (Msg V)) : ∀ l : L (finder p o),
    (run (finder p o) l ms).2.length ≤ ms.length ∧
    (∀ v, .data v ∈ (run (finder p o) l ms).2 → .data v ∈ ms) ∧
    ((∀ m ∈ ms, ∃ v, m = .data v ∧ p v = true) → ∀ m ∈ (run (finder p o) l ms).2, m = .eos) ∧
    (∀ v, v ∈ (run (finder p o) l ms).1.st.2 → v ∈ l.st.2 ∨ (p v = true ∧ .data v ∈ ms)) := by
  induction ms with
  | nil => intro l; exact ⟨by simp [run], by simp [run], by simp [run], fun v hv => Or.inl hv⟩
  | cons m ms ih =>
    intro l
    by_cases he : l.exited = true
    · rw [run_exited _ l he]
      exact ⟨by simp, by simp, by simp, fun v hv => Or.inl hv⟩
    · rw [run_cons _ l (by simpa using he)]
      obtain ⟨b1, b2, b3, b4⟩ := finder_body p o l m
      obtain ⟨h1, h2, h3, h4⟩ := ih (body (finder p o) l m).1
      refine ⟨?_, ?_, ?_, ?_⟩
      · simp only [List.length_append, List.length_cons]; omega
      · intro v hv
        rcases List.mem_append.mp hv with hv | hv
        · rw [b2 v hv]; simp
        · exact List.mem_cons_of_mem _ (h2 v hv)
      · intro hall x hx
        rcases List.mem_append.mp hx with hx | hx
        · obtain ⟨v, e, hp⟩ := hall m (by simp)
          rw [b3 v e hp] at hx
          simpa using hx
        · exact h3 (fun y hy => hall y (by simp [hy])) x hx
      · intro v hv
        rcases h4 v hv with h | ⟨h, h'⟩
        · rcases b4 v h with h | ⟨h, h'⟩
          · exact Or.inl h
          · exact Or.inr ⟨h, by rw [h']; simp⟩
        · exact Or.inr ⟨h, List.mem_cons_of_mem _ h'⟩

theorem freshOne_sub (id : V → Nat) (f : Nat → Bool) (vs : List V) : ∀ j k mask, ∀ v ∈ (freshOne id f j k mask vs).2.1, v ∈ vs := by
  induction vs with
  | nil => intro j k mask v hv; simp [freshOne] at hv
  | cons w vs ih =>
    intro j k mask v hv
    simp only [freshOne] at hv
    split at hv
    · simp at hv
    · split at hv
      · exact List.mem_cons_of_mem _ (ih _ _ _ v hv)
      · rcases List.mem_cons.mp hv with rfl | hv
        · simp
        · exact List.mem_cons_of_mem _ (ih _ _ _ v hv)

end lemmas

variable {p : V → Bool} {out : V → List V} {id : V → Nat} {f o : Nat → Nat → Bool} {start : Option V}

/-- every node a command of the emitter carries can be reached from the start -/
def CmdConn (out : V → List V) (start : Option V) (cs : List (Cmd V)) : Prop :=
  ∀ c ∈ cs, ∀ v, c.msg = .data v → ∃ s, start = some s ∧ Conn out s v

/-- one reaction of the emitter -/
theorem react_conn {st : St × Nat} {x : Ev V} {cs : List (Cmd V)} (h : CmdConn out start cs)
    (hx : ∀ d, x.m = .data d → ∃ s, start = some s ∧ Conn out s d) :
    CmdConn out start (cs ++ (react (seeker out id f start) st x).2) := by
  intro c hc v hv
  rcases List.mem_append.mp hc with hc | hc
  · exact h c hc v hv
  have hroots : ∀ v, c ∈ (roots out start).map (fun w => Cmd.sched (Msg.data w)) → c.msg = .data v → ∃ s, start = some s ∧ Conn out s v := by
    intro v hc hv
    obtain ⟨w, hw, rfl⟩ := List.mem_map.mp hc
    have : w = v := by simpa [Cmd.msg] using hv
    subst this; exact roots_conn w hw
  have hret : ∀ r : Msg V, (r = .nul ∨ r = .goon) → c ∈ retCmds r → False := by
    rintro r (rfl | rfl) hh
    · simp only [retCmds, List.mem_singleton] at hh
      subst hh; simp [Cmd.msg] at hv
    · simp [retCmds] at hh
  obtain ⟨src, ch, m⟩ := x
  cases m with
  | goout => simp [react] at hc
  | eosw => simp [react] at hc
  | eos => simp [react, seeker] at hc
  | eosnf => simp [react, seeker] at hc
  | goon => by_cases hs : st.1.started = true <;> simp [react, seeker, hs, retCmds] at hc
  | flush => by_cases hs : st.1.started = true <;> simp [react, seeker, hs, retCmds] at hc
  | nul =>
    by_cases hs : st.1.started = true
    · simp [react, seeker, hs, retCmds] at hc
    · simp only [react, seeker, hs, Bool.false_eq_true, if_false] at hc
      rcases List.mem_append.mp hc with hc | hc
      · exact hroots v hc hv
      · exact (hret _ (by by_cases h0 : (roots out start).length = 0 <;> simp [h0]) hc).elim
  | data d =>
    by_cases hs : st.1.started = true
    · by_cases h0 : st.1.counter = 0
      · simp [react, seeker, hs, h0, retCmds] at hc
      · by_cases hf : f st.2 0 = true
        · simp only [react, seeker, hs, h0, hf, if_true, if_false, List.nil_append] at hc
          exact (hret _ (Or.inl rfl) hc).elim
        · simp only [react, seeker, hs, h0, hf, if_true, if_false, Bool.false_eq_true] at hc
          rcases List.mem_append.mp hc with hc | hc
          · obtain ⟨w, hw, rfl⟩ := List.mem_map.mp hc
            have : w = v := by simpa [Cmd.msg] using hv
            subst this
            obtain ⟨s, h1, h2⟩ := hx d rfl
            exact ⟨s, h1, .step h2 (freshOne_sub id _ _ _ _ _ w hw)⟩
          · refine (hret _ ?_ hc).elim
            repeat' split
            all_goals simp
    · simp [react, seeker, hs, retCmds] at hc

theorem replay_conn (h : List (Ev V)) : ∀ (st : St × Nat) (cs : List (Cmd V)), CmdConn out start cs →
    (∀ x ∈ h, ∀ d, x.m = .data d → ∃ s, start = some s ∧ Conn out s d) →
    CmdConn out start (cs ++ (replay (seeker out id f start) st h).2) := by
  induction h with
  | nil => intro st cs h _; simpa [replay] using h
  | cons x xs ih =>
    intro st cs h hx
    have h1 := react_conn (st := st) (id := id) (f := f) h (hx x (by simp))
    have := ih (react (seeker out id f start) st x).1 _ h1 (fun y hy => hx y (by simp [hy]))
    simpa [replay] using this

/-- what the emitter has received, after one step -/
theorem hist_step {cf : Cfg V} {em : Em V} {s s' : M em} {a : MAct} (h : MInv cf [] s) (hc : ChInv cf s) (hs : mstep cf s a = some s') :
    s'.hist = s.hist ∨ ∃ i m k, i < cf.n ∧ m ∈ s.outq i ∧ s'.hist = s.hist ++ [⟨some i, k, m⟩] := by
  cases a with
  | collect =>
    simp only [mstep] at hs
    split at hs
    · split at hs
      · simp only [Option.some.injEq] at hs
        subst hs
        exact Or.inl rfl
      · rcases poll_cases hs with ⟨i, m, ms, hi, ho, rfl⟩ | ⟨m, ms, ho, rfl⟩ | ⟨c, hcc, rfl⟩
        · refine Or.inr ⟨i, m, some s.next, hc.sub i (List.mem_of_getElem? hi), by rw [ho]; simp, ?_⟩
          exact (handle_same (cf) _ _ _).hist
        · exfalso
          have := h.inp
          rw [ho] at this
          simp at this
        · exact Or.inl rfl
    · simp at hs
  | _ =>
    simp only [mstep] at hs
    repeat' split at hs
    all_goals first
      | (simp at hs; done)
      | (simp only [Option.some.injEq] at hs
         subst hs
         exact Or.inl rfl)

/-- all messages a worker has sent come from messages in the log of the emitter -/
theorem outq_log {nw : Nat} {ci : Nat → Nat} {em : Em V} {s : M em} (h : MInv (farm1 p o nw ci) [] s) {i : Nat} (hi : i < nw) {m : Msg V}
    (hm : m ∈ s.outq i) : m ∈ stream (finder p (o i)) (s.consumed i) := by
  have := h.work i hi
  have h2 : m ∈ s.pushed i ++ s.pending i := by rw [h.outq i]; simp [hm]
  rw [this] at h2
  exact h2

theorem conn_issued {nw : Nat} {ci : Nat → Nat} {s : M (seeker out id f start)} (h : MInv (farm1 p o nw ci) [] s)
    (hx : ∀ x ∈ s.hist, ∀ d, x.m = .data d → ∃ s, start = some s ∧ Conn out s d) : CmdConn out start s.issued := by
  have he := congrArg Prod.snd h.emit
  have he' : s.issued = (replay (seeker out id f start) (seeker out id f start).init
      (calls (!(farm1 p o nw ci).inpresent && !s.first) s.hist)).2 := by rw [← behaviour_calls]; exact he
  rw [he']
  have := replay_conn (out := out) (id := id) (f := f) (start := start)
    (calls (!(farm1 p o nw ci).inpresent && !s.first) s.hist) (seeker out id f start).init [] (by intro c hc; simp at hc) (by
      intro x hxm d hd
      unfold calls at hxm
      split at hxm
      · rcases List.mem_cons.mp hxm with rfl | hxm
        · simp at hd
        · exact hx x hxm d hd
      · exact hx x hxm d hd)
  simpa using this

theorem inv1 {nw : Nat} {ci : Nat → Nat} (hn : 0 < nw) {s : M (seeker out id f start)}
    (hr : Reach (mstep (farm1 p o nw ci)) (run1 p out id f o start nw ci) s) :
    MInv (farm1 p o nw ci) [] s ∧ ChInv (farm1 p o nw ci) s ∧
    ∀ x ∈ s.hist, ∀ d, x.m = .data d → ∃ s, start = some s ∧ Conn out s d := by
  refine hr.inv (Inv := fun x => MInv (farm1 p o nw ci) [] x ∧ ChInv (farm1 p o nw ci) x ∧
    ∀ y ∈ x.hist, ∀ d, y.m = .data d → ∃ s, start = some s ∧ Conn out s d)
    ⟨MInv.init _ _ _, ChInv.init hn _ _, by intro x hx; simp [M.init] at hx⟩ ?_
  intro x a y ⟨h1, h2, h3⟩ hs
  refine ⟨h1.step hn hs, h2.step hn hs, ?_⟩
  rcases hist_step h1 h2 hs with e | ⟨i, m, k, hi, hm, e⟩
  · rw [e]; exact h3
  · rw [e]
    intro z hz d hd
    rcases List.mem_append.mp hz with hz | hz
    · exact h3 z hz d hd
    · simp only [List.mem_singleton] at hz
      subst hz
      simp only at hd
      subst hd
      have h4 := (finder_run p (o i) _ _).2.1 d (outq_log h1 hi hm)
      have h5 : Msg.data d ∈ from_ x.e.log i := by rw [h1.inq i]; simp [h4]
      obtain ⟨c, hc1, hc2⟩ := h1.e.mem (mem_from.1 h5)
      exact conn_issued h1 h3 c hc1 d hc2.symm

/-- **C78, one node, soundness**: whatever the threads read from the shared flag, for every number of workers, all capacities and in every schedule: every node a
worker has found can be reached from the start, and the comparison holds for it. -/
theorem C78_one_sound {nw : Nat} {ci : Nat → Nat} (hn : 0 < nw) {s : M (seeker out id f start)}
    (hr : Reach (mstep (farm1 p o nw ci)) (run1 p out id f o start nw ci) s) {i : Nat} {v : V} (hv : v ∈ found1 p o i s) :
    p v = true ∧ ∃ s0, start = some s0 ∧ Conn out s0 v := by
  obtain ⟨h1, h2, h3⟩ := inv1 hn hr
  rcases (finder_run p (o i) (s.consumed i) (L.start _ 1)).2.2.2 v hv with h | ⟨hp, h⟩
  · simp [L.start, finder] at h
  · refine ⟨hp, ?_⟩
    have h5 : Msg.data v ∈ from_ s.e.log i := by rw [h1.inq i]; simp [h]
    obtain ⟨c, hc1, hc2⟩ := h1.e.mem (mem_from.1 h5)
    exact conn_issued h1 h3 c hc1 v hc2.symm

/-! ## The search that does not return -/

theorem explains_length {n : Nat} {cs : List (Cmd V)} {l : List (Nat × Msg V)} (hx : Explains n cs l)
    (hc : ∀ c ∈ cs, ∃ v, c = .sched (.data v)) : l.length = cs.length := by
  induction cs generalizing l with
  | nil => simp only [Explains] at hx; subst hx; rfl
  | cons c cs ih =>
    obtain ⟨g, l', rfl, h1, h2⟩ := hx
    obtain ⟨v, rfl⟩ := hc c (by simp)
    obtain ⟨w, _, rfl⟩ := h1
    simp [ih h2 (fun c hc' => hc c (by simp [hc']))]

theorem log_length {n : Nat} {cs : List (Cmd V)} {e : E V} (h : EInv n cs e) (hc : ∀ c ∈ cs, ∃ v, c = .sched (.data v)) :
    e.log.length ≤ cs.length := by
  obtain ⟨l, g, h1, h2, h3⟩ := h.log
  have hcs := h.cmds
  have hcur : ∀ c ∈ e.pc.cur, ∃ v, c = .sched (.data v) := fun c hm => hc c (by rw [← hcs]; simp [hm])
  have hg : g = [] := by
    cases hpc : e.pc with
    | idle => rw [hpc] at h3; exact h3
    | sched m => rw [hpc] at h3; exact h3
    | «to» i m => rw [hpc] at h3; exact h3
    | bc1 m i r => rw [hpc] at hcur; obtain ⟨v, hv⟩ := hcur (.bcast m) (by simp [EPc.cur]); simp at hv
    | bc2 m r => rw [hpc] at hcur; obtain ⟨v, hv⟩ := hcur (.bcast m) (by simp [EPc.cur]); simp at hv
  have := explains_length h2 (fun c hm => hc c (by rw [← hcs]; simp [hm]))
  rw [h1, hg, ← hcs]
  simp only [List.length_append, List.length_nil]
  omega

/-- what such an emitter has issued -/
structure Hang (nw : Nat) (s0 : V) (s : M (seeker out id f (some s0))) : Prop where
  eos : ∀ x ∈ s.hist, x.m = .eos
  src : ∀ x ∈ s.hist, ∃ i, i < nw ∧ x.src = some i
  issued : s.issued = [] ∨ s.issued = (s0 :: out s0).map fun w => Cmd.sched (.data w)

theorem replay_eos {s0 : V} (h : List (Ev V)) (hx : ∀ x ∈ h, x.m = .eos) (st : (seeker out id f (some s0)).σ) :
    replay (seeker out id f (some s0)) st h = (st, []) := by
  induction h with
  | nil => rfl
  | cons x xs ih =>
    have h1 : react (seeker out id f (some s0)) st x = (st, []) := by
      simp only [react, hx x (by simp)]
      rfl
    simp only [replay, h1, ih (fun y hy => hx y (by simp [hy])) , List.append_nil]

theorem issued_eos {nw : Nat} {ci : Nat → Nat} {s0 : V} {s : M (seeker out id f (some s0))} (h : MInv (farm1 p o nw ci) [] s)
    (hx : ∀ x ∈ s.hist, x.m = .eos) :
    s.issued = [] ∨ s.issued = (s0 :: out s0).map fun w => Cmd.sched (.data w) := by
  have he := congrArg Prod.snd h.emit
  have he' : s.issued = (replay (seeker out id f (some s0)) (seeker out id f (some s0)).init
      (calls (!(farm1 p o nw ci).inpresent && !s.first) s.hist)).2 := by rw [← behaviour_calls]; exact he
  rw [he']
  unfold calls
  split
  · right
    rw [replay, replay_eos _ hx]
    simp [react, seeker, roots, retCmds]
  · left
    exact congrArg Prod.snd (replay_eos _ hx _)

theorem hang {nw : Nat} {ci : Nat → Nat} (hn : 0 < nw) {s0 : V} (hall : ∀ v ∈ s0 :: out s0, p v = true)
    {s : M (seeker out id f (some s0))} (hr : Reach (mstep (farm1 p o nw ci)) (run1 p out id f o (some s0) nw ci) s) :
    Hang nw s0 s := by
  have := hr.inv (Inv := fun x => (MInv (farm1 p o nw ci) [] x ∧ ChInv (farm1 p o nw ci) x) ∧ Hang nw s0 x)
    ⟨⟨MInv.init _ _ _, ChInv.init hn _ _⟩, ⟨by intro x hx; simp [M.init] at hx, by intro x hx; simp [M.init] at hx, Or.inl rfl⟩⟩ (by
      intro x a y ⟨⟨h1, h2⟩, h3⟩ hs
      have h1' := h1.step hn hs
      refine ⟨⟨h1', h2.step hn hs⟩, ?_⟩
      rcases hist_step h1 h2 hs with e | ⟨i, m, k, hi, hm, e⟩
      · exact ⟨by rw [e]; exact h3.eos, by rw [e]; exact h3.src, issued_eos h1' (by rw [e]; exact h3.eos)⟩
      · have hmatch : ∀ m ∈ x.consumed i, ∃ v, m = .data v ∧ p v = true := by
          intro m' hm'
          have h5 : m' ∈ from_ x.e.log i := by rw [h1.inq i]; simp [hm']
          obtain ⟨c, hc1, hc2⟩ := h1.e.mem (mem_from.1 h5)
          rcases h3.issued with h6 | h6
          · rw [h6] at hc1; simp at hc1
          · rw [h6] at hc1
            obtain ⟨v, hv, rfl⟩ := List.mem_map.mp hc1
            exact ⟨v, hc2, hall v hv⟩
        have hme : m = .eos := (finder_run p (o i) _ _).2.2.1 hmatch m (outq_log h1 hi hm)
        have heos : ∀ z ∈ y.hist, z.m = .eos := by
          rw [e]
          intro z hz
          rcases List.mem_append.mp hz with hz | hz
          · exact h3.eos z hz
          · simp only [List.mem_singleton] at hz
            subst hz; exact hme
        refine ⟨heos, ?_, issued_eos h1' heos⟩
        rw [e]
        intro z hz
        rcases List.mem_append.mp hz with hz | hz
        · exact h3.src z hz
        · simp only [List.mem_singleton] at hz
          subst hz; exact ⟨i, hi, rfl⟩)
  exact this.2

/-- **C78, one node, no return**: if the comparison holds for the start and for all its output nodes, and there are fewer of these than workers, then the emitter
never leaves its loop: `search` does not return, in no schedule and whatever the threads read from the flag.  (The workers that find the node end their stream, and
the emitter waits for the others, which wait for it.) -/
theorem C78_one_counterexample {nw : Nat} {ci : Nat → Nat} {s0 : V} (hall : ∀ v ∈ s0 :: out s0, p v = true)
    (hlt : (s0 :: out s0).length < nw) {s : M (seeker out id f (some s0))}
    (hr : Reach (mstep (farm1 p o nw ci)) (run1 p out id f o (some s0) nw ci) s) : ¬ s.Ended (farm1 p o nw ci) := by
  have hn : 0 < nw := by omega
  obtain ⟨h1, _, _⟩ := inv1 hn hr
  have hh := hang hn hall hr
  have hloop : s.ph = .loop := by
    obtain ⟨e1, e2⟩ := C57_leaves (cf := farm1 p o nw ci) hn hr
    apply Classical.byContradiction
    intro hne
    -- the emitter has received fewer marks than there are workers
    have hlen : s.hist.length < nw := by
      have hsrc : ∀ x ∈ s.hist, x.src ≠ none := by
        intro x hx hhx
        obtain ⟨i, _, hi⟩ := hh.src x hx
        rw [hhx] at hi; simp at hi
      have p1 := perm_channels (n := nw) (histPairs s.hist) (by
        intro r m hm
        simp only [histPairs, List.mem_map, Prod.mk.injEq] at hm
        obtain ⟨x, hx, rfl, _⟩ := hm
        obtain ⟨i, hi, he⟩ := hh.src x hx
        rw [he]; exact hi)
      have hcs : ∀ c ∈ s.issued, ∃ v, c = Cmd.sched (Msg.data v) := by
        intro c hc
        rcases hh.issued with h6 | h6
        · rw [h6] at hc; simp at hc
        · rw [h6] at hc
          obtain ⟨v, _, rfl⟩ := List.mem_map.mp hc
          exact ⟨v, rfl⟩
      have hlog := log_length h1.e hcs
      have hiss : s.issued.length ≤ (s0 :: out s0).length := by
        rcases hh.issued with h6 | h6 <;> rw [h6] <;> simp
      have q1 : s.hist.length = sumN (fun i => (fromW s.hist i).length) nw := by
        have := p1.length_eq
        rw [length_flatMap_range] at this
        rw [sumN_congr fun i _ => by rw [← from_pairs hsrc i], ← this]
        simp [histPairs]
      have hle : ∀ i, i < nw → (fromW s.hist i).length ≤ (from_ s.e.log i).length := by
        intro i hi
        have a1 : (fromW s.hist i).length ≤ (s.pushed i).length := by rw [h1.outq i]; simp
        have a2 : (s.pushed i).length ≤ (stream (finder p (o i)) (s.consumed i)).length := by
          have := congrArg List.length (h1.work i hi)
          simp only [List.length_append] at this
          have e : stream ((farm1 p o nw ci).w i) (s.consumed i) = stream (finder p (o i)) (s.consumed i) := rfl
          rw [e] at this
          omega
        have a3 := (finder_run p (o i) (s.consumed i) (L.start _ 1)).1
        have a4 : (s.consumed i).length ≤ (from_ s.e.log i).length := by rw [h1.inq i]; simp
        have a5 : (stream (finder p (o i)) (s.consumed i)).length ≤ (s.consumed i).length := a3
        omega
      have hsum : ∀ n, n ≤ nw → sumN (fun i => (fromW s.hist i).length) n ≤ sumN (fun i => (from_ s.e.log i).length) n := by
        intro n
        induction n with
        | zero => intro _; exact Nat.le_refl _
        | succ n ih =>
          intro hk
          have := ih (by omega)
          have := hle n (by omega)
          rw [sumN, sumN]; omega
      have hlogsum : ∀ (l : List (Nat × Msg V)) n, sumN (fun i => (from_ l i).length) n ≤ l.length := by
        intro l
        induction l with
        | nil => intro n; induction n with
          | zero => exact Nat.le_refl _
          | succ n ih => rw [sumN]; simpa [from_] using ih
        | cons x xs ih =>
          intro n
          have key : ∀ n, sumN (fun i => (from_ (x :: xs) i).length) n ≤ sumN (fun i => (from_ xs i).length) n + (if x.1 < n then 1 else 0) := by
            intro n
            induction n with
            | zero => exact Nat.zero_le _
            | succ n ihn =>
              rw [sumN, sumN]
              have : (from_ (x :: xs) n).length = (from_ xs n).length + if x.1 = n then 1 else 0 := by
                by_cases hx : x.1 = n <;> simp [from_, hx]
              rw [this]
              have i1 : (if x.1 < n then 1 else 0) + (if x.1 = n then 1 else 0) = if x.1 < n + 1 then 1 else 0 := by
                repeat' split
                all_goals omega
              omega
          have := key n
          have := ih n
          have i1 : (if x.1 < n then 1 else 0) ≤ 1 := by split <;> omega
          simp only [List.length_cons]
          omega
      have := hsum nw (Nat.le_refl _)
      have := hlogsum s.e.log nw
      omega
    -- the last message it received made it leave
    have hcalls : calls (!(farm1 p o nw ci).inpresent && !s.first) s.hist ≠ [] := fun hh => hne (e2 hh)
    obtain ⟨pre, x, hpx⟩ : ∃ pre x, calls (!(farm1 p o nw ci).inpresent && !s.first) s.hist = pre ++ [x] := by
      rcases List.eq_nil_or_concat (calls (!(farm1 p o nw ci).inpresent && !s.first) s.hist) with h | ⟨a, b, h⟩
      · exact absurd h hcalls
      · exact ⟨a, b, by rw [h, List.concat_eq_append]⟩
    have hlv := (e1 pre x [] hpx).mpr ⟨rfl, hne⟩
    have hxm : x ∈ s.hist ∨ x.m = .nul ∧ pre = [] := by
      unfold calls at hpx
      split at hpx
      · cases pre with
        | nil => right; simp at hpx; exact ⟨by rw [← hpx.1], rfl⟩
        | cons y ys =>
          left
          simp only [List.cons_append, List.cons.injEq] at hpx
          rw [hpx.2]; simp
      · left; rw [hpx]; simp
    rcases hxm with hx | ⟨hx, rfl⟩
    · have hmx := hh.eos x hx
      simp only [Leaves, hmx] at hlv
      have h6 : marks (calls (!(farm1 p o nw ci).inpresent && !s.first) s.hist) ≤ s.hist.length := by
        unfold calls
        split
        · simp only [marks, List.countP_cons, isEnd]
          exact List.countP_le_length
        · exact List.countP_le_length
      rw [← hpx] at hlv
      have : (farm1 p o nw ci).n = nw := rfl
      have : (farm1 p o nw ci).inpresent = false := rfl
      simp_all
      omega
    · simp only [Leaves, hx] at hlv
      simp [replay, seeker, roots] at hlv
  intro he
  rw [he.1] at hloop
  simp at hloop

/-- two workers, the start alone, and it is the node that is searched -/
example : (fun _ : Unit => true) () = true ∧ (() :: (fun _ : Unit => ([] : List Unit)) ()).length < 2 := ⟨rfl, by decide⟩

-- the node has been found in some schedule, and yet the search does not return
example : ∃ s : M (seeker (fun _ : Unit => []) (fun _ => 0) (fun _ _ => false) (some ())),
    Reach (mstep (farm1 (fun _ => true) (fun _ _ => false) 2 fun _ => 1))
      (run1 (fun _ => true) (fun _ => []) (fun _ => 0) (fun _ _ => false) (fun _ _ => false) (some ()) 2 fun _ => 1) s ∧
    (found1 (fun _ => true) (fun _ _ => false) 0 s = [()] ∨ found1 (fun _ => true) (fun _ _ => false) 1 s = [()]) := by
  refine ⟨_, ⟨[.collect, .emit, .emit, .pop 0], rfl⟩, Or.inl rfl⟩

/-! ## The end mark that was already received -/

theorem finder_eos_last (p : V → Bool) (o : Nat → Bool) (ms : List (Msg V)) : ∀ (l : L (finder p o)) (a b : List (Msg V)),
    (run (finder p o) l ms).2 = a ++ .eos :: b → b = [] := by
  induction ms with
  | nil => intro l a b h; simp [run] at h
  | cons m ms ih =>
    intro l a b h
    by_cases he : l.exited = true
    · rw [run_exited _ l he] at h; simp at h
    · rw [run_cons _ l (by simpa using he)] at h
      have hone := (finder_body p o l m).1
      have hex : (body (finder p o) l m).2 = [.eos] → (body (finder p o) l m).1.exited = true := by
        have hmk : ∀ fwd : List (Msg V), (markBody (finder p o) l fwd).2 = [.eos] → (markBody (finder p o) l fwd).1.exited = true := by
          intro fwd
          unfold markBody
          split
          · simp
          · intro _; rfl
        cases m with
        | data d =>
          by_cases h1 : o l.st.1 = true
          · simp [body, svcBody, finder, h1, visible, continues]
          · by_cases h2 : p d = true
            · simp [body, svcBody, finder, h1, h2, visible, continues]
            · simp [body, svcBody, finder, h1, h2, visible]
        | eos => exact hmk _
        | eosw => exact hmk _
        | eosnf => exact hmk _
        | goout => intro _; rfl
        | goon => simp [body, svcBody, finder, visible]
        | nul => simp [body, svcBody, finder, visible]
        | flush => simp [body, svcBody, finder, visible]
      simp only at h
      match hb : (body (finder p o) l m).2, hone with
      | [], _ =>
        rw [hb] at h
        exact ih _ a b (by simpa using h)
      | [x], _ =>
        rw [hb] at h
        cases a with
        | nil =>
          simp only [List.cons_append, List.nil_append, List.cons.injEq] at h
          obtain ⟨rfl, h⟩ := h
          rw [run_exited _ _ (hex hb)] at h
          exact h.symm
        | cons y ys =>
          simp only [List.cons_append, List.nil_append, List.cons.injEq] at h
          exact ih _ ys b h.2
      | _ :: _ :: _, hh => simp at hh

/-- **C78, one node, no return (2)**: if the emitter has received the end mark of a worker that found the node, and then ends the stream itself (because it has
read the flag), it waits for a second end mark of this worker: from then on `search` does not return, whatever happens. -/
theorem C78_one_mark_counterexample {nw : Nat} {ci : Nat → Nat} (hn : 0 < nw) {s : M (seeker out id f start)}
    (hr : Reach (mstep (farm1 p o nw ci)) (run1 p out id f o start nw ci) s) {i k : Nat} (hi : i < nw) (hk : s.ph = .leave k) (hki : k ≤ i)
    (he : .eos ∈ fromW s.hist i) {s' : M (seeker out id f start)} (hr' : Reach (mstep (farm1 p o nw ci)) s s') :
    ¬ s'.Ended (farm1 p o nw ci) := by
  obtain ⟨h1, h2, _⟩ := inv1 hn hr
  have key := hr'.inv (Inv := fun x => (MInv (farm1 p o nw ci) [] x ∧ ChInv (farm1 p o nw ci) x) ∧
    (∃ a ∈ x.hist, a.src = some i ∧ a.m = .eos) ∧ ((∃ k', k' ≤ i ∧ x.ph = .leave k') ∨ x.ph = .fail))
    ⟨⟨h1, h2⟩, by
      simp only [fromW, List.mem_map, List.mem_filter, decide_eq_true_eq] at he
      obtain ⟨a, ⟨b, c⟩, d⟩ := he
      exact ⟨a, b, c, d⟩, Or.inl ⟨k, hki, hk⟩⟩ (by
      intro x a y ⟨⟨m1, m2⟩, ⟨ev, hev, hsrc, hm⟩, hph⟩ hs
      refine ⟨⟨m1.step hn hs, m2.step hn hs⟩, ⟨ev, ?_, hsrc, hm⟩, ?_⟩
      · rcases hist_step m1 m2 hs with e | ⟨_, _, _, _, _, e⟩ <;> rw [e]
        · exact hev
        · exact List.mem_append_left _ hev
      · cases a with
        | absorb =>
          simp only [mstep] at hs
          split at hs
          · rename_i k' hk'
            split at hs
            · split at hs
              · simp at hs
              · rename_i m ms ho
                simp only [Option.some.injEq] at hs
                have hne : k' ≠ i := by
                  intro e
                  subst e
                  -- nothing follows the end mark of the worker
                  have hin : Msg.eos ∈ fromW x.hist k' := by
                    simp only [fromW, List.mem_map, List.mem_filter, decide_eq_true_eq]
                    exact ⟨ev, ⟨hev, hsrc⟩, hm⟩
                  obtain ⟨u, w, huw⟩ := List.append_of_mem hin
                  have hst : stream (finder p (o k')) (x.consumed k') = u ++ .eos :: (w ++ x.absd k' ++ x.outq k' ++ x.pending k') := by
                    have h5 := m1.work k' hi
                    rw [m1.outq k', huw] at h5
                    rw [← show stream ((farm1 p o nw ci).w k') (x.consumed k') = stream (finder p (o k')) (x.consumed k') from rfl, ← h5]
                    simp
                  have h6 := finder_eos_last p (o k') (x.consumed k') _ _ _ hst
                  rw [ho] at h6
                  simp at h6
                have hle : k' ≤ i := by
                  rcases hph with ⟨k2, h3, h4⟩ | h4
                  · rw [hk'] at h4; cases h4; exact h3
                  · rw [hk'] at h4; cases h4
                subst hs
                cases m with
                | eos => exact Or.inl ⟨k' + 1, by omega, rfl⟩
                | eosnf => exact Or.inl ⟨k' + 1, by omega, rfl⟩
                | _ => exact Or.inr rfl
            · simp at hs
          · simp at hs
        | collect =>
          exfalso
          simp only [mstep] at hs
          split at hs
          · rename_i hcc
            simp only [Bool.and_eq_true, decide_eq_true_eq] at hcc
            rcases hph with ⟨k2, h3, h4⟩ | h4 <;> rw [h4] at hcc <;> simp at hcc
          · simp at hs
        | _ =>
          simp only [mstep] at hs
          repeat' split at hs
          all_goals first
            | (simp at hs; done)
            | (simp only [Option.some.injEq] at hs
               subst hs
               exact hph))
  intro hend
  rcases key.2.2 with ⟨k', h3, h4⟩ | h4
  · rw [hend.1] at h4
    have : nw = k' := by simpa [farm1] using h4
    omega
  · rw [hend.1] at h4; simp at h4

-- two nodes and two workers: the second node is found, its worker's end mark is received, then the start comes back and the flag is seen
example : ∃ s : M (seeker (fun v : Bool => if v then [] else [true]) Bool.toNat (fun _ _ => true) (some false)),
    Reach (mstep (farm1 (fun v => v) (fun _ _ => false) 2 fun _ => 1))
      (run1 (fun v => v) (fun v : Bool => if v then [] else [true]) Bool.toNat (fun _ _ => true) (fun _ _ => false) (some false) 2 fun _ => 1) s ∧
    (∃ k, s.ph = .leave k ∧ k ≤ 1) ∧ .eos ∈ fromW s.hist 1 ∧ found1 (fun v => v) (fun _ _ => false) 1 s = [true] := by
  refine ⟨_, ⟨[.collect, .emit, .emit, .emit, .emit, .pop 0, .pop 1, .push 1, .collect, .push 0, .collect], rfl⟩, ⟨0, rfl, by decide⟩, ?_, rfl⟩
  exact List.mem_singleton.2 rfl

end FF.Gs
