import Verif.Node.Accel
import Verif.Farm.FarmLive
/-!
# C58: rounds of an accelerator

With steady stages, the protocol *run, offload, end mark, load until the end mark, wait* can be
repeated for ever: each round returns exactly the results of its own tasks.
-/
namespace FF.Node
open FF
variable {D : Type}

/-! ## Lists of rounds -/

/-- the first `k` rounds, each followed by its end mark -/
def cutOf (rs : List (List (Msg D))) (k : Nat) : List (Msg D) :=
  ((rs.take k).map (· ++ [Msg.eos])).flatten

theorem cutOf_zero (rs : List (List (Msg D))) : cutOf rs 0 = [] := by simp [cutOf]

theorem cutOf_nil (k : Nat) : cutOf ([] : List (List (Msg D))) k = [] := by simp [cutOf]

theorem cutOf_cons (r : List (Msg D)) (rs : List (List (Msg D))) (k : Nat) :
    cutOf (r :: rs) (k + 1) = (r ++ [.eos]) ++ cutOf rs k := by simp [cutOf]

theorem cutOf_succ {rs : List (List (Msg D))} {k : Nat} (h : k < rs.length) :
    cutOf rs (k + 1) = cutOf rs k ++ (rs[k] ++ [.eos]) := by
  unfold cutOf
  rw [List.take_succ_eq_append_getElem h, List.map_append, List.flatten_append]
  simp

theorem cutOf_le (rs : List (List (Msg D))) {j k : Nat} (h : j ≤ k) : cutOf rs j <+: cutOf rs k := by
  unfold cutOf
  have : rs.take k = rs.take j ++ (rs.drop j).take (k - j) := by
    rw [← List.take_add, Nat.add_sub_cancel' h]
  rw [this, List.map_append, List.flatten_append]
  exact List.prefix_append _ _

theorem cutOf_lt {rs : List (List (Msg D))} {j k : Nat} (h : j < k) (hk : k ≤ rs.length) :
    (cutOf rs j).length < (cutOf rs k).length := by
  have h1 := (cutOf_le rs (show j + 1 ≤ k by omega)).length_le
  rw [cutOf_succ (by omega)] at h1
  simp at h1
  omega

/-! ## Steady stages, round by round -/

theorem body_data {n : Node D} (hn : Steady n) (l : L n) {m : Msg D} (hm : m.isData = true)
    (hneos : l.neos = 1) :
    (body n l m).1.exited = false ∧ (body n l m).1.neos = 1 ∧ noFreeze n l m = false := by
  have ht : m.isData = true ∨ m = .nul := Or.inl hm
  have hit : isTask m = true := by cases m <;> simp [Msg.isData] at hm; rfl
  have hcont : continues (n.svc l.st m).2.2 = true := by
    cases hc : n.comp with
    | false => rcases hn.leaf hc l.st m ht with ⟨d, h⟩ | h | h <;> simp [h, continues]
    | true => simp [hn.comp hc l.st m ht, continues]
  rw [body_task n l hit]
  refine ⟨by simp [svcBody, hcont], hneos, ?_⟩
  cases m <;> simp [Msg.isData] at hm
  simp only [noFreeze]
  split
  · rename_i h; rw [h] at hcont; simp [continues] at hcont
  · rfl

theorem body_eos (n : Node D) (l : L n) (hneos : l.neos = 1) :
    body n l .eos = (L.mk (n.eosn l.st).1 0 true l.calls, (n.eosn l.st).2 ++ [.eos]) := by
  simp [body, markBody, hneos]

/-- one round of a steady stage -/
theorem round_run {n : Node D} (hn : Steady n) (r : List (Msg D)) (hr : AllData r) (l : L n)
    (hl : l.exited = false) (hneos : l.neos = 1) :
    (run n l r).1.exited = false ∧ (run n l (r ++ [.eos])).1.exited = true ∧
    ∃ out, AllData out ∧ (run n l (r ++ [.eos])).2 = out ++ [.eos] := by
  induction r generalizing l with
  | nil =>
    refine ⟨by simpa [run] using hl, ?_, (n.eosn l.st).2, hn.eosn _, ?_⟩
    · rw [List.nil_append, run_cons _ _ hl, body_eos n l hneos]; simp [run]
    · rw [List.nil_append, run_cons _ _ hl, body_eos n l hneos]; simp [run]
  | cons x xs ih =>
    have hx := hr x (by simp)
    obtain ⟨b1, b2, -⟩ := body_data hn l hx hneos
    obtain ⟨i1, i2, out, ho, i3⟩ := ih (fun y hy => hr y (by simp [hy])) _ b1 b2
    have hd := FF.Farm.Steady.run_data hn [x] l hl (by intro y hy; simp at hy; subst hy; exact hx)
    rw [run_cons _ _ hl] at hd
    simp [run] at hd
    refine ⟨by rw [run_cons _ _ hl]; exact i1, ?_, (body n l x).2 ++ out, hd.append ho, ?_⟩
    · rw [List.cons_append, run_cons _ _ hl]; exact i2
    · rw [List.cons_append, run_cons _ _ hl, i3]; simp

theorem rrun_wake (n : RNode D) (l : L n.toNode) {ms : List (Msg D)} (h : ms ≠ []) :
    rrun n l ms = rrun n (n.wake l) ms := by
  have hw : n.wake (n.wake l) = n.wake l := by
    unfold RNode.wake
    cases he : l.exited <;> simp [he, L.enter]
  cases ms with
  | nil => exact absurd rfl h
  | cons m ms => simp only [rrun, hw]

theorem stageRounds_length (n : RNode D) (st : n.σ) (rs : List (List (Msg D))) :
    (stageRounds n st rs).length = rs.length := by
  induction rs generalizing st with
  | nil => rfl
  | cons r rs ih => simp [stageRounds, ih]

theorem stageRounds_data {n : RNode D} (hn : Steady n.toNode) (st : n.σ) (rs : List (List (Msg D)))
    (hd : ∀ r ∈ rs, AllData r) : ∀ r ∈ stageRounds n st rs, AllData r := by
  induction rs generalizing st with
  | nil => intro r hr; simp [stageRounds] at hr
  | cons r rs ih =>
    intro x hx
    simp only [stageRounds, List.mem_cons] at hx
    rcases hx with rfl | hx
    · obtain ⟨-, -, out, ho, he⟩ := round_run hn r (hd r (by simp)) (L.enter n.toNode st) rfl rfl
      rw [he, List.dropLast_concat]; exact ho
    · exact ih _ (fun y hy => hd y (by simp [hy])) x hx

/-- A stage on the first `k` rounds sends the results of the first `k` rounds. -/
theorem rrun_rounds {n : RNode D} (hn : Steady n.toNode) (rs : List (List (Msg D)))
    (hd : ∀ r ∈ rs, AllData r) (k : Nat) (l : L n.toNode) (st : n.σ)
    (hl : n.wake l = L.enter n.toNode st) :
    (rrun n l (cutOf rs k)).2 = cutOf (stageRounds n st rs) k := by
  induction rs generalizing k l st with
  | nil => simp [cutOf, stageRounds, rrun]
  | cons r rs ih =>
    cases k with
    | zero => simp [cutOf, rrun]
    | succ k =>
      obtain ⟨h1, h2, out, ho, he⟩ := round_run hn r (hd r (by simp)) (L.enter n.toNode st) rfl rfl
      rw [stageRounds, cutOf_cons, cutOf_cons, rrun_append, rrun_wake n l (by simp), hl,
        rrun_run n r .eos _ rfl h1, he, List.dropLast_concat]
      show _ ++ _ = _ ++ _
      congr 1
      refine ih (fun y hy => hd y (by simp [hy])) k _ _ ?_
      rw [RNode.wake, if_pos h2]

theorem accSem_length (nd : Nat → RNode D) (rounds : List (List D)) (i : Nat) :
    (accSem nd rounds i).length = rounds.length := by
  induction i with
  | zero => simp [accSem]
  | succ i ih => rw [accSem, stageRounds_length, ih]

/-- the first `k` rounds in front of stage `i` -/
def cut (nd : Nat → RNode D) (rounds : List (List D)) (k i : Nat) : List (Msg D) :=
  cutOf (accSem nd rounds i) k

section
variable {n : Nat} {nd : Nat → RNode D} {rounds : List (List D)}

theorem accSem_data (hn : ∀ i, i < n → Steady (nd i).toNode) (i : Nat) (hi : i ≤ n) :
    ∀ r ∈ accSem nd rounds i, AllData r := by
  induction i with
  | zero =>
    intro r hr m hm
    simp only [accSem, List.mem_map] at hr
    obtain ⟨x, -, rfl⟩ := hr
    simp only [List.mem_map] at hm
    obtain ⟨d, -, rfl⟩ := hm
    rfl
  | succ i ih => exact stageRounds_data (hn i (by omega)) _ _ (ih (by omega))

theorem cut_next (hn : ∀ i, i < n → Steady (nd i).toNode) (k i : Nat) (hi : i < n) :
    rstream (nd i) (cut nd rounds k i) = cut nd rounds k (i + 1) := by
  unfold rstream cut
  exact rrun_rounds (hn i hi) _ (accSem_data hn i (by omega)) k _ _ (by simp [RNode.wake, L.start, L.enter])

theorem rsem_cut (hn : ∀ i, i < n → Steady (nd i).toNode) (k i : Nat) (hi : i ≤ n) :
    rsem nd (cut nd rounds k 0) i = cut nd rounds k i := by
  induction i with
  | zero => rfl
  | succ i ih => rw [rsem, ih (by omega), cut_next hn k i (by omega)]

theorem cut_le (nd : Nat → RNode D) (rounds : List (List D)) {j k : Nat} (h : j ≤ k) (i : Nat) :
    cut nd rounds j i <+: cut nd rounds k i := cutOf_le _ h

theorem cut_lt {j k : Nat} (h : j < k) (hk : k ≤ rounds.length) (i : Nat) :
    (cut nd rounds j i).length < (cut nd rounds k i).length :=
  cutOf_lt h (by rw [accSem_length]; exact hk)

/-- the results of round `k` in front of stage `i` -/
def rnd (nd : Nat → RNode D) (rounds : List (List D)) (k i : Nat) : List (Msg D) :=
  (accSem nd rounds i).getD k []

theorem cut_succ {k : Nat} (h : k < rounds.length) (i : Nat) :
    cut nd rounds (k + 1) i = cut nd rounds k i ++ (rnd nd rounds k i ++ [.eos]) := by
  have h' : k < (accSem nd rounds i).length := by rw [accSem_length]; exact h
  unfold cut rnd
  rw [cutOf_succ h', List.getD_eq_getElem?_getD, List.getElem?_eq_getElem h']
  rfl

theorem rnd_data (hn : ∀ i, i < n → Steady (nd i).toNode) (k i : Nat) (hi : i ≤ n) :
    AllData (rnd nd rounds k i) := by
  unfold rnd
  by_cases h : k < (accSem nd rounds i).length
  · rw [List.getD_eq_getElem?_getD, List.getElem?_eq_getElem h]
    exact accSem_data hn i hi _ (List.getElem_mem h)
  · rw [List.getD_eq_getElem?_getD, List.getElem?_eq_none (by omega)]
    intro m hm; simp at hm

theorem cut_mem (hn : ∀ i, i < n → Steady (nd i).toNode) (k i : Nat) (hi : i ≤ n) :
    ∀ m ∈ cut nd rounds k i, m.isData = true ∨ m = .eos := by
  intro m hm
  simp only [cut, cutOf, List.mem_flatten, List.mem_map] at hm
  obtain ⟨x, ⟨r, hr, rfl⟩, hm⟩ := hm
  simp only [List.mem_append, List.mem_singleton] at hm
  rcases hm with hm | hm
  · exact Or.inl (accSem_data hn i hi r (List.mem_of_mem_take hr) m hm)
  · exact Or.inr hm

theorem first_eos {x r t : List (Msg D)} (hx : Msg.eos ∉ x) (hr : Msg.eos ∉ r)
    (h : x ++ [.eos] <+: r ++ .eos :: t) : x = r := by
  induction x generalizing r with
  | nil =>
    cases r with
    | nil => rfl
    | cons y r =>
      simp only [List.nil_append, List.cons_append, List.cons_prefix_cons] at h
      exact absurd (by simp [h.1]) hr
  | cons y x ih =>
    cases r with
    | nil =>
      simp only [List.nil_append, List.cons_append, List.cons_prefix_cons] at h
      exact absurd (by simp [h.1]) hx
    | cons z r =>
      simp only [List.cons_append, List.cons_prefix_cons] at h
      rw [h.1, ih (fun hh => hx (by simp [hh])) (fun hh => hr (by simp [hh])) h.2]

theorem not_eos_of_data {r : List (Msg D)} (h : AllData r) : Msg.eos ∉ r := fun hm => by
  have := h _ hm; simp [Msg.isData] at this

/-- a stage on a mixture of tasks and end marks -/
theorem rafter_ok {n : RNode D} (hn : Steady n.toNode) (ms : List (Msg D))
    (hms : ∀ m ∈ ms, m.isData = true ∨ m = .eos) :
    (n.wake (rafter n ms)).exited = false ∧ (n.wake (rafter n ms)).neos = 1 := by
  have key : ∀ (ms : List (Msg D)) (l : L n.toNode),
      (∀ m ∈ ms, m.isData = true ∨ m = .eos) → ((n.wake l).exited = false ∧ (n.wake l).neos = 1) →
      ((n.wake (rrun n l ms).1).exited = false ∧ (n.wake (rrun n l ms).1).neos = 1) := by
    intro ms
    induction ms with
    | nil => intro l _ hl; exact hl
    | cons m ms ih =>
      intro l hm hl
      simp only [rrun]
      refine ih _ (fun y hy => hm y (by simp [hy])) ?_
      rcases hm m (by simp) with h | rfl
      · obtain ⟨b1, b2, -⟩ := body_data hn (n.wake l) h hl.2
        have hw : ∀ x : L n.toNode, x.exited = false → n.wake x = x := fun x hx => by
          simp [RNode.wake, hx]
        rw [hw _ b1]
        exact ⟨b1, b2⟩
      · rw [body_eos _ _ hl.2]
        simp [RNode.wake, L.enter]
  exact key ms _ hms (by simp [RNode.wake, L.start])

/-! ## The invariant of the rounds -/

/-- Stage `i`: it has consumed the rounds before the one it was last woken for, and part of that one;
it sleeps exactly when it has consumed all of it. -/
structure StageInv (nd : Nat → RNode D) (rounds : List (List D)) (s : Acc D) (i : Nat) : Prop where
  le : s.woken i ≤ rounds.length
  lo : cut nd rounds (s.woken i - 1) i <+: s.consumed i
  hi : s.consumed i <+: cut nd rounds (s.woken i) i
  sleep : s.asleep i = true ↔ s.consumed i = cut nd rounds (s.woken i) i

/-- the rest of the program after round `k` -/
def restProg (n : Nat) (rounds : List (List D)) (k : Nat) : List (UCmd D) :=
  protocol n (rounds.drop k)

/-- Where the main thread is: it wakes stage `j` in round `k`; it offloads and loads in round `k`; it
waits for stage `j` in round `k`; it has finished. -/
inductive Phase (n : Nat) (nd : Nat → RNode D) (rounds : List (List D)) (s : Acc D) : Prop where
  | waking (k j : Nat) (hk : k < rounds.length) (hj : j < n)
      (prog : s.prog = (List.range' j (n - j)).map UCmd.wake ++
        ((rounds.getD k []).map fun d => UCmd.offload (.data d)) ++ [.offload .eos] ++ [.load] ++
        (List.range n).map .wait ++ restProg n rounds (k + 1))
      (offd : s.offd = cut nd rounds k 0) (loaded : s.loaded = cut nd rounds k n)
      (wlo : ∀ i, i < j → s.woken i = k + 1) (whi : ∀ i, j ≤ i → i < n → s.woken i = k)
      (cur : s.cur = []) (got : s.got = (accSem nd rounds n).take k)
      (still : ∀ i, j ≤ i → i < n → s.asleep i = true ∧ s.pending i = [])
  | working (k : Nat) (rest : List (Msg D)) (hk : k < rounds.length)
      (prog : s.prog = rest.map UCmd.offload ++ [.load] ++
        (List.range n).map .wait ++ restProg n rounds (k + 1))
      (offd : s.offd ++ rest = cut nd rounds (k + 1) 0)
      (loaded : s.loaded = cut nd rounds k n ++ s.cur) (cur : Msg.eos ∉ s.cur)
      (woken : ∀ i, i < n → s.woken i = k + 1) (got : s.got = (accSem nd rounds n).take k)
  | waiting (k j : Nat) (hk : k < rounds.length) (hj : j < n)
      (prog : s.prog = (List.range' j (n - j)).map UCmd.wait ++ restProg n rounds (k + 1))
      (offd : s.offd = cut nd rounds (k + 1) 0) (loaded : s.loaded = cut nd rounds (k + 1) n)
      (woken : ∀ i, i < n → s.woken i = k + 1)
      (cur : s.cur = []) (got : s.got = (accSem nd rounds n).take (k + 1))
      (still : ∀ i, i < j → s.asleep i = true ∧ s.pending i = [])
  | done (prog : s.prog = []) (offd : s.offd = cut nd rounds rounds.length 0)
      (loaded : s.loaded = cut nd rounds rounds.length n)
      (woken : ∀ i, i < n → s.woken i = rounds.length)
      (got : s.got = accSem nd rounds n)
      (still : ∀ i, i < n → s.asleep i = true ∧ s.pending i = [])

structure RInv (n : Nat) (nd : Nat → RNode D) (rounds : List (List D)) (s : Acc D) : Prop where
  base : AInv n nd s
  stage : ∀ i, i < n → StageInv nd rounds s i
  phase : Phase n nd rounds s

/-- the start of round `k`, or the end -/
theorem Phase.enter (hn0 : 0 < n) {s : Acc D} (k : Nat) (hk : k ≤ rounds.length)
    (prog : s.prog = restProg n rounds k)
    (offd : s.offd = cut nd rounds k 0) (loaded : s.loaded = cut nd rounds k n)
    (woken : ∀ i, i < n → s.woken i = k)
    (cur : s.cur = []) (got : s.got = (accSem nd rounds n).take k)
    (still : ∀ i, i < n → s.asleep i = true ∧ s.pending i = []) : Phase n nd rounds s := by
  by_cases h : k < rounds.length
  · refine .waking k 0 h hn0 ?_ offd loaded (fun i hi => absurd hi (by omega))
      (fun i _ hi => woken i hi) cur got (fun i _ hi => still i hi)
    rw [prog, restProg, List.drop_eq_getElem_cons h, protocol, List.map_cons, List.flatten_cons,
      roundProg, List.getD_eq_getElem?_getD, List.getElem?_eq_getElem h, List.range_eq_range']
    rfl
  · have hk' : k = rounds.length := by omega
    subst hk'
    refine .done ?_ offd loaded woken ?_ still
    · rw [prog, restProg, List.drop_length]; rfl
    · rw [got, ← accSem_length nd rounds n, List.take_length]

theorem RInv.start (hn0 : 0 < n) : RInv n nd rounds (Acc.start (protocol n rounds)) where
  base := AInv.start n nd _
  stage i _ := by
    refine ⟨Nat.zero_le _, ?_, ?_, ?_⟩ <;> simp [Acc.start, cut, cutOf]
  phase := Phase.enter hn0 0 (Nat.zero_le _) (by simp [Acc.start, restProg])
    (by simp [Acc.start, cut, cutOf]) (by simp [Acc.start, cut, cutOf]) (fun _ _ => rfl) rfl
    (by simp [Acc.start]) (fun _ _ => ⟨rfl, rfl⟩)

theorem RInv.offd_le {s : Acc D} (h : RInv n nd rounds s) :
    s.offd <+: cut nd rounds rounds.length 0 := by
  cases h.phase with
  | waking k j hk hj prog offd => rw [offd]; exact cut_le _ _ (by omega) _
  | working k rest hk prog offd =>
    exact (List.prefix_append _ rest).trans (offd ▸ cut_le _ _ (by omega) _)
  | waiting k j hk hj prog offd => rw [offd]; exact cut_le _ _ (by omega) _
  | done prog offd => rw [offd]; exact List.prefix_refl _

theorem RInv.taken_le (hn : ∀ i, i < n → Steady (nd i).toNode) {s : Acc D} (h : RInv n nd rounds s)
    {i : Nat} (hi : i ≤ n) : s.taken n i ++ s.chan i <+: cut nd rounds rounds.length i := by
  cases i with
  | zero => rw [← h.base.src]; exact h.offd_le
  | succ i =>
    rw [← h.base.chan i (by omega)]
    have h2 : s.pushed i <+: rstream (nd i) (s.consumed i) := by
      rw [← h.base.out i (by omega)]; exact List.prefix_append _ _
    rw [← cut_next hn _ i (by omega)]
    refine h2.trans (rstream_mono _ ?_)
    have := (h.stage i (by omega)).hi
    exact this.trans (cut_le _ _ (h.stage i (by omega)).le _)

theorem prefix_snoc_of_ne {α : Type} {x y z : List α} {m : α} (hx : x <+: y) (hne : x ≠ y)
    (hy : y <+: z) (h : x ++ [m] <+: z) : x ++ [m] <+: y := by
  refine List.prefix_of_prefix_length_le h hy ?_
  have := hx.length_le
  have h2 : x.length ≠ y.length := fun hh => hne (hx.eq_of_length hh)
  simp; omega

/-- stage steps leave the main thread where it is -/
theorem Phase.frame {s s' : Acc D} (h : Phase n nd rounds s) (hp : s'.prog = s.prog)
    (ho : s'.offd = s.offd) (hl : s'.loaded = s.loaded) (hw : s'.woken = s.woken)
    (hc : s'.cur = s.cur) (hg : s'.got = s.got)
    (hst : ∀ i, i < n → s.asleep i = true → s.pending i = [] →
      s'.asleep i = true ∧ s'.pending i = []) : Phase n nd rounds s' := by
  cases h with
  | waking k j hk hj prog offd loaded wlo whi cur got still =>
    exact .waking k j hk hj (by rw [hp, prog]) (by rw [ho, offd]) (by rw [hl, loaded])
      (fun i hi => by rw [hw]; exact wlo i hi) (fun i h1 h2 => by rw [hw]; exact whi i h1 h2)
      (by rw [hc, cur]) (by rw [hg, got])
      (fun i h1 h2 => hst i h2 (still i h1 h2).1 (still i h1 h2).2)
  | working k rest hk prog offd loaded cur woken got =>
    exact .working k rest hk (by rw [hp, prog]) (by rw [ho, offd]) (by rw [hl, hc, loaded])
      (by rw [hc]; exact cur) (fun i hi => by rw [hw]; exact woken i hi) (by rw [hg, got])
  | waiting k j hk hj prog offd loaded woken cur got still =>
    exact .waiting k j hk hj (by rw [hp, prog]) (by rw [ho, offd]) (by rw [hl, loaded])
      (fun i hi => by rw [hw]; exact woken i hi) (by rw [hc, cur]) (by rw [hg, got])
      (fun i h1 => hst i (by omega) (still i h1).1 (still i h1).2)
  | done prog offd loaded woken got still =>
    exact .done (by rw [hp, prog]) (by rw [ho, offd]) (by rw [hl, loaded])
      (fun i hi => by rw [hw]; exact woken i hi) (by rw [hg, got])
      (fun i h1 => hst i h1 (still i h1).1 (still i h1).2)

theorem RInv.pop (hn : ∀ i, i < n → Steady (nd i).toNode) {cap : Nat → Nat} {s s' : Acc D} {i : Nat}
    (h : RInv n nd rounds s) (hs : astep n nd cap s (.pop i) = some s') : RInv n nd rounds s' := by
  have hb := h.base.step hs
  simp only [astep] at hs
  split at hs
  · rename_i hc
    obtain ⟨hi, hp, he⟩ := hc
    split at hs
    · simp at hs
    · rename_i m ms hm
      simp only [Option.some.injEq] at hs
      subst hs
      have si := h.stage i hi
      have hne : s.consumed i ≠ cut nd rounds (s.woken i) i := fun hh => by
        rw [si.sleep.2 hh] at he; exact absurd he (by simp)
      have hw0 : 0 < s.woken i := by
        rcases Nat.eq_zero_or_pos (s.woken i) with h0 | h0
        · have := si.hi
          rw [h0, show cut nd rounds 0 i = [] from cutOf_zero _, List.prefix_nil] at this
          rw [h0, show cut nd rounds 0 i = [] from cutOf_zero _] at hne
          exact absurd this hne
        · exact h0
      have hall := h.taken_le hn (i := i) (by omega)
      rw [Acc.taken, if_pos hi, hm] at hall
      have hpre : s.consumed i ++ [m] <+: cut nd rounds (s.woken i) i := by
        refine prefix_snoc_of_ne si.hi hne (cut_le _ _ si.le _) (List.IsPrefix.trans ?_ hall)
        exact ⟨ms, by simp⟩
      -- the round stage `i` is in
      obtain ⟨t, ht⟩ := si.lo
      have hcs := cut_succ (nd := nd) (rounds := rounds) (k := s.woken i - 1) (by have := si.le; omega) i
      rw [Nat.sub_add_cancel hw0] at hcs
      have hpre' : t ++ [m] <+: rnd nd rounds (s.woken i - 1) i ++ [.eos] := by
        rw [hcs, ← ht, List.append_assoc] at hpre
        exact (List.prefix_append_right_inj _).1 hpre
      have hrd := rnd_data (rounds := rounds) hn (s.woken i - 1) i (by omega)
      have hiff : m = .eos ↔ s.consumed i ++ [m] = cut nd rounds (s.woken i) i := by
        constructor
        · rintro rfl
          have htd : Msg.eos ∉ t := by
            have hlt : t <+: rnd nd rounds (s.woken i - 1) i := by
              have h1 : t <+: rnd nd rounds (s.woken i - 1) i ++ [.eos] :=
                (List.prefix_append _ _).trans hpre'
              refine List.prefix_of_prefix_length_le h1 (List.prefix_append _ _) ?_
              have := hpre'.length_le
              simp at this; omega
            intro hh
            exact not_eos_of_data hrd (hlt.subset hh)
          have := first_eos (t := []) htd (not_eos_of_data hrd) hpre'
          rw [hcs, ← ht, this]; simp
        · intro hh
          rw [hcs, ← ht, List.append_assoc] at hh
          have := List.append_cancel_left hh
          exact (List.append_inj' this rfl).2 |> fun h => by simpa using h
      have hmem : ∀ x ∈ s.consumed i, x.isData = true ∨ x = .eos := fun x hx =>
        cut_mem hn _ i (by omega) x (si.hi.subset hx)
      have hmm : m.isData = true ∨ m = .eos :=
        cut_mem (rounds := rounds) hn _ i (by omega) m (hpre.subset (by simp))
      obtain ⟨r1, r2⟩ := rafter_ok (hn i hi) (s.consumed i) hmem
      refine ⟨hb, ?_, ?_⟩
      · intro j hj
        by_cases hji : j = i
        · subst hji
          refine ⟨si.le, ?_, ?_, ?_⟩
          · simp only [upd, if_true]; exact si.lo.trans (List.prefix_append _ _)
          · simp only [upd, if_true]; exact hpre
          · simp only [upd, if_true]
            rw [← hiff]
            rcases hmm with hd | rfl
            · obtain ⟨b1, b2, b3⟩ := body_data (hn j hi) _ hd r2
              rw [b1]
              cases m <;> simp [Msg.isData] at hd ⊢
            · rw [body_eos _ _ r2]; simp [noFreeze]
        · have sj := h.stage j hj
          refine ⟨sj.le, ?_, ?_, ?_⟩ <;> simp only [upd, if_neg hji]
          · exact sj.lo
          · exact sj.hi
          · exact sj.sleep
      · refine h.phase.frame rfl rfl rfl rfl rfl rfl ?_
        intro j hj ha hpj
        by_cases hji : j = i
        · subst hji; rw [ha] at he; simp at he
        · simp only [upd, if_neg hji]; exact ⟨ha, hpj⟩
  · simp at hs

theorem RInv.push {cap : Nat → Nat} {s s' : Acc D} {i : Nat}
    (h : RInv n nd rounds s) (hs : astep n nd cap s (.push i) = some s') : RInv n nd rounds s' := by
  have hb := h.base.step hs
  simp only [astep] at hs
  split at hs
  · split at hs
    · simp at hs
    · rename_i m ms hm
      simp only [Option.some.injEq] at hs
      subst hs
      refine ⟨hb, fun j hj => ?_, ?_⟩
      · have sj := h.stage j hj
        exact ⟨sj.le, sj.lo, sj.hi, sj.sleep⟩
      · refine h.phase.frame rfl rfl rfl rfl rfl rfl ?_
        intro j hj ha hpj
        by_cases hji : j = i
        · subst hji; rw [hpj] at hm; simp at hm
        · simp only [upd, if_neg hji]; exact ⟨ha, hpj⟩
  · simp at hs

theorem range'_cons {j n : Nat} (h : j < n) :
    List.range' j (n - j) = j :: List.range' (j + 1) (n - (j + 1)) := by
  rw [show n - j = (n - (j + 1)) + 1 by omega, List.range'_succ]

theorem RInv.user (hn0 : 0 < n) (hn : ∀ i, i < n → Steady (nd i).toNode) {cap : Nat → Nat}
    {s s' : Acc D} (h : RInv n nd rounds s) (hs : astep n nd cap s .user = some s') :
    RInv n nd rounds s' := by
  have hb := h.base.step hs
  have hlast := h.taken_le hn (i := n) (Nat.le_refl n)
  rw [Acc.taken, if_neg (Nat.lt_irrefl n)] at hlast
  cases h.phase with
  | waking k j hk hj prog offd loaded wlo whi cur got still =>
    rw [range'_cons hj] at prog
    simp only [List.map_cons, List.cons_append] at prog
    simp only [astep, ustep, prog] at hs
    rw [if_pos (still j (Nat.le_refl j) hj)] at hs
    simp only [Option.some.injEq] at hs
    subst hs
    refine ⟨hb, ?_, ?_⟩
    · intro i hi
      have si := h.stage i hi
      by_cases hij : i = j
      · subst hij
        have hw := whi i (Nat.le_refl i) hi
        have hc := si.sleep.1 (still i (Nat.le_refl i) hi).1
        refine ⟨?_, ?_, ?_, ?_⟩ <;> simp only [upd, if_true]
        · omega
        · rw [hc]; exact List.prefix_refl _
        · rw [hc]; exact cut_le _ _ (by omega) _
        · rw [hc]
          have := cut_lt (nd := nd) (rounds := rounds) (j := s.woken i) (k := s.woken i + 1) (by omega) (by omega) i
          constructor
          · intro hh; simp at hh
          · intro hh; rw [← hh] at this; omega
      · refine ⟨?_, ?_, ?_, ?_⟩ <;> simp only [upd, if_neg hij]
        · exact si.le
        · exact si.lo
        · exact si.hi
        · exact si.sleep
    · have hwoken : ∀ i, i < n → upd s.woken j (s.woken j + 1) i = if i ≤ j then k + 1 else k := by
        intro i hi
        by_cases hij : i = j
        · subst hij; simp [upd, whi i (Nat.le_refl i) hi]
        · simp only [upd, if_neg hij]
          split
          · exact wlo i (by omega)
          · exact whi i (by omega) hi
      by_cases hjn : j + 1 < n
      · refine .waking k (j + 1) hk hjn ?_ offd loaded ?_ ?_ cur got ?_
        · simp
        · intro i hi; simp only; rw [hwoken i (by omega), if_pos (by omega)]
        · intro i h1 h2; simp only; rw [hwoken i (by omega), if_neg (by omega)]
        · intro i h1 h2
          have : i ≠ j := by omega
          simp only [upd, if_neg this]; exact still i (by omega) h2
      · have hjn' : n - (j + 1) = 0 := by omega
        refine .working k (rnd nd rounds k 0 ++ [.eos]) hk ?_ ?_ ?_ ?_ ?_ got
        · simp only [hjn', List.range'_zero, List.map_nil, List.nil_append]
          have : rnd nd rounds k 0 = (rounds.getD k []).map Msg.data := by
            unfold rnd
            simp only [accSem, List.getD_eq_getElem?_getD, List.getElem?_map]
            cases rounds[k]? <;> simp
          rw [this]
          simp
        · simp only [offd]; rw [cut_succ hk]
        · simp only [loaded, cur]; simp
        · simp only [cur]; simp
        · intro i hi; simp only; rw [hwoken i (by omega), if_pos (by omega)]
  | working k rest hk prog offd loaded cur woken got =>
    cases rest with
    | cons m rest =>
      simp only [List.map_cons, List.cons_append] at prog
      simp only [astep, ustep, prog] at hs
      split at hs
      · simp only [Option.some.injEq] at hs
        subst hs
        refine ⟨hb, fun i hi => ?_, ?_⟩
        · have si := h.stage i hi
          exact ⟨si.le, si.lo, si.hi, si.sleep⟩
        · exact .working k rest hk (by simp) (by simpa using offd) loaded cur woken got
      · simp at hs
    | nil =>
      simp only [List.map_nil, List.nil_append, List.cons_append] at prog
      simp only [astep, ustep, prog] at hs
      rw [List.append_nil] at offd
      split at hs
      · simp at hs
      · rename_i ms hm
        simp only [Option.some.injEq] at hs
        subst hs
        rw [loaded, hm] at hlast
        have hcr : s.cur = rnd nd rounds k n := by
          obtain ⟨t, ht⟩ := cut_le nd rounds (show k + 1 ≤ rounds.length by omega) n
          rw [← ht, cut_succ hk, List.append_assoc, List.append_assoc] at hlast
          have := (List.prefix_append_right_inj _).1 hlast
          refine first_eos (t := t) cur (not_eos_of_data (rnd_data hn k n (Nat.le_refl n))) ?_
          simp only [List.append_assoc, List.cons_append, List.nil_append] at this
          exact List.IsPrefix.trans ⟨ms, by simp⟩ this
        refine ⟨hb, fun i hi => ?_, ?_⟩
        · have si := h.stage i hi
          exact ⟨si.le, si.lo, si.hi, si.sleep⟩
        · refine .waiting k 0 hk hn0 ?_ offd ?_ woken rfl ?_ (fun i hi => absurd hi (by omega))
          · simp [List.range_eq_range']
          · simp only [loaded]; rw [cut_succ hk, hcr]; simp
          · simp only [got, hcr]
            have hlen : k < (accSem nd rounds n).length := by rw [accSem_length]; exact hk
            rw [List.take_succ_eq_append_getElem hlen, rnd, List.getD_eq_getElem?_getD,
              List.getElem?_eq_getElem hlen]
            rfl
      · rename_i m ms hne hm
        simp only [Option.some.injEq] at hs
        subst hs
        refine ⟨hb, fun i hi => ?_, ?_⟩
        · have si := h.stage i hi
          exact ⟨si.le, si.lo, si.hi, si.sleep⟩
        · refine .working k [] hk (by simpa using prog) (by simpa using offd) ?_ ?_ woken got
          · simp only [loaded]; simp
          · intro hh
            simp only [List.mem_append, List.mem_singleton] at hh
            rcases hh with hh | hh
            · exact cur hh
            · exact hne hh.symm
  | waiting k j hk hj prog offd loaded woken cur got still =>
    rw [range'_cons hj] at prog
    simp only [List.map_cons, List.cons_append] at prog
    simp only [astep, ustep, prog] at hs
    split at hs
    · rename_i hc
      simp only [Option.some.injEq] at hs
      subst hs
      refine ⟨hb, fun i hi => ?_, ?_⟩
      · have si := h.stage i hi
        exact ⟨si.le, si.lo, si.hi, si.sleep⟩
      · have hst : ∀ i, i < j + 1 → s.asleep i = true ∧ s.pending i = [] := by
          intro i hi
          by_cases hij : i = j
          · subst hij; exact hc
          · exact still i (by omega)
        by_cases hjn : j + 1 < n
        · exact .waiting k (j + 1) hk hjn rfl offd loaded woken cur got hst
        · have hjn' : n - (j + 1) = 0 := by omega
          refine Phase.enter hn0 (k + 1) hk ?_ offd loaded woken cur got (fun i hi => hst i (by omega))
          simp only [hjn', List.range'_zero, List.map_nil, List.nil_append]
    · simp at hs
  | done prog =>
    simp [astep, ustep, prog] at hs

theorem RInv.step (hn0 : 0 < n) (hn : ∀ i, i < n → Steady (nd i).toNode) {cap : Nat → Nat}
    {s s' : Acc D} {a : AAct} (h : RInv n nd rounds s) (hs : astep n nd cap s a = some s') :
    RInv n nd rounds s' := by
  cases a with
  | pop i => exact h.pop hn hs
  | push i => exact h.push hs
  | user => exact h.user hn0 hn hs

theorem RInv.reach (hn0 : 0 < n) (hn : ∀ i, i < n → Steady (nd i).toNode) {cap : Nat → Nat}
    {s : Acc D} (hr : Reach (astep n nd cap) (Acc.start (protocol n rounds)) s) :
    RInv n nd rounds s :=
  hr.inv (Inv := fun x => RInv n nd rounds x) (RInv.start hn0) (fun _ _ _ h hs => h.step hn0 hn hs)

/-! ## No deadlock -/

/-- With all stages woken for the same round and nothing to do, every stage has finished the round. -/
theorem RInv.idle (hn : ∀ i, i < n → Steady (nd i).toNode) {cap : Nat → Nat}
    (hcap : ∀ i, 0 < cap i) {s : Acc D} (h : RInv n nd rounds s)
    (hst : ∀ a, astep n nd cap s a = none) (w : Nat) (hw : ∀ i, i < n → s.woken i = w) :
    (∀ i, i < n → s.pending i = []) ∧
    (∀ i, i < n → s.asleep i = true ∨ s.chan i = []) := by
  have N1 : ∀ i, i < n → s.pending i = [] ∨ (i + 1 < n ∧ s.chan (i + 1) ≠ []) := by
    intro i hi
    have := hst (.push i)
    simp only [astep] at this
    by_cases hc : i < n ∧ (i + 1 = n ∨ (s.chan (i + 1)).length < cap (i + 1))
    · rw [if_pos hc] at this
      cases hp : s.pending i with
      | nil => exact Or.inl rfl
      | cons m ms => rw [hp] at this; simp at this
    · refine Or.inr ⟨by omega, fun hh => hc ⟨hi, Or.inr ?_⟩⟩
      rw [hh]; exact hcap _
  have N2 : ∀ i, i < n → s.pending i = [] → s.asleep i = true ∨ s.chan i = [] := by
    intro i hi hp
    have := hst (.pop i)
    simp only [astep] at this
    cases ha : s.asleep i with
    | true => exact Or.inl rfl
    | false =>
      rw [if_pos ⟨hi, hp, ha⟩] at this
      cases hc : s.chan i with
      | nil => exact Or.inr rfl
      | cons m ms => rw [hc] at this; simp at this
  have hp : ∀ d i, i < n → n - i = d → s.pending i = [] := by
    intro d
    induction d with
    | zero => intro i hi hd; omega
    | succ d ih =>
      intro i hi hd
      rcases N1 i hi with h1 | ⟨h1, h2⟩
      · exact h1
      · exfalso
        rcases N2 (i + 1) h1 (ih (i + 1) h1 (by omega)) with h3 | h3
        · have hc := ((h.stage (i + 1) h1).sleep).1 h3
          rw [hw _ h1] at hc
          have hch := h.base.chan i hi
          rw [Acc.taken, if_pos h1, hc] at hch
          have hpu : s.pushed i <+: cut nd rounds w (i + 1) := by
            have h5 : s.pushed i <+: rstream (nd i) (s.consumed i) := by
              rw [← h.base.out i hi]; exact List.prefix_append _ _
            rw [← cut_next hn _ i hi]
            refine h5.trans (rstream_mono _ ?_)
            rw [← hw i hi]; exact (h.stage i hi).hi
          have := hpu.length_le
          rw [hch, List.length_append] at this
          exact h2 (List.length_eq_zero_iff.1 (by omega))
        · exact h2 h3
  have hp' : ∀ i, i < n → s.pending i = [] := fun i hi => hp (n - i) i hi rfl
  exact ⟨hp', fun i hi => N2 i hi (hp' i hi)⟩

/-- If moreover all of the round has been offloaded, its results are in the last channel. -/
theorem RInv.idle_out (hn : ∀ i, i < n → Steady (nd i).toNode) {cap : Nat → Nat}
    (hcap : ∀ i, 0 < cap i) {s : Acc D} (h : RInv n nd rounds s)
    (hst : ∀ a, astep n nd cap s a = none) (w : Nat) (hw : ∀ i, i < n → s.woken i = w)
    (ho : s.offd = cut nd rounds w 0) :
    (∀ i, i < n → s.asleep i = true) ∧ s.loaded ++ s.chan n = cut nd rounds w n := by
  obtain ⟨hp, hd⟩ := h.idle hn hcap hst w hw
  have key : ∀ i, i ≤ n → s.taken n i ++ s.chan i = cut nd rounds w i ∧
      (∀ j, j < i → s.asleep j = true) := by
    intro i
    induction i with
    | zero => intro _; exact ⟨by rw [← h.base.src, ho], fun j hj => absurd hj (by omega)⟩
    | succ i ih =>
      intro hi
      obtain ⟨i1, i2⟩ := ih (by omega)
      have hi' : i < n := by omega
      rw [Acc.taken, if_pos hi'] at i1
      have si := h.stage i hi'
      have hc : s.consumed i = cut nd rounds w i := by
        rcases hd i hi' with h1 | h1
        · rw [si.sleep.1 h1, hw i hi']
        · rw [← i1, h1, List.append_nil]
      refine ⟨?_, fun j hj => ?_⟩
      · rw [← h.base.chan i hi', ← cut_next hn w i hi', ← hc, ← h.base.out i hi', hp i hi',
          List.append_nil]
      · by_cases hji : j = i
        · subst hji; exact si.sleep.2 (by rw [hc, hw j hi'])
        · exact i2 j (by omega)
  obtain ⟨k1, k2⟩ := key n (Nat.le_refl n)
  rw [Acc.taken, if_neg (Nat.lt_irrefl n)] at k1
  exact ⟨k2, k1⟩

theorem RInv.alive (hn0 : 0 < n) (hn : ∀ i, i < n → Steady (nd i).toNode) {cap : Nat → Nat}
    (hcap : ∀ i, 0 < cap i) {s : Acc D} (h : RInv n nd rounds s)
    (hst : ∀ a, astep n nd cap s a = none) : s.prog = [] := by
  have hu := hst .user
  cases h.phase with
  | waking k j hk hj prog offd loaded wlo whi cur got still =>
    exfalso
    rw [range'_cons hj] at prog
    simp only [List.map_cons, List.cons_append] at prog
    simp only [astep, ustep, prog] at hu
    rw [if_pos (still j (Nat.le_refl j) hj)] at hu
    simp at hu
  | working k rest hk prog offd loaded cur woken got =>
    exfalso
    cases rest with
    | cons m rest =>
      simp only [List.map_cons, List.cons_append] at prog
      simp only [astep, ustep, prog] at hu
      split at hu
      · simp at hu
      · rename_i hfull
        have hne : s.chan 0 ≠ [] := fun hh => hfull (by rw [hh]; exact hcap 0)
        rcases (h.idle hn hcap hst (k + 1) woken).2 0 hn0 with h1 | h1
        · have hc := (h.stage 0 hn0).sleep.1 h1
          rw [woken 0 hn0] at hc
          have hsrc := h.base.src
          rw [Acc.taken, if_pos hn0, hc] at hsrc
          have := congrArg List.length offd
          rw [hsrc] at this
          simp only [List.length_append, List.length_cons] at this
          omega
        · exact hne h1
    | nil =>
      simp only [List.map_nil, List.nil_append, List.cons_append] at prog
      simp only [astep, ustep, prog] at hu
      rw [List.append_nil] at offd
      obtain ⟨-, hout⟩ := h.idle_out hn hcap hst (k + 1) woken offd
      split at hu
      · rename_i hm
        rw [hm, List.append_nil, loaded, cut_succ hk] at hout
        have := List.append_cancel_left hout
        exact cur (by rw [this]; simp)
      · simp at hu
      · simp at hu
  | waiting k j hk hj prog offd loaded woken cur got still =>
    exfalso
    rw [range'_cons hj] at prog
    simp only [List.map_cons, List.cons_append] at prog
    simp only [astep, ustep, prog] at hu
    obtain ⟨ha, -⟩ := h.idle_out hn hcap hst (k + 1) woken offd
    rw [if_pos ⟨ha j hj, (h.idle hn hcap hst (k + 1) woken).1 j hj⟩] at hu
    simp at hu
  | done prog => exact prog

end

/-! ## The theorems -/

/-- **C58, each round returns its own results**: for every interleaving of the main thread with the
stages, all capacities and any number of rounds, what the `while(load_result(&r))` loops that have
finished returned is, loop by loop, what the specification says for the first rounds; when the main
thread is through, it has got the results of every round, every stage sleeps, and no channel holds
anything. -/
theorem C58_rounds (n : Nat) (hn0 : 0 < n) (nd : Nat → RNode D)
    (hn : ∀ i, i < n → Steady (nd i).toNode) (cap : Nat → Nat) (rounds : List (List D)) (s : Acc D)
    (hr : Reach (astep n nd cap) (Acc.start (protocol n rounds)) s) :
    s.got <+: accSem nd rounds n ∧
    (s.prog = [] → s.got = accSem nd rounds n ∧
      (∀ i, i < n → s.asleep i = true ∧ s.pending i = []) ∧ ∀ i, i ≤ n → s.chan i = []) := by
  have h := RInv.reach hn0 hn hr
  refine ⟨?_, fun hp => ?_⟩
  · cases h.phase with
    | waking k j hk hj prog offd loaded wlo whi cur got still => rw [got]; exact List.take_prefix _ _
    | working k rest hk prog offd loaded cur woken got => rw [got]; exact List.take_prefix _ _
    | waiting k j hk hj prog offd loaded woken cur got still => rw [got]; exact List.take_prefix _ _
    | done prog offd loaded woken got still => rw [got]; exact List.prefix_refl _
  · cases h.phase with
    | waking k j hk hj prog =>
      rw [range'_cons hj, hp] at prog
      simp at prog
    | working k rest hk prog => rw [hp] at prog; simp at prog
    | waiting k j hk hj prog =>
      rw [range'_cons hj, hp] at prog
      simp at prog
    | done prog offd loaded woken got still =>
      refine ⟨got, still, ?_⟩
      have hc : ∀ i, i < n → s.consumed i = cut nd rounds rounds.length i := fun i hi => by
        rw [(h.stage i hi).sleep.1 (still i hi).1, woken i hi]
      have ht : ∀ i, i ≤ n → s.taken n i = cut nd rounds rounds.length i := by
        intro i hi
        unfold Acc.taken
        split
        · exact hc i (by omega)
        · have : i = n := by omega
          rw [this, loaded]
      intro i hi
      have h1 := h.taken_le hn hi
      rw [ht i hi] at h1
      have := h1.length_le
      rw [List.length_append] at this
      exact List.length_eq_zero_iff.1 (by omega)

/-- **C58, no deadlock**: as long as the main thread is not through, some thread can make a step. -/
theorem C58_no_deadlock (n : Nat) (hn0 : 0 < n) (nd : Nat → RNode D)
    (hn : ∀ i, i < n → Steady (nd i).toNode) (cap : Nat → Nat) (hcap : ∀ i, 0 < cap i)
    (rounds : List (List D)) (s : Acc D)
    (hr : Reach (astep n nd cap) (Acc.start (protocol n rounds)) s) (hp : s.prog ≠ []) :
    ∃ a s', astep n nd cap s a = some s' := by
  have h := RInv.reach hn0 hn hr
  apply Classical.byContradiction
  intro hno
  refine hp (h.alive hn0 hn hcap fun a => ?_)
  cases hs : astep n nd cap s a with
  | none => rfl
  | some s' => exact absurd ⟨a, s', hs⟩ hno

/-- pops, pushes, loads and commands performed so far (plus a constant) -/
def awork (n : Nat) (p0 : Nat) (s : Acc D) : Nat :=
  FF.Farm.sumN (fun i => (s.consumed i).length + (s.pushed i).length) n + s.loaded.length +
    (p0 - s.prog.length)

/-- all pops and pushes of the specification -/
def accBound (n : Nat) (nd : Nat → RNode D) (rounds : List (List D)) : Nat :=
  FF.Farm.sumN (fun i => (cut nd rounds rounds.length i).length +
    (cut nd rounds rounds.length (i + 1)).length) n + (cut nd rounds rounds.length n).length +
    (protocol n rounds).length

theorem awork_step {n : Nat} {nd : Nat → RNode D} {cap : Nat → Nat} {p0 : Nat} {s s' : Acc D}
    {a : AAct} (h0 : s.prog.length ≤ p0) (hs : astep n nd cap s a = some s') :
    awork n p0 s + 1 ≤ awork n p0 s' ∧ s'.prog.length ≤ p0 := by
  cases a with
  | pop i =>
    simp only [astep] at hs
    split at hs
    · rename_i hc
      split at hs
      · simp at hs
      · rename_i m ms hm
        simp only [Option.some.injEq] at hs
        subst hs
        refine ⟨?_, h0⟩
        have := FF.Farm.sumN_lt (f := fun i => (s.consumed i).length + (s.pushed i).length)
          (g := fun j => (upd s.consumed i (s.consumed i ++ [m]) j).length + (s.pushed j).length)
          hc.1 (by simp only [upd, if_true, List.length_append, List.length_singleton]; omega)
          (fun j hj => by simp only [upd, if_neg hj])
        simp only [awork]
        omega
    · simp at hs
  | push i =>
    simp only [astep] at hs
    split at hs
    · rename_i hc
      split at hs
      · simp at hs
      · rename_i m ms hm
        simp only [Option.some.injEq] at hs
        subst hs
        refine ⟨?_, h0⟩
        have := FF.Farm.sumN_lt (f := fun i => (s.consumed i).length + (s.pushed i).length)
          (g := fun j => (s.consumed j).length + (upd s.pushed i (s.pushed i ++ [m]) j).length)
          hc.1 (by simp only [upd, if_true, List.length_append, List.length_singleton]; omega)
          (fun j hj => by simp only [upd, if_neg hj])
        simp only [awork]
        omega
    · simp at hs
  | user =>
    simp only [astep, ustep] at hs
    split at hs
    · simp at hs
    · rename_i hp
      rw [hp, List.length_cons] at h0
      split at hs
      · simp only [Option.some.injEq] at hs
        subst hs
        simp only [awork, hp, List.length_cons]
        omega
      · simp at hs
    · rename_i hp
      rw [hp, List.length_cons] at h0
      split at hs
      · simp only [Option.some.injEq] at hs
        subst hs
        simp only [awork, hp, List.length_cons]
        omega
      · simp at hs
    · rename_i hp
      rw [hp, List.length_cons] at h0
      split at hs
      · simp at hs
      · simp only [Option.some.injEq] at hs
        subst hs
        simp only [awork, hp, List.length_cons, List.length_append, List.length_nil]
        omega
      · simp only [Option.some.injEq] at hs
        subst hs
        simp only [awork, hp, List.length_cons, List.length_append, List.length_nil]
        omega
    · rename_i hp
      rw [hp, List.length_cons] at h0
      split at hs
      · simp only [Option.some.injEq] at hs
        subst hs
        simp only [awork, hp, List.length_cons]
        omega
      · simp at hs

theorem sumN_le' {f g : Nat → Nat} {n : Nat} (h : ∀ i, i < n → f i ≤ g i) :
    FF.Farm.sumN f n ≤ FF.Farm.sumN g n := by
  induction n with
  | zero => exact Nat.le_refl _
  | succ n ih =>
    simp only [FF.Farm.sumN]
    have := ih (fun i hi => h i (by omega)); have := h n (by omega); omega

/-- **C58, termination**: no schedule performs more actions than the commands of the main thread and
the messages of the specification, each counted once when pushed and once when taken.  With
`C58_no_deadlock` and `C58_rounds`: every maximal execution is finite and returns the results of every
round. -/
theorem C58_bounded (n : Nat) (hn0 : 0 < n) (nd : Nat → RNode D)
    (hn : ∀ i, i < n → Steady (nd i).toNode) (cap : Nat → Nat) (rounds : List (List D))
    (as : List AAct) (s : Acc D)
    (h : exec (astep n nd cap) (Acc.start (protocol n rounds)) as = some s) :
    as.length ≤ accBound n nd rounds := by
  have hw : ∀ (as : List AAct) (s0 s : Acc D), s0.prog.length ≤ (protocol n rounds).length →
      exec (astep n nd cap) s0 as = some s →
      awork n (protocol n rounds).length s0 + as.length ≤ awork n (protocol n rounds).length s := by
    intro as
    induction as with
    | nil => intro s0 s _ h; simp only [exec, Option.some.injEq] at h; subst h; simp
    | cons a as ih =>
      intro s0 s h0 h
      simp only [exec] at h
      cases hs : astep n nd cap s0 a with
      | none => rw [hs] at h; simp at h
      | some s1 =>
        rw [hs] at h
        obtain ⟨w1, w2⟩ := awork_step h0 hs
        have := ih s1 s w2 h
        rw [List.length_cons]; omega
  have h1 := hw as _ _ (Nat.le_refl _) h
  have hi := RInv.reach hn0 hn (rounds := rounds) ⟨as, h⟩
  have hb : ∀ i, i < n → (s.consumed i).length + (s.pushed i).length ≤
      (cut nd rounds rounds.length i).length + (cut nd rounds rounds.length (i + 1)).length := by
    intro i hin
    have a1 := (hi.taken_le hn (i := i) (by omega)).length_le
    have a2 := (hi.taken_le hn (i := i + 1) (by omega)).length_le
    rw [← hi.base.chan i hin] at a2
    rw [Acc.taken, if_pos hin, List.length_append] at a1
    omega
  have h2 := sumN_le' hb
  have h3 := (hi.taken_le hn (i := n) (Nat.le_refl n)).length_le
  rw [Acc.taken, if_neg (Nat.lt_irrefl n), List.length_append] at h3
  simp only [awork] at h1
  unfold accBound
  omega

/-! ## The plain reading: stages that are functions -/

/-- a stage that applies `f` to each task -/
def fnStage (f : D → D) : RNode D := { FF.Farm.fnNode f with renew := id }

theorem stageRounds_fn (f : D → D) (rs : List (List D)) :
    stageRounds (fnStage f) () (rs.map (·.map Msg.data)) = (rs.map (·.map f)).map (·.map Msg.data) := by
  induction rs with
  | nil => rfl
  | cons r rs ih =>
    have h := FF.Farm.fnNode_stream f r
    simp only [stream] at h
    simp only [List.map_cons, stageRounds]
    congr 1
    have h' : (run (fnStage f).toNode (L.enter (fnStage f).toNode ()) (r.map Msg.data ++ [.eos])).2 =
        (r.map f).map Msg.data ++ [.eos] := h
    rw [h', List.dropLast_concat]

/-- apply `f 0`, then `f 1`, …, then `f (n-1)` -/
def applyTo (f : Nat → D → D) : Nat → D → D
  | 0, d => d
  | n + 1, d => f n (applyTo f n d)

theorem accSem_fn (f : Nat → D → D) (rounds : List (List D)) (i : Nat) :
    accSem (fun i => fnStage (f i)) rounds i =
      (rounds.map (·.map (applyTo f i))).map (·.map Msg.data) := by
  induction i with
  | zero =>
    have : (fun x : List D => x.map (applyTo f 0)) = id := by
      funext x; show x.map (fun d => d) = x; simp
    rw [accSem, this, List.map_id]
  | succ i ih =>
    rw [accSem, ih]
    have := stageRounds_fn (f i) (rounds.map (·.map (applyTo f i)))
    rw [show (fnStage (f i)).init = () from rfl, this]
    simp only [List.map_map]
    congr 1
    funext x
    simp only [Function.comp, List.map_map]
    rfl

/-- **C58 for functions**: an accelerator of stages that apply functions returns, round by round and
in order, the composed function of each task. -/
theorem C58_map (n : Nat) (hn0 : 0 < n) (f : Nat → D → D) (cap : Nat → Nat) (rounds : List (List D))
    (s : Acc D)
    (hr : Reach (astep n (fun i => fnStage (f i)) cap) (Acc.start (protocol n rounds)) s)
    (hp : s.prog = []) :
    s.got = rounds.map fun r => r.map fun d => Msg.data (applyTo f n d) := by
  have h := ((C58_rounds n hn0 (fun i => fnStage (f i))
    (fun i _ => FF.Farm.fnNode_steady (f i)) cap rounds s hr).2 hp).1
  rw [h, accSem_fn]
  simp [List.map_map, Function.comp]

/-! ## Concrete cases -/

/-- a stage that sends the running sum; `svc_init` sets the sum to 0 -/
def sumStage : RNode Nat where
  σ := Nat
  init := 0
  comp := false
  src := false
  svc := fun s t => match t with
    | .data d => (s + d, [], .data (s + d))
    | _ => (s, [], .goon)
  eosn := fun s => (s, [])
  renew := fun _ => 0

theorem sumStage_steady : Steady sumStage.toNode where
  sends s t _ := by cases t <;> intro m hm <;> simp [sumStage] at hm
  eosn s := by intro m hm; simp [sumStage] at hm
  leaf _ s t _ := by cases t <;> simp [sumStage]
  comp h := by simp [sumStage] at h

/-- the same without `svc_init` -/
def keepStage : RNode Nat := { sumStage with renew := id }

/-- the specification on two rounds: the sum starts again … -/
example : accSem (fun _ => sumStage) [[1, 2, 3], [4, 5]] 1 =
    [[.data 1, .data 3, .data 6], [.data 4, .data 9]] := rfl

/-- … or goes on, depending on what `svc_init` does -/
example : accSem (fun _ => keepStage) [[1, 2, 3], [4, 5]] 1 =
    [[.data 1, .data 3, .data 6], [.data 10, .data 15]] := rfl

/-- a complete execution of two rounds with queues of one slot -/
example : ((exec (astep 1 (fun _ => sumStage) (fun _ => 1)) (Acc.start (protocol 1 [[7, 2], [4]]))
    [.user, .user, .pop 0, .user, .push 0, .pop 0, .push 0, .user, .pop 0, .push 0,
     .user, .user, .user, .user,
     .user, .user, .pop 0, .user, .push 0, .user, .pop 0, .push 0, .user, .user]).map
      fun s => (s.got, s.prog.length)) =
    some ([[.data 7, .data 9], [.data 4]], 0) := by rfl

/-! ## What the protocol does not cover -/

/-- a stage that ends the stream by itself on task 0 -/
def stopStage : RNode Nat where
  σ := Unit
  init := ()
  comp := false
  src := false
  svc := fun s t => match t with
    | .data 0 => (s, [], .eos)
    | .data d => (s, [], .data d)
    | _ => (s, [], .goon)
  eosn := fun s => (s, [])
  renew := id

/-- **C58, a stage that ends a round by itself**: a stage whose `svc` returns `FF_EOS` leaves the rest
of the round in its input channel; the next round then returns what was left of the previous one —
here task 5 of the first round — and not its own results, and so on for ever. -/
theorem C58_early_end_counterexample :
    ∃ s, Reach (astep 1 (fun _ => stopStage) (fun _ => 9)) (Acc.start (protocol 1 [[0, 5], [6]])) s ∧
      s.prog = [] ∧ s.got = [[], [.data 5]] := by
  refine ⟨_, ⟨[.user, .user, .user, .user, .pop 0, .push 0, .user, .user,
    .user, .user, .user, .pop 0, .push 0, .pop 0, .push 0, .user, .user, .user], rfl⟩, ?_, ?_⟩ <;> rfl

/-- **C58, the other end mark**: `load_result` returns `false` on `FF_EOS` only; with `FF_EOSW` as the
end mark the mark itself is handed out as a result and the loop waits for ever. -/
theorem C58_eosw_counterexample :
    ∃ s, Reach (astep 1 (fun _ => sumStage) (fun _ => 9))
        (Acc.start [.wake 0, .offload (.data 3), .offload .eosw, .load, .wait 0]) s ∧
      s.cur = [.data 3, .eosw] ∧ s.prog ≠ [] ∧ s.asleep 0 = true ∧
      ∀ a, astep 1 (fun _ => sumStage) (fun _ => 9) s a = none := by
  obtain ⟨z, hz⟩ : ∃ z, exec (astep 1 (fun _ => sumStage) (fun _ => 9))
      (Acc.start [.wake 0, .offload (.data 3), .offload .eosw, .load, .wait 0])
      [.user, .user, .user, .pop 0, .push 0, .pop 0, .push 0, .user, .user] = some z := ⟨_, rfl⟩
  refine ⟨z, ⟨_, hz⟩, ?_⟩
  have hz' := (Option.some.inj hz).symm
  subst hz'
  refine ⟨rfl, by intro h; exact absurd (congrArg List.length h) (by decide), rfl, ?_⟩
  intro a
  cases a with
  | pop i =>
    simp only [astep]
    by_cases hi : i = 0
    · subst hi; rfl
    · rw [if_neg (by omega)]
  | push i =>
    simp only [astep]
    by_cases hi : i = 0
    · subst hi; rfl
    · rw [if_neg (by omega)]
  | user => rfl

end FF.Node
