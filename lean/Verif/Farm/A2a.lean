import Verif.Farm.FarmLive
/-!
# C27: all-to-all

Source: `/repo/ff/all2all.hpp` 83-360 (`prepare`: one queue for each pair of a left and a right node),
`/repo/ff/multinode.hpp` 464-842 (left nodes: `ff_monode`, whose load balancer is `E`) and 63-449
(right nodes: `ff_minode`, whose gatherer is `G`).

`L` left nodes, each with an arbitrary list of commands (schedule, send to a given right node,
broadcast) followed by the broadcast of `EOS`; `R` right nodes, each running an arbitrary filter.
The `ff_buffernode`s are the bounded FIFO queues between them.  Not modelled: feedback, blocking mode.
-/
namespace FF.Farm
open FF.Node
variable {D : Type}

/-- update of one right node -/
def updG {c : Nat → Node D} (g : ∀ i, G (c i)) (i : Nat) (x : G (c i)) : ∀ k, G (c k) :=
  fun k => if h : k = i then h ▸ x else g k

theorem updG_same {c : Nat → Node D} (g : ∀ i, G (c i)) (i : Nat) (x : G (c i)) : updG g i x i = x := by
  simp [updG]

theorem updG_ne {c : Nat → Node D} (g : ∀ i, G (c i)) {i k : Nat} (x : G (c i)) (h : k ≠ i) :
    updG g i x k = g k := by
  simp [updG, h]

/-- State of an all-to-all. `ch j i` is the queue from left node `j` to right node `i`. -/
structure A (D : Type) (c : Nat → Node D) where
  e : Nat → E D
  ch : Nat → Nat → List (Msg D)
  g : ∀ i, G (c i)

def A.start (c : Nat → Node D) (cmds : Nat → List (Cmd D)) : A D c :=
  { e := fun j => E.start (cmds j), ch := fun _ _ => [], g := fun i => G.start (c i) }

inductive AAct where
  /-- an attempt of left node `j` -/
  | e (j : Nat)
  /-- an attempt of right node `i` -/
  | g (i : Nat)

/-- One action of an all-to-all of `nl` left and `nr` right nodes. -/
def astep (nl nr : Nat) (cap : Nat → Nat → Nat) {c : Nat → Node D} (s : A D c) : AAct → Option (A D c)
  | .e j =>
    if j < nl then
      match (s.e j).attempt nr (fun i => decide (cap j i ≤ (s.ch j i).length)) with
      | none => none
      | some (e', none) => some { s with e := upd s.e j e' }
      | some (e', some (i, m)) => some { s with
          e := upd s.e j e', ch := upd s.ch j (upd (s.ch j) i (s.ch j i ++ [m])) }
    else none
  | .g i =>
    if i < nr then
      match (s.g i).attempt nl (fun j => (s.ch j i).head?) with
      | none => none
      | some (g', none) => some { s with g := updG s.g i g' }
      | some (g', some j) => some { s with
          g := updG s.g i g', ch := upd s.ch j (upd (s.ch j) i (s.ch j i).tail) }
    else none

structure AInv (nl nr : Nat) {c : Nat → Node D} (cmds : Nat → List (Cmd D)) (s : A D c) : Prop where
  e : ∀ j, EInv nr (cmds j) (s.e j)
  g : ∀ i, GInv nl (s.g i)
  kind : ∀ i, GKind (s.g i)
  link : ∀ j i, from_ (s.e j).log i = from_ (s.g i).got j ++ s.ch j i

theorem AInv.start (nl nr : Nat) (c : Nat → Node D) (cmds : Nat → List (Cmd D)) :
    AInv nl nr cmds (A.start c cmds) where
  e j := EInv.start nr (cmds j)
  g i := GInv.start nl (c i)
  kind i := ⟨fun _ => rfl⟩
  link j i := by simp [A.start, E.start, G.start, from_]

section
variable {nl nr : Nat} {cap : Nat → Nat → Nat} {c : Nat → Node D}

theorem AInv.step (hr : 0 < nr) {cmds : Nat → List (Cmd D)} {s s' : A D c} {a : AAct}
    (h : AInv nl nr cmds s) (hs : astep nl nr cap s a = some s') : AInv nl nr cmds s' := by
  cases a with
  | e j =>
    simp only [astep] at hs
    split at hs
    · split at hs
      · simp at hs
      · rename_i e' he
        simp only [Option.some.injEq] at hs
        subst hs
        have hl := (attempt_log he).1
        simp only [List.append_nil] at hl
        refine { h with e := fun k => ?_, link := fun k i => ?_ }
        · by_cases hk : k = j
          · subst hk; simp only [upd, if_true]; exact (h.e k).attempt hr he
          · simp only [upd, hk, if_false]; exact h.e k
        · by_cases hk : k = j
          · subst hk; simp only [upd, if_true, hl]; exact h.link k i
          · simp only [upd, hk, if_false]; exact h.link k i
      · rename_i e' i m he
        simp only [Option.some.injEq] at hs
        subst hs
        have hl := (attempt_log he).1
        refine { h with e := fun k => ?_, link := fun k i' => ?_ }
        · by_cases hk : k = j
          · subst hk; simp only [upd, if_true]; exact (h.e k).attempt hr he
          · simp only [upd, hk, if_false]; exact h.e k
        · by_cases hk : k = j
          · subst hk
            simp only [upd, if_true, hl, from_append, from_single]
            by_cases hi : i' = i
            · subst hi; simp only [if_true]; rw [h.link k i', List.append_assoc]
            · have : ¬ i = i' := fun hh => hi hh.symm
              simp only [hi, this, if_false, List.append_nil]; exact h.link k i'
          · simp only [upd, hk, if_false]; exact h.link k i'
    · simp at hs
  | g i =>
    simp only [astep] at hs
    split at hs
    · split at hs
      · simp at hs
      · rename_i g' hg
        simp only [Option.some.injEq] at hs
        subst hs
        obtain ⟨e1, _, _, _, _, _, e7⟩ := (attempt_got hg).1 rfl
        refine { h with g := fun k => ?_, kind := fun k => ?_, link := fun j k => ?_ }
        · by_cases hk : k = i
          · subst hk; simp only [updG_same]; exact (h.g k).attempt hg
          · simp only [updG_ne _ _ hk]; exact h.g k
        · by_cases hk : k = i
          · subst hk
            simp only [updG_same]
            exact ⟨fun hh => by rw [e7]; exact (h.kind k).nf (by rw [← e1]; exact hh)⟩
          · simp only [updG_ne _ _ hk]; exact h.kind k
        · by_cases hk : k = i
          · subst hk; simp only [updG_same, e1]; exact h.link j k
          · simp only [updG_ne _ _ hk]; exact h.link j k
      · rename_i g' j hg
        simp only [Option.some.injEq] at hs
        subst hs
        obtain ⟨m, hm, rfl, _, _, _⟩ := (attempt_got hg).2 j rfl
        refine { h with g := fun k => ?_, kind := fun k => ?_, link := fun j' k => ?_ }
        · by_cases hk : k = i
          · subst hk; simp only [updG_same]; exact (h.g k).attempt hg
          · simp only [updG_ne _ _ hk]; exact h.g k
        · by_cases hk : k = i
          · subst hk; simp only [updG_same]; exact (h.kind k).handle j m
          · simp only [updG_ne _ _ hk]; exact h.kind k
        · by_cases hk : k = i
          · subst hk
            simp only [updG_same, (G.handle_fields nl (s.g k) j m).1, from_append, from_single]
            by_cases hj : j' = j
            · subst hj
              simp only [upd, if_true]
              rw [h.link j' k]
              cases hc : s.ch j' k with
              | nil => rw [hc] at hm; simp at hm
              | cons x xs => rw [hc] at hm; simp at hm; subst hm; simp
            · have : ¬ j = j' := fun hh => hj hh.symm
              simp only [upd, hj, this, if_false, List.append_nil]; exact h.link j' k
          · simp only [updG_ne _ _ hk]
            by_cases hj : j' = j
            · subst hj; simp only [upd, if_true, hk, if_false]; exact h.link j' k
            · simp only [upd, hj, if_false]; exact h.link j' k
    · simp at hs

theorem AInv.reach (hr : 0 < nr) {cmds : Nat → List (Cmd D)} {s : A D c}
    (h : Reach (astep nl nr cap) (A.start c cmds) s) : AInv nl nr cmds s :=
  h.inv (AInv.start nl nr c cmds) (fun _ _ _ h hs => h.step hr hs)

theorem AEnd.reach (hl : 0 < nl) (hc : ∀ i, StaysOn (c i)) {cmds : Nat → List (Cmd D)} {s : A D c}
    (h : Reach (astep nl nr cap) (A.start c cmds) s) (i : Nat) : GEnd nl (s.g i) := by
  refine h.inv (Inv := fun s : A D c => ∀ i, GEnd nl (s.g i)) (fun i => GEnd.start hl (c i)) ?_ i
  intro s a s' h hs
  cases a with
  | e j =>
    simp only [astep] at hs
    split at hs
    · split at hs <;> simp only [Option.some.injEq, reduceCtorEq] at hs <;> subst hs <;> exact h
    · simp at hs
  | g i =>
    simp only [astep] at hs
    split at hs
    · split at hs
      · simp at hs
      all_goals
        rename_i hg
        simp only [Option.some.injEq] at hs
        subst hs
        intro k
        by_cases hk : k = i
        · subst hk; simp only [updG_same]; exact (h k).attempt (hc k) hg
        · simp only [updG_ne _ _ hk]; exact h k
    · simp at hs

/-- **C27, no loss, no duplication, order**: at any moment, what right node `i` has received from left
node `j`, followed by what is in the queue between them, is exactly what left node `j` has put for
`i`, in the order in which it was put. -/
theorem C27_no_loss (hr : 0 < nr) {cmds : Nat → List (Cmd D)} {s : A D c}
    (h : Reach (astep nl nr cap) (A.start c cmds) s) (j i : Nat) :
    from_ (s.e j).log i = from_ (s.g i).got j ++ s.ch j i :=
  (AInv.reach hr h).link j i

variable {us : Nat → List (Cmd D)} {s : A D c}

theorem AInv.got_fits (hu : ∀ j, UserCmds nr (us j))
    (h : AInv nl nr (fun j => us j ++ [.bcast .eos]) s) (j i : Nat) :
    ∀ m ∈ from_ (s.g i).got j, m.isData = true ∨ m = .eos := fun m hm =>
  (h.e j).fits (hu j) i m (by rw [h.link j i]; exact List.mem_append_left _ hm)

theorem AInv.no_nf (hu : ∀ j, UserCmds nr (us j))
    (h : AInv nl nr (fun j => us j ++ [.bcast .eos]) s) (i : Nat) : (s.g i).neosnf = 0 := by
  apply (h.kind i).nf
  rintro ⟨j, m⟩ hx
  rcases h.got_fits hu j i m (mem_from.2 hx) with h | h
  · rintro hm
    have hm' : m = .eosnf := hm
    subst hm'
    simp [Msg.isData] at h
  · intro hm
    have hm' : m = .eosnf := hm
    rw [hm'] at h; simp at h

theorem AInv.clean (hu : ∀ j, UserCmds nr (us j))
    (h : AInv nl nr (fun j => us j ++ [.bcast .eos]) s) (i : Nat) : Clean (s.g i).got := by
  rintro ⟨j, m⟩ hx
  have := h.got_fits hu j i m (mem_from.2 hx)
  refine ⟨?_, ?_⟩ <;> rintro rfl <;> simp [Msg.isData] at this

/-- **C27, when a right node ends**: exactly when it has received the `EOS` of every left node. -/
theorem C27_ends_iff (hl : 0 < nl) (hr : 0 < nr) (hc : ∀ i, StaysOn (c i))
    (hu : ∀ j, UserCmds nr (us j))
    (h : Reach (astep nl nr cap) (A.start c (fun j => us j ++ [.bcast .eos])) s) (i : Nat) :
    (s.g i).exited = true ↔ ∀ j, j < nl → (j, Msg.eos) ∈ (s.g i).got := by
  have hi := AInv.reach hr h
  have hend := AEnd.reach hl hc h i
  have hcnt := (hi.g i).count
  have hnf := hi.no_nf hu i
  have hoff : ∀ j, (s.g i).offline j = true ↔ (j, Msg.eos) ∈ (s.g i).got := by
    intro j
    rw [(hi.g i).off j]
    constructor
    · rintro ⟨m, hm, hm'⟩
      rcases hi.got_fits hu j i m hm' with h1 | rfl
      · cases m <;> simp [Msg.isData, Msg.isMark] at h1 hm
      · exact mem_from.1 hm'
    · intro hm
      exact ⟨.eos, rfl, mem_from.2 hm⟩
  constructor
  · intro hx j hj
    have h1 := (hend.exit (hi.clean hu i)).1 hx
    have h2 := offCount_le nl (s.g i).offline
    exact (hoff j).1 (offCount_eq (by omega) j hj)
  · intro hall
    have := offCount_all (n := nl) fun j hj => (hoff j).2 (hall j hj)
    exact (hend.exit (hi.clean hu i)).2 (by omega)

theorem perm_part {k i : Nat} {g r : List (Nat × Msg D)}
    (h : (g ++ r).Perm ((List.range k).map fun j => (j, Msg.eos))) :
    from_ g i = [] ∨ from_ g i = [.eos] := by
  have hp : (from_ (g ++ r) i).Perm (from_ ((List.range k).map fun j => (j, (Msg.eos : Msg D))) i) := by
    unfold from_
    exact (h.filter _).map _
  have he : from_ ((List.range k).map fun j => (j, (Msg.eos : Msg D))) i = [] ∨
      from_ ((List.range k).map fun j => (j, (Msg.eos : Msg D))) i = [.eos] := by
    by_cases hi : i < k
    · exact Or.inr (perm_eos (List.Perm.refl _) hi)
    · left
      unfold from_
      rw [List.map_eq_nil_iff, List.filter_eq_nil_iff]
      rintro ⟨j, m⟩ hm
      simp only [List.mem_map, List.mem_range, Prod.mk.injEq] at hm
      obtain ⟨a, ha, rfl, _⟩ := hm
      simp only [decide_eq_true_eq]
      intro hh
      have : a = i := by simpa using hh
      omega
  rw [from_append] at hp
  rcases he with he | he
  · rw [he] at hp
    have := List.perm_nil.1 hp
    exact Or.inl (List.append_eq_nil_iff.1 this).1
  · rw [he] at hp
    have := List.perm_singleton.1 hp
    cases hg : from_ g i with
    | nil => exact Or.inl rfl
    | cons x xs =>
      rw [hg] at this
      simp only [List.cons_append, List.cons.injEq, List.append_eq_nil_iff] at this
      right; rw [this.1, this.2.1]

/-- `EOS` is put last -/
theorem EInv.eos_last {n : Nat} {us : List (Cmd D)} (hu : UserCmds n us) {e : E D}
    (h : EInv n (us ++ [.bcast .eos]) e) (i : Nat) : upTo (from_ e.log i) = from_ e.log i := by
  obtain ⟨l, g, h1, h2, h3⟩ := h.log
  have hone : ∀ (l : List (Nat × Msg D)) (g : List (Nat × Msg D)),
      AllData (from_ l i) → (from_ g i = [] ∨ from_ g i = [.eos]) →
      upTo (from_ (l ++ g) i) = from_ (l ++ g) i := by
    intro l g hl hg
    rw [from_append, upTo_data hl]
    rcases hg with hg | hg <;> rw [hg] <;> rfl
  by_cases hcur : e.pc.cur ++ e.cmds = []
  · rw [List.append_eq_nil_iff] at hcur
    have hc := h.cmds
    rw [hcur.1, hcur.2, List.append_nil, List.append_nil] at hc
    rw [hc] at h2
    have hg : g = [] := by
      cases hp : e.pc <;> rw [hp] at hcur h3 <;> simp [EPc.cur] at hcur
      exact h3
    subst hg
    obtain ⟨l1, l2, rfl, h4, g2, l3, rfl, h5, h6⟩ := h2.append_inv
    simp only [Explains] at h6
    subst h6
    rw [h1, List.append_nil, List.append_nil]
    refine hone _ _ ?_ (perm_part (r := []) (by rw [List.append_nil]; exact h5))
    intro m hm
    obtain ⟨c, hc, rfl⟩ := h4.mem (mem_from.1 hm)
    exact hu.data c hc
  · have hne := no_eos_before hu h h2 hcur
    have hl : AllData (from_ l i) := by
      intro m hm
      rcases h.fits hu i m (by rw [h1, from_append]; exact List.mem_append_left _ hm) with h | rfl
      · exact h
      · exact absurd (mem_from.1 hm) (hne i)
    rw [h1]
    have hbc : ∀ m, (∃ k r, (g ++ r).Perm ((List.range k).map fun j => (j, m))) →
        Cmd.bcast m ∈ e.pc.cur → upTo (from_ (l ++ g) i) = from_ (l ++ g) i := by
      rintro m ⟨k, r, hp⟩ hmem
      have hmem' : Cmd.bcast m ∈ us ++ [Cmd.bcast .eos] := by
        rw [← h.cmds]; simp [hmem]
      rcases List.mem_append.1 hmem' with hm | hm
      · have hd : m.isData = true := hu.data _ hm
        have : AllData (from_ (l ++ g) i) := by
          rw [from_append]
          refine hl.append ?_
          intro x hx
          have := hp.mem_iff.1 (List.mem_append_left _ (mem_from.1 hx))
          simp only [List.mem_map, Prod.mk.injEq] at this
          obtain ⟨_, _, _, rfl⟩ := this
          exact hd
        have h9 := upTo_data this []
        simpa [upTo] using h9
      · simp only [List.mem_singleton, Cmd.bcast.injEq] at hm
        subst hm
        exact hone _ _ hl (perm_part hp)
    cases hp : e.pc with
    | bc1 m k retry =>
      rw [hp] at h3
      exact hbc m ⟨k, _, h3.2⟩ (by rw [hp]; simp [EPc.cur])
    | bc2 m retry =>
      rw [hp] at h3
      exact hbc m ⟨n, _, h3⟩ (by rw [hp]; simp [EPc.cur])
    | idle => rw [hp] at h3; simp only [PartOk] at h3; subst h3; exact hone _ _ hl (Or.inl rfl)
    | sched m => rw [hp] at h3; simp only [PartOk] at h3; subst h3; exact hone _ _ hl (Or.inl rfl)
    | to k m => rw [hp] at h3; simp only [PartOk] at h3; subst h3; exact hone _ _ hl (Or.inl rfl)

/-- **C27, nothing is missing when a right node ends**: it has received everything that any left node
put for it, and nothing more will be put. -/
theorem C27_all_received (hl : 0 < nl) (hr : 0 < nr) (hc : ∀ i, StaysOn (c i))
    (hu : ∀ j, UserCmds nr (us j))
    (h : Reach (astep nl nr cap) (A.start c (fun j => us j ++ [.bcast .eos])) s) (i : Nat)
    (hx : (s.g i).exited = true) (j : Nat) (hj : j < nl) :
    from_ (s.g i).got j = from_ (s.e j).log i ∧ s.ch j i = [] := by
  have hi := AInv.reach hr h
  have hm := (C27_ends_iff hl hr hc hu h i).1 hx j hj
  have he := prefix_mark (xs := from_ (s.g i).got j) ⟨_, (hi.link j i).symm⟩
    ⟨.eos, mem_from.2 hm, rfl⟩ ((hi.e j).eos_last (hu j) i)
  refine ⟨he, ?_⟩
  have := hi.link j i
  rw [he] at this
  exact List.append_right_eq_self.1 this.symm

/-! ## Completion -/

def A.work (nl nr : Nat) (s : A D c) : Nat × Nat :=
  (sumN (fun j => (s.e j).todo nr) nl, sumN (fun j => sumN (fun i => (s.ch j i).length) nr) nl)

def Less2 : Nat × Nat → Nat × Nat → Prop := Prod.Lex (· < ·) (· < ·)

theorem Less2.wf : WellFounded Less2 := (inferInstance : WellFoundedRelation (Nat × Nat)).wf

/-- the two states differ only in the cursors of the nodes -/
def A.Same (s s' : A D c) : Prop :=
  s'.ch = s.ch ∧ (∀ j, (s'.e j).pc = (s.e j).pc ∧ (s'.e j).cmds = (s.e j).cmds ∧
    (s'.e j).log = (s.e j).log) ∧ (∀ i, (s'.g i).got = (s.g i).got ∧ (s'.g i).out = (s.g i).out ∧
    (s'.g i).exited = (s.g i).exited)

/-- **C27, no endless activity**: every action decreases the remaining work, or is a refused attempt
that moves a round-robin cursor and nothing else. -/
theorem C27_progress_or_refused {s s' : A D c} {a : AAct} (hs : astep nl nr cap s a = some s')  :
    Less2 (s'.work nl nr) (s.work nl nr) ∨ s.Same s' := by
  cases a with
  | e j =>
    simp only [astep] at hs
    split at hs
    · rename_i hj
      split at hs
      · simp at hs
      · rename_i e' he
        simp only [Option.some.injEq] at hs
        subst hs
        rcases E.attempt_todo he with h | ⟨_, h1, h2, h3, _⟩
        · left
          refine Prod.Lex.left _ _ (sumN_lt hj ?_ fun k hk => ?_)
          · simpa [upd] using h
          · simp [upd, hk]
        · right
          refine ⟨rfl, fun k => ?_, fun i => ⟨rfl, rfl, rfl⟩⟩
          by_cases hk : k = j
          · subst hk; simp only [upd, if_true]; exact ⟨h1, h2, h3⟩
          · simp [upd, hk]
      · rename_i e' i m he
        simp only [Option.some.injEq] at hs
        subst hs
        rcases E.attempt_todo he with h | ⟨h, _⟩
        · left
          refine Prod.Lex.left _ _ (sumN_lt hj ?_ fun k hk => ?_)
          · simpa [upd] using h
          · simp [upd, hk]
        · simp at h
    · simp at hs
  | g i =>
    simp only [astep] at hs
    split at hs
    · rename_i hi
      split at hs
      · simp at hs
      · rename_i g' hg
        simp only [Option.some.injEq] at hs
        subst hs
        obtain ⟨e1, e2, e3, _⟩ := (attempt_got hg).1 rfl
        right
        refine ⟨rfl, fun j => ⟨rfl, rfl, rfl⟩, fun k => ?_⟩
        by_cases hk : k = i
        · subst hk; simp only [updG_same]; exact ⟨e1, e3, e2⟩
        · simp only [updG_ne _ _ hk]; exact ⟨trivial, trivial, trivial⟩
      · rename_i g' j hg
        simp only [Option.some.injEq] at hs
        subst hs
        obtain ⟨m, hm, rfl, _, hj, _⟩ := (attempt_got hg).2 j rfl
        left
        refine Prod.Lex.right _ (sumN_lt hj (sumN_lt hi ?_ fun k hk => ?_) fun k hk => ?_)
        · cases hq : s.ch j i with
          | nil => rw [hq] at hm; simp at hm
          | cons x xs => simp [upd, hq]
        · simp [upd, hk]
        · simp [upd, hk]
    · simp at hs

theorem a2a_finds {i t : Nat} (hi : i < nr) (ht : t < nl) (hx : (s.g i).exited = false)
    (ho : (s.g i).offline t = false) (hq : s.ch t i ≠ []) :
    ∃ s', Reach (astep nl nr cap) s s' ∧ Less2 (s'.work nl nr) (s.work nl nr) := by
  obtain ⟨d, hd, hdt⟩ := round_mem (s.g i).nextr1 ht
  induction d using Nat.strongRecOn generalizing s with
  | ind d ih =>
    obtain ⟨k, hk, hsel⟩ := selectAux_le (off := (s.g i).offline) d hd (by rw [hdt]; exact ho)
    have hsel' : select nl (s.g i).offline (s.g i).nextr1 = some (((s.g i).nextr1 + k) % nl) := hsel
    have hatt : (s.g i).attempt nl (fun j => (s.ch j i).head?) =
        match (s.ch (((s.g i).nextr1 + k) % nl) i).head? with
        | none => some ({ s.g i with nextr1 := ((s.g i).nextr1 + k) % nl + 1 }, none)
        | some m => some (G.handle nl (s.g i) (((s.g i).nextr1 + k) % nl) m,
            some (((s.g i).nextr1 + k) % nl)) := by
      rw [G.attempt, hsel', if_neg (by simp [hx])]
      rfl
    cases hh : s.ch (((s.g i).nextr1 + k) % nl) i with
    | cons m ms =>
      rw [hh] at hatt
      simp only [List.head?_cons] at hatt
      have hs : ∃ s', astep nl nr cap s (.g i) = some s' ∧ ¬ s.Same s' := by
        simp only [astep, hatt, if_pos hi]
        refine ⟨_, rfl, fun hsame => ?_⟩
        have := congrFun (congrFun hsame.1 (((s.g i).nextr1 + k) % nl)) i
        simp [upd, hh] at this
      obtain ⟨s', hs, hns⟩ := hs
      rcases C27_progress_or_refused hs with h | h
      · exact ⟨s', (Reach.refl _ _).tail hs, h⟩
      · exact absurd h hns
    | nil =>
      rw [hh] at hatt
      simp only [List.head?_nil] at hatt
      have hkd : k ≠ d := by
        rintro rfl
        rw [hdt] at hh; exact hq hh
      have hs : astep nl nr cap s (.g i) = some { s with
          g := updG s.g i { s.g i with nextr1 := ((s.g i).nextr1 + k) % nl + 1 } } := by
        simp only [astep, hatt, if_pos hi]
      obtain ⟨s2, hr, hl⟩ := ih (d - k - 1) (by omega)
        (s := { s with g := updG s.g i { s.g i with nextr1 := ((s.g i).nextr1 + k) % nl + 1 } })
        (by simp only [updG_same]; exact hx) (by simp only [updG_same]; exact ho) hq (by omega) (by
          simp only [updG_same]
          rw [show ((s.g i).nextr1 + k) % nl + 1 + (d - k - 1) = ((s.g i).nextr1 + k) % nl + (d - k)
            by omega]
          rw [Nat.add_mod, Nat.mod_mod, ← Nat.add_mod,
            show (s.g i).nextr1 + k + (d - k) = (s.g i).nextr1 + d by omega]
          exact hdt)
      exact ⟨s2, ((Reach.refl _ _).tail hs).trans hr, hl⟩

/-- everything has finished -/
def A.Final (nl nr : Nat) (s : A D c) : Prop :=
  (∀ j, j < nl → (s.e j).pc = .idle ∧ (s.e j).cmds = []) ∧ ∀ i, i < nr → (s.g i).exited = true

theorem a2a_progress (hl : 0 < nl) (hr : 0 < nr) (hcap : ∀ j i, j < nl → i < nr → 0 < cap j i)
    (hc : ∀ i, StaysOn (c i)) (hu : ∀ j, UserCmds nr (us j))
    (h : Reach (astep nl nr cap) (A.start c (fun j => us j ++ [.bcast .eos])) s)
    (hf : ¬ s.Final nl nr) :
    ∃ s', Reach (astep nl nr cap) s s' ∧ Less2 (s'.work nl nr) (s.work nl nr) := by
  have hi := AInv.reach hr h
  have honline : ∀ i j, j < nl → (s.g i).offline j = false → (s.g i).exited = false := by
    intro i j hj ho
    cases hx : (s.g i).exited with
    | false => rfl
    | true =>
      have hm := (C27_ends_iff hl hr hc hu h i).1 hx j hj
      have := ((hi.g i).off j).2 ⟨.eos, rfl, mem_from.2 hm⟩
      rw [ho] at this; simp at this
  by_cases hA : ∃ i t, i < nr ∧ t < nl ∧ (s.g i).offline t = false ∧ s.ch t i ≠ []
  · obtain ⟨i, t, h1, h2, h3, h4⟩ := hA
    exact a2a_finds h1 h2 (honline i t h2 h3) h3 h4
  have hA' : ∀ i t, i < nr → t < nl → (s.g i).offline t = false → s.ch t i = [] :=
    fun i t h1 h2 h3 => Classical.byContradiction fun hq => hA ⟨i, t, h1, h2, h3, hq⟩
  by_cases hB : ∃ j, j < nl ∧ ¬ ((s.e j).pc = .idle ∧ (s.e j).cmds = [])
  · obtain ⟨j, hj, hD⟩ := hB
    obtain ⟨e', o, hatt, htodo⟩ := (hi.e j).can_put hr (hu j) hD
      (full := fun i => decide (cap j i ≤ (s.ch j i).length)) (by
        intro i hi' hne
        have ho : (s.g i).offline j = false := by
          cases hoo : (s.g i).offline j with
          | false => rfl
          | true =>
            obtain ⟨m, hm, hm'⟩ := ((hi.g i).off j).1 hoo
            exfalso
            apply hne
            rcases hi.got_fits hu j i m hm' with h1 | rfl
            · cases m <;> simp [Msg.isData, Msg.isMark] at h1 hm
            · rw [← mem_from, hi.link j i]; exact List.mem_append_left _ hm'
        rw [hA' i j hi' hj ho]
        have := hcap j i hj hi'
        simp only [List.length_nil, decide_eq_false_iff_not]
        omega)
    have hs : ∃ s', astep nl nr cap s (.e j) = some s' ∧ s'.e = upd s.e j e' := by
      simp only [astep, hatt, if_pos hj]
      cases o with
      | none => exact ⟨_, rfl, rfl⟩
      | some p => exact ⟨_, rfl, rfl⟩
    obtain ⟨s', hs, he⟩ := hs
    refine ⟨s', (Reach.refl _ _).tail hs, Prod.Lex.left _ _ ?_⟩
    rw [he]
    refine sumN_lt hj ?_ fun k hk => ?_
    · simpa [upd] using htodo
    · simp [upd, hk]
  have hB' : ∀ j, j < nl → (s.e j).pc = .idle ∧ (s.e j).cmds = [] := fun j hj =>
    Classical.byContradiction fun hq => hB ⟨j, hj, hq⟩
  exfalso
  apply hf
  refine ⟨hB', fun i hir => ?_⟩
  rw [C27_ends_iff hl hr hc hu h i]
  intro j hj
  have hlog : (i, Msg.eos) ∈ (s.e j).log := by
    obtain ⟨l, g, h1, h2, h3⟩ := (hi.e j).log
    have hdn : (s.e j).dn = us j ++ [.bcast .eos] := by
      have := (hi.e j).cmds
      rw [(hB' j hj).1, (hB' j hj).2] at this
      simpa [EPc.cur] using this
    rw [hdn] at h2
    obtain ⟨l1, l2, rfl, _, g2, l3, rfl, h5, _⟩ := h2.append_inv
    have : (i, (Msg.eos : Msg D)) ∈ g2 := h5.mem_iff.2 (by simp [hir])
    rw [h1]; simp [this]
  cases ho : (s.g i).offline j with
  | true =>
    obtain ⟨m, hm, hm'⟩ := ((hi.g i).off j).1 ho
    rcases hi.got_fits hu j i m hm' with h1 | rfl
    · cases m <;> simp [Msg.isData, Msg.isMark] at h1 hm
    · exact mem_from.1 hm'
  | false =>
    have h7 := mem_from.2 hlog
    rw [hi.link j i, hA' i j hir hj ho, List.append_nil] at h7
    exact mem_from.1 h7

/-- **C27, completion**: from every reachable state of an all-to-all, with queues of capacity at least
one, the state where all the nodes have finished is reachable; there every left node's commands have
been executed (`Explains`) and every right node has received, from every left node, exactly and in
order what that node put for it. -/
theorem C27_completes (hl : 0 < nl) (hr : 0 < nr) (hcap : ∀ j i, j < nl → i < nr → 0 < cap j i)
    (hc : ∀ i, StaysOn (c i)) (hu : ∀ j, UserCmds nr (us j))
    (h : Reach (astep nl nr cap) (A.start c (fun j => us j ++ [.bcast .eos])) s) :
    ∃ s', Reach (astep nl nr cap) s s' ∧ s'.Final nl nr ∧
      (∀ j, j < nl → Explains nr (us j ++ [.bcast .eos]) (s'.e j).log) ∧
      ∀ i j, i < nr → j < nl → from_ (s'.g i).got j = from_ (s'.e j).log i := by
  have key : ∀ (x : Nat × Nat) (s : A D c), s.work nl nr = x →
      Reach (astep nl nr cap) (A.start c (fun j => us j ++ [.bcast .eos])) s →
      ∃ s', Reach (astep nl nr cap) s s' ∧ s'.Final nl nr := by
    intro x
    induction x using Less2.wf.induction with
    | _ x ih =>
      intro s hx hreach
      by_cases hf : s.Final nl nr
      · exact ⟨s, Reach.refl _ _, hf⟩
      · obtain ⟨s1, h1, h2⟩ := a2a_progress hl hr hcap hc hu hreach hf
        rw [hx] at h2
        obtain ⟨s2, h3, h4⟩ := ih _ h2 s1 rfl (hreach.trans h1)
        exact ⟨s2, h1.trans h3, h4⟩
  obtain ⟨s', h1, h2⟩ := key _ s rfl h
  have hr' := h.trans h1
  refine ⟨s', h1, h2, ?_, fun i j hi hj => (C27_all_received hl hr hc hu hr' i (h2.2 i hi) j hj).1⟩
  intro j hj
  have hi := AInv.reach hr hr'
  obtain ⟨l, g, h3, h4, h5⟩ := (hi.e j).log
  have hcm := (hi.e j).cmds
  rw [(h2.1 j hj).1, (h2.1 j hj).2] at hcm
  rw [(h2.1 j hj).1] at h5
  simp only [PartOk] at h5
  subst h5
  rw [h3, List.append_nil]
  rw [show (s'.e j).dn = us j ++ [.bcast .eos] by simpa [EPc.cur] using hcm] at h4
  exact h4

end

-- a complete run with two left and two right nodes and queues of capacity 1
example : ∃ s : A Nat (fun _ => accNode), Reach (astep 2 2 (fun _ _ => 1))
    (A.start _ fun j => [Cmd.sendTo 1 (Msg.data (10 * j + 1))] ++ [.bcast .eos]) s ∧ s.Final 2 2 ∧
    (s.g 1).out = [.data 1, .data 12, .eos] ∧ (s.g 0).out = [.eos] := by
  refine ⟨_, ⟨[.e 0, .e 0, .e 1, .e 1, .g 1, .g 1, .e 0, .e 0, .e 0, .e 0, .e 0, .e 1, .e 1, .e 1, .e 1,
    .e 1, .g 1, .g 1, .g 0, .g 0], rfl⟩, ⟨?_, ?_⟩, rfl, rfl⟩
  · intro j hj
    match j, hj with
    | 0, _ => exact ⟨rfl, rfl⟩
    | 1, _ => exact ⟨rfl, rfl⟩
  · intro i hi
    match i, hi with
    | 0, _ => rfl
    | 1, _ => rfl

end FF.Farm
