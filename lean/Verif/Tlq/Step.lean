import Verif.Tlq.Inv
/-!
# C68: every step keeps the invariant
-/
namespace FF.Tlq
open FF
open FF.Msq (Ev Doing doing replay Linked)

variable {cap n : Nat} {s s' : S} {ch ch' : List Addr} {t : Nat} {p : Pc}

def Pc.late : Pc → Bool
  | .pTail _ => true
  | _ => false

theorem late_iff {p : Pc} : p.late = false ↔ ∀ a, p ≠ .pTail a := by
  cases p <;> simp [Pc.late]

/-! ## Consequences of the invariant -/

theorem Mem.chNodup (h : Mem cap n s ch) : ch.Nodup := (List.nodup_append.1 h.nodup).2.1

theorem Mem.liveL (h : Mem cap n s ch) {a : Addr} (ha : a ∈ ch) : s.live a = true :=
  (h.live a).2 (List.mem_append_right _ ha)

theorem Mem.liveO (h : Mem cap n s ch) {u : Nat} {a : Addr} (hu : u < n) (ha : (s.pc u).own = some a) :
    s.live a = true :=
  (h.live a).2 (List.mem_append_left _ (List.mem_append_left _ (mem_owners.2 ⟨u, hu, ha⟩)))

theorem Mem.own_ch (h : Mem cap n s ch) {u : Nat} {a : Addr} (hu : u < n) (ha : (s.pc u).own = some a) :
    a ∉ ch := fun hc =>
  (List.nodup_append.1 h.nodup).2.2 a (List.mem_append_left _ (mem_owners.2 ⟨u, hu, ha⟩)) a hc rfl

theorem Mem.own_ne (h : Mem cap n s ch) {u v : Nat} {a b : Addr} (hu : u < n) (hv : v < n) (hne : v ≠ u)
    (ha : (s.pc u).own = some a) (hb : (s.pc v).own = some b) : b ≠ a := by
  intro he
  subst he
  obtain ⟨rest, -, h2, h3⟩ := owners_split n s.pc hu
  have hr := h3 v b hv hne hb
  have hnd := (List.nodup_append.1 (List.nodup_append.1 h.nodup).1).1
  rw [h2.nodup_iff, ha] at hnd
  simp only [Option.toList_some, List.singleton_append, List.nodup_cons] at hnd
  exact hnd.1 hr

/-- what is behind `head` is in the list -/
theorem Mem.succ (h : Mem cap n s ch) {x : Addr} (hx : s.next s.head = some x) :
    ∃ c, ch = s.head :: x :: c := by
  have hd := h.hd
  have hl := h.linked
  match ch, hd, hl with
  | [a], hd, hl =>
    simp only [List.head?_cons, Option.some.injEq] at hd
    simp only [Linked] at hl
    rw [← hd, hl] at hx; simp at hx
  | a :: b :: c, hd, hl =>
    simp only [List.head?_cons, Option.some.injEq] at hd
    simp only [Linked] at hl
    rw [← hd, hl.1] at hx
    simp only [Option.some.injEq] at hx
    exact ⟨c, by rw [hd, hx]⟩

/-! ## What a step must keep -/

/-- The places of the nodes are permuted. -/
def Moves (n : Nat) (s : S) (ch : List Addr) (s' : S) (ch' : List Addr) (t : Nat) (p : Pc) : Prop :=
  s'.live = s.live ∧ (p.own.toList ++ s'.cache ++ ch').Perm ((s.pc t).own.toList ++ s.cache ++ ch)

theorem perm_mid {a b r x y : List Addr} (h : (a ++ x).Perm (b ++ y)) : (a ++ r ++ x).Perm (b ++ r ++ y) := by
  have h1 : (a ++ r ++ x).Perm (r ++ (a ++ x)) := by
    rw [List.append_assoc]
    exact (List.perm_append_comm_assoc a r x)
  have h2 : (b ++ r ++ y).Perm (r ++ (b ++ y)) := by
    rw [List.append_assoc]
    exact (List.perm_append_comm_assoc b r y)
  exact h1.trans ((List.Perm.append_left r h).trans h2.symm)

/-- the nodes of the new state, and those of the old one, apart from those of the other threads -/
theorem places (n : Nat) (pc : Nat → Pc) (ht : t < n) (p : Pc) :
    ∃ rest, (∀ x, (owners n (upd pc t p) ++ x).Perm (rest ++ (p.own.toList ++ x))) ∧
      ∀ x, (owners n pc ++ x).Perm (rest ++ ((pc t).own.toList ++ x)) := by
  obtain ⟨rest, h1, h2, -⟩ := owners_split n pc ht
  refine ⟨rest, fun x => ?_, fun x => ?_⟩
  · refine ((h1 p).append_right x).trans ?_
    rw [List.append_assoc]; exact List.perm_append_comm_assoc _ _ _
  · refine (h2.append_right x).trans ?_
    rw [List.append_assoc]; exact List.perm_append_comm_assoc _ _ _

theorem Moves.perm (ht : t < n) (hp : s'.pc = upd s.pc t p) (h : Moves n s ch s' ch' t p) :
    (owners n s'.pc ++ s'.cache ++ ch').Perm (owners n s.pc ++ s.cache ++ ch) := by
  obtain ⟨rest, h1, h2⟩ := places n s.pc ht p
  rw [hp, List.append_assoc, List.append_assoc]
  refine (h1 _).trans (List.Perm.trans ?_ (h2 _).symm)
  exact List.Perm.append_left _ (by simpa [List.append_assoc] using h.2)

/-- the facts of the other threads survive if the step does not touch their nodes -/
def Frame (s s' : S) (t : Nat) : Prop :=
  ∀ u, u ≠ t → (∀ a, (s.pc u).own = some a → s'.next a = s.next a ∧ s'.data a = s.data a) ∧
    ((s.pc u).inC = true → s'.head = s.head ∧
      ∀ x, s.next s.head = some x → s'.next s.head = some x ∧ s'.data x = s.data x)

theorem Frame.know (h : Mem cap n s ch) (f : Frame s s' t) (u : Nat) (hu : u ≠ t) : Know s' (s.pc u) := by
  have hk := h.know u
  obtain ⟨hn, hc⟩ := f u hu
  cases hpc : s.pc u <;> rw [hpc] at hk hn hc <;> simp only [Know] at hk ⊢
  · rw [(hn _ rfl).2]; exact hk
  · rw [(hn _ rfl).1, (hn _ rfl).2]; exact hk
  · rw [(hn _ rfl).1, (hn _ rfl).2]; exact hk
  · obtain ⟨h1, h2⟩ := hc rfl
    cases hx : s.next s.head with
    | none => exact absurd hx hk
    | some x => rw [h1, (h2 x hx).1]; simp
  · obtain ⟨h1, h2⟩ := hc rfl
    obtain ⟨e, x, hx, hdx⟩ := hk
    exact ⟨by rw [h1]; exact e, x, by rw [h1]; exact (h2 x hx).1, by rw [(h2 x hx).2]; exact hdx⟩

theorem know_step (hp : s'.pc = upd s.pc t p) (hk : Know s' p)
    (ho : ∀ u, u ≠ t → Know s' (s.pc u)) (u : Nat) : Know s' (s'.pc u) := by
  rw [hp]
  by_cases hu : u = t
  · subst hu; simpa using hk
  · rw [upd_other _ _ hu]; exact ho u hu

/-- `tail` and the end of the list, for steps of other kinds than the two assignments of a push -/
theorem late_step (hp : s'.pc = upd s.pc t p) (hl : (s.pc t).late = false) (hl' : p.late = false)
    (htl : s'.tail = s.tail) (hch : ch'.getLast? = ch.getLast?) (h : Mem cap n s ch) :
    (∀ u a, s'.pc u = .pTail a → ch'.getLast? = some a) ∧
    ((∀ u a, s'.pc u ≠ .pTail a) → ch'.getLast? = some s'.tail) := by
  have hpt : ∀ u a, s'.pc u = .pTail a ↔ s.pc u = .pTail a := by
    intro u a
    rw [hp]
    by_cases hu : u = t
    · subst hu
      simp only [upd_same]
      exact ⟨fun hh => absurd hh (late_iff.1 hl' a), fun hh => absurd hh (late_iff.1 hl a)⟩
    · rw [upd_other _ _ hu]
  refine ⟨fun u a hu => ?_, fun hu => ?_⟩
  · rw [hch]; exact h.late u a ((hpt u a).1 hu)
  · rw [hch, htl]; exact h.tl fun u a hh => hu u a ((hpt u a).2 hh)

theorem Inv.idle (h : Inv cap n s ch) (ht : t < n) (hp : s'.pc = upd s.pc t p) (u : Nat) (hu : n ≤ u) :
    s'.pc u = .idle := by
  rw [hp, upd_other _ _ (by omega)]; exact h.out u hu

/-- What has to be shown of a step, apart from the allocations. -/
theorem Inv.mk' (h : Inv cap n s ch) (ht : t < n) (hp : s'.pc = upd s.pc t p)
    (linked : Linked s'.next ch') (hd : ch'.head? = some s'.head)
    (late : (∀ u a, s'.pc u = .pTail a → ch'.getLast? = some a) ∧
      ((∀ u a, s'.pc u ≠ .pTail a) → ch'.getLast? = some s'.tail))
    (ccap : s'.cache.length ≤ cap) (mv : Moves n s ch s' ch' t p) (hk : Know s' p) (f : Frame s s' t)
    (hP : Turn s.P s'.P (s.pc t).inP p.inP t) (hC : Turn s.C s'.C (s.pc t).inC p.inC t)
    (hT : Tells s s' t p) (hr : replay s'.full = some (ch'.tail.map s'.data)) : Inv cap n s' ch' := by
  have hperm := mv.perm ht hp
  refine ⟨⟨linked, hd, late.1, late.2, ccap, hperm.nodup_iff.2 h.m.nodup, fun a => ?_,
    know_step hp hk (f.know h.m)⟩, h.l.step hp hP hC, h.h.step hp hT, hr, h.idle ht hp⟩
  rw [hperm.mem_iff, mv.1]; exact h.m.live a

/-! ## Steps that leave the memory alone -/

def SameMem (s s' : S) : Prop :=
  s'.next = s.next ∧ s'.data = s.data ∧ s'.live = s.live ∧ s'.head = s.head ∧ s'.tail = s.tail ∧
    s'.cache = s.cache

theorem SameMem.frame (hm : SameMem s s') : Frame s s' t := by
  obtain ⟨h1, h2, h3, h4, h5, h6⟩ := hm
  intro u _
  refine ⟨fun a _ => by rw [h1, h2]; exact ⟨rfl, rfl⟩, fun _ => ⟨h4, fun x hx => ?_⟩⟩
  rw [h1, h2]; exact ⟨hx, rfl⟩

theorem Inv.quiet (h : Inv cap n s ch) (ht : t < n) (hp : s'.pc = upd s.pc t p) (hm : SameMem s s')
    (hl : (s.pc t).late = false) (hl' : p.late = false) (ho : p.own = (s.pc t).own) (hk : Know s' p)
    (hP : Turn s.P s'.P (s.pc t).inP p.inP t) (hC : Turn s.C s'.C (s.pc t).inC p.inC t)
    (hT : Tells s s' t p)
    (hr : s'.full = s.full ∨ ∃ e : Ev, s'.full = e :: s.full ∧
      e.apply (ch.tail.map s.data) = some (ch.tail.map s.data)) : Inv cap n s' ch := by
  have hf := hm.frame (t := t)
  obtain ⟨h1, h2, h3, h4, h5, h6⟩ := hm
  refine h.mk' ht hp (by rw [h1]; exact h.m.linked) (by rw [h4]; exact h.m.hd)
    (late_step hp hl hl' h5 rfl h.m) (by rw [h6]; exact h.m.ccap) ⟨h3, by rw [ho, h6]⟩ hk hf hP hC hT ?_
  rw [h2]
  rcases hr with hr | ⟨e, hr, ha⟩
  · rw [hr]; exact h.rep
  · rw [hr]; simp only [replay, h.rep, Option.bind_some]; exact ha

/-! ## Steps that change the memory -/

theorem Inv.aPop {v : Nat} {a : Addr} {c : List Addr}
    (h : Inv cap n s ch) (ht : t < n) (hpc : s.pc t = .aPop v) (hc : s.cache = a :: c) :
    Inv cap n { s with cache := c, pc := upd s.pc t (.aGot v a) } ch := by
  refine h.mk' (p := .aGot v a) ht rfl h.m.linked h.m.hd
    (late_step rfl (by rw [hpc]; rfl) rfl rfl rfl h.m) ?_ ⟨rfl, ?_⟩ trivial
    (fun u _ => ⟨fun _ _ => ⟨rfl, rfl⟩, fun _ => ⟨rfl, fun _ hx => ⟨hx, rfl⟩⟩⟩)
    (Or.inl ⟨rfl, by rw [hpc]; rfl⟩) (Or.inl ⟨rfl, by rw [hpc]; rfl⟩)
    (Or.inl ⟨rfl, rfl, by rw [hpc]; rfl⟩) h.rep
  · have := h.m.ccap; rw [hc] at this; simp at this; exact Nat.le_of_succ_le this
  · rw [hpc, hc]; simp [Pc.own]

theorem Inv.wData {v : Nat} {a : Addr} (h : Inv cap n s ch) (ht : t < n) (hpc : s.pc t = .wData v a) :
    Inv cap n { s with data := upd s.data a v, pc := upd s.pc t (.wNext v a) } ch := by
  have ho : (s.pc t).own = some a := by rw [hpc]; rfl
  have hac := h.m.own_ch ht ho
  refine h.mk' (p := .wNext v a) ht rfl h.m.linked h.m.hd
    (late_step rfl (by rw [hpc]; rfl) rfl rfl rfl h.m) h.m.ccap ⟨rfl, by rw [hpc]; simp [Pc.own]⟩ ?_ ?_
    (Or.inl ⟨rfl, by rw [hpc]; rfl⟩) (Or.inl ⟨rfl, by rw [hpc]; rfl⟩)
    (Or.inl ⟨rfl, rfl, by rw [hpc]; rfl⟩) ?_
  · simp [Know]
  · intro u hu
    refine ⟨fun b hb => ⟨rfl, upd_other _ _ ?_⟩, fun _ => ⟨rfl, fun x hx => ⟨hx, upd_other _ _ ?_⟩⟩⟩
    · have hun : u < n := Nat.lt_of_not_le fun hh => by rw [h.out u hh] at hb; simp [Pc.own] at hb
      exact h.m.own_ne ht hun hu ho hb
    · obtain ⟨c, hc⟩ := h.m.succ hx
      intro he; subst he; exact hac (by rw [hc]; simp)
  · show replay s.full = some (ch.tail.map (upd s.data a v))
    rw [h.rep]
    congr 1
    refine List.map_congr_left fun b hb => (upd_other _ _ ?_).symm
    intro he; subst he; exact hac (List.mem_of_mem_tail hb)

theorem Inv.wNext {v : Nat} {a : Addr} (h : Inv cap n s ch) (ht : t < n) (hpc : s.pc t = .wNext v a) :
    Inv cap n { s with next := upd s.next a none, pc := upd s.pc t (.pLock v a) } ch := by
  have ho : (s.pc t).own = some a := by rw [hpc]; rfl
  have hac := h.m.own_ch ht ho
  have hk := h.m.know t
  rw [hpc] at hk
  refine h.mk' (p := .pLock v a) ht rfl ?_ h.m.hd
    (late_step rfl (by rw [hpc]; rfl) rfl rfl rfl h.m) h.m.ccap ⟨rfl, by rw [hpc]; simp [Pc.own]⟩ ?_ ?_
    (Or.inl ⟨rfl, by rw [hpc]; rfl⟩) (Or.inl ⟨rfl, by rw [hpc]; rfl⟩)
    (Or.inl ⟨rfl, rfl, by rw [hpc]; rfl⟩) h.rep
  · refine h.m.linked.congr fun b hb => (upd_other _ _ ?_).symm
    intro he; subst he; exact hac hb
  · exact ⟨hk, by simp⟩
  · intro u hu
    refine ⟨fun b hb => ⟨upd_other _ _ ?_, rfl⟩, fun _ => ⟨rfl, fun x hx => ⟨?_, rfl⟩⟩⟩
    · have hun : u < n := Nat.lt_of_not_le fun hh => by rw [h.out u hh] at hb; simp [Pc.own] at hb
      exact h.m.own_ne ht hun hu ho hb
    · show upd s.next a none s.head = some x
      rw [upd_other _ _ (fun he => hac (by rw [← he]; exact h.m.head_mem))]; exact hx

/-- the thread that holds `P_lock` is the only one that can be between the two assignments -/
theorem Inv.tail_ok (h : Inv cap n s ch) (hP : (s.pc t).inP = true) (hl : (s.pc t).late = false) :
    ch.getLast? = some s.tail := by
  refine h.m.tl fun u a hu => ?_
  have h1 := (h.l.P t).1 hP
  have h2 := (h.l.P u).1 (by rw [hu]; rfl)
  rw [h1] at h2
  simp only [Option.some.injEq] at h2
  subst h2
  exact late_iff.1 hl a hu

theorem Inv.pLink {v : Nat} {a : Addr} (h : Inv cap n s ch) (ht : t < n) (hpc : s.pc t = .pLink v a) :
    Inv cap n { s with next := upd s.next s.tail (some a), pc := upd s.pc t (.pTail a)
                       full := .effPush t v :: s.full } (ch ++ [a]) := by
  have ho : (s.pc t).own = some a := by rw [hpc]; rfl
  have hac := h.m.own_ch ht ho
  have hk := h.m.know t
  rw [hpc] at hk
  obtain ⟨pre, hpre⟩ := getLast?_split (h.tail_ok (t := t) (by rw [hpc]; rfl) (by rw [hpc]; rfl))
  have hlast : s.next s.tail = none := linked_last (hpre ▸ h.m.linked)
  refine h.mk' (p := .pTail a) ht rfl ?_ ?_ ⟨fun u b hu => ?_, fun hu => absurd ?_ (hu t a)⟩ h.m.ccap
    ⟨rfl, ?_⟩ trivial ?_ (Or.inl ⟨rfl, by rw [hpc]; rfl⟩) (Or.inl ⟨rfl, by rw [hpc]; rfl⟩)
    (Or.inr ⟨.effPush t v, rfl, rfl, by rw [hpc]; simp [Pc.doing, Doing.next], rfl⟩) ?_
  · have hnd := h.m.chNodup
    have hl := h.m.linked
    rw [hpre] at hac hnd hl
    have := hl.append hnd hac hk.2
    rw [← hpre] at this
    exact this
  · show (ch ++ [a]).head? = some s.head
    rw [List.head?_append, h.m.hd]; rfl
  · by_cases hut : u = t
    · subst hut
      have hu' : upd s.pc u (.pTail a) u = .pTail b := hu
      rw [upd_same] at hu'
      simp only [Pc.pTail.injEq] at hu'
      rw [← hu']; simp
    · have hu' : upd s.pc t (.pTail a) u = .pTail b := hu
      rw [upd_other _ _ hut] at hu'
      have h1 := (h.l.P t).1 (by rw [hpc]; rfl)
      have h2 := (h.l.P u).1 (by rw [hu']; rfl)
      rw [h1] at h2
      simp only [Option.some.injEq] at h2
      exact absurd h2.symm hut
  · simp
  · rw [hpc]
    simp only [Pc.own, Option.toList_none, Option.toList_some, List.nil_append]
    rw [← List.append_assoc]
    refine List.perm_append_comm.trans ?_
    simp
  · intro u hu
    refine ⟨fun b hb => ⟨upd_other _ _ ?_, rfl⟩, fun _ => ⟨rfl, fun x hx => ⟨?_, rfl⟩⟩⟩
    · have hun : u < n := Nat.lt_of_not_le fun hh => by rw [h.out u hh] at hb; simp [Pc.own] at hb
      intro he
      exact h.m.own_ch hun hb (by rw [he, hpre]; simp)
    · show upd s.next s.tail (some a) s.head = some x
      rw [upd_other _ _ (fun he => by rw [he, hlast] at hx; simp at hx)]; exact hx
  · show replay (.effPush t v :: s.full) = some ((ch ++ [a]).tail.map s.data)
    simp only [replay, h.rep, Option.bind_some, Ev.apply]
    have : ch ≠ [] := h.m.linked.ne
    rw [List.tail_append_of_ne_nil this, List.map_append]
    simp [hk.1]

theorem Inv.pTail {a : Addr} (h : Inv cap n s ch) (ht : t < n) (hpc : s.pc t = .pTail a) :
    Inv cap n { s with tail := a, pc := upd s.pc t .pUnlock } ch := by
  refine h.mk' (p := .pUnlock) ht rfl h.m.linked h.m.hd ⟨fun u b hu => ?_, fun _ => h.m.late t a hpc⟩
    h.m.ccap ⟨rfl, by rw [hpc]; simp [Pc.own]⟩ trivial
    (fun u _ => ⟨fun _ _ => ⟨rfl, rfl⟩, fun _ => ⟨rfl, fun _ hx => ⟨hx, rfl⟩⟩⟩)
    (Or.inl ⟨rfl, by rw [hpc]; rfl⟩) (Or.inl ⟨rfl, by rw [hpc]; rfl⟩)
    (Or.inl ⟨rfl, rfl, by rw [hpc]; rfl⟩) h.rep
  have hu' : upd s.pc t .pUnlock u = .pTail b := hu
  by_cases hut : u = t
  · subst hut; rw [upd_same] at hu'; simp at hu'
  · rw [upd_other _ _ hut] at hu'; exact h.m.late u b hu'

theorem Inv.cHead {d : Nat} {a x : Addr} (h : Inv cap n s ch) (ht : t < n) (hpc : s.pc t = .cHead d a)
    (hx : s.next s.head = some x) :
    Inv cap n { s with head := x, pc := upd s.pc t (.cCache d a), full := .effPop t (some d) :: s.full }
      ch.tail := by
  obtain ⟨c, hc⟩ := h.m.succ hx
  have hk := h.m.know t
  rw [hpc] at hk
  obtain ⟨e, y, hy, hdy⟩ := hk
  rw [hx] at hy
  simp only [Option.some.injEq] at hy
  subst hy
  have hl := h.m.linked
  rw [hc] at hl
  refine h.mk' (p := .cCache d a) ht rfl ?_ ?_
    (late_step rfl (by rw [hpc]; rfl) rfl rfl ?_ h.m) h.m.ccap ⟨rfl, ?_⟩ trivial ?_
    (Or.inl ⟨rfl, by rw [hpc]; rfl⟩) (Or.inl ⟨rfl, by rw [hpc]; rfl⟩)
    (Or.inr ⟨.effPop t (some d), rfl, rfl, by rw [hpc]; simp [Pc.doing, Doing.next], rfl⟩) ?_
  · rw [hc]; exact hl.2
  · rw [hc]; rfl
  · rw [hc]; simp
  · rw [hpc, hc, e]
    simp only [Pc.own, Option.toList_none, Option.toList_some, List.nil_append, List.tail_cons,
      List.singleton_append, List.cons_append]
    exact List.perm_middle.symm
  · intro u hu
    refine ⟨fun _ _ => ⟨rfl, rfl⟩, fun hC => ?_⟩
    have h1 := (h.l.C t).1 (by rw [hpc]; rfl)
    have h2 := (h.l.C u).1 hC
    rw [h1] at h2
    simp only [Option.some.injEq] at h2
    exact absurd h2.symm hu
  · show replay (.effPop t (some d) :: s.full) = some (ch.tail.tail.map s.data)
    simp only [replay, h.rep, Option.bind_some, Ev.apply, hc, List.tail_cons, List.map_cons, hdy, if_true]

theorem Inv.cCache {d : Nat} {a : Addr} (h : Inv cap n s ch) (ht : t < n) (hpc : s.pc t = .cCache d a)
    (hc : s.cache.length < cap) :
    Inv cap n { s with cache := s.cache ++ [a], pc := upd s.pc t (.cKept d) } ch := by
  refine h.mk' (p := .cKept d) ht rfl h.m.linked h.m.hd
    (late_step rfl (by rw [hpc]; rfl) rfl rfl rfl h.m) (by rw [List.length_append]; exact hc) ⟨rfl, ?_⟩ trivial
    (fun u _ => ⟨fun _ _ => ⟨rfl, rfl⟩, fun _ => ⟨rfl, fun _ hx => ⟨hx, rfl⟩⟩⟩)
    (Or.inl ⟨rfl, by rw [hpc]; rfl⟩) (Or.inl ⟨rfl, by rw [hpc]; rfl⟩)
    (Or.inl ⟨rfl, rfl, by rw [hpc]; rfl⟩) h.rep
  rw [hpc]
  simp only [Pc.own, Option.toList_none, Option.toList_some, List.nil_append]
  exact List.Perm.append_right _ List.perm_append_comm

theorem Inv.cFree {d : Nat} {a : Addr} (h : Inv cap n s ch) (ht : t < n) (hpc : s.pc t = .cFree d a) :
    Inv cap n { s with live := upd s.live a false, pc := upd s.pc t (.cRet (some d)) } ch := by
  obtain ⟨rest, h1, h2⟩ := places n s.pc ht (.cRet (some d))
  have hp0 : (owners n s.pc ++ s.cache ++ ch).Perm (a :: (owners n (upd s.pc t (.cRet (some d))) ++ s.cache ++ ch)) := by
    rw [List.append_assoc, List.append_assoc]
    refine (h2 _).trans ?_
    rw [hpc]
    simp only [Pc.own, Option.toList_some, List.singleton_append]
    refine List.perm_middle.trans (List.Perm.cons _ ?_)
    refine List.Perm.trans ?_ (h1 _).symm
    simp [Pc.own]
  have hnd := hp0.nodup_iff.1 h.m.nodup
  rw [List.nodup_cons] at hnd
  have hls := late_step (s' := { s with live := upd s.live a false, pc := upd s.pc t (.cRet (some d)) })
    (p := .cRet (some d)) (t := t) (ch' := ch) rfl (by rw [hpc]; rfl) rfl rfl rfl h.m
  refine ⟨⟨h.m.linked, h.m.hd, hls.1, hls.2, h.m.ccap, hnd.2, fun b => ?_, ?_⟩,
    h.l.step (p := .cRet (some d)) rfl (Or.inl ⟨rfl, by rw [hpc]; rfl⟩) (Or.inl ⟨rfl, by rw [hpc]; rfl⟩),
    h.h.step (p := .cRet (some d)) rfl (Or.inl ⟨rfl, rfl, by rw [hpc]; rfl⟩), h.rep, h.idle ht rfl⟩
  · show upd s.live a false b = true ↔ b ∈ owners n (upd s.pc t (.cRet (some d))) ++ s.cache ++ ch
    by_cases hb : b = a
    · subst hb; rw [upd_same]; simp only [Bool.false_eq_true, false_iff]; exact hnd.1
    · rw [upd_other _ _ hb, h.m.live b, hp0.mem_iff, List.mem_cons]
      simp [hb]
  · refine know_step (p := .cRet (some d)) rfl trivial ?_
    exact Frame.know h.m (fun u _ => ⟨fun _ _ => ⟨rfl, rfl⟩, fun _ => ⟨rfl, fun _ hx => ⟨hx, rfl⟩⟩⟩)

theorem Inv.malloc {v d : Nat} {a : Addr} {x : Option Addr} (h : Inv cap n s ch) (ht : t < n)
    (hpc : s.pc t = .aMalloc v) (ha : s.live a = false) :
    Inv cap n { s with live := upd s.live a true, next := upd s.next a x, data := upd s.data a d
                       pc := upd s.pc t (.wData v a) } ch := by
  obtain ⟨rest, h1, h2⟩ := places n s.pc ht (.wData v a)
  have hp0 : (owners n (upd s.pc t (.wData v a)) ++ s.cache ++ ch).Perm (a :: (owners n s.pc ++ s.cache ++ ch)) := by
    rw [List.append_assoc, List.append_assoc]
    refine (h1 _).trans ?_
    simp only [Pc.own, Option.toList_some, List.singleton_append]
    refine List.perm_middle.trans (List.Perm.cons _ ?_)
    refine List.Perm.trans ?_ (h2 _).symm
    rw [hpc]
    simp [Pc.own]
  have hna : a ∉ owners n s.pc ++ s.cache ++ ch := fun hh => by
    rw [(h.m.live a).2 hh] at ha; simp at ha
  have hac : a ∉ ch := fun hh => hna (List.mem_append_right _ hh)
  have hls := late_step (s' := { s with live := upd s.live a true, next := upd s.next a x
                                        data := upd s.data a d, pc := upd s.pc t (.wData v a) })
    (p := .wData v a) (t := t) (ch' := ch) rfl (by rw [hpc]; rfl) rfl rfl rfl h.m
  refine ⟨⟨?_, h.m.hd, hls.1, hls.2, h.m.ccap, ?_, fun b => ?_, ?_⟩,
    h.l.step (p := .wData v a) rfl (Or.inl ⟨rfl, by rw [hpc]; rfl⟩) (Or.inl ⟨rfl, by rw [hpc]; rfl⟩),
    h.h.step (p := .wData v a) rfl (Or.inl ⟨rfl, rfl, by rw [hpc]; rfl⟩), ?_, h.idle ht rfl⟩
  · refine h.m.linked.congr fun b hb => (upd_other _ _ ?_).symm
    intro he; subst he; exact hac hb
  · exact hp0.nodup_iff.2 (List.nodup_cons.2 ⟨hna, h.m.nodup⟩)
  · show upd s.live a true b = true ↔ b ∈ owners n (upd s.pc t (.wData v a)) ++ s.cache ++ ch
    rw [hp0.mem_iff, List.mem_cons]
    by_cases hb : b = a
    · subst hb; simp
    · rw [upd_other _ _ hb, h.m.live b]; simp [hb]
  · refine know_step (p := .wData v a) rfl trivial ?_
    refine Frame.know h.m ?_
    intro u hu
    refine ⟨fun b hb => ?_, fun _ => ⟨rfl, fun y hy => ⟨?_, ?_⟩⟩⟩
    · have hun : u < n := Nat.lt_of_not_le fun hh => by rw [h.out u hh] at hb; simp [Pc.own] at hb
      have hne : b ≠ a := fun he => hna (by
        subst he
        exact List.mem_append_left _ (List.mem_append_left _ (mem_owners.2 ⟨u, hun, hb⟩)))
      exact ⟨upd_other _ _ hne, upd_other _ _ hne⟩
    · show upd s.next a x s.head = some y
      rw [upd_other _ _ (fun he => hac (by rw [← he]; exact h.m.head_mem))]; exact hy
    · obtain ⟨c, hc⟩ := h.m.succ hy
      exact upd_other _ _ fun he => hac (by rw [hc, ← he]; simp)
  · show replay s.full = some (ch.tail.map (upd s.data a d))
    rw [h.rep]
    congr 1
    refine List.map_congr_left fun b hb => (upd_other _ _ ?_).symm
    intro he; subst he; exact hac (List.mem_of_mem_tail hb)

/-! ## All steps -/

theorem Inv.go (h : Inv cap n s ch) (ht : t < n) (hs : goStep cap s t = some s') :
    ∃ ch', Inv cap n s' ch' := by
  have hk := h.m.know t
  have hlh : s.live s.head = true := h.m.liveL h.m.head_mem
  unfold goStep at hs
  cases hpc : s.pc t <;> rw [hpc] at hs hk <;> simp only [reduceCtorEq] at hs
  case aLock v =>
    split at hs
    · rename_i hP
      simp only [Option.some.injEq] at hs; subst hs
      exact ⟨ch, h.quiet ht rfl ⟨rfl, rfl, rfl, rfl, rfl, rfl⟩ (by rw [hpc]; rfl) rfl (by rw [hpc]; rfl) trivial
        (Or.inr (Or.inl ⟨hP, rfl, rfl⟩)) (Or.inl ⟨rfl, by rw [hpc]; rfl⟩) (Or.inl ⟨rfl, rfl, by rw [hpc]; rfl⟩)
        (Or.inl rfl)⟩
    · simp at hs
  case aPop v =>
    split at hs
    · simp only [Option.some.injEq] at hs; subst hs
      exact ⟨ch, h.quiet ht rfl ⟨rfl, rfl, rfl, rfl, rfl, rfl⟩ (by rw [hpc]; rfl) rfl (by rw [hpc]; rfl) trivial
        (Or.inl ⟨rfl, by rw [hpc]; rfl⟩) (Or.inl ⟨rfl, by rw [hpc]; rfl⟩) (Or.inl ⟨rfl, rfl, by rw [hpc]; rfl⟩)
        (Or.inl rfl)⟩
    · rename_i a c hc
      simp only [Option.some.injEq] at hs; subst hs
      exact ⟨ch, h.aPop ht hpc hc⟩
  case aGot v a =>
    simp only [Option.some.injEq] at hs; subst hs
    exact ⟨ch, h.quiet ht rfl ⟨rfl, rfl, rfl, rfl, rfl, rfl⟩ (by rw [hpc]; rfl) rfl (by rw [hpc]; rfl) trivial
      (Or.inr (Or.inr ⟨by rw [hpc]; rfl, rfl, rfl⟩)) (Or.inl ⟨rfl, by rw [hpc]; rfl⟩)
      (Or.inl ⟨rfl, rfl, by rw [hpc]; rfl⟩) (Or.inl rfl)⟩
  case aNone v =>
    simp only [Option.some.injEq] at hs; subst hs
    exact ⟨ch, h.quiet ht rfl ⟨rfl, rfl, rfl, rfl, rfl, rfl⟩ (by rw [hpc]; rfl) rfl (by rw [hpc]; rfl) trivial
      (Or.inr (Or.inr ⟨by rw [hpc]; rfl, rfl, rfl⟩)) (Or.inl ⟨rfl, by rw [hpc]; rfl⟩)
      (Or.inl ⟨rfl, rfl, by rw [hpc]; rfl⟩) (Or.inl rfl)⟩
  case wData v a =>
    rw [if_pos (h.m.liveO ht (by rw [hpc]; rfl))] at hs
    simp only [Option.some.injEq] at hs; subst hs
    exact ⟨ch, h.wData ht hpc⟩
  case wNext v a =>
    rw [if_pos (h.m.liveO ht (by rw [hpc]; rfl))] at hs
    simp only [Option.some.injEq] at hs; subst hs
    exact ⟨ch, h.wNext ht hpc⟩
  case pLock v a =>
    split at hs
    · rename_i hP
      simp only [Option.some.injEq] at hs; subst hs
      exact ⟨ch, h.quiet ht rfl ⟨rfl, rfl, rfl, rfl, rfl, rfl⟩ (by rw [hpc]; rfl) rfl (by rw [hpc]; rfl) hk
        (Or.inr (Or.inl ⟨hP, rfl, rfl⟩)) (Or.inl ⟨rfl, by rw [hpc]; rfl⟩) (Or.inl ⟨rfl, rfl, by rw [hpc]; rfl⟩)
        (Or.inl rfl)⟩
    · simp at hs
  case pLink v a =>
    have hlt : s.live s.tail = true := by
      obtain ⟨pre, hpre⟩ := getLast?_split (h.tail_ok (t := t) (by rw [hpc]; rfl) (by rw [hpc]; rfl))
      exact h.m.liveL (by rw [hpre]; simp)
    rw [if_pos hlt] at hs
    simp only [Option.some.injEq] at hs; subst hs
    exact ⟨_, h.pLink ht hpc⟩
  case pTail a =>
    simp only [Option.some.injEq] at hs; subst hs
    exact ⟨_, h.pTail ht hpc⟩
  case pUnlock =>
    simp only [Option.some.injEq] at hs; subst hs
    exact ⟨ch, h.quiet ht rfl ⟨rfl, rfl, rfl, rfl, rfl, rfl⟩ (by rw [hpc]; rfl) rfl (by rw [hpc]; rfl) trivial
      (Or.inr (Or.inr ⟨by rw [hpc]; rfl, rfl, rfl⟩)) (Or.inl ⟨rfl, by rw [hpc]; rfl⟩)
      (Or.inl ⟨rfl, rfl, by rw [hpc]; rfl⟩) (Or.inl rfl)⟩
  case pRet =>
    simp only [Option.some.injEq] at hs; subst hs
    exact ⟨ch, h.quiet ht rfl ⟨rfl, rfl, rfl, rfl, rfl, rfl⟩ (by rw [hpc]; rfl) rfl (by rw [hpc]; rfl) trivial
      (Or.inl ⟨rfl, by rw [hpc]; rfl⟩) (Or.inl ⟨rfl, by rw [hpc]; rfl⟩)
      (Or.inr ⟨.retPush t, rfl, rfl, by rw [hpc]; rfl, rfl⟩) (Or.inr ⟨_, rfl, rfl⟩)⟩
  case cLock =>
    split at hs
    · rename_i hC
      simp only [Option.some.injEq] at hs; subst hs
      exact ⟨ch, h.quiet ht rfl ⟨rfl, rfl, rfl, rfl, rfl, rfl⟩ (by rw [hpc]; rfl) rfl (by rw [hpc]; rfl) trivial
        (Or.inl ⟨rfl, by rw [hpc]; rfl⟩) (Or.inr (Or.inl ⟨hC, rfl, rfl⟩)) (Or.inl ⟨rfl, rfl, by rw [hpc]; rfl⟩)
        (Or.inl rfl)⟩
    · simp at hs
  case cTest =>
    rw [if_pos hlh] at hs
    split at hs
    · rename_i hn
      simp only [Option.some.injEq] at hs; subst hs
      refine ⟨ch, h.quiet ht rfl ⟨rfl, rfl, rfl, rfl, rfl, rfl⟩ (by rw [hpc]; rfl) rfl (by rw [hpc]; rfl) trivial
        (Or.inl ⟨rfl, by rw [hpc]; rfl⟩) (Or.inl ⟨rfl, by rw [hpc]; rfl⟩)
        (Or.inr ⟨.effPop t none, rfl, rfl, by rw [hpc]; rfl, rfl⟩) (Or.inr ⟨_, rfl, ?_⟩)⟩
      have : ch.tail = [] := by
        have hd := h.m.hd
        have hl := h.m.linked
        match ch, hd, hl with
        | [a], hd, hl => rfl
        | a :: b :: c, hd, hl =>
          simp only [List.head?_cons, Option.some.injEq] at hd
          rw [← hd, hl.1] at hn; simp at hn
      simp [Ev.apply, this]
    · rename_i x hx
      simp only [Option.some.injEq] at hs; subst hs
      exact ⟨ch, h.quiet ht rfl ⟨rfl, rfl, rfl, rfl, rfl, rfl⟩ (by rw [hpc]; rfl) rfl (by rw [hpc]; rfl)
        (by show s.next s.head ≠ none; rw [hx]; simp)
        (Or.inl ⟨rfl, by rw [hpc]; rfl⟩) (Or.inl ⟨rfl, by rw [hpc]; rfl⟩) (Or.inl ⟨rfl, rfl, by rw [hpc]; rfl⟩)
        (Or.inl rfl)⟩
  case cData =>
    rw [if_pos hlh] at hs
    split at hs
    · rename_i hn; exact absurd hn hk
    · rename_i x hx
      obtain ⟨c, hc⟩ := h.m.succ hx
      rw [if_pos (h.m.liveL (by rw [hc]; simp))] at hs
      simp only [Option.some.injEq] at hs; subst hs
      exact ⟨ch, h.quiet ht rfl ⟨rfl, rfl, rfl, rfl, rfl, rfl⟩ (by rw [hpc]; rfl) rfl (by rw [hpc]; rfl)
        ⟨rfl, x, hx, rfl⟩
        (Or.inl ⟨rfl, by rw [hpc]; rfl⟩) (Or.inl ⟨rfl, by rw [hpc]; rfl⟩) (Or.inl ⟨rfl, rfl, by rw [hpc]; rfl⟩)
        (Or.inl rfl)⟩
  case cHead d a =>
    rw [if_pos hlh] at hs
    obtain ⟨e, x, hx, hd⟩ := hk
    rw [hx] at hs
    simp only [Option.some.injEq] at hs; subst hs
    exact ⟨_, h.cHead ht hpc hx⟩
  case cCache d a =>
    split at hs
    · rename_i hc
      simp only [Option.some.injEq] at hs; subst hs
      exact ⟨_, h.cCache ht hpc hc⟩
    · simp only [Option.some.injEq] at hs; subst hs
      exact ⟨ch, h.quiet ht rfl ⟨rfl, rfl, rfl, rfl, rfl, rfl⟩ (by rw [hpc]; rfl) rfl (by rw [hpc]; rfl) trivial
        (Or.inl ⟨rfl, by rw [hpc]; rfl⟩) (Or.inl ⟨rfl, by rw [hpc]; rfl⟩) (Or.inl ⟨rfl, rfl, by rw [hpc]; rfl⟩)
        (Or.inl rfl)⟩
  case cKept d =>
    simp only [Option.some.injEq] at hs; subst hs
    exact ⟨ch, h.quiet ht rfl ⟨rfl, rfl, rfl, rfl, rfl, rfl⟩ (by rw [hpc]; rfl) rfl (by rw [hpc]; rfl) trivial
      (Or.inl ⟨rfl, by rw [hpc]; rfl⟩) (Or.inr (Or.inr ⟨by rw [hpc]; rfl, rfl, rfl⟩))
      (Or.inl ⟨rfl, rfl, by rw [hpc]; rfl⟩) (Or.inl rfl)⟩
  case cLeft d a =>
    simp only [Option.some.injEq] at hs; subst hs
    exact ⟨ch, h.quiet ht rfl ⟨rfl, rfl, rfl, rfl, rfl, rfl⟩ (by rw [hpc]; rfl) rfl (by rw [hpc]; rfl) trivial
      (Or.inl ⟨rfl, by rw [hpc]; rfl⟩) (Or.inr (Or.inr ⟨by rw [hpc]; rfl, rfl, rfl⟩))
      (Or.inl ⟨rfl, rfl, by rw [hpc]; rfl⟩) (Or.inl rfl)⟩
  case cFree d a =>
    rw [if_pos (h.m.liveO ht (by rw [hpc]; rfl))] at hs
    simp only [Option.some.injEq] at hs; subst hs
    exact ⟨_, h.cFree ht hpc⟩
  case cEmpty =>
    simp only [Option.some.injEq] at hs; subst hs
    exact ⟨ch, h.quiet ht rfl ⟨rfl, rfl, rfl, rfl, rfl, rfl⟩ (by rw [hpc]; rfl) rfl (by rw [hpc]; rfl) trivial
      (Or.inl ⟨rfl, by rw [hpc]; rfl⟩) (Or.inr (Or.inr ⟨by rw [hpc]; rfl, rfl, rfl⟩))
      (Or.inl ⟨rfl, rfl, by rw [hpc]; rfl⟩) (Or.inl rfl)⟩
  case cRet r =>
    simp only [Option.some.injEq] at hs; subst hs
    exact ⟨ch, h.quiet ht rfl ⟨rfl, rfl, rfl, rfl, rfl, rfl⟩ (by rw [hpc]; rfl) rfl (by rw [hpc]; rfl) trivial
      (Or.inl ⟨rfl, by rw [hpc]; rfl⟩) (Or.inl ⟨rfl, by rw [hpc]; rfl⟩)
      (Or.inr ⟨.retPop t r, rfl, rfl, by rw [hpc]; simp [Pc.doing, Doing.next], rfl⟩) (Or.inr ⟨_, rfl, rfl⟩)⟩

theorem Inv.step {a : Act} (h : Inv cap n s ch) (hs : tstep cap n s a = some s') :
    ∃ ch', Inv cap n s' ch' := by
  cases a with
  | callPush t v =>
    simp only [tstep] at hs
    split at hs
    · rename_i hc
      obtain ⟨ht, hpc⟩ := hc
      simp only [Option.some.injEq] at hs; subst hs
      exact ⟨ch, h.quiet ht rfl ⟨rfl, rfl, rfl, rfl, rfl, rfl⟩ (by rw [hpc]; rfl) rfl (by rw [hpc]; rfl) trivial
        (Or.inl ⟨rfl, by rw [hpc]; rfl⟩) (Or.inl ⟨rfl, by rw [hpc]; rfl⟩)
        (Or.inr ⟨.callPush t v, rfl, rfl, by rw [hpc]; rfl, rfl⟩) (Or.inr ⟨_, rfl, rfl⟩)⟩
    · simp at hs
  | callPop t =>
    simp only [tstep] at hs
    split at hs
    · rename_i hc
      obtain ⟨ht, hpc⟩ := hc
      simp only [Option.some.injEq] at hs; subst hs
      exact ⟨ch, h.quiet ht rfl ⟨rfl, rfl, rfl, rfl, rfl, rfl⟩ (by rw [hpc]; rfl) rfl (by rw [hpc]; rfl) trivial
        (Or.inl ⟨rfl, by rw [hpc]; rfl⟩) (Or.inl ⟨rfl, by rw [hpc]; rfl⟩)
        (Or.inr ⟨.callPop t, rfl, rfl, by rw [hpc]; rfl, rfl⟩) (Or.inr ⟨_, rfl, rfl⟩)⟩
    · simp at hs
  | malloc t a x d =>
    simp only [tstep] at hs
    split at hs
    · rename_i v hpc
      split at hs
      · rename_i ha
        simp only [Option.some.injEq] at hs; subst hs
        have ht : t < n := Nat.lt_of_not_le fun hh => by rw [h.out t hh] at hpc; simp at hpc
        exact ⟨ch, h.malloc ht hpc ha⟩
      · simp at hs
    · simp at hs
  | go t =>
    simp only [tstep] at hs
    split at hs
    · rename_i ht; exact h.go ht hs
    · simp at hs

theorem Inv.reach {k : Nat} (hk : k ≤ cap) (hr : Reach (tstep cap n) (S.init k) s) :
    ∃ ch, Inv cap n s ch :=
  hr.inv (Inv := fun s => ∃ ch, Inv cap n s ch) ⟨_, Inv.init hk⟩ fun _ _ _ ⟨_, h⟩ hs => h.step hs

end FF.Tlq
