import Verif.Msq.Inv
/-!
# C59: the invariant is kept by every step
-/
namespace FF.Msq
open FF

theorem upd_same {α : Type} (f : Nat → α) (i : Nat) (v : α) : upd f i v i = v := by simp [upd]
theorem upd_other {α : Type} (f : Nat → α) {i j : Nat} (v : α) (h : j ≠ i) : upd f i v j = f j := by
  simp [upd, h]

/-- a step that changes nothing but the program counter and the history of thread `t` -/
theorem frame_quiet {s s' : S} {ch : List Addr} {u : Nat} (hp : s'.pc u = s.pc u)
    (hd : doing u s'.full = doing u s.full) (hn : s'.next = s.next) (hda : s'.data = s.data)
    (hh : s'.head = s.head) (ht : s'.tail = s.tail) (hr : s'.role = s.role) :
    Frame s ch s' ch u where
  pc := hp
  same := hd
  own a h := ⟨by rw [hr]; exact h, by rw [hn], by rw [hda]⟩
  out a h := by rw [hr]; exact h
  held a _ hs := by
    refine ⟨?_, fun x hx => by rw [hn]; exact hx, fun _ h1 _ => by rw [ht]; exact h1, fun ho hm => ⟨ho hm, hh, fun h => by rw [ht]; exact h⟩⟩
    unfold Seen at hs ⊢
    rw [hr]; exact hs
  data x _ := by rw [hda]

/-- a step of thread `t` that is only local -/
theorem Inv.local {n : Nat} {s : S} {ch : List Addr} {t : Nat} {p : Pc} (h : Inv n s ch) (htn : t < n)
    (hT : T { s with pc := upd s.pc t p } ch t) : Inv n { s with pc := upd s.pc t p } ch where
  g := ⟨h.g.linked, h.g.nodup, h.g.hd, h.g.tl, h.g.role, h.g.gone, h.g.rep, h.g.vis⟩
  t u := by
    by_cases hu : u = t
    · subst hu; exact hT
    · exact (h.t u).frame h.g h.g.head_mem (frame_quiet (upd_other _ _ hu) rfl rfl rfl rfl rfl rfl)
  out u hu := by
    show upd s.pc t p u = .idle
    rw [upd_other _ _ (show u ≠ t by omega)]; exact h.out u hu

/-- a local step with a change of the history -/
theorem Inv.event {n : Nat} {s : S} {ch : List Addr} {t : Nat} {p : Pc} {vis full : List Ev}
    (h : Inv n s ch) (htn : t < n) (hrep : replay full = some (ch.tail.map s.data))
    (hvis : full.filter Ev.visible = vis) (hoth : ∀ u, u ≠ t → doing u full = doing u s.full)
    (hT : T { s with pc := upd s.pc t p, vis := vis, full := full } ch t) :
    Inv n { s with pc := upd s.pc t p, vis := vis, full := full } ch where
  g := ⟨h.g.linked, h.g.nodup, h.g.hd, h.g.tl, h.g.role, h.g.gone, hrep, hvis⟩
  t u := by
    by_cases hu : u = t
    · subst hu; exact hT
    · exact (h.t u).frame h.g h.g.head_mem
        (frame_quiet (upd_other _ _ hu) (hoth u hu) rfl rfl rfl rfl rfl)
  out u hu := by
    show upd s.pc t p u = .idle
    rw [upd_other _ _ (show u ≠ t by omega)]; exact h.out u hu

/-- moving `tail` to the next node -/
theorem Inv.swing {n : Nat} {s : S} {ch : List Addr} {t : Nat} {p : Pc} {x : Addr} (h : Inv n s ch)
    (htn : t < n) (hx : s.next s.tail = some x)
    (hT : T { s with tail := x, pc := upd s.pc t p } ch t) :
    Inv n { s with tail := x, pc := upd s.pc t p } ch where
  g := by
    refine ⟨h.g.linked, h.g.nodup, h.g.hd, ?_, h.g.role, h.g.gone, h.g.rep, h.g.vis⟩
    rcases h.g.tl.split h.g.linked h.g.nodup with ⟨q, hq⟩ | ⟨q, y, hq, hy⟩
    · exfalso
      have hm := h.g.tl.mem
      have := (h.g.linked.succ h.g.nodup hm hx).1
      -- the last node has no successor
      have hl : ∀ (q : List Addr) (a : Addr), Linked s.next (q ++ [a]) → s.next a = none := by
        intro q
        induction q with
        | nil => intro a ha; exact ha
        | cons b q ih =>
          intro a ha
          cases q with
          | nil => exact ha.2
          | cons c q => exact ih a ha.2
      have h1 := h.g.linked
      rw [hq] at h1
      rw [hl q _ h1] at hx
      simp at hx
    · rw [hy] at hx
      simp only [Option.some.injEq] at hx
      subst hx
      show NearEnd y ch
      rw [hq]; exact NearEnd.last _ _
  t u := by
    by_cases hu : u = t
    · subst hu; exact hT
    · refine (h.t u).frame h.g h.g.head_mem ?_
      refine ⟨upd_other _ _ hu, rfl, fun a ha => ⟨ha, rfl, rfl⟩, fun a ha => ha, ?_, fun _ _ => rfl⟩
      intro a _ hs
      refine ⟨hs, fun y hy => hy, fun hn ha => ?_, fun ho hm => ⟨ho hm, rfl, fun _ hxa => ?_⟩⟩
      · rw [← ha, hx] at hn; simp at hn
      have hah := ho hm
      have := (h.g.linked.succ h.g.nodup h.g.tl.mem hx).2
      rw [h.g.hd, ← hah] at this
      exact this (by rw [← hxa])
  out u hu := by
    show upd s.pc t p u = .idle
    rw [upd_other _ _ (show u ≠ t by omega)]; exact h.out u hu

theorem T.at {s : S} {ch : List Addr} {u : Nat} {p : Pc} (hp : s.pc u = p) (h : T s ch u) :
    T { s with pc := upd s.pc u p } ch u := by
  have : upd s.pc u p = s.pc := by
    funext j; simp only [upd]; split
    · rename_i hj; rw [hj, hp]
    · rfl
  rw [this]; exact h

/-- linking a node -/
theorem Inv.link {n : Nat} {s : S} {ch : List Addr} {t : Nat} {node tl : Addr} (h : Inv n s ch)
    (htn : t < n) (ho : Own s t node) (ht : Tail s tl) (hnx : s.next tl = none) :
    Inv n { s with next := upd s.next tl (some node), role := upd s.role node .inq
                   pc := upd s.pc t (.pSwing node tl), full := .effPush t (s.data node) :: s.full }
      (ch ++ [node]) := by
  have hs := ht.seen
  have hmem := h.g.last hs hnx
  obtain ⟨p, hp⟩ := h.g.linked.last hmem hnx
  have hnode : node ∉ ch := fun hh => by
    have := (h.g.role node).1 hh; rw [ho.role] at this; simp at this
  have hne : ∀ a, Seen s a → a ≠ node := by
    rintro a ha rfl
    unfold Seen at ha
    rw [ho.role] at ha; simp at ha
  have hntl : node ≠ tl := fun hh => hnode (hh ▸ hmem)
  have hseen : ∀ a, Seen s a → Seen { s with
      next := upd s.next tl (some node), role := upd s.role node .inq
      pc := upd s.pc t (.pSwing node tl), full := .effPush t (s.data node) :: s.full } a := by
    intro a ha
    unfold Seen at ha ⊢
    simp only
    rw [upd_other _ _ (hne a ha)]; exact ha
  have hhead : ch.head? = some s.head := h.g.hd
  refine ⟨⟨?_, ?_, ?_, ?_, ?_, ?_, ?_, ?_⟩, ?_, ?_⟩
  · rw [hp]
    exact Linked.append (hp ▸ h.g.linked) (hp ▸ h.g.nodup) (hp ▸ hnode) ho.next
  · rw [List.nodup_append]
    refine ⟨h.g.nodup, by simp, ?_⟩
    intro a ha b hb
    simp only [List.mem_singleton] at hb
    rintro rfl
    exact hnode (hb ▸ ha)
  · cases ch with
    | nil => simp at hmem
    | cons a c => simpa using hhead
  · show NearEnd s.tail (ch ++ [node])
    rw [ht.last hnx, hp]; exact NearEnd.before _ _ _
  · intro a
    simp only [List.mem_append, List.mem_singleton]
    by_cases ha : a = node
    · subst ha; simp [upd]
    · rw [upd_other _ _ ha, ← h.g.role a]; simp [ha]
  · intro a ha hc
    simp only [List.mem_append, List.mem_singleton, not_or] at hc
    have hs' : Seen s a := by
      unfold Seen at ha ⊢
      simp only at ha
      rw [upd_other _ _ hc.2] at ha; exact ha
    have hat : a ≠ tl := fun hh => hc.1 (hh ▸ hmem)
    show upd s.next tl (some node) a ≠ none
    rw [upd_other _ _ hat]
    exact h.g.gone a hs' hc.1
  · show replay (.effPush t (s.data node) :: s.full) = _
    simp only [replay, h.g.rep, Option.bind_some, Ev.apply]
    cases ch with
    | nil => simp at hmem
    | cons a c => simp
  · show List.filter _ (_ :: _) = _
    rw [List.filter_cons]
    simp only [Ev.visible]
    exact h.g.vis
  · intro u
    by_cases hu : u = t
    · subst hu
      unfold T
      simp only [upd_same]
      refine ⟨hseen tl hs, trivial, ?_⟩
      rw [doing_cons_same (t := u) (e := .effPush u (s.data node)) rfl ho.doing]
      simp [Doing.next]
    · refine (h.t u).frame h.g (List.mem_append_left _ h.g.head_mem) ?_
      refine ⟨upd_other _ _ hu, doing_cons_other (fun hh => hu hh.symm), ?_, ?_, ?_, fun _ _ => rfl⟩
      · intro a ha
        have h1 : a ≠ node := by
          rintro rfl
          rw [ho.role] at ha
          simp only [Role.priv.injEq] at ha
          exact hu ha.symm
        have h2 : a ≠ tl := by
          rintro rfl
          have := (h.g.role a).1 hmem
          rw [this] at ha; simp at ha
        exact ⟨by rw [← ha]; exact upd_other _ _ h1, upd_other _ _ h2, rfl⟩
      · intro a ha
        have h1 : a ≠ node := by
          rintro rfl
          rw [ho.role] at ha
          simp at ha
        rw [← ha]; exact upd_other _ _ h1
      · intro a _ hsa
        refine ⟨hseen a hsa, fun x hx => ?_, fun _ h1 _ => h1, fun hok hm => ?_⟩
        · have : a ≠ tl := by rintro rfl; rw [hnx] at hx; simp at hx
          rw [← hx]; exact upd_other _ _ this
        · simp only [List.mem_append, List.mem_singleton] at hm
          rcases hm with hm | hm
          · exact ⟨hok hm, rfl, fun h => h⟩
          · exact absurd hm (hne a hsa)
  · intro u hu
    show upd s.pc t _ u = .idle
    rw [upd_other _ _ (show u ≠ t by omega)]; exact h.out u hu

/-- taking the first node out -/
theorem Inv.take {n : Nat} {s : S} {ch : List Addr} {t : Nat} {x d : Nat} (h : Inv n s ch)
    (htn : t < n) (hx : s.next s.head = some x) (htl : s.tail ≠ s.head) (hdx : s.data x = d)
    (hd : doing t s.full = some .popping) :
    ∃ ch', Inv n { s with head := x, role := upd s.role s.head (.out t)
                          pc := upd s.pc t (.cFree s.head d), full := .effPop t (some d) :: s.full } ch' := by
  have hhd := h.g.hd
  have hlk := h.g.linked
  have hnd := h.g.nodup
  have hrole := h.g.role
  have hgone := h.g.gone
  have hrep := h.g.rep
  have hte := h.g.tl
  obtain ⟨c, rfl⟩ : ∃ c, ch = s.head :: x :: c := by
    cases ch with
    | nil => simp at hhd
    | cons a c =>
      simp only [List.head?_cons, Option.some.injEq] at hhd
      subst hhd
      cases c with
      | nil => simp only [Linked] at hlk; rw [hlk] at hx; simp at hx
      | cons b c =>
        simp only [Linked] at hlk
        rw [hlk.1] at hx
        simp only [Option.some.injEq] at hx
        subst hx
        exact ⟨c, rfl⟩
  simp only [Linked] at hlk
  have hnd' := List.nodup_cons.1 hnd
  have hin : s.role s.head = .inq := (hrole s.head).1 (by simp)
  have hseen : ∀ a, Seen s a → Seen { s with
      head := x, role := upd s.role s.head (.out t)
      pc := upd s.pc t (.cFree s.head d), full := .effPop t (some d) :: s.full } a := by
    intro a ha
    unfold Seen at ha ⊢
    simp only
    by_cases hah : a = s.head
    · subst hah; rw [upd_same]; exact Or.inr (Or.inl ⟨t, rfl⟩)
    · rw [upd_other _ _ hah]; exact ha
  refine ⟨x :: c, ⟨⟨hlk.2, hnd'.2, rfl, ?_, ?_, ?_, ?_, ?_⟩, ?_, ?_⟩⟩
  · show NearEnd s.tail (x :: c)
    cases c with
    | nil =>
      simp only [NearEnd] at hte ⊢
      rcases hte with hte | hte
      · exact absurd hte.symm htl
      · exact hte
    | cons y c =>
      simp only [NearEnd] at hte
      exact hte
  · intro a
    show a ∈ x :: c ↔ upd s.role s.head (.out t) a = .inq
    by_cases hah : a = s.head
    · subst hah
      rw [upd_same]
      constructor
      · intro hh; exact absurd hh hnd'.1
      · intro hh; simp at hh
    · rw [upd_other _ _ hah, ← hrole a, List.mem_cons (a := a) (b := s.head)]
      simp [hah]
  · intro a ha hc
    show s.next a ≠ none
    by_cases hah : a = s.head
    · subst hah; rw [hx]; simp
    · refine hgone a ?_ (by rw [List.mem_cons]; simp only [hah, false_or]; exact hc)
      unfold Seen at ha ⊢
      simp only at ha
      rw [upd_other _ _ hah] at ha; exact ha
  · show replay (.effPop t (some d) :: s.full) = _
    simp only [replay, hrep, Option.bind_some, List.tail_cons, List.map_cons, Ev.apply, hdx, if_true]
  · show List.filter _ (_ :: _) = _
    rw [List.filter_cons]
    simp only [Ev.visible]
    exact h.g.vis
  · intro u
    by_cases hu : u = t
    · subst hu
      unfold T
      simp only [upd_same]
      refine ⟨trivial, ?_⟩
      rw [doing_cons_same (t := u) (e := .effPop u (some d)) rfl hd]
      rfl
    · refine (h.t u).frame h.g (show x ∈ x :: c by simp) ?_
      refine ⟨upd_other _ _ hu, doing_cons_other (fun hh => hu hh.symm), ?_, ?_, ?_, fun _ _ => rfl⟩
      · intro a ha
        have h1 : a ≠ s.head := by rintro rfl; rw [hin] at ha; simp at ha
        exact ⟨by rw [← ha]; exact upd_other _ _ h1, rfl, rfl⟩
      · intro a ha
        have h1 : a ≠ s.head := by rintro rfl; rw [hin] at ha; simp at ha
        rw [← ha]; exact upd_other _ _ h1
      · intro a _ hsa
        refine ⟨hseen a hsa, fun x hx => hx, fun _ h1 _ => h1, fun hok hm => ?_⟩
        exfalso
        have := hok (List.mem_cons_of_mem _ hm)
        rw [this] at hm
        exact hnd'.1 hm
  · intro u hu
    show upd s.pc t _ u = .idle
    rw [upd_other _ _ (show u ≠ t by omega)]; exact h.out u hu

/-- freeing a node that was taken out -/
theorem Inv.dealloc {n : Nat} {s : S} {ch : List Addr} {t : Nat} {a : Addr} {d : Nat} (h : Inv n s ch)
    (htn : t < n) (ha : s.role a = .out t) (hd : doing t s.full = some (.popped (some d))) :
    Inv n { s with role := upd s.role a .free, pc := upd s.pc t (.cRet (some d)) } ch := by
  have hseen : ∀ b, Seen s b ↔ Seen { s with
      role := upd s.role a .free, pc := upd s.pc t (.cRet (some d)) } b := by
    intro b
    unfold Seen
    simp only
    by_cases hb : b = a
    · subst hb; rw [upd_same, ha]; simp
    · rw [upd_other _ _ hb]
  refine ⟨⟨h.g.linked, h.g.nodup, h.g.hd, h.g.tl, ?_, ?_, h.g.rep, h.g.vis⟩, ?_, ?_⟩
  · intro b
    show b ∈ ch ↔ upd s.role a .free b = .inq
    by_cases hb : b = a
    · subst hb; rw [upd_same, h.g.role, ha]; simp
    · rw [upd_other _ _ hb]; exact h.g.role b
  · intro b hb hc
    exact h.g.gone b ((hseen b).2 hb) hc
  · intro u
    by_cases hu : u = t
    · subst hu
      unfold T
      simp only [upd_same]
      exact hd
    · refine (h.t u).frame h.g h.g.head_mem ?_
      refine ⟨upd_other _ _ hu, rfl, ?_, ?_, ?_, fun _ _ => rfl⟩
      · intro b hb
        have h1 : b ≠ a := by rintro rfl; rw [ha] at hb; simp at hb
        exact ⟨by rw [← hb]; exact upd_other _ _ h1, rfl, rfl⟩
      · intro b hb
        have h1 : b ≠ a := by
          rintro rfl; rw [ha] at hb
          simp only [Role.out.injEq] at hb
          exact hu hb.symm
        rw [← hb]; exact upd_other _ _ h1
      · intro b _ hsb
        exact ⟨(hseen b).1 hsb, fun x hx => hx, fun _ h1 _ => h1, fun hok hm => ⟨hok hm, rfl, fun h => h⟩⟩
  · intro u hu
    show upd s.pc t _ u = .idle
    rw [upd_other _ _ (show u ≠ t by omega)]; exact h.out u hu

/-- allocating a node that no thread holds -/
theorem Inv.alloc {n : Nat} {s : S} {ch : List Addr} {t a v : Nat} (h : Inv n s ch)
    (htn : t < n) (hr : s.role a = .unused ∨ s.role a = .free)
    (hq : ∀ u, (s.pc u).holds ≠ some a) (hd : doing t s.full = some (.pushing v)) :
    Inv n { s with next := upd s.next a none, data := upd s.data a v
                   role := upd s.role a (.priv t), pc := upd s.pc t (.pTail a) } ch := by
  have hch : a ∉ ch := fun hh => by
    have := (h.g.role a).1 hh; rw [this] at hr; simp at hr
  refine ⟨⟨?_, h.g.nodup, h.g.hd, h.g.tl, ?_, ?_, ?_, h.g.vis⟩, ?_, ?_⟩
  · refine h.g.linked.congr fun b hb => ?_
    have : b ≠ a := fun hh => hch (hh ▸ hb)
    exact (upd_other _ _ this).symm
  · intro b
    show b ∈ ch ↔ upd s.role a (.priv t) b = .inq
    by_cases hb : b = a
    · subst hb; rw [upd_same]
      constructor
      · intro hh; exact absurd hh hch
      · intro hh; simp at hh
    · rw [upd_other _ _ hb]; exact h.g.role b
  · intro b hb hc
    have hba : b ≠ a := by
      rintro rfl
      unfold Seen at hb
      simp only [upd_same] at hb
      simp at hb
    show upd s.next a none b ≠ none
    rw [upd_other _ _ hba]
    refine h.g.gone b ?_ hc
    unfold Seen at hb ⊢
    simp only at hb
    rw [upd_other _ _ hba] at hb; exact hb
  · show replay s.full = _
    rw [h.g.rep]
    congr 1
    apply List.map_congr_left
    intro b hb
    have : b ≠ a := fun hh => hch (hh ▸ List.mem_of_mem_tail hb)
    exact (upd_other _ _ this).symm
  · intro u
    by_cases hu : u = t
    · subst hu
      unfold T
      simp only [upd_same]
      exact ⟨upd_same _ _ _, upd_same _ _ _, by simp only [upd_same]; exact hd⟩
    · refine (h.t u).frame h.g h.g.head_mem ?_
      refine ⟨upd_other _ _ hu, rfl, ?_, ?_, ?_, ?_⟩
      · intro b hb
        have h1 : b ≠ a := by rintro rfl; rw [hb] at hr; simp at hr
        exact ⟨by rw [← hb]; exact upd_other _ _ h1, upd_other _ _ h1, upd_other _ _ h1⟩
      · intro b hb
        have h1 : b ≠ a := by rintro rfl; rw [hb] at hr; simp at hr
        rw [← hb]; exact upd_other _ _ h1
      · intro b hbh hsb
        have h1 : b ≠ a := by rintro rfl; exact hq u hbh
        refine ⟨?_, fun x hx => by rw [← hx]; exact upd_other _ _ h1, fun _ h2 _ => h2,
          fun hok hm => ⟨hok hm, rfl, fun h => h⟩⟩
        unfold Seen at hsb ⊢
        simp only
        rw [upd_other _ _ h1]; exact hsb
      · intro b hb
        have : b ≠ a := fun hh => hch (hh ▸ hb)
        exact upd_other _ _ this
  · intro u hu
    show upd s.pc t _ u = .idle
    rw [upd_other _ _ (show u ≠ t by omega)]; exact h.out u hu

theorem Inv.go {n : Nat} {s s' : S} {ch : List Addr} {t : Nat} (h : Inv n s ch) (htn : t < n)
    (hs : goStep s t = some s') : ∃ ch', Inv n s' ch' := by
  have hT := h.t t
  unfold T at hT
  unfold goStep at hs
  cases hpc : s.pc t with
  | idle => rw [hpc] at hs; simp at hs
  | pAlloc v => rw [hpc] at hs; simp at hs
  | crash => rw [hpc] at hs; simp at hs
  | pTail node =>
    rw [hpc] at hs hT
    simp only [Option.some.injEq] at hs
    subst hs
    refine ⟨ch, h.local htn ?_⟩
    unfold T
    simp only [upd_same]
    exact ⟨⟨hT.role, hT.next, hT.doing⟩, h.g.seen h.g.tl.mem, fun _ => rfl⟩
  | pNext node tl =>
    rw [hpc] at hs hT
    simp only [Option.some.injEq] at hs
    subst hs
    refine ⟨ch, h.local htn ?_⟩
    unfold T
    simp only [upd_same]
    exact ⟨⟨hT.1.role, hT.1.next, hT.1.doing⟩, ⟨hT.2.seen, hT.2.last⟩, fun x hx => hx⟩
  | pChk node tl nx =>
    rw [hpc] at hs hT
    simp only at hs hT
    split at hs
    · cases nx with
      | none =>
        simp only [Option.some.injEq] at hs
        subst hs
        refine ⟨ch, h.local htn ?_⟩
        unfold T
        simp only [upd_same]
        exact ⟨⟨hT.1.role, hT.1.next, hT.1.doing⟩, ⟨hT.2.1.seen, hT.2.1.last⟩⟩
      | some x =>
        simp only [Option.some.injEq] at hs
        subst hs
        refine ⟨ch, h.local htn ?_⟩
        unfold T
        simp only [upd_same]
        exact ⟨⟨hT.1.role, hT.1.next, hT.1.doing⟩, hT.2.1.seen, hT.2.2 x rfl⟩
    · simp only [Option.some.injEq] at hs
      subst hs
      refine ⟨ch, h.local htn ?_⟩
      unfold T
      simp only [upd_same]
      exact ⟨hT.1.role, hT.1.next, hT.1.doing⟩
  | pLink node tl =>
    rw [hpc] at hs hT
    simp only at hs hT
    split at hs
    · rename_i hn
      simp only [Option.some.injEq] at hs
      subst hs
      exact ⟨_, h.link htn hT.1 hT.2 hn⟩
    · simp only [Option.some.injEq] at hs
      subst hs
      refine ⟨ch, h.local htn ?_⟩
      unfold T
      simp only [upd_same]
      exact ⟨hT.1.role, hT.1.next, hT.1.doing⟩
  | pHelp node tl x =>
    rw [hpc] at hs hT
    simp only at hs hT
    split at hs
    · rename_i htl
      simp only [Option.some.injEq] at hs
      subst hs
      refine ⟨ch, h.swing htn (by rw [htl]; exact hT.2.2) ?_⟩
      unfold T
      simp only [upd_same]
      exact ⟨hT.1.role, hT.1.next, hT.1.doing⟩
    · simp only [Option.some.injEq] at hs
      subst hs
      refine ⟨ch, h.local htn ?_⟩
      unfold T
      simp only [upd_same]
      exact ⟨hT.1.role, hT.1.next, hT.1.doing⟩
  | pSwing node tl =>
    rw [hpc] at hs hT
    simp only at hs hT
    split at hs
    · rename_i htl
      simp only [Option.some.injEq] at hs
      subst hs
      refine ⟨ch, h.swing htn (by rw [htl]; exact hT.2.1) ?_⟩
      unfold T
      simp only [upd_same]
      exact hT.2.2
    · simp only [Option.some.injEq] at hs
      subst hs
      refine ⟨ch, h.local htn ?_⟩
      unfold T
      simp only [upd_same]
      exact hT.2.2
  | pRet =>
    rw [hpc] at hs hT
    simp only [Option.some.injEq] at hs
    subst hs
    refine ⟨ch, h.event htn ?_ ?_ (fun u hu => doing_cons_other (fun hh => hu hh.symm)) ?_⟩
    · simp only [replay, h.g.rep, Option.bind_some, Ev.apply]
    · rw [List.filter_cons, h.g.vis]; rfl
    · unfold T
      simp only [upd_same]
      rw [doing_cons_same (t := t) (e := .retPush t) rfl hT]; rfl
  | cHead =>
    rw [hpc] at hs hT
    simp only [Option.some.injEq] at hs
    subst hs
    refine ⟨ch, h.local htn ?_⟩
    unfold T
    simp only [upd_same]
    exact ⟨⟨h.g.seen h.g.head_mem, fun _ => rfl⟩, hT⟩
  | cTail a =>
    rw [hpc] at hs hT
    simp only [Option.some.injEq] at hs
    subst hs
    refine ⟨ch, h.local htn ?_⟩
    unfold T
    simp only [upd_same]
    exact ⟨⟨hT.1.seen, hT.1.ok⟩, fun _ h => h, hT.2⟩
  | cNext a tl =>
    rw [hpc] at hs hT
    simp only [Option.some.injEq] at hs
    subst hs
    have hlast : a = s.head → s.next a = none → tl = a := by
      intro he hn
      have hm : a ∈ ch := he ▸ h.g.head_mem
      apply Classical.byContradiction
      intro hne
      have ht := hT.2.1 he hne
      obtain ⟨p, hp⟩ := h.g.linked.last hm hn
      have hc : p = [] := by
        cases p with
        | nil => rfl
        | cons b p =>
          have := h.g.hd
          rw [hp] at this
          simp only [List.cons_append, List.head?_cons, Option.some.injEq] at this
          have hnd := h.g.nodup
          rw [hp] at hnd
          simp only [List.cons_append, List.nodup_cons] at hnd
          exact absurd (by rw [this, ← he]; simp) hnd.1
      subst hc
      have := h.g.tl.mem
      rw [hp] at this
      simp only [List.nil_append, List.mem_singleton] at this
      exact ht this
    by_cases hc : s.head = a ∧ s.next a = none
    · rw [if_pos hc]
      have hempty : ch.tail = [] := by
        have hm : a ∈ ch := hc.1 ▸ h.g.head_mem
        have hhd := h.g.hd
        have hlk := h.g.linked
        cases ch with
        | nil => rfl
        | cons b c =>
          simp only [List.head?_cons, Option.some.injEq] at hhd
          cases c with
          | nil => rfl
          | cons y c =>
            simp only [Linked] at hlk
            rw [hhd, hc.1, hc.2] at hlk
            simp at hlk
      refine ⟨ch, h.event htn ?_ ?_ (fun u hu => doing_cons_other (fun hh => hu hh.symm)) ?_⟩
      · simp [replay, h.g.rep, hempty, Ev.apply]
      · rw [List.filter_cons]; simp only [Ev.visible]; exact h.g.vis
      · unfold T
        simp only [upd_same]
        have hdo : doing t (.effPop t none :: s.full) = some (.popped none) := by
          rw [doing_cons_same (t := t) (e := .effPop t none) rfl hT.2.2]; rfl
        refine ⟨⟨hT.1.seen, hT.1.ok⟩, hT.2.1, ?_, ?_⟩
        · intro x hx; rw [hc.2] at hx; simp at hx
        · intro _
          exact ⟨Or.inr hdo, fun he => ⟨hdo, hlast he hc.2⟩⟩
    · rw [if_neg hc]
      refine ⟨ch, h.local htn ?_⟩
      unfold T
      simp only [upd_same]
      refine ⟨⟨hT.1.seen, hT.1.ok⟩, hT.2.1, fun x hx => ⟨hx, hT.2.2⟩, fun hn => ?_⟩
      exact ⟨Or.inl hT.2.2, fun he => absurd ⟨he.symm, hn⟩ hc⟩
  | cChk a tl nx =>
    rw [hpc] at hs hT
    simp only at hs hT
    split at hs
    · rename_i hhd
      split at hs
      · rename_i hat
        cases nx with
        | none =>
          simp only [Option.some.injEq] at hs
          subst hs
          refine ⟨ch, h.local htn ?_⟩
          unfold T
          simp only [upd_same]
          exact ((hT.2.2.2 rfl).2 hhd.symm).1
        | some x =>
          simp only [Option.some.injEq] at hs
          subst hs
          refine ⟨ch, h.local htn ?_⟩
          unfold T
          simp only [upd_same]
          have := hT.2.2.1 x rfl
          rw [← hat]
          exact ⟨hT.1.seen, this.1, this.2⟩
      · rename_i hat
        simp only [Option.some.injEq] at hs
        subst hs
        refine ⟨ch, h.local htn ?_⟩
        unfold T
        simp only [upd_same]
        cases nx with
        | none => exact absurd ((hT.2.2.2 rfl).2 hhd.symm).2.symm hat
        | some x =>
          have := hT.2.2.1 x rfl
          exact ⟨⟨hT.1.seen, hT.1.ok⟩, fun he => hT.2.1 he (fun hh => hat hh.symm), ⟨x, rfl, this.1⟩, this.2⟩
    · simp only [Option.some.injEq] at hs
      subst hs
      have hdo : doing t s.full = some .popping ∨ doing t s.full = some (.popped none) := by
        cases nx with
        | none => exact (hT.2.2.2 rfl).1
        | some x => exact Or.inl (hT.2.2.1 x rfl).2
      refine ⟨ch, h.event htn (replay_retract h.g.rep) ?_ (fun u hu => doing_retract_other hu _) ?_⟩
      · rw [visible_retract]; exact h.g.vis
      · unfold T
        simp only [upd_same]
        exact doing_retract hdo
  | cHelp tl x =>
    rw [hpc] at hs hT
    simp only at hs hT
    split at hs
    · rename_i htl
      simp only [Option.some.injEq] at hs
      subst hs
      refine ⟨ch, h.swing htn (by rw [htl]; exact hT.2.1) ?_⟩
      unfold T
      simp only [upd_same]
      exact hT.2.2
    · simp only [Option.some.injEq] at hs
      subst hs
      refine ⟨ch, h.local htn ?_⟩
      unfold T
      simp only [upd_same]
      exact hT.2.2
  | cData a nx =>
    rw [hpc] at hs hT
    simp only at hs hT
    obtain ⟨x, rfl, hx⟩ := hT.2.2.1
    simp only [Option.some.injEq] at hs
    subst hs
    refine ⟨ch, h.local htn ?_⟩
    unfold T
    simp only [upd_same]
    exact ⟨⟨hT.1.seen, hT.1.ok⟩, hT.2.1, hx, fun _ => trivial, hT.2.2.2⟩
  | cCas a x d =>
    rw [hpc] at hs hT
    simp only at hs hT
    split at hs
    · rename_i hhd
      simp only [Option.some.injEq] at hs
      subst hs
      subst hhd
      exact h.take htn hT.2.2.1 (hT.2.1 rfl) (hT.2.2.2.1 rfl) hT.2.2.2.2
    · simp only [Option.some.injEq] at hs
      subst hs
      refine ⟨ch, h.local htn ?_⟩
      unfold T
      simp only [upd_same]
      exact hT.2.2.2.2
  | cFree a d =>
    rw [hpc] at hs hT
    simp only [Option.some.injEq] at hs
    subst hs
    exact ⟨ch, h.dealloc htn hT.1 hT.2⟩
  | cRet r =>
    rw [hpc] at hs hT
    simp only [Option.some.injEq] at hs
    subst hs
    refine ⟨ch, h.event htn ?_ ?_ (fun u hu => doing_cons_other (fun hh => hu hh.symm)) ?_⟩
    · simp only [replay, h.g.rep, Option.bind_some, Ev.apply]
    · rw [List.filter_cons, h.g.vis]; rfl
    · unfold T
      simp only [upd_same]
      rw [doing_cons_same (t := t) (e := .retPop t r) rfl hT]; simp [Doing.next]

theorem Inv.step {n : Nat} {s s' : S} {ch : List Addr} {a : Act} (h : Inv n s ch)
    (hs : qstep n s a = some s') : ∃ ch', Inv n s' ch' := by
  cases a with
  | callPush t v =>
    simp only [qstep, mstep] at hs
    split at hs
    · rename_i hc
      simp only [Option.some.injEq] at hs
      subst hs
      have hT := h.t t
      unfold T at hT
      rw [hc.2] at hT
      refine ⟨ch, h.event hc.1 ?_ ?_ (fun u hu => doing_cons_other (fun hh => hu hh.symm)) ?_⟩
      · simp only [replay, h.g.rep, Option.bind_some, Ev.apply]
      · rw [List.filter_cons, h.g.vis]; rfl
      · unfold T
        simp only [upd_same]
        rw [doing_cons_same (t := t) (e := .callPush t v) rfl hT]; rfl
    · simp at hs
  | callPop t =>
    simp only [qstep, mstep] at hs
    split at hs
    · rename_i hc
      simp only [Option.some.injEq] at hs
      subst hs
      have hT := h.t t
      unfold T at hT
      rw [hc.2] at hT
      refine ⟨ch, h.event hc.1 ?_ ?_ (fun u hu => doing_cons_other (fun hh => hu hh.symm)) ?_⟩
      · simp only [replay, h.g.rep, Option.bind_some, Ev.apply]
      · rw [List.filter_cons, h.g.vis]; rfl
      · unfold T
        simp only [upd_same]
        rw [doing_cons_same (t := t) (e := .callPop t) rfl hT]; rfl
    · simp at hs
  | alloc t a =>
    simp only [qstep] at hs
    split at hs
    · rename_i hq
      simp only [mstep] at hs
      have hq' : ∀ u, (s.pc u).holds ≠ some a := by
        intro u
        by_cases hu : u < n
        · have := List.all_eq_true.1 hq u (List.mem_range.2 hu)
          simpa using this
        · rw [h.out u (by omega)]; simp [Pc.holds]
      split at hs
      · rename_i v hpc
        split at hs
        · rename_i hr
          simp only [Option.some.injEq] at hs
          subst hs
          have hT := h.t t
          unfold T at hT
          rw [hpc] at hT
          have htn : t < n := by
            apply Classical.byContradiction
            intro hh
            rw [h.out t (by omega)] at hpc
            simp at hpc
          exact ⟨ch, h.alloc htn hr hq' hT⟩
        · simp at hs
      · simp at hs
    · simp at hs
  | go t =>
    simp only [qstep, mstep] at hs
    split at hs
    · rename_i htn; exact h.go htn hs
    · simp at hs

theorem Inv.init (n : Nat) : Inv n S.init [0] := by
  refine ⟨⟨rfl, by simp, rfl, rfl, ?_, ?_, rfl, rfl⟩, fun u => ?_, fun _ _ => rfl⟩
  · intro a
    simp only [S.init, List.mem_singleton]
    by_cases ha : a = 0 <;> simp [ha]
  · intro a ha hc
    simp only [List.mem_singleton] at hc
    unfold Seen at ha
    simp [S.init, hc] at ha
  · unfold T
    simp [S.init, doing]

theorem Inv.reach {n : Nat} {s : S} (hr : Reach (qstep n) S.init s) : ∃ ch, Inv n s ch :=
  hr.inv (Inv := fun x => ∃ ch, Inv n x ch) ⟨[0], Inv.init n⟩ (fun _ _ _ ⟨_, h⟩ hs => h.step hs)

end FF.Msq
