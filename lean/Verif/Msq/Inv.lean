import Verif.Msq.Model
/-!
# C59: invariant of the list based queue
-/
namespace FF.Msq
open FF

/-! ## Histories -/

theorem doing_cons_same {t : Nat} {e : Ev} {h : List Ev} {d : Doing} (he : e.thread = t)
    (hd : doing t h = some d) : doing t (e :: h) = d.next e := by
  simp [doing, he, hd]

theorem doing_cons_other {t : Nat} {e : Ev} {h : List Ev} (he : e.thread ≠ t) :
    doing t (e :: h) = doing t h := by
  simp [doing, he]

theorem doing_retract_other {t u : Nat} (hu : u ≠ t) (h : List Ev) :
    doing u (retract t h) = doing u h := by
  induction h with
  | nil => rfl
  | cons e h ih =>
    simp only [retract]
    split
    · rename_i he
      have : e.thread ≠ u := fun hh => hu (by rw [← hh, he])
      split
      · rw [doing_cons_other this]
      · rfl
    · by_cases heu : e.thread = u
      · simp only [doing, heu, if_true, ih]
      · rw [doing_cons_other heu, doing_cons_other heu, ih]

theorem doing_retract {t : Nat} {h : List Ev}
    (hd : doing t h = some .popping ∨ doing t h = some (.popped none)) :
    doing t (retract t h) = some .popping := by
  induction h with
  | nil => simp [doing] at hd
  | cons e h ih =>
    simp only [retract]
    by_cases he : e.thread = t
    · rw [if_pos he]
      simp only [doing, he, if_true] at hd
      cases hp : doing t h with
      | none => rw [hp] at hd; simp at hd
      | some d =>
        rw [hp] at hd
        simp only [Option.bind_some] at hd
        by_cases hn : e = .effPop t none
        · subst hn
          rw [if_pos rfl, hp]
          cases d <;> simp [Doing.next] at hd ⊢
        · rw [if_neg hn]
          simp only [doing, he, if_true, hp, Option.bind_some]
          cases e <;> cases d <;> simp [Doing.next] at hd ⊢
          rename_i tt r
          simp only [Ev.thread] at he
          subst he
          exact absurd (by rw [hd]) hn
    · rw [if_neg he, doing_cons_other he]
      rw [doing_cons_other he] at hd
      exact ih hd

theorem replay_retract {t : Nat} {h : List Ev} {q : List Nat} (hr : replay h = some q) :
    replay (retract t h) = some q := by
  induction h generalizing q with
  | nil => exact hr
  | cons e h ih =>
    simp only [retract]
    simp only [replay] at hr
    cases hp : replay h with
    | none => rw [hp] at hr; simp at hr
    | some q' =>
      rw [hp] at hr
      simp only [Option.bind_some] at hr
      split
      · split
        · rename_i he
          subst he
          simp only [Ev.apply] at hr
          split at hr
          · rename_i hq; subst hq; rw [hp]; exact hr
          · simp at hr
        · simp only [replay, hp, Option.bind_some]; exact hr
      · simp only [replay, ih hp, Option.bind_some]; exact hr

theorem visible_retract (t : Nat) (h : List Ev) :
    (retract t h).filter Ev.visible = h.filter Ev.visible := by
  induction h with
  | nil => rfl
  | cons e h ih =>
    simp only [retract]
    split
    · split
      · rename_i he; subst he; simp [Ev.visible]
      · rfl
    · simp only [List.filter_cons, ih]

/-! ## The list -/

/-- `c` is linked: each node points to the following one and the last one to nothing. -/
def Linked (next : Addr → Option Addr) : List Addr → Prop
  | [] => False
  | [a] => next a = none
  | a :: b :: c => next a = some b ∧ Linked next (b :: c)

/-- `tl` is the last node of the list or the one before. -/
def NearEnd (tl : Addr) : List Addr → Prop
  | [] => False
  | [a] => a = tl
  | [a, b] => a = tl ∨ b = tl
  | _ :: b :: c :: d => NearEnd tl (b :: c :: d)

theorem Linked.congr {f g : Addr → Option Addr} {c : List Addr} (h : Linked f c)
    (hc : ∀ a ∈ c, f a = g a) : Linked g c := by
  induction c with
  | nil => exact h
  | cons a c ih =>
    cases c with
    | nil => simp only [Linked] at h ⊢; rw [← hc a (by simp)]; exact h
    | cons b c =>
      simp only [Linked] at h ⊢
      exact ⟨by rw [← hc a (by simp)]; exact h.1, ih h.2 fun x hx => hc x (by simp [hx])⟩

theorem Linked.ne {f : Addr → Option Addr} {c : List Addr} (h : Linked f c) : c ≠ [] := by
  cases c with
  | nil => exact absurd h id
  | cons a c => simp

/-- the node with nothing behind is the last one -/
theorem Linked.last {f : Addr → Option Addr} {c : List Addr} (h : Linked f c) {a : Addr}
    (ha : a ∈ c) (hn : f a = none) : ∃ p, c = p ++ [a] := by
  induction c with
  | nil => simp at ha
  | cons b c ih =>
    cases c with
    | nil => simp only [List.mem_singleton] at ha; subst ha; exact ⟨[], rfl⟩
    | cons x c =>
      simp only [Linked] at h
      simp only [List.mem_cons] at ha
      rcases ha with rfl | ha
      · rw [h.1] at hn; simp at hn
      · obtain ⟨p, hp⟩ := ih h.2 (by simpa using ha)
        exact ⟨b :: p, by rw [hp]; simp⟩

theorem Linked.append {f : Addr → Option Addr} {p : List Addr} {a x : Addr}
    (h : Linked f (p ++ [a])) (hd : (p ++ [a]).Nodup) (hx : x ∉ p ++ [a]) (hfx : f x = none) :
    Linked (upd f a (some x)) (p ++ [a] ++ [x]) := by
  induction p with
  | nil =>
    simp only [List.nil_append, List.mem_singleton] at hx
    simp only [List.nil_append, List.cons_append, Linked, upd, if_true]
    refine ⟨trivial, ?_⟩
    simp [hx, hfx]
  | cons b p ih =>
    have hd' := hd
    simp only [List.cons_append, List.nodup_cons] at hd
    have hba : b ≠ a := fun hh => hd.1 (by simp [hh])
    have hx' : x ∉ p ++ [a] := fun hh => hx (by simp only [List.cons_append, List.mem_cons]; exact Or.inr hh)
    cases p with
    | nil =>
      simp only [List.nil_append, List.cons_append, Linked] at h ih ⊢
      refine ⟨by simp only [upd, if_neg hba]; exact h.1, ?_⟩
      exact ih h.2 (by simp) (by simpa using hx')
    | cons c p =>
      simp only [List.cons_append, Linked] at h ih ⊢
      refine ⟨by simp only [upd, if_neg hba]; exact h.1, ?_⟩
      exact ih h.2 (by simpa using hd.2) (by simpa using hx')

/-- the successor of a node of the list is in the list, and is not the first -/
theorem Linked.succ {f : Addr → Option Addr} {c : List Addr} (h : Linked f c) (hd : c.Nodup)
    {a x : Addr} (ha : a ∈ c) (hx : f a = some x) : x ∈ c ∧ c.head? ≠ some x := by
  induction c with
  | nil => simp at ha
  | cons b c ih =>
    cases c with
    | nil =>
      simp only [List.mem_singleton] at ha; subst ha
      simp only [Linked] at h; rw [h] at hx; simp at hx
    | cons y c =>
      simp only [Linked] at h
      simp only [List.nodup_cons] at hd
      simp only [List.mem_cons] at ha
      have key : x ∈ y :: c := by
        rcases ha with rfl | ha
        · rw [h.1] at hx
          simp only [Option.some.injEq] at hx
          subst hx; simp
        · exact (ih h.2 (by simpa using hd.2) (by simpa using ha)).1
      refine ⟨by simp only [List.mem_cons] at key ⊢; exact Or.inr key, ?_⟩
      intro hh
      simp only [List.head?_cons, Option.some.injEq] at hh
      subst hh
      exact hd.1 key

theorem NearEnd.mem {tl : Addr} {c : List Addr} (h : NearEnd tl c) : tl ∈ c := by
  induction c with
  | nil => exact absurd h id
  | cons a c ih =>
    cases c with
    | nil => simp only [NearEnd] at h; simp [h]
    | cons b c =>
      cases c with
      | nil => simp only [NearEnd] at h; rcases h with h | h <;> simp [h]
      | cons d c =>
        simp only [NearEnd] at h
        have := ih h
        exact List.mem_cons_of_mem _ this

theorem NearEnd.last (p : List Addr) (a : Addr) : NearEnd a (p ++ [a]) := by
  induction p with
  | nil => simp [NearEnd]
  | cons b p ih =>
    cases p with
    | nil => simp [NearEnd]
    | cons c p =>
      cases p with
      | nil => simpa [NearEnd] using ih
      | cons d p => simpa [NearEnd] using ih

theorem NearEnd.before (p : List Addr) (a b : Addr) : NearEnd a (p ++ [a] ++ [b]) := by
  induction p with
  | nil => simp [NearEnd]
  | cons c p ih =>
    cases p with
    | nil => simpa [NearEnd] using ih
    | cons d p => cases p <;> simpa [NearEnd] using ih

/-- a node with something behind and near the end: what is behind is the last node -/
theorem NearEnd.split {f : Addr → Option Addr} {c : List Addr} {tl : Addr} (h : NearEnd tl c)
    (hl : Linked f c) (hd : c.Nodup) : (∃ p, c = p ++ [tl]) ∨ ∃ p x, c = p ++ [tl] ++ [x] ∧ f tl = some x := by
  induction c with
  | nil => exact absurd h id
  | cons a c ih =>
    cases c with
    | nil => simp only [NearEnd] at h; subst h; exact Or.inl ⟨[], rfl⟩
    | cons b c =>
      cases c with
      | nil =>
        simp only [NearEnd] at h
        simp only [Linked] at hl
        rcases h with rfl | rfl
        · exact Or.inr ⟨[], b, rfl, hl.1⟩
        · exact Or.inl ⟨[a], rfl⟩
      | cons d c =>
        simp only [NearEnd] at h
        simp only [Linked] at hl ih
        rcases ih h hl.2 (List.nodup_cons.1 hd).2 with ⟨p, hp⟩ | ⟨p, x, hp, hx⟩
        · exact Or.inl ⟨a :: p, by rw [hp]; simp⟩
        · exact Or.inr ⟨a :: p, x, by rw [hp]; simp, hx⟩

/-! ## The invariant -/

/-- the node has been in the list since it was last allocated -/
def Seen (s : S) (a : Addr) : Prop := s.role a = .inq ∨ (∃ t, s.role a = .out t) ∨ s.role a = .free

/-- Shared state; `ch` is the list from `head` on. -/
structure G (s : S) (ch : List Addr) : Prop where
  linked : Linked s.next ch
  nodup : ch.Nodup
  hd : ch.head? = some s.head
  tl : NearEnd s.tail ch
  role : ∀ a, a ∈ ch ↔ s.role a = .inq
  gone : ∀ a, Seen s a → a ∉ ch → s.next a ≠ none
  rep : replay s.full = some (ch.tail.map s.data)
  vis : s.full.filter Ev.visible = s.vis

/-- the node a push has allocated and not linked yet -/
structure Own (s : S) (u : Nat) (node : Addr) : Prop where
  role : s.role node = .priv u
  next : s.next node = none
  doing : doing u s.full = some (.pushing (s.data node))

/-- a node that was read from `head` -/
structure Head (s : S) (ch : List Addr) (h : Addr) : Prop where
  seen : Seen s h
  ok : h ∈ ch → h = s.head

/-- a node that was read from `tail`: if it is the last one, `tail` still points to it -/
structure Tail (s : S) (tl : Addr) : Prop where
  seen : Seen s tl
  last : s.next tl = none → s.tail = tl

/-- What a thread knows at each program counter. -/
def T (s : S) (ch : List Addr) (u : Nat) : Prop :=
  match s.pc u with
  | .idle => doing u s.full = some .nothing
  | .pAlloc v => doing u s.full = some (.pushing v)
  | .pTail node => Own s u node
  | .pNext node tl => Own s u node ∧ Tail s tl
  | .pChk node tl nx => Own s u node ∧ Tail s tl ∧ ∀ x, nx = some x → s.next tl = some x
  | .pLink node tl => Own s u node ∧ Tail s tl
  | .pHelp node tl x => Own s u node ∧ Seen s tl ∧ s.next tl = some x
  | .pSwing node tl => Seen s tl ∧ s.next tl = some node ∧ doing u s.full = some .pushed
  | .pRet => doing u s.full = some .pushed
  | .cHead => doing u s.full = some .popping
  | .cTail h => Head s ch h ∧ doing u s.full = some .popping
  | .cNext h tl => Head s ch h ∧ (h = s.head → tl ≠ h → s.tail ≠ h) ∧ doing u s.full = some .popping
  | .cChk h tl nx => Head s ch h ∧ (h = s.head → tl ≠ h → s.tail ≠ h) ∧
      (∀ x, nx = some x → s.next h = some x ∧ doing u s.full = some .popping) ∧
      (nx = none → (doing u s.full = some .popping ∨ doing u s.full = some (.popped none)) ∧
        (h = s.head → doing u s.full = some (.popped none) ∧ tl = h))
  | .cHelp tl x => Seen s tl ∧ s.next tl = some x ∧ doing u s.full = some .popping
  | .cData h nx => Head s ch h ∧ (h = s.head → s.tail ≠ h) ∧ (∃ x, nx = some x ∧ s.next h = some x) ∧
      doing u s.full = some .popping
  | .cCas h x d => Head s ch h ∧ (h = s.head → s.tail ≠ h) ∧ s.next h = some x ∧
      (h = s.head → s.data x = d) ∧ doing u s.full = some .popping
  | .cFree h d => s.role h = .out u ∧ doing u s.full = some (.popped (some d))
  | .cRet r => doing u s.full = some (.popped r)
  | .crash => False

structure Inv (n : Nat) (s : S) (ch : List Addr) : Prop where
  g : G s ch
  t : ∀ u, T s ch u
  out : ∀ u, n ≤ u → s.pc u = .idle

theorem G.head_mem {s : S} {ch : List Addr} (h : G s ch) : s.head ∈ ch := by
  have := h.hd
  cases ch with
  | nil => simp at this
  | cons a c => simp only [List.head?_cons, Option.some.injEq] at this; simp [this]

theorem G.seen {s : S} {ch : List Addr} (h : G s ch) {a : Addr} (ha : a ∈ ch) : Seen s a :=
  Or.inl ((h.role a).1 ha)

/-- a seen node with nothing behind it is the last of the list -/
theorem G.last {s : S} {ch : List Addr} (h : G s ch) {a : Addr} (ha : Seen s a)
    (hn : s.next a = none) : a ∈ ch := by
  apply Classical.byContradiction
  intro hc
  exact h.gone a ha hc hn

/-- What a step of another thread must leave alone. -/
structure Frame (s : S) (ch : List Addr) (s' : S) (ch' : List Addr) (u : Nat) : Prop where
  pc : s'.pc u = s.pc u
  same : doing u s'.full = doing u s.full
  own : ∀ a, s.role a = .priv u → s'.role a = .priv u ∧ s'.next a = s.next a ∧ s'.data a = s.data a
  out : ∀ a, s.role a = .out u → s'.role a = .out u
  held : ∀ a, (s.pc u).holds = some a → Seen s a → Seen s' a ∧
    (∀ x, s.next a = some x → s'.next a = some x) ∧
    (s.next a = none → s.tail = a → s'.next a = none → s'.tail = a) ∧
    ((a ∈ ch → a = s.head) → a ∈ ch' → a = s.head ∧ s'.head = s.head ∧ (s.tail ≠ a → s'.tail ≠ a))
  data : ∀ x ∈ ch, s'.data x = s.data x

theorem Own.frame {s s' : S} {ch ch' : List Addr} {u : Nat} {a : Addr} (h : Own s u a)
    (f : Frame s ch s' ch' u) : Own s' u a := by
  obtain ⟨f1, f2, f3⟩ := f.own a h.role
  exact ⟨f1, by rw [f2]; exact h.next, by rw [f.same, f3]; exact h.doing⟩

theorem Tail.frame {s s' : S} {ch ch' : List Addr} {u : Nat} {a : Addr} (h : Tail s a)
    (f : Frame s ch s' ch' u) (ha : (s.pc u).holds = some a) : Tail s' a := by
  obtain ⟨f1, f2, f3, -⟩ := f.held a ha h.seen
  refine ⟨f1, fun hn => ?_⟩
  have hn0 : s.next a = none := by
    cases hc : s.next a with
    | none => rfl
    | some x => rw [f2 x hc] at hn; simp at hn
  exact f3 hn0 (h.last hn0) hn

theorem T.frame {s s' : S} {ch ch' : List Addr} {u : Nat} (h : T s ch u) (g : G s ch)
    (hh : s'.head ∈ ch') (f : Frame s ch s' ch' u) : T s' ch' u := by
  have hp := f.pc
  have hd := f.same
  have key : ∀ a, (s.pc u).holds = some a → Seen s a → (a ∈ ch → a = s.head) →
      (a ∈ ch' → a = s'.head) ∧ (a = s'.head → a = s.head ∧ (s.tail ≠ a → s'.tail ≠ a)) := by
    intro a ha hs ho
    obtain ⟨-, -, -, f3⟩ := f.held a ha hs
    refine ⟨fun hm => ?_, fun hm => ?_⟩
    · obtain ⟨e1, e2, -⟩ := f3 ho hm; rw [e2]; exact e1
    · obtain ⟨e1, -, e3⟩ := f3 ho (by rw [hm]; exact hh); exact ⟨e1, e3⟩
  unfold T at h ⊢
  rw [hp, hd]
  cases hpc : s.pc u with
  | idle => rw [hpc] at h; exact h
  | pAlloc v => rw [hpc] at h; exact h
  | pTail node => rw [hpc] at h; exact h.frame f
  | pNext node tl =>
    rw [hpc] at h
    exact ⟨h.1.frame f, h.2.frame f (by rw [hpc]; rfl)⟩
  | pChk node tl nx =>
    rw [hpc] at h
    have fh := f.held tl (by rw [hpc]; rfl) h.2.1.seen
    exact ⟨h.1.frame f, h.2.1.frame f (by rw [hpc]; rfl), fun x hx => fh.2.1 x (h.2.2 x hx)⟩
  | pLink node tl =>
    rw [hpc] at h
    exact ⟨h.1.frame f, h.2.frame f (by rw [hpc]; rfl)⟩
  | pHelp node tl x =>
    rw [hpc] at h
    have fh := f.held tl (by rw [hpc]; rfl) h.2.1
    exact ⟨h.1.frame f, fh.1, fh.2.1 x h.2.2⟩
  | pSwing node tl =>
    rw [hpc] at h
    have fh := f.held tl (by rw [hpc]; rfl) h.1
    exact ⟨fh.1, fh.2.1 _ h.2.1, h.2.2⟩
  | pRet => rw [hpc] at h; exact h
  | cHead => rw [hpc] at h; exact h
  | cTail a =>
    rw [hpc] at h
    have fh := f.held a (by rw [hpc]; rfl) h.1.seen
    have k := key a (by rw [hpc]; rfl) h.1.seen h.1.ok
    exact ⟨⟨fh.1, k.1⟩, h.2⟩
  | cNext a tl =>
    rw [hpc] at h
    have fh := f.held a (by rw [hpc]; rfl) h.1.seen
    have k := key a (by rw [hpc]; rfl) h.1.seen h.1.ok
    exact ⟨⟨fh.1, k.1⟩, fun e hne => (k.2 e).2 (h.2.1 (k.2 e).1 hne), h.2.2⟩
  | cChk a tl nx =>
    rw [hpc] at h
    have fh := f.held a (by rw [hpc]; rfl) h.1.seen
    have k := key a (by rw [hpc]; rfl) h.1.seen h.1.ok
    exact ⟨⟨fh.1, k.1⟩, fun e hne => (k.2 e).2 (h.2.1 (k.2 e).1 hne),
      fun x hx => ⟨fh.2.1 x (h.2.2.1 x hx).1, (h.2.2.1 x hx).2⟩,
      fun hn => ⟨(h.2.2.2 hn).1, fun e => (h.2.2.2 hn).2 (k.2 e).1⟩⟩
  | cHelp tl x =>
    rw [hpc] at h
    have fh := f.held tl (by rw [hpc]; rfl) h.1
    exact ⟨fh.1, fh.2.1 _ h.2.1, h.2.2⟩
  | cData a nx =>
    rw [hpc] at h
    have fh := f.held a (by rw [hpc]; rfl) h.1.seen
    have k := key a (by rw [hpc]; rfl) h.1.seen h.1.ok
    obtain ⟨x, hx, hn⟩ := h.2.2.1
    exact ⟨⟨fh.1, k.1⟩, fun e => (k.2 e).2 (h.2.1 (k.2 e).1), ⟨x, hx, fh.2.1 x hn⟩, h.2.2.2⟩
  | cCas a x d =>
    rw [hpc] at h
    have fh := f.held a (by rw [hpc]; rfl) h.1.seen
    have k := key a (by rw [hpc]; rfl) h.1.seen h.1.ok
    refine ⟨⟨fh.1, k.1⟩, fun e => (k.2 e).2 (h.2.1 (k.2 e).1), fh.2.1 x h.2.2.1, fun e => ?_, h.2.2.2.2⟩
    have ha : a = s.head := (k.2 e).1
    have : x ∈ ch := (g.linked.succ g.nodup (ha ▸ g.head_mem) h.2.2.1).1
    rw [f.data x this]; exact h.2.2.2.1 ha
  | cFree a d =>
    rw [hpc] at h
    exact ⟨f.out a h.1, h.2⟩
  | cRet r => rw [hpc] at h; exact h
  | crash => rw [hpc] at h; exact h

end FF.Msq
