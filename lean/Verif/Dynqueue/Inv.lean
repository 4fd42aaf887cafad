import Verif.Dynqueue.Model
namespace FF.Dynqueue
variable {A : Type}

theorem mem_eraseIdx_nodup {β : Type} {l : List β} {m : Nat} {e : β} (h : l[m]? = some e)
    (hn : l.Nodup) (x : β) : x ∈ l.eraseIdx m ↔ x ∈ l ∧ x ≠ e := by
  induction l generalizing m with
  | nil => simp at h
  | cons y l ih =>
    rw [List.nodup_cons] at hn
    cases m with
    | zero =>
      simp at h; subst h
      simp only [List.eraseIdx_zero, List.tail_cons, List.mem_cons]
      constructor
      · intro hx; exact ⟨Or.inr hx, by rintro rfl; exact hn.1 hx⟩
      · rintro ⟨h1 | h1, h2⟩
        · exact absurd h1 h2
        · exact h1
    | succ m =>
      simp at h
      simp only [List.eraseIdx_cons_succ, List.mem_cons, ih h hn.2]
      constructor
      · rintro (rfl | ⟨h1, h2⟩)
        · refine ⟨Or.inl rfl, ?_⟩
          rintro rfl; exact hn.1 (List.mem_of_getElem? h)
        · exact ⟨Or.inr h1, h2⟩
      · rintro ⟨rfl | h1, h2⟩
        · exact Or.inl rfl
        · exact Or.inr ⟨h1, h2⟩

/-- node under construction -/
def consOf : PPc A → Option (A × Nat)
  | .got a n => some (a, n)
  | .dataW a n => some (a, n)
  | .nextW a n => some (a, n)
  | .fenced a n => some (a, n)
  | _ => none

def q (p : PPc A) : Nat := if (consOf p).isSome then 1 else 0

def dW : PPc A → Bool
  | .dataW _ _ => true
  | .nextW _ _ => true
  | .fenced _ _ => true
  | _ => false

def nW : PPc A → Bool
  | .nextW _ _ => true
  | .fenced _ _ => true
  | _ => false

def fz : PPc A → Nat
  | .fenced _ _ => 1
  | _ => 0

def lk : PPc A → Nat
  | .linked _ => 1
  | _ => 0

/-- the stores of the `i`-th push -/
def En (nd : Nat → Nat) (i : Nat) (a : A) : Ent A := ⟨i, nd (i + 1), .data a⟩
def Nn (nd : Nat → Nat) (i : Nat) : Ent A := ⟨i, nd (i + 1), .next none⟩
def Ln (nd : Nat → Nat) (i : Nat) : Ent A := ⟨i + 1, nd i, .next (some (nd (i + 1)))⟩

/-- all the elements of pushes started so far -/
def vals (pushed : List A) (p : PPc A) : List A := pushed ++ ((consOf p).map Prod.fst).toList

structure InvN (s : St A) (nd : Nat → Nat) : Prop where
  nbad : s.bad = false
  ep : s.ep = s.pushed.length + fz s.ppc
  head : s.head = nd s.popped.length
  tail : s.tail = nd (s.pushed.length - lk s.ppc)
  lkpos : lk s.ppc ≤ s.pushed.length
  lkn : ∀ n, s.ppc = .linked n → n = nd s.pushed.length
  cle : s.popped.length ≤ s.pushed.length
  alloc : ∀ k, s.popped.length ≤ k → k ≤ s.pushed.length + q s.ppc → ∃ x, s.nodes (nd k) = some x
  inj : ∀ j k, s.popped.length ≤ j → j ≤ s.pushed.length + q s.ppc → s.popped.length ≤ k →
    k ≤ s.pushed.length + q s.ppc → nd j = nd k → j = k
  own : ∀ k, s.popped.length ≤ k → k ≤ s.pushed.length + q s.ppc →
    nd k ∉ s.cache ∧ s.cpc ≠ .moved (nd k)
  cnodup : s.cache.Nodup
  calloc : ∀ i ∈ s.cache, ∃ x, s.nodes i = some x
  mv : ∀ n, s.cpc = .moved n → n ∉ s.cache ∧ ∃ x, s.nodes n = some x
  arg : ∀ a n, consOf s.ppc = some (a, n) → n = nd (s.pushed.length + 1)
  ent : ∀ e ∈ s.sb,
    (∃ i a, s.popped.length ≤ i ∧ (vals s.pushed s.ppc)[i]? = some a ∧ e = En nd i a) ∨
    (∃ i, s.popped.length ≤ i ∧ i < s.pushed.length + q s.ppc ∧ e = Nn nd i) ∨
    (∃ i, s.popped.length ≤ i ∧ i < s.pushed.length ∧ e = Ln nd i)
  enW : ∀ a, En nd s.pushed.length a ∈ s.sb → dW s.ppc = true
  nnW : Nn nd s.pushed.length ∈ s.sb → nW s.ppc = true
  nodup : s.sb.Nodup
  data : ∀ i a, s.popped.length ≤ i → (vals s.pushed s.ppc)[i]? = some a →
    (i < s.pushed.length ∨ dW s.ppc = true) →
    En nd i a ∈ s.sb ∨ ∃ x, s.nodes (nd (i + 1)) = some x ∧ x.data = some a
  null : ∀ k, s.popped.length ≤ k → (k ≤ s.pushed.length ∨ k = s.pushed.length + 1 ∧ nW s.ppc = true) →
    (∃ i, k = i + 1 ∧ s.popped.length ≤ i ∧ Nn nd i ∈ s.sb) ∨
    ∃ x, s.nodes (nd k) = some x ∧
      (x.next = none ∨ (k < s.pushed.length ∧ Ln nd k ∉ s.sb ∧ x.next = some (nd (k + 1))))
  link : ∀ i, s.popped.length ≤ i → i < s.pushed.length → Ln nd i ∉ s.sb →
    (∃ x, s.nodes (nd i) = some x ∧ x.next = some (nd (i + 1))) ∧ Nn nd i ∉ s.sb ∧
    (∀ a, En nd i a ∉ s.sb) ∧ ∀ j, s.popped.length ≤ j → j < i → Ln nd j ∉ s.sb
  popped : s.popped = (s.pushed.take s.popped.length).map some
  seen : (s.cpc = .seen ∨ (∃ m, s.cpc = .nxt m) ∨ ∃ v, s.cpc = .val v) →
    s.popped.length < s.pushed.length ∧ Ln nd s.popped.length ∉ s.sb
  nxt : ∀ m, s.cpc = .nxt m → m = some (nd (s.popped.length + 1))
  val : ∀ v, s.cpc = .val v → v = s.pushed[s.popped.length]?

def Inv (s : St A) : Prop := ∃ nd, InvN s nd

theorem Inv.init : Inv (init : St A) := by
  refine ⟨fun _ => 0, ?_⟩
  constructor <;> simp [Dynqueue.init, q, consOf, fz, lk, dW, nW, vals]

theorem vals_lt {pushed : List A} {p : PPc A} {i : Nat} {a : A} (h : (vals pushed p)[i]? = some a) :
    i < pushed.length + q p := by
  have := (List.getElem?_eq_some_iff.mp h).1
  simp only [vals, List.length_append] at this
  cases hc : consOf p <;> simp [hc, q] at this ⊢ <;> omega

theorem InvN.alloc_step {s : St A} {nd : Nat → Nat} (h : InvN s nd) (hp : s.ppc = .idle) (a : A)
    {n : Nat} {nodes' : Nat → Option (Node A)} {cache' : List Nat} {x : Node A}
    (hn1 : ∀ i y, i ≠ n → s.nodes i = some y → nodes' i = some y) (hn2 : nodes' n = some x)
    (hc1 : ∀ i ∈ cache', i ∈ s.cache) (hc2 : cache'.Nodup) (hc3 : n ∉ cache')
    (hnew : ∀ k, s.popped.length ≤ k → k ≤ s.pushed.length → nd k ≠ n) (hmv : s.cpc ≠ .moved n) :
    Inv { s with nodes := nodes', cache := cache', ppc := .got a n } := by
  obtain ⟨nodes, head, tail, cache, ep, sb, ppc, cpc, bad, pushed, popped⟩ := s
  simp only at hp hn1 hc1 hnew hmv ⊢
  subst hp
  have hcle := h.cle
  simp only at hcle
  have hup : ∀ k, k ≤ pushed.length → (if k = pushed.length + 1 then n else nd k) = nd k := by
    intro k hk; rw [if_neg (by omega)]
  have hEn : ∀ i (b : A), i < pushed.length →
      En (fun k => if k = pushed.length + 1 then n else nd k) i b = En nd i b := by
    intro i b hi; simp [En, hup (i + 1) (by omega)]; omega
  have hNn : ∀ i, i < pushed.length →
      (Nn (fun k => if k = pushed.length + 1 then n else nd k) i : Ent A) = Nn nd i := by
    intro i hi; simp [Nn]; omega
  have hLn : ∀ i, i < pushed.length →
      (Ln (fun k => if k = pushed.length + 1 then n else nd k) i : Ent A) = Ln nd i := by
    intro i hi; simp [Ln]; omega
  -- nothing pending for the new position
  have hent : ∀ e ∈ sb, e.ep = pushed.length → ∃ x, e.fld = .next (some x) := by
    intro e he hep
    rcases h.ent e he with ⟨i, b, i1, i2, i3⟩ | ⟨i, i1, i2, i3⟩ | ⟨i, i1, i2, i3⟩
    · have := vals_lt i2; simp [q, consOf] at this; subst i3; simp [En] at hep; omega
    · simp [q, consOf] at i2; subst i3; simp [Nn] at hep; omega
    · subst i3; exact ⟨_, rfl⟩
  refine ⟨fun k => if k = pushed.length + 1 then n else nd k, { h with
    head := by have := h.head; simp only at this ⊢; rw [hup _ (by omega)]; exact this
    tail := by have := h.tail; simp [lk] at this ⊢; exact this
    lkn := by simp
    alloc := fun k k1 k2 => ?_
    inj := fun j k j1 j2 k1 k2 => ?_
    own := fun k k1 k2 => ?_
    cnodup := hc2
    calloc := fun i hi => ?_
    mv := fun m hm => ?_
    arg := ?_
    ent := fun e he => ?_
    enW := fun b hb => ?_
    nnW := fun hb => ?_
    data := fun i b i1 i2 i3 => ?_
    null := fun k k1 k2 => ?_
    link := fun i i1 i2 i3 => ?_
    seen := fun hc => ?_
    nxt := fun m hm => ?_ }⟩
  · simp only [q, consOf] at k1 k2 ⊢
    split
    · exact ⟨x, hn2⟩
    · rename_i hk
      simp at k2
      obtain ⟨y, hy⟩ := h.alloc k k1 (by simp [q, consOf]; omega)
      exact ⟨y, hn1 _ y (hnew k k1 (by omega)) hy⟩
  · simp only [q, consOf] at j1 j2 k1 k2 ⊢
    simp at j2 k2
    split <;> split
    · intro _; omega
    · intro he; exact absurd he.symm (hnew k k1 (by omega))
    · intro he; exact absurd he (hnew j j1 (by omega))
    · exact h.inj j k j1 (by simp [q, consOf]; omega) k1 (by simp [q, consOf]; omega)
  · simp only [q, consOf] at k1 k2 ⊢
    simp at k2
    split
    · exact ⟨hc3, hmv⟩
    · obtain ⟨o1, o2⟩ := h.own k k1 (by simp [q, consOf]; omega)
      exact ⟨fun hh => o1 (hc1 _ hh), o2⟩
  · obtain ⟨y, hy⟩ := h.calloc i (hc1 i hi)
    exact ⟨y, hn1 i y (by rintro rfl; exact hc3 hi) hy⟩
  · obtain ⟨m1, y, hy⟩ := h.mv m hm
    simp only at hm
    exact ⟨fun hh => m1 (hc1 _ hh), y, hn1 m y (by rintro rfl; exact hmv hm) hy⟩
  · intro b m hb; simp [consOf] at hb; simp [hb.2]
  · rcases h.ent e he with ⟨i, b, i1, i2, i3⟩ | ⟨i, i1, i2, i3⟩ | ⟨i, i1, i2, i3⟩
    · have hi := vals_lt i2; simp [q, consOf] at hi
      left
      refine ⟨i, b, i1, ?_, by rw [i3, hEn i b hi]⟩
      simp only [vals, consOf] at i2 ⊢
      rw [List.getElem?_append_left hi] at i2 ⊢; exact i2
    · simp [q, consOf] at i2
      right; left
      exact ⟨i, i1, by simp only; omega, by rw [i3, hNn i i2]⟩
    · right; right
      simp only at i2
      exact ⟨i, i1, i2, by rw [i3, hLn i i2]⟩
  · obtain ⟨y, hy⟩ := hent _ hb rfl; simp [En] at hy
  · obtain ⟨y, hy⟩ := hent _ hb rfl; simp [Nn] at hy
  · simp [dW] at i3
    simp only at i1
    have i2' : (vals pushed .idle)[i]? = some b := by
      simp only [vals, consOf] at i2 ⊢
      rw [List.getElem?_append_left i3] at i2 ⊢; exact i2
    rw [hEn i b i3]
    simp only [hup (i + 1) (by omega)]
    rcases h.data i b i1 i2' (Or.inl i3) with h1 | ⟨y, h1, h2⟩
    · exact Or.inl h1
    · exact Or.inr ⟨y, hn1 _ y (hnew _ (by omega) (by omega)) h1, h2⟩
  · simp [nW] at k2
    simp only at k1 ⊢
    rcases h.null k k1 (Or.inl k2) with ⟨i, i1, i2, i3⟩ | ⟨y, h1, h2⟩
    · left
      exact ⟨i, i1, i2, by rw [hNn i (by omega)]; exact i3⟩
    · right
      rw [hup k k2]
      refine ⟨y, hn1 _ y (hnew _ (by omega) (by omega)) h1, ?_⟩
      rcases h2 with h2 | ⟨h2, h3, h4⟩
      · exact Or.inl h2
      · right
        simp only at h2
        refine ⟨h2, by rw [hLn k h2]; exact h3, ?_⟩
        rw [hup (k + 1) (by omega)]; exact h4
  · simp only at i1 i2 i3 ⊢
    rw [hLn i i2] at i3
    obtain ⟨⟨y, h1, h2⟩, h3, h4, h5⟩ := h.link i i1 i2 i3
    rw [hup i (by omega), hup (i + 1) (by omega), hNn i i2]
    refine ⟨⟨y, hn1 _ y (hnew _ (by omega) (by omega)) h1, h2⟩, h3, ?_, ?_⟩
    · intro b; rw [hEn i b i2]; exact h4 b
    · intro j j1 j2; rw [hLn j (by omega)]; exact h5 j j1 j2
  · have := h.seen hc
    simp only at this ⊢
    rw [hLn _ this.1]; exact this
  · have := h.nxt m hm
    have h2 := h.seen (Or.inr (Or.inl ⟨m, hm⟩))
    simp only at this h2 ⊢
    rw [hup _ (by omega)]; exact this

theorem Inv.step {s s' : St A} {act : Act A} (h : Inv s) (hs : step s act = some s') : Inv s' := by
  obtain ⟨nd, h⟩ := h
  obtain ⟨hd, hhd⟩ := h.alloc _ (Nat.le_refl _) (by have := h.cle; omega)
  have hnull := h.null _ (Nat.le_refl _) (Or.inl h.cle)
  have hhead := h.head
  obtain ⟨nodes, head, tail, cache, ep, sb, ppc, cpc, bad, pushed, popped⟩ := s
  simp only at hhd hnull hhead
  subst hhead
  -- the node the consumer is at
  have hheadnext : ∃ x, nodes (nd popped.length) = some x ∧
      (x.next = none ∨ (popped.length < pushed.length ∧ Ln nd popped.length ∉ sb ∧
        x.next = some (nd (popped.length + 1)))) := by
    rcases hnull with ⟨i, h1, h2, -⟩ | h1
    · omega
    · exact h1
  cases act with
  | cCheck =>
    cases cpc <;> simp only [Dynqueue.step, reduceCtorEq] at hs
    obtain ⟨x, h1, h2⟩ := hheadnext
    rw [h1] at hs
    rcases h2 with h2 | ⟨h2, h3, h4⟩
    · simp [h2] at hs; subst hs; exact ⟨nd, h⟩
    · simp [h4] at hs; subst hs
      exact ⟨nd, { h with
        own := fun k h1 h2 => ⟨(h.own k h1 h2).1, by simp⟩
        mv := by simp
        seen := fun _ => ⟨h2, h3⟩
        nxt := by simp
        val := by simp }⟩
  | cNext =>
    cases cpc <;> simp only [Dynqueue.step, reduceCtorEq] at hs
    have hsn := h.seen (by simp)
    simp only at hsn
    obtain ⟨⟨x, h1, h2⟩, h3⟩ := h.link _ (Nat.le_refl _) hsn.1 hsn.2
    simp only at h1
    rw [h1] at hs
    simp only [Option.some.injEq] at hs; subst hs
    exact ⟨nd, { h with
      own := fun k h1 h2 => ⟨(h.own k h1 h2).1, by simp⟩
      mv := by simp
      seen := fun _ => hsn
      nxt := fun m hm => by simp only [CPc.nxt.injEq] at hm; rw [← hm, h2]
      val := by simp }⟩
  | cData =>
    cases cpc <;> simp only [Dynqueue.step, reduceCtorEq] at hs
    rename_i m
    have hsn := h.seen (by simp)
    simp only at hsn
    have hm := h.nxt m rfl
    simp only at hm
    subst hm
    obtain ⟨-, -, h3, -⟩ := h.link _ (Nat.le_refl _) hsn.1 hsn.2
    obtain ⟨a, ha⟩ : ∃ a, pushed[popped.length]? = some a :=
      ⟨_, List.getElem?_eq_getElem hsn.1⟩
    have hv : (vals pushed ppc)[popped.length]? = some a := by
      show (pushed ++ _)[popped.length]? = some a
      rw [List.getElem?_append_left hsn.1]; exact ha
    rcases h.data _ a (Nat.le_refl _) hv (Or.inl hsn.1) with h4 | ⟨x, h4, h5⟩
    · exact absurd h4 (h3 a)
    · simp only at h4
      simp only [Option.bind_some, h4, Option.some.injEq] at hs; subst hs
      exact ⟨nd, { h with
        own := fun k h1 h2 => ⟨(h.own k h1 h2).1, by simp⟩
        mv := by simp
        seen := fun _ => hsn
        nxt := by simp
        val := fun v hv' => by
          simp only [CPc.val.injEq] at hv'; rw [← hv', h5]; exact ha.symm }⟩
  | cMove =>
    cases cpc <;> simp only [Dynqueue.step, reduceCtorEq] at hs
    rename_i v
    have hsn := h.seen (by simp)
    have hv := h.val v rfl
    simp only at hsn hv
    obtain ⟨⟨x, h1, h2⟩, h3, h4, h5⟩ := h.link _ (Nat.le_refl _) hsn.1 hsn.2
    simp only at h1
    rw [h1] at hs
    simp only [h2, Option.some.injEq] at hs; subst hs
    have hinj := h.inj
    have hown := h.own
    simp only at hinj hown
    exact ⟨nd, { h with
      head := by simp
      cle := by simp; omega
      alloc := fun k k1 k2 => h.alloc k (by simp at k1; simp only; omega) k2
      inj := fun j k j1 j2 k1 k2 => h.inj j k (by simp at j1; simp only; omega) j2
        (by simp at k1; simp only; omega) k2
      own := fun k k1 k2 => by
        simp at k1
        refine ⟨(h.own k (by simp only; omega) k2).1, ?_⟩
        simp only [ne_eq, CPc.moved.injEq]
        intro he
        have := hinj popped.length k (by omega) (by simp only at k2; omega) (by omega) k2 he
        omega
      mv := fun n hn => by
        simp only [CPc.moved.injEq] at hn
        subst hn
        exact ⟨(hown _ (Nat.le_refl _) (by omega)).1, ⟨x, h1⟩⟩
      ent := fun e he => by
        simp only [List.length_append, List.length_singleton]
        rcases h.ent e he with ⟨i, a, i1, i2, i3⟩ | ⟨i, i1, i2, i3⟩ | ⟨i, i1, i2, i3⟩
        · left
          refine ⟨i, a, ?_, i2, i3⟩
          simp only at i1
          rcases Nat.lt_or_ge popped.length i with h6 | h6
          · omega
          · have : i = popped.length := by omega
            subst this; subst i3; exact absurd he (h4 a)
        · right; left
          refine ⟨i, ?_, i2, i3⟩
          simp only at i1
          rcases Nat.lt_or_ge popped.length i with h6 | h6
          · omega
          · have : i = popped.length := by omega
            subst this; subst i3; exact absurd he h3
        · right; right
          refine ⟨i, ?_, i2, i3⟩
          simp only at i1
          rcases Nat.lt_or_ge popped.length i with h6 | h6
          · omega
          · have : i = popped.length := by omega
            subst this; subst i3; exact absurd he hsn.2
      data := fun i a i1 => h.data i a (by simp at i1; simp only; omega)
      null := fun k k1 k2 => by
        simp at k1
        rcases h.null k (by simp only; omega) k2 with ⟨i, i1, i2, i3⟩ | h6
        · left
          refine ⟨i, i1, ?_, i3⟩
          simp only [List.length_append, List.length_singleton]
          rcases Nat.lt_or_ge popped.length i with h6 | h6
          · omega
          · have : i = popped.length := by simp only at i2; omega
            subst this; exact absurd i3 h3
        · exact Or.inr h6
      link := fun i i1 i2 i3 => by
        simp at i1
        obtain ⟨j1, j2, j3, j4⟩ := h.link i (by simp only; omega) i2 i3
        exact ⟨j1, j2, j3, fun j j5 j6 => j4 j (by simp at j5; simp only; omega) j6⟩
      popped := by
        have := h.popped
        simp only at this
        simp only [List.length_append, List.length_singleton]
        rw [List.take_succ_eq_append_getElem hsn.1, List.map_append, ← this, hv,
          List.getElem?_eq_getElem hsn.1]
        simp
      seen := by simp
      nxt := by simp
      val := by simp }⟩
  | cRecycle ok =>
    cases cpc <;> simp only [Dynqueue.step, reduceCtorEq] at hs
    rename_i n
    obtain ⟨m1, x, m2⟩ := h.mv n rfl
    simp only at m1 m2
    split at hs
    · simp only [Option.some.injEq] at hs; subst hs
      exact ⟨nd, { h with
        own := fun k k1 k2 => by
          obtain ⟨o1, o2⟩ := h.own k k1 k2
          simp only [ne_eq, CPc.moved.injEq] at o1 o2
          refine ⟨?_, by simp⟩
          simp only [List.mem_append, List.mem_singleton, not_or]
          exact ⟨o1, fun he => o2 he.symm⟩
        cnodup := by
          have := h.cnodup
          simp only at this ⊢
          rw [List.nodup_append]
          refine ⟨this, by simp, ?_⟩
          intro a ha b hb
          simp at hb; subst hb
          rintro rfl; exact m1 ha
        calloc := fun i hi => by
          simp only [List.mem_append, List.mem_singleton] at hi
          rcases hi with hi | rfl
          · exact h.calloc i hi
          · exact ⟨x, m2⟩
        mv := by simp
        seen := by simp
        nxt := by simp
        val := by simp }⟩
    · simp only [Option.some.injEq] at hs; subst hs
      have hne : ∀ k, popped.length ≤ k → k ≤ pushed.length + q ppc → nd k ≠ n := by
        intro k k1 k2 he
        have := (h.own k k1 k2).2
        simp only [ne_eq, CPc.moved.injEq] at this
        exact this he.symm
      exact ⟨nd, { h with
        alloc := fun k k1 k2 => by
          simp only [hne k k1 k2, if_false]
          exact h.alloc k k1 k2
        own := fun k k1 k2 => ⟨(h.own k k1 k2).1, by simp⟩
        calloc := fun i hi => by
          have : i ≠ n := by rintro rfl; exact m1 hi
          simp only [this, if_false]
          exact h.calloc i hi
        mv := by simp
        data := fun i a i1 i2 i3 => by
          have hlt : i < pushed.length + q ppc := by
            have := (List.getElem?_eq_some_iff.mp i2).1
            simp only [vals, List.length_append] at this
            cases hc : consOf ppc <;> simp [hc, q] at this ⊢ <;> omega
          simp only at i1
          simp only [hne (i + 1) (by omega) (by omega), if_false]
          exact h.data i a i1 i2 i3
        null := fun k k1 k2 => by
          have : k ≤ pushed.length + q ppc := by
            simp only at k2
            rcases k2 with k2 | ⟨k2, k3⟩
            · omega
            · cases ppc <;> simp [nW] at k3 <;> simp [q, consOf] <;> omega
          simp only [hne k k1 this, if_false]
          exact h.null k k1 k2
        link := fun i i1 i2 i3 => by
          simp only at i1 i2
          simp only [hne i i1 (by omega), if_false]
          exact h.link i i1 i2 i3
        seen := by simp
        nxt := by simp
        val := by simp }⟩
  | pCache a =>
    cases ppc <;> simp only [Dynqueue.step, reduceCtorEq] at hs
    cases cache with
    | nil => simp at hs
    | cons n rest =>
      simp only [Option.some.injEq] at hs; subst hs
      have hcn := h.cnodup
      simp only [List.nodup_cons] at hcn
      obtain ⟨x, hx⟩ := h.calloc n (by simp)
      refine h.alloc_step rfl a (fun i y _ hy => hy) hx (fun i hi => List.mem_cons_of_mem _ hi)
        hcn.2 hcn.1 ?_ ?_
      · intro k k1 k2 he
        have := (h.own k k1 (by simp [q, consOf]; exact k2)).1
        rw [he] at this; simp at this
      · intro he
        have := (h.mv n he).1
        simp at this
  | pMalloc a i junk =>
    cases ppc <;> simp only [Dynqueue.step, reduceCtorEq] at hs
    cases hni : nodes i with
    | some y => simp [hni] at hs
    | none =>
      simp only [hni, Option.some.injEq] at hs; subst hs
      refine h.alloc_step (x := junk) rfl a ?_ (by simp) (fun i hi => hi) h.cnodup ?_ ?_ ?_
      · intro j y hj hy; simp [hj]; exact hy
      · intro hi
        obtain ⟨y, hy⟩ := h.calloc i hi
        simp [hni] at hy
      · intro k k1 k2 he
        obtain ⟨y, hy⟩ := h.alloc k k1 (by simp [q, consOf]; exact k2)
        simp only [he, hni] at hy; simp at hy
      · intro he
        obtain ⟨-, y, hy⟩ := h.mv i he
        simp [hni] at hy
  | pData =>
    cases ppc <;> simp only [Dynqueue.step, reduceCtorEq] at hs
    rename_i a n
    simp only [Option.some.injEq] at hs; subst hs
    have hep := h.ep
    have harg := h.arg a n rfl
    simp only [fz] at hep harg
    subst hep harg
    have he : (⟨pushed.length + 0, nd (pushed.length + 1), .data a⟩ : Ent A) =
        En nd pushed.length a := rfl
    rw [he]
    have hq : q (PPc.dataW a (nd (pushed.length + 1))) =
      q (PPc.got a (nd (pushed.length + 1))) := rfl
    have hv : vals pushed (PPc.dataW a (nd (pushed.length + 1))) =
      vals pushed (PPc.got a (nd (pushed.length + 1))) := rfl
    have hvp : (vals pushed (PPc.got a (nd (pushed.length + 1))))[pushed.length]? = some a := by
      simp [vals, consOf]
    have hcle := h.cle
    simp only at hcle
    have hNmem : ∀ i, (Nn nd i : Ent A) ∈ sb ++ [En nd pushed.length a] ↔ Nn nd i ∈ sb := by
      intro i; simp [Nn, En]
    have hLmem : ∀ i, (Ln nd i : Ent A) ∈ sb ++ [En nd pushed.length a] ↔ Ln nd i ∈ sb := by
      intro i; simp [Ln, En]
    exact ⟨nd, { h with
      lkn := by simp
      ent := fun e he => by
        simp only [List.mem_append, List.mem_singleton] at he
        rcases he with he | rfl
        · exact h.ent e he
        · exact Or.inl ⟨_, a, hcle, hvp, rfl⟩
      enW := fun _ _ => rfl
      nnW := fun hh => by
        simp only at hh
        rw [hNmem] at hh
        have := h.nnW hh; simp [nW] at this
      nodup := by
        simp only
        rw [List.nodup_append]
        refine ⟨h.nodup, by simp, ?_⟩
        intro x hx y hy
        simp at hy; subst hy
        rintro rfl
        have := h.enW a hx; simp [dW] at this
      data := fun i b i1 i2 i3 => by
        have hi := vals_lt i2
        simp [q, consOf] at hi
        by_cases hip : i = pushed.length
        · subst hip
          left
          rw [hv, hvp] at i2; simp at i2; subst i2; simp
        · rcases h.data i b i1 i2 (Or.inl (by simp only; omega)) with h1 | h1
          · left; simp only [List.mem_append]; exact Or.inl h1
          · exact Or.inr h1
      null := fun k k1 k2 => by
        simp only [hNmem, hLmem]
        exact h.null k k1 k2
      link := fun i i1 i2 i3 => by
        simp only [hLmem, hNmem] at i3 ⊢
        obtain ⟨h1, h2, h3, h4⟩ := h.link i i1 i2 i3
        refine ⟨h1, h2, ?_, h4⟩
        intro b hb
        simp only [List.mem_append, List.mem_singleton] at hb
        rcases hb with hb | hb
        · exact h3 b hb
        · simp only at i2; simp [En] at hb; omega
      seen := fun hc => by
        simp only [hLmem]; exact h.seen hc }⟩
  | pNull =>
    cases ppc <;> simp only [Dynqueue.step, reduceCtorEq] at hs
    rename_i a n
    simp only [Option.some.injEq] at hs; subst hs
    have hep := h.ep
    have harg := h.arg a n rfl
    simp only [fz] at hep harg
    subst hep harg
    have he : (⟨pushed.length + 0, nd (pushed.length + 1), .next none⟩ : Ent A) =
        Nn nd pushed.length := rfl
    rw [he]
    have hcle := h.cle
    simp only at hcle
    have hEmem : ∀ i b, (En nd i b : Ent A) ∈ sb ++ [Nn nd pushed.length] ↔ En nd i b ∈ sb := by
      intro i b; simp [Nn, En]
    have hLmem : ∀ i, (Ln nd i : Ent A) ∈ sb ++ [Nn nd pushed.length] ↔ Ln nd i ∈ sb := by
      intro i; simp [Ln, Nn]
    exact ⟨nd, { h with
      lkn := by simp
      ent := fun e he => by
        simp only [List.mem_append, List.mem_singleton] at he
        rcases he with he | rfl
        · exact h.ent e he
        · exact Or.inr (Or.inl ⟨_, hcle, by simp [q, consOf], rfl⟩)
      enW := fun _ _ => rfl
      nnW := fun _ => rfl
      nodup := by
        simp only
        rw [List.nodup_append]
        refine ⟨h.nodup, by simp, ?_⟩
        intro x hx y hy
        simp at hy; subst hy
        rintro rfl
        have := h.nnW hx; simp [nW] at this
      data := fun i b i1 i2 i3 => by
        simp only [hEmem]
        exact h.data i b i1 i2 (Or.inr rfl)
      null := fun k k1 k2 => by
        simp only [hLmem]
        by_cases hk : k = pushed.length + 1
        · exact Or.inl ⟨pushed.length, hk, hcle, by simp⟩
        · rcases h.null k k1 (by simp only at k2 ⊢; omega) with ⟨i, i1, i2, i3⟩ | h1
          · exact Or.inl ⟨i, i1, i2, by simp only [List.mem_append]; exact Or.inl i3⟩
          · exact Or.inr h1
      link := fun i i1 i2 i3 => by
        simp only [hLmem, hEmem] at i3 ⊢
        obtain ⟨h1, h2, h3, h4⟩ := h.link i i1 i2 i3
        refine ⟨h1, ?_, h3, h4⟩
        intro hb
        simp only [List.mem_append, List.mem_singleton] at hb
        rcases hb with hb | hb
        · exact h2 hb
        · simp only at i2; simp [Nn] at hb; omega
      seen := fun hc => by
        simp only [hLmem]; exact h.seen hc }⟩
  | pFence =>
    cases ppc <;> simp only [Dynqueue.step, reduceCtorEq] at hs
    rename_i a n
    simp only [Option.some.injEq] at hs; subst hs
    have hep := h.ep
    simp only [fz] at hep
    exact ⟨nd, { h with
      ep := by simp only [fz]; omega
      lkn := by simp
      enW := fun _ _ => rfl
      nnW := fun _ => rfl }⟩
  | pLink =>
    cases ppc <;> simp only [Dynqueue.step, reduceCtorEq] at hs
    rename_i a n
    simp only [Option.some.injEq] at hs; subst hs
    have hep := h.ep
    have harg := h.arg a n rfl
    have htail := h.tail
    simp only [fz, lk, Nat.sub_zero] at hep harg htail
    subst hep harg htail
    have he : (⟨pushed.length + 1, nd pushed.length, .next (some (nd (pushed.length + 1)))⟩ : Ent A) =
        Ln nd pushed.length := rfl
    rw [he]
    have hcle := h.cle
    simp only at hcle
    have hEmem : ∀ i b, (En nd i b : Ent A) ∈ sb ++ [Ln nd pushed.length] ↔ En nd i b ∈ sb := by
      intro i b; simp [Ln, En]
    have hNmem : ∀ i, (Nn nd i : Ent A) ∈ sb ++ [Ln nd pushed.length] ↔ Nn nd i ∈ sb := by
      intro i; simp [Ln, Nn]
    have hLmem : ∀ i, i < pushed.length →
        ((Ln nd i : Ent A) ∈ sb ++ [Ln nd pushed.length] ↔ Ln nd i ∈ sb) := by
      intro i hi; simp [Ln]; omega
    have hent := h.ent
    simp only [q, consOf] at hent
    have hbig : ∀ e ∈ sb, e.ep ≤ pushed.length := by
      intro e he
      rcases h.ent e he with ⟨i, b, i1, i2, i3⟩ | ⟨i, i1, i2, i3⟩ | ⟨i, i1, i2, i3⟩
      · have := vals_lt i2; simp [q, consOf] at this; subst i3; simp [En]; omega
      · simp [q, consOf] at i2; subst i3; simp [Nn]; omega
      · simp at i2; subst i3; simp [Ln]; omega
    have hq : pushed.length + 1 + q (PPc.linked (nd (pushed.length + 1)) : PPc A) =
        pushed.length + q (PPc.fenced a (nd (pushed.length + 1))) := by simp [q, consOf]
    have hv : vals (pushed ++ [a]) (PPc.linked (nd (pushed.length + 1))) =
        vals pushed (PPc.fenced a (nd (pushed.length + 1))) := by simp [vals, consOf]
    have hl : (pushed ++ [a]).length = pushed.length + 1 := by simp
    exact ⟨nd, { h with
      ep := by simp [fz]
      tail := by simp [lk]
      lkpos := by simp [lk]
      lkn := by simp
      cle := by simp only [hl]; omega
      alloc := by simp only [hl, hq]; exact h.alloc
      inj := by simp only [hl, hq]; exact h.inj
      own := by simp only [hl, hq]; exact h.own
      arg := by simp [consOf]
      ent := fun e he => by
        simp only [List.mem_append, List.mem_singleton] at he
        simp only [hl, hq, hv]
        rcases he with he | rfl
        · rcases h.ent e he with h1 | h1 | ⟨i, i1, i2, i3⟩
          · exact Or.inl h1
          · exact Or.inr (Or.inl h1)
          · exact Or.inr (Or.inr ⟨i, i1, by simp only at i2; omega, i3⟩)
        · exact Or.inr (Or.inr ⟨_, hcle, by omega, rfl⟩)
      enW := fun b hb => by
        simp only [hEmem, hl] at hb
        have := hbig _ hb; simp [En] at this; omega
      nnW := fun hb => by
        simp only [hNmem, hl] at hb
        have := hbig _ hb; simp [Nn] at this; omega
      nodup := by
        simp only
        rw [List.nodup_append]
        refine ⟨h.nodup, by simp, ?_⟩
        intro x hx y hy
        simp at hy; subst hy
        rintro rfl
        have := hbig _ hx; simp [Ln] at this; omega
      data := fun i b i1 i2 i3 => by
        simp only [hEmem, hv] at i2 ⊢
        exact h.data i b i1 i2 (Or.inr rfl)
      null := fun k k1 k2 => by
        simp [nW] at k2
        simp only [hNmem, hl]
        rcases h.null k k1 (by simp [nW]; omega) with h1 | ⟨x, h1, h2⟩
        · exact Or.inl h1
        · refine Or.inr ⟨x, h1, ?_⟩
          rcases h2 with h2 | ⟨h2, h3, h4⟩
          · exact Or.inl h2
          · simp only at h2
            exact Or.inr ⟨by omega, by rw [hLmem k h2]; exact h3, h4⟩
      link := fun i i1 i2 i3 => by
        simp only [hl, hEmem, hNmem] at i2 i3 ⊢
        by_cases hip : i = pushed.length
        · subst hip; simp at i3
        · have hlt : i < pushed.length := by omega
          rw [hLmem i hlt] at i3
          obtain ⟨h1, h2, h3, h4⟩ := h.link i i1 hlt i3
          refine ⟨h1, h2, h3, fun j j1 j2 => ?_⟩
          rw [hLmem j (by omega)]
          exact h4 j j1 j2
      popped := by
        have := h.popped
        simp only at this ⊢
        rw [List.take_append_of_le_length hcle]; exact this
      seen := fun hc => by
        have := h.seen hc
        simp only [hl] at this ⊢
        rw [hLmem _ this.1]
        exact ⟨by omega, this.2⟩
      val := fun v hv => by
        have := h.val v hv
        have h2 := h.seen (Or.inr (Or.inr ⟨v, hv⟩))
        simp only at this h2 ⊢
        rw [List.getElem?_append_left h2.1]; exact this }⟩
  | pTail =>
    cases ppc <;> simp only [Dynqueue.step, reduceCtorEq] at hs
    rename_i n
    simp only [Option.some.injEq] at hs; subst hs
    exact ⟨nd, { h with
      tail := by simp only [lk]; exact h.lkn n rfl
      lkpos := by simp [lk]
      lkn := by simp }⟩
  | commit m =>
    simp only [Dynqueue.step] at hs
    cases hm : sb[m]? with
    | none => simp [hm] at hs
    | some e =>
      simp only [hm] at hs
      split at hs
      · rename_i hcond
        obtain ⟨hep, -⟩ := hcond
        simp only [List.all_eq_true, decide_eq_true_eq] at hep
        have hmem := mem_eraseIdx_nodup hm h.nodup
        have hein : e ∈ sb := List.mem_of_getElem? hm
        have hnod : (sb.eraseIdx m).Nodup := h.nodup.sublist (List.eraseIdx_sublist _ _)
        have hsub : ∀ x, x ∈ sb.eraseIdx m → x ∈ sb := fun x hx => ((hmem x).1 hx).1
        have hcle := h.cle
        have hinj := h.inj
        have halloc := h.alloc
        have hdata := h.data
        have hnul := h.null
        have hlink := h.link
        simp only at hcle hinj halloc hdata hnul hlink
        -- the node written is one of the nodes of the stream
        obtain ⟨k0, k01, k02, hk0⟩ : ∃ k, popped.length ≤ k ∧ k ≤ pushed.length + q ppc ∧
            e.node = nd k := by
          rcases h.ent e hein with ⟨i, b, i1, i2, i3⟩ | ⟨i, i1, i2, i3⟩ | ⟨i, i1, i2, i3⟩
          · have := vals_lt i2
            simp only at i1 this
            exact ⟨i + 1, by omega, by omega, by rw [i3]; rfl⟩
          · simp only at i1 i2
            exact ⟨i + 1, by omega, by omega, by rw [i3]; rfl⟩
          · simp only at i1 i2
            exact ⟨i, by omega, by omega, by rw [i3]; rfl⟩
        obtain ⟨x0, hx0⟩ := halloc k0 k01 k02
        rw [hk0, hx0] at hs
        simp only [Option.some.injEq] at hs; subst hs
        have hkeep : ∀ j y, nodes j = some y →
            ∃ y', (if j = nd k0 then some (setFld x0 e.fld) else nodes j) = some y' := by
          intro j y hy; split
          · exact ⟨_, rfl⟩
          · exact ⟨y, hy⟩
        have hnek : ∀ k, popped.length ≤ k → k ≤ pushed.length + q ppc → k ≠ k0 →
            nd k ≠ nd k0 := fun k k1 k2 hne he => hne (hinj k k0 k1 k2 k01 k02 he)
        have hnwq : nW ppc = true → q ppc = 1 := by
          cases ppc <;> simp [nW, q, consOf]
        have hcommon : ∀ (hdata' : ∀ i a, popped.length ≤ i → (vals pushed ppc)[i]? = some a →
              (i < pushed.length ∨ dW ppc = true) →
              En nd i a ∈ sb.eraseIdx m ∨
                ∃ x, (if nd (i + 1) = nd k0 then some (setFld x0 e.fld) else nodes (nd (i + 1))) =
                  some x ∧ x.data = some a)
            (hnull' : ∀ k, popped.length ≤ k →
              (k ≤ pushed.length ∨ k = pushed.length + 1 ∧ nW ppc = true) →
              (∃ i, k = i + 1 ∧ popped.length ≤ i ∧ Nn nd i ∈ sb.eraseIdx m) ∨
              ∃ x, (if nd k = nd k0 then some (setFld x0 e.fld) else nodes (nd k)) = some x ∧
                (x.next = none ∨ (k < pushed.length ∧ Ln nd k ∉ sb.eraseIdx m ∧
                  x.next = some (nd (k + 1)))))
            (hlink' : ∀ i, popped.length ≤ i → i < pushed.length → Ln nd i ∉ sb.eraseIdx m →
              (∃ x, (if nd i = nd k0 then some (setFld x0 e.fld) else nodes (nd i)) = some x ∧
                x.next = some (nd (i + 1))) ∧ Nn nd i ∉ sb.eraseIdx m ∧
              (∀ a, En nd i a ∉ sb.eraseIdx m) ∧
              ∀ j, popped.length ≤ j → j < i → Ln nd j ∉ sb.eraseIdx m),
            Inv { nodes := fun j => if j = nd k0 then some (setFld x0 e.fld) else nodes j,
                  head := nd popped.length, tail := tail, cache := cache, ep := ep,
                  sb := sb.eraseIdx m, ppc := ppc, cpc := cpc, bad := bad, pushed := pushed,
                  popped := popped } := by
          intro hdata' hnull' hlink'
          exact ⟨nd, { h with
            alloc := fun k k1 k2 => by
              obtain ⟨y, hy⟩ := halloc k k1 k2
              exact hkeep _ y hy
            calloc := fun i hi => by
              obtain ⟨y, hy⟩ := h.calloc i hi
              exact hkeep _ y hy
            mv := fun n hn => by
              obtain ⟨m1, y, hy⟩ := h.mv n hn
              exact ⟨m1, hkeep _ y hy⟩
            ent := fun x hx => h.ent x (hsub x hx)
            enW := fun a ha => h.enW a (hsub _ ha)
            nnW := fun ha => h.nnW (hsub _ ha)
            nodup := hnod
            data := hdata'
            null := hnull'
            link := hlink'
            seen := fun hc => ⟨(h.seen hc).1, fun hh => (h.seen hc).2 (hsub _ hh)⟩ }⟩
        rcases h.ent e hein with ⟨i, b, i1, i2, i3⟩ | ⟨i, i1, i2, i3⟩ | ⟨i, i1, i2, i3⟩
        · -- a store of the data
          have hi := vals_lt i2
          simp only at i1 i2 hi
          have hk0' : k0 = i + 1 := hinj _ _ k01 k02 (by omega) (by omega) (by rw [← hk0, i3]; rfl)
          subst hk0'
          subst i3
          have hN : ∀ j, (Nn nd j ∈ sb.eraseIdx m ↔ Nn nd j ∈ sb) := by
            intro j; rw [hmem]; simp [Nn, En]
          have hL : ∀ j, (Ln nd j ∈ sb.eraseIdx m ↔ Ln nd j ∈ sb) := by
            intro j; rw [hmem]; simp [Ln, En]
          have hnx : ∀ k y, nodes (nd k) = some y → ∃ y', (if nd k = nd (i + 1) then
              some (setFld x0 (En nd i b).fld) else nodes (nd k)) = some y' ∧ y'.next = y.next := by
            intro k y hy
            split
            · rename_i he
              rw [he, hx0] at hy
              simp at hy; subst hy
              exact ⟨_, rfl, rfl⟩
            · exact ⟨y, hy, rfl⟩
          apply hcommon
          · intro j a j1 j2 j3
            by_cases hji : j = i
            · subst hji
              rw [i2] at j2; simp at j2; subst j2
              right
              simp [setFld, En]
            · have hj := vals_lt j2
              have hne := hnek (j + 1) (by omega) (by omega) (by omega)
              rcases hdata j a j1 j2 j3 with h1 | h1
              · left
                rw [hmem]
                exact ⟨h1, by simp [En]; omega⟩
              · right
                simp only [hne, if_false]; exact h1
          · intro k k1 k2
            simp only [hN, hL]
            rcases hnul k k1 k2 with h1 | ⟨y, h1, h2⟩
            · exact Or.inl h1
            · obtain ⟨y', h3, h4⟩ := hnx k y h1
              exact Or.inr ⟨y', h3, by rw [h4]; exact h2⟩
          · intro j j1 j2 j3
            simp only [hL, hN] at j3 ⊢
            obtain ⟨⟨y, h1, h2⟩, h3, h4, h5⟩ := hlink j j1 j2 j3
            obtain ⟨y', h6, h7⟩ := hnx j y h1
            exact ⟨⟨y', h6, by rw [h7]; exact h2⟩, h3, fun a ha => h4 a (hsub _ ha), h5⟩
        · -- `next = NULL`
          simp only at i1 i2
          have hk0' : k0 = i + 1 := hinj _ _ k01 k02 (by omega) (by omega) (by rw [← hk0, i3]; rfl)
          subst hk0'
          subst i3
          have hE : ∀ j a, (En nd j a ∈ sb.eraseIdx m ↔ En nd j a ∈ sb) := by
            intro j a; rw [hmem]; simp [Nn, En]
          have hL : ∀ j, (Ln nd j ∈ sb.eraseIdx m ↔ Ln nd j ∈ sb) := by
            intro j; rw [hmem]; simp [Ln, Nn]
          apply hcommon
          · intro j a j1 j2 j3
            rw [hE]
            rcases hdata j a j1 j2 j3 with h1 | ⟨y, h1, h2⟩
            · exact Or.inl h1
            · right
              split
              · rename_i he
                rw [he, hx0] at h1
                simp at h1; subst h1
                exact ⟨_, rfl, h2⟩
              · exact ⟨y, h1, h2⟩
          · intro k k1 k2
            by_cases hk : k = i + 1
            · subst hk
              right
              simp [setFld, Nn]
            · have hne := hnek k k1 (by
                rcases k2 with k2 | ⟨k2, k3⟩
                · omega
                · have := hnwq k3; omega) hk
              simp only [hne, if_false, hL]
              rcases hnul k k1 k2 with ⟨j, j1, j2, j3⟩ | h1
              · left
                refine ⟨j, j1, j2, ?_⟩
                rw [hmem]
                exact ⟨j3, by simp [Nn]; omega⟩
              · exact Or.inr h1
          · intro j j1 j2 j3
            simp only [hL, hE] at j3 ⊢
            obtain ⟨h1, h2, h3, h4⟩ := hlink j j1 j2 j3
            have hji : j ≠ i + 1 := by
              rintro rfl
              exact (hlink i i1 (by omega) (h4 i i1 (by omega))).2.1 hein
            have hne := hnek j j1 (by omega) hji
            simp only [hne, if_false]
            exact ⟨h1, fun hh => h2 (hsub _ hh), h3, h4⟩
        · -- the link
          simp only at i1 i2
          have hk0' : k0 = i := hinj _ _ k01 k02 (by omega) (by omega) (by rw [← hk0, i3]; rfl)
          subst hk0'
          subst i3
          have hE : ∀ j a, (En nd j a ∈ sb.eraseIdx m ↔ En nd j a ∈ sb) := by
            intro j a; rw [hmem]; simp [Ln, En]
          have hN : ∀ j, (Nn nd j ∈ sb.eraseIdx m ↔ Nn nd j ∈ sb) := by
            intro j; rw [hmem]; simp [Ln, Nn]
          have hL : ∀ j, j ≠ k0 → (Ln nd j ∈ sb.eraseIdx m ↔ Ln nd j ∈ sb) := by
            intro j hj; rw [hmem]; simp [Ln]; omega
          have hself : Ln nd k0 ∉ sb.eraseIdx m := by rw [hmem]; simp
          apply hcommon
          · intro j a j1 j2 j3
            rw [hE]
            rcases hdata j a j1 j2 j3 with h1 | ⟨y, h1, h2⟩
            · exact Or.inl h1
            · right
              split
              · rename_i he
                rw [he, hx0] at h1
                simp at h1; subst h1
                exact ⟨_, rfl, h2⟩
              · exact ⟨y, h1, h2⟩
          · intro k k1 k2
            by_cases hk : k = k0
            · subst hk
              right
              exact ⟨setFld x0 (Ln nd k).fld, by simp, Or.inr ⟨i2, hself, rfl⟩⟩
            · have hne := hnek k k1 (by
                rcases k2 with k2 | ⟨k2, k3⟩
                · omega
                · have := hnwq k3; omega) hk
              simp only [hne, if_false, hL k hk, hN]
              exact hnul k k1 k2
          · intro j j1 j2 j3
            simp only [hN, hE]
            by_cases hj : j = k0
            · subst hj
              refine ⟨⟨setFld x0 (Ln nd j).fld, by simp, rfl⟩, ?_, ?_, ?_⟩
              · intro hh; have := hep _ hh; simp [Ln, Nn] at this; omega
              · intro a hh; have := hep _ hh; simp [Ln, En] at this; omega
              · intro j' j'1 j'2 hh
                have := hep _ (hsub _ hh); simp [Ln] at this; omega
            · rw [hL j hj] at j3
              obtain ⟨h1, h2, h3, h4⟩ := hlink j j1 j2 j3
              have hne := hnek j j1 (by omega) hj
              simp only [hne, if_false]
              exact ⟨h1, h2, h3, fun j' j'1 j'2 hh => h4 j' j'1 j'2 (hsub _ hh)⟩
      · simp at hs

theorem reach_inv {s : St A} (h : Reach step init s) : Inv s :=
  Reach.inv h Inv.init fun _ _ _ hi hs => hi.step hs

end FF.Dynqueue
