import Verif.Uswsr.Model
import Verif.Swsr.Lemmas
namespace FF.Uswsr
open FF.Swsr (Q next Rep)
variable {A : Type}

theorem _root_.FF.Swsr.Rep.store {q : Q A} {xs : List A} (h : Rep q xs) (hl : xs.length < q.size)
    (a : A) : ∃ q1, q.wr q.pwrite (some a) = some q1 ∧
      Rep { q1 with pwrite := next q1.size q1.pwrite } (xs ++ [a]) ∧ q1.size = q.size := by
  obtain ⟨q', h1, h2, h3, -⟩ := h.push a
  unfold Q.push at h1
  rw [h.available_eq] at h1
  simp only [hl, if_true] at h2
  simp only [Option.isNone_some, hl, decide_true] at h1
  cases hw : q.wr q.pwrite (some a) with
  | none => simp [hw] at h1
  | some q1 =>
    simp [hw] at h1
    refine ⟨q1, rfl, ?_, ?_⟩
    · rw [← h1] at h2; exact h2
    · rw [← h1] at h3; exact h3

/-- segment at the front of the stream -/
def hdOf (c : CPc A) (bufr : Nat) : Nat :=
  match c with
  | .rel t => t
  | .rel2 t => t
  | .sw t => t
  | _ => bufr

/-- segment held by the producer inside `next_w` -/
def gotOf (p : PPc A) : List Nat :=
  match p with
  | .got _ t => [t]
  | _ => []

/-- segment being released by the consumer -/
def oldOf (c : CPc A) (bufr : Nat) : List Nat :=
  match c with
  | .rel _ => [bufr]
  | .rel2 _ => [bufr]
  | _ => []

/-- is the producer between finding `buf_w` full and queueing the next segment? -/
def isFull (p : PPc A) : Bool :=
  match p with
  | .full _ => true
  | .got _ _ => true
  | _ => false

/-- all segments somebody can reach: the stream of segments (oldest first), the cache, the one held
by the producer and the one being released by the consumer -/
def owned (s : St A) : List Nat :=
  (hdOf s.cpc s.bufr :: s.inuse) ++ s.cache ++ gotOf s.ppc ++ oldOf s.cpc s.bufr

structure InvC (s : St A) (cont : Nat → List A) : Prop where
  npos : 0 < s.n
  nbad : s.bad = false
  nlost : s.lost = false
  nodup : ∀ i, (owned s).count i ≤ 1
  fresh : ∀ i ∈ owned s, i < s.nid
  contFresh : ∀ i, s.nid ≤ i → cont i = []
  rep : ∀ i ∈ owned s, ∃ q, s.segs i = some q ∧ Rep q (cont i) ∧ q.size = s.n
  clean : ∀ i, i ∈ s.cache ∨ i ∈ gotOf s.ppc ∨ i ∈ oldOf s.cpc s.bufr → cont i = []
  last : (∀ a t, s.ppc ≠ .queued a t) → ∃ pre, hdOf s.cpc s.bufr :: s.inuse = pre ++ [s.bufw]
  lastq : ∀ a t, s.ppc = .queued a t →
    cont t = [] ∧ ∃ pre, hdOf s.cpc s.bufr :: s.inuse = pre ++ [s.bufw, t]
  content : s.pushed.map some =
    s.popped ++ ((hdOf s.cpc s.bufr :: s.inuse).flatMap cont).map some
  mid : ∀ i ∈ s.inuse.dropLast, cont i ≠ []
  fullne : isFull s.ppc = true → s.bufw ≠ hdOf s.cpc s.bufr → cont s.bufw ≠ []
  room : ∀ a, s.ppc = .chk a ∨ s.ppc = .put a → (cont s.bufw).length < s.n
  ce1 : s.cpc = .e1 → s.bufr = s.bufw → s.saw = true
  ce2 : s.cpc = .e2 → s.bufr ≠ s.bufw
  ce3 : s.cpc = .e3 → s.bufr ≠ s.bufw ∧ cont s.bufr = []
  csw : (∃ t, s.cpc = .rel t ∨ s.cpc = .rel2 t ∨ s.cpc = .sw t) ∨ s.cpc = .p1 →
    cont (hdOf s.cpc s.bufr) ≠ [] ∨ (s.inuse = [] ∧ isFull s.ppc = false)
  cp2 : s.cpc = .p2 → cont s.bufr ≠ []
  cp3 : ∀ v, s.cpc = .p3 v → ∃ x xs, cont s.bufr = x :: xs ∧ v = some x
  fails : ∀ b ∈ s.fails, b = true
  fix : s.fixed = true → s.inuse = [] ∧ s.bufr = s.bufw ∧ hdOf s.cpc s.bufr = s.bufr ∧
    isFull s.ppc = false ∧ (∀ a t, s.ppc ≠ .queued a t) ∧ (s.cpc ≠ .e2) ∧ (s.cpc ≠ .e3)

def Inv (s : St A) : Prop := ∃ cont, InvC s cont

theorem Inv.init (n cap : Nat) (fixed : Bool) (hn : 0 < n) : Inv (init n cap fixed : St A) := by
  obtain ⟨q, h1, h2, h3, -⟩ := Rep.init (α := A) hn
  refine ⟨fun _ => [], ?_⟩
  constructor <;> simp [Uswsr.init, hn, owned, hdOf, gotOf, oldOf, isFull]
  · exact fun i => by rw [List.count_cons]; simp; split <;> omega
  · exact ⟨q, h1, h2, h3⟩

theorem InvC.hd_mem {s : St A} {cont} (_h : InvC s cont) : hdOf s.cpc s.bufr ∈ owned s := by
  simp [owned]

theorem InvC.bufw_mem_chain {s : St A} {cont} (h : InvC s cont) :
    s.bufw ∈ hdOf s.cpc s.bufr :: s.inuse := by
  cases hp : s.ppc with
  | queued a t =>
    obtain ⟨-, pre, h1⟩ := h.lastq a t hp
    rw [h1]; simp
  | _ =>
    obtain ⟨pre, h1⟩ := h.last (by rw [hp]; simp)
    rw [h1]; simp

theorem InvC.bufw_mem {s : St A} {cont} (h : InvC s cont) : s.bufw ∈ owned s := by
  simp only [owned, List.mem_append]; exact Or.inl (Or.inl (Or.inl h.bufw_mem_chain))

theorem upd_ne {f : Nat → Option (Q A)} {i j : Nat} {v} (h : j ≠ i) : upd f i v j = f j := by
  simp [upd, h]

theorem upd_eq {f : Nat → Option (Q A)} {i : Nat} {v} : upd f i v i = v := by simp [upd]

theorem chain_nodup {s : St A} {cont} (h : InvC s cont) :
    (hdOf s.cpc s.bufr :: s.inuse).Nodup := by
  rw [List.nodup_iff_count]
  intro i
  have := h.nodup i
  simp only [owned, List.count_append] at this
  omega

theorem flatMap_congr_mem {l : List Nat} {f g : Nat → List A} (h : ∀ i ∈ l, f i = g i) :
    l.flatMap f = l.flatMap g := by
  induction l with
  | nil => rfl
  | cons x l ih =>
    simp only [List.flatMap_cons]
    rw [h x (by simp), ih (fun i hi => h i (by simp [hi]))]

/-- content after appending `a` to the last segment -/
theorem flatMap_store {l : List Nat} {cont : Nat → List A} {w : Nat} {a : A}
    (hl : ∃ pre, l = pre ++ [w]) (hnd : l.Nodup) :
    l.flatMap (fun i => if i = w then cont w ++ [a] else cont i) = l.flatMap cont ++ [a] := by
  obtain ⟨pre, rfl⟩ := hl
  have : w ∉ pre := by
    rw [List.nodup_append] at hnd
    intro hw; exact hnd.2.2 w hw w (by simp) rfl
  simp only [List.flatMap_append, List.flatMap_cons, List.flatMap_nil, if_true, List.append_nil]
  rw [← List.append_assoc]
  congr 2
  apply flatMap_congr_mem
  intro i hi
  rw [if_neg]
  rintro rfl; exact this hi


theorem InvC.last_dropLast {s : St A} {cont} (h : InvC s cont) (hq : ∀ a t, s.ppc ≠ .queued a t) :
    (s.inuse = [] ∧ s.bufw = hdOf s.cpc s.bufr) ∨
    (s.inuse ≠ [] ∧ s.inuse = s.inuse.dropLast ++ [s.bufw] ∧ s.bufw ≠ hdOf s.cpc s.bufr) := by
  obtain ⟨pre, h1⟩ := h.last hq
  have hnd := chain_nodup h
  rcases List.eq_nil_or_concat s.inuse with h2 | ⟨l, x, h2⟩
  · left
    refine ⟨h2, ?_⟩
    rw [h2] at h1
    cases pre with
    | nil => simp at h1; exact h1.symm
    | cons y pre => simp at h1
  · right
    rw [List.concat_eq_append] at h2
    have h3 : x = s.bufw := by
      have : (hdOf s.cpc s.bufr :: s.inuse).getLast? = some x := by
        rw [h2, ← List.cons_append, List.getLast?_concat]
      rw [h1] at this; simpa using this.symm
    subst h3
    refine ⟨by rw [h2]; simp, by rw [h2]; simp, ?_⟩
    intro he
    rw [h2, ← he] at hnd
    simp at hnd

theorem Inv.step {s s' : St A} {act : Act A} (h : Inv s) (hs : step s act = some s') : Inv s' := by
  obtain ⟨cont, h⟩ := h
  obtain ⟨qw, w1, w2, w3⟩ := h.rep _ h.bufw_mem
  obtain ⟨qh, d1, d2, d3⟩ := h.rep _ h.hd_mem
  have hnd := h.nodup
  have hcnd := chain_nodup h
  have hbw := h.bufw_mem_chain
  have hldl := h.last_dropLast
  have hnpos := h.npos
  obtain ⟨n, cap, fixed, segs, nid, bufr, bufw, inuse, cache, ppc, cpc, bad, lost, pushed, popped,
    saw, fails⟩ := s
  simp only at *
  cases act with
  | pBegin a =>
    cases ppc <;> simp only [Uswsr.step, reduceCtorEq] at hs
    rw [w1] at hs
    simp only [Option.bind_some, w2.available_eq] at hs
    by_cases hl : (cont bufw).length < qw.size
    · simp only [hl, decide_true, Option.some.injEq] at hs; subst hs
      exact ⟨cont, { h with
        last := fun _ => h.last (by simp)
        lastq := by simp
        fullne := by simp [isFull]
        room := fun b _ => by simp only; omega
        fix := fun hf => by
          obtain ⟨f1, f2, f3, f4, f5, f6, f7⟩ := h.fix hf
          exact ⟨f1, f2, f3, rfl, by simp, f6, f7⟩ }⟩
    · simp only [hl, decide_false] at hs
      split at hs
      · simp only [Option.some.injEq] at hs; subst hs; exact ⟨cont, h⟩
      · rename_i hf
        simp only [Option.some.injEq] at hs; subst hs
        have hne : cont bufw ≠ [] := by
          intro hc; rw [hc] at hl; simp at hl; omega
        exact ⟨cont, { h with
          last := fun _ => h.last (by simp)
          lastq := by simp
          fullne := fun _ _ => hne
          room := by simp
          csw := fun hc => by
            rcases h.csw hc with h1 | ⟨h1, h2⟩
            · exact Or.inl h1
            · left
              rcases hldl (by simp) with ⟨-, h3⟩ | ⟨h3, -⟩
              · simp only; rw [← h3]; exact hne
              · exact absurd h1 h3
          fix := fun hf' => absurd hf' hf }⟩
  | pNext fc =>
    cases ppc <;> simp only [Uswsr.step, reduceCtorEq] at hs
    rename_i a
    split at hs
    · rename_i t rest
      simp only [Option.some.injEq] at hs; subst hs
      exact ⟨cont, { h with
        nodup := fun i => by
          have := hnd i
          simp only [owned, gotOf, List.count_append, List.count_cons, List.count_nil] at this ⊢
          omega
        fresh := fun i hi => h.fresh i (by
          simp only [owned, gotOf, List.mem_append, List.mem_cons] at hi ⊢
          grind)
        rep := fun i hi => h.rep i (by
          simp only [owned, gotOf, List.mem_append, List.mem_cons] at hi ⊢
          grind)
        clean := fun i hi => h.clean i (by
          simp only [gotOf, List.mem_cons] at hi ⊢
          grind)
        last := fun _ => h.last (by simp)
        lastq := by simp
        fullne := h.fullne
        room := by simp
        csw := h.csw
        fix := fun hf => by have := h.fix hf; simp_all [isFull] }⟩
    · simp only [Option.some.injEq] at hs; subst hs
      obtain ⟨q, i1, i2, i3, -⟩ := Rep.init (α := A) hnpos
      have hfr : ∀ i, i ∈ owned _ → i < nid := h.fresh
      have hnot : ∀ i, nid = i → List.count i (owned _) = 0 := fun i hi =>
        List.count_eq_zero.mpr fun hm => by have := h.fresh i hm; simp only at this; omega
      exact ⟨cont, { h with
        nodup := fun i => by
          have h1 := hnd i
          have h2 := hnot i
          simp only [owned, gotOf, List.count_append, List.count_cons, List.count_nil,
            beq_iff_eq] at h1 h2 ⊢
          by_cases hi : nid = i
          · have := h2 hi; simp only [hi, if_true]; omega
          · simp only [hi, if_false]; omega
        fresh := fun i hi => by
          have h1 := hfr i
          simp only [owned, gotOf, List.mem_append, List.mem_cons] at hi h1 ⊢
          grind
        contFresh := fun i hi => h.contFresh i (by simp only at hi ⊢; omega)
        rep := fun i hi => by
          by_cases hin : i = nid
          · subst hin
            refine ⟨q, by simp [upd_eq, i1], ?_, i3⟩
            rw [h.contFresh i (Nat.le_refl _)]; exact i2
          · simp only [upd_ne hin]
            exact h.rep i (by
              simp only [owned, gotOf, List.mem_append, List.mem_cons] at hi ⊢
              grind)
        clean := fun i hi => by
          by_cases hin : i = nid
          · subst hin; exact h.contFresh i (Nat.le_refl _)
          · exact h.clean i (by
              simp only [gotOf, List.mem_cons] at hi ⊢
              grind)
        last := fun _ => h.last (by simp)
        lastq := by simp
        fullne := h.fullne
        room := by simp
        csw := h.csw
        fix := fun hf => by have := h.fix hf; simp_all [isFull] }⟩
  | pQueue =>
    cases ppc <;> simp only [Uswsr.step, reduceCtorEq] at hs
    rename_i a t
    simp only [Option.some.injEq] at hs; subst hs
    have hct : cont t = [] := h.clean t (by simp [gotOf])
    exact ⟨cont, { h with
      nodup := fun i => by
        have := hnd i
        simp only [owned, gotOf, List.count_append, List.count_cons, List.count_nil] at this ⊢
        omega
      fresh := fun i hi => h.fresh i (by
        simp only [owned, gotOf, List.mem_append, List.mem_cons] at hi ⊢
        grind)
      rep := fun i hi => h.rep i (by
        simp only [owned, gotOf, List.mem_append, List.mem_cons] at hi ⊢
        grind)
      clean := fun i hi => h.clean i (by
        simp only [gotOf, List.mem_cons] at hi ⊢
        grind)
      last := by simp
      lastq := fun a' t' ht => by
        simp only [PPc.queued.injEq] at ht
        obtain ⟨rfl, rfl⟩ := ht
        obtain ⟨pre, hp⟩ := h.last (by simp)
        simp only at hp
        refine ⟨hct, pre, ?_⟩
        simp only
        rw [← List.cons_append, hp]; simp
      content := by
        have := h.content
        simp only at this ⊢
        rw [this]
        simp [hct]
      mid := by
        simp only [List.dropLast_concat]
        intro i hi
        rcases hldl (by simp) with ⟨h1, h2⟩ | ⟨h1, h2, h3⟩
        · simp [h1] at hi
        · rw [h2] at hi
          rcases List.mem_append.mp hi with h4 | h4
          · exact h.mid i h4
          · simp at h4; subst h4; exact h.fullne rfl h3
      fullne := by simp [isFull]
      room := by simp
      csw := fun hc => by
        rcases h.csw hc with h1 | ⟨h1, h2⟩
        · exact Or.inl h1
        · simp [isFull] at h2
      fix := fun hf => by have := h.fix hf; simp_all [isFull] }⟩
  | pSwitch =>
    cases ppc <;> simp only [Uswsr.step, reduceCtorEq] at hs
    rename_i a t
    simp only [Option.some.injEq] at hs; subst hs
    obtain ⟨hct, pre, hp⟩ := h.lastq a t rfl
    simp only at hp
    have hne : hdOf cpc bufr = bufr → bufr ≠ t := by
      intro he ht
      rw [he, ht] at hp
      rw [he, ht] at hcnd
      cases pre with
      | nil => simp at hp; rw [hp.2] at hcnd; simp at hcnd
      | cons y pre => simp at hp; rw [hp.2] at hcnd; simp at hcnd
    exact ⟨cont, { h with
      last := fun _ => ⟨pre ++ [bufw], by simpa using hp⟩
      lastq := by simp
      fullne := by simp [isFull]
      room := fun b _ => by simp [hct, hnpos]
      ce1 := fun hc hb => absurd hb (hne (by simp only at hc; simp [hc, hdOf]))
      ce2 := fun hc => hne (by simp only at hc; simp [hc, hdOf])
      ce3 := fun hc => ⟨hne (by simp only at hc; simp [hc, hdOf]), (h.ce3 hc).2⟩
      fix := fun hf => by have := h.fix hf; simp_all [isFull] }⟩
  | pCheck =>
    cases ppc <;> simp only [Uswsr.step, reduceCtorEq] at hs
    rename_i a
    have hr : (cont bufw).length < n := h.room a (Or.inl rfl)
    rw [w1] at hs
    simp only [Option.bind_some, w2.available_eq, w3, hr, decide_true, Option.some.injEq] at hs
    subst hs
    exact ⟨cont, { h with
      last := fun _ => h.last (by simp)
      lastq := by simp
      fullne := by simp [isFull]
      room := fun _ _ => hr
      fix := fun hf => by
        obtain ⟨f1, f2, f3, f4, f5, f6, f7⟩ := h.fix hf
        exact ⟨f1, f2, f3, rfl, by simp, f6, f7⟩ }⟩
  | pStore =>
    cases ppc <;> simp only [Uswsr.step, reduceCtorEq] at hs
    rename_i a
    have hr : (cont bufw).length < n := h.room a (Or.inr rfl)
    rw [w1] at hs
    obtain ⟨q1, r1, r2, r3⟩ := w2.store (by rw [w3]; exact hr) a
    simp only [Option.bind_some, r1, Option.some.injEq] at hs
    subst hs
    have hcw : ∀ i, i ∈ cache ∨ i ∈ gotOf (PPc.put a) ∨ i ∈ oldOf cpc bufr → i ≠ bufw := by
      intro i hi he
      subst he
      have h1 := hnd i
      simp only [owned, List.count_append] at h1
      have h2 := List.count_pos_iff.mpr hbw
      rcases hi with hi | hi | hi <;>
      · have := List.count_pos_iff.mpr hi
        omega
    have hne : ∀ i, cont i ≠ [] → (if i = bufw then cont bufw ++ [a] else cont i) ≠ [] := by
      intro i hi; split <;> simp [hi]
    exact ⟨fun i => if i = bufw then cont bufw ++ [a] else cont i, { h with
      contFresh := fun i hi => by
        have := h.fresh _ h.bufw_mem
        simp only at this hi ⊢
        rw [if_neg (by omega)]; exact h.contFresh i hi
      rep := fun i hi => by
        simp only
        by_cases hib : i = bufw
        · subst hib; rw [upd_eq, if_pos rfl]
          exact ⟨_, rfl, r2, by simp only; omega⟩
        · rw [upd_ne hib, if_neg hib]; exact h.rep i hi
      clean := fun i hi => by
        rw [if_neg (hcw i hi)]; exact h.clean i hi
      last := fun _ => h.last (by simp)
      lastq := by simp
      content := by
        have := h.content
        simp only at this ⊢
        rw [flatMap_store (h.last (by simp)) hcnd, List.map_append, this]
        simp
      mid := fun i hi => hne i (h.mid i hi)
      fullne := by simp [isFull]
      room := by simp
      ce3 := fun hc => ⟨(h.ce3 hc).1, by
        have := h.ce3 hc; simp only at this ⊢; rw [if_neg this.1]; exact this.2⟩
      csw := fun hc => by
        rcases h.csw hc with h1 | ⟨h1, h2⟩
        · exact Or.inl (hne _ h1)
        · exact Or.inr ⟨h1, rfl⟩
      cp2 := fun hc => hne _ (h.cp2 hc)
      cp3 := fun v hv => by
        obtain ⟨x, xs, h1, h2⟩ := h.cp3 v hv
        simp only at h1 ⊢
        by_cases hb : bufr = bufw
        · subst hb; exact ⟨x, xs ++ [a], by simp [h1], h2⟩
        · exact ⟨x, xs, by rw [if_neg hb]; exact h1, h2⟩
      fix := fun hf => by
        obtain ⟨f1, f2, f3, f4, f5, f6, f7⟩ := h.fix hf
        exact ⟨f1, f2, f3, rfl, by simp, f6, f7⟩ }⟩
  | cBegin =>
    cases cpc <;> simp only [Uswsr.step, reduceCtorEq] at hs
    simp only [hdOf] at d1 d2
    rw [d1] at hs
    simp only [Option.bind_some, d2.empty_eq] at hs
    cases hc : cont bufr with
    | nil =>
      simp only [hc, List.isEmpty_nil, Option.some.injEq] at hs; subst hs
      exact ⟨cont, { h with
        ce1 := fun _ hb => by
          simp only at hb
          have hct := h.content
          have h0 : (hdOf (CPc.idle : CPc A) bufr :: inuse).flatMap cont = [] := by
            by_cases hq : ∃ a t, ppc = .queued a t
            · obtain ⟨a, t, hq⟩ := hq
              obtain ⟨h1, pre, h2⟩ := h.lastq a t hq
              simp only [hdOf] at h2 hcnd ⊢
              cases pre with
              | nil => simp at h2; simp [h2, hc, h1]; rw [← hb]; exact hc
              | cons y pre => simp at h2; rw [h2.2, hb] at hcnd; simp at hcnd
            · rcases hldl (by intro a t hh; exact hq ⟨a, t, hh⟩) with ⟨h1, -⟩ | ⟨-, -, h1⟩
              · simp [h1, hdOf, hc]
              · exact absurd hb.symm h1
          simp only [h0, List.map_nil, List.append_nil] at hct
          have := congrArg List.length hct
          simp at this
          simp [St.allPopped, this]
        ce2 := by simp
        ce3 := by simp
        csw := by simp
        cp2 := by simp
        cp3 := by simp
        fix := fun hf => by
          obtain ⟨f1, f2, f3, f4, f5, f6, f7⟩ := h.fix hf
          exact ⟨f1, f2, f3, f4, f5, by simp, by simp⟩ }⟩
    | cons x xs =>
      simp only [hc, List.isEmpty_cons, Option.some.injEq] at hs; subst hs
      exact ⟨cont, { h with
        ce1 := by simp
        ce2 := by simp
        ce3 := by simp
        csw := fun _ => Or.inl (by simp [hdOf, hc])
        cp2 := by simp
        cp3 := by simp
        fix := fun hf => by
          obtain ⟨f1, f2, f3, f4, f5, f6, f7⟩ := h.fix hf
          exact ⟨f1, f2, f3, f4, f5, by simp, by simp⟩ }⟩
  | cCmp =>
    cases cpc <;> simp only [Uswsr.step, reduceCtorEq] at hs
    split at hs
    · rename_i hb
      simp only [Option.some.injEq] at hs; subst hs
      exact ⟨cont, { h with
        ce1 := by simp
        ce2 := by simp
        ce3 := by simp
        csw := by simp
        cp2 := by simp
        cp3 := by simp
        fails := fun b hb' => by
          simp only [List.mem_append, List.mem_singleton] at hb'
          rcases hb' with hb' | rfl
          · exact h.fails b hb'
          · have := h.ce1 rfl hb; simp only at this; simp [this]
        fix := fun hf => by
          obtain ⟨f1, f2, f3, f4, f5, f6, f7⟩ := h.fix hf
          exact ⟨f1, f2, f3, f4, f5, by simp, by simp⟩ }⟩
    · rename_i hb
      simp only [Option.some.injEq] at hs; subst hs
      exact ⟨cont, { h with
        ce1 := by simp
        ce2 := fun _ => hb
        ce3 := by simp
        csw := by simp
        cp2 := by simp
        cp3 := by simp
        fix := fun hf => by
          obtain ⟨f1, f2, f3, f4, f5, f6, f7⟩ := h.fix hf
          exact absurd f2 hb }⟩
  | cEmpty2 =>
    cases cpc <;> simp only [Uswsr.step, reduceCtorEq] at hs
    simp only [hdOf] at d1 d2
    rw [d1] at hs
    simp only [Option.bind_some, d2.empty_eq] at hs
    have hb := h.ce2 rfl
    simp only at hb
    cases hc : cont bufr with
    | nil =>
      simp only [hc, List.isEmpty_nil, Option.some.injEq] at hs; subst hs
      exact ⟨cont, { h with
        ce1 := by simp
        ce2 := by simp
        ce3 := fun _ => ⟨hb, hc⟩
        csw := by simp
        cp2 := by simp
        cp3 := by simp
        fix := fun hf => absurd (h.fix hf).2.1 hb }⟩
    | cons x xs =>
      simp only [hc, List.isEmpty_cons, Option.some.injEq] at hs; subst hs
      exact ⟨cont, { h with
        ce1 := by simp
        ce2 := by simp
        ce3 := by simp
        csw := fun _ => Or.inl (by simp [hdOf, hc])
        cp2 := by simp
        cp3 := by simp
        fix := fun hf => absurd (h.fix hf).2.1 hb }⟩
  | cNext =>
    cases cpc <;> simp only [Uswsr.step, reduceCtorEq] at hs
    obtain ⟨hb, hc⟩ := h.ce3 rfl
    simp only at hb hc
    split at hs
    · rename_i t rest
      simp only [Option.some.injEq] at hs; subst hs
      exact ⟨cont, { h with
        nodup := fun i => by
          have := hnd i
          simp only [owned, hdOf, oldOf, List.count_append, List.count_cons, List.count_nil]
            at this ⊢
          omega
        fresh := fun i hi => h.fresh i (by
          simp only [owned, hdOf, oldOf, List.mem_append, List.mem_cons] at hi ⊢
          grind)
        rep := fun i hi => h.rep i (by
          simp only [owned, hdOf, oldOf, List.mem_append, List.mem_cons] at hi ⊢
          grind)
        clean := fun i hi => by
          by_cases hib : i = bufr
          · subst hib; exact hc
          · exact h.clean i (by
              simp only [oldOf, List.mem_cons, List.not_mem_nil, or_false] at hi ⊢
              grind)
        last := fun hq => by
          obtain ⟨pre, hp⟩ := h.last hq
          simp only [hdOf] at hp ⊢
          cases pre with
          | nil => simp at hp
          | cons y pre => simp at hp; exact ⟨pre, hp.2⟩
        lastq := fun a t' hq => by
          obtain ⟨h1, pre, hp⟩ := h.lastq a t' hq
          simp only [hdOf] at hp ⊢
          refine ⟨h1, ?_⟩
          cases pre with
          | nil => simp at hp; exact absurd hp.1 hb
          | cons y pre => simp at hp; exact ⟨pre, hp.2⟩
        content := by
          have := h.content
          simp only [hdOf, List.flatMap_cons, hc, List.nil_append] at this ⊢
          exact this
        mid := fun i hi => h.mid i (by
          simp only at hi ⊢
          cases rest with
          | nil => simp at hi
          | cons y r => simp [hi])
        fullne := fun hf _ => h.fullne hf (fun he => hb he.symm)
        ce1 := by simp
        ce2 := by simp
        ce3 := by simp
        csw := fun _ => by
          simp only [hdOf]
          cases rest with
          | cons y r => exact Or.inl (h.mid t (by simp))
          | nil =>
            cases hf : isFull ppc with
            | false => exact Or.inr ⟨rfl, rfl⟩
            | true =>
              left
              have hbt : bufw = t := by
                simp only [hdOf, List.mem_cons, List.not_mem_nil, or_false] at hbw
                rcases hbw with h1 | h1
                · exact absurd h1.symm hb
                · exact h1
              subst hbt
              exact h.fullne hf (fun he => hb he.symm)
        cp2 := by simp
        cp3 := by simp
        fix := fun hf => absurd (h.fix hf).2.1 hb }⟩
    · -- `buf_w` is in the chain and different from `buf_r`
      simp only [hdOf, List.mem_cons, List.not_mem_nil, or_false] at hbw
      exact absurd hbw.symm hb
  | cReset =>
    cases cpc <;> simp only [Uswsr.step, reduceCtorEq] at hs
    rename_i t
    obtain ⟨q, q1, q2, q3⟩ := h.rep bufr (by simp [owned, oldOf])
    have hcb : cont bufr = [] := h.clean bufr (by simp [oldOf])
    obtain ⟨q', r1, r2, r3⟩ := q2.resetFalse
    simp only at q1
    rw [q1] at hs
    simp only [Option.bind_some, r1, Option.some.injEq] at hs
    subst hs
    exact ⟨cont, { h with
      rep := fun i hi => by
        by_cases hib : i = bufr
        · subst hib
          exact ⟨q', upd_eq, by rw [hcb]; exact r2, by simp only at q3 ⊢; omega⟩
        · simp only [upd_ne hib]
          exact h.rep i hi
      ce1 := by simp
      ce2 := by simp
      ce3 := by simp
      csw := fun _ => h.csw (Or.inl ⟨t, Or.inl rfl⟩)
      cp2 := by simp
      cp3 := by simp
      fix := fun hf => by
        obtain ⟨f1, f2, f3, f4, f5, f6, f7⟩ := h.fix hf
        exact ⟨f1, f2, f3, f4, f5, by simp, by simp⟩ }⟩
  | cRecycle b =>
    cases cpc <;> simp only [Uswsr.step, reduceCtorEq] at hs
    rename_i t
    split at hs
    · simp only [Option.some.injEq] at hs; subst hs
      exact ⟨cont, { h with
        nodup := fun i => by
          have := hnd i
          simp only [owned, hdOf, oldOf, List.count_append, List.count_cons, List.count_nil]
            at this ⊢
          omega
        fresh := fun i hi => h.fresh i (by
          simp only [owned, hdOf, oldOf, List.mem_append, List.mem_cons] at hi ⊢
          grind)
        rep := fun i hi => h.rep i (by
          simp only [owned, hdOf, oldOf, List.mem_append, List.mem_cons] at hi ⊢
          grind)
        clean := fun i hi => h.clean i (by
          simp only [oldOf, List.mem_append, List.mem_cons] at hi ⊢
          grind)
        ce1 := by simp
        ce2 := by simp
        ce3 := by simp
        csw := fun _ => h.csw (Or.inl ⟨t, Or.inr (Or.inl rfl)⟩)
        cp2 := by simp
        cp3 := by simp
        fix := fun hf => by
          obtain ⟨f1, f2, f3, f4, f5, f6, f7⟩ := h.fix hf
          exact ⟨f1, f2, f3, f4, f5, by simp, by simp⟩ }⟩
    · simp only [Option.some.injEq] at hs; subst hs
      have hbn : ∀ i, i ∈ t :: inuse ++ cache ++ gotOf ppc → i ≠ bufr := by
        intro i hi he
        subst he
        have h1 := hnd i
        have h2 := List.count_pos_iff.mpr hi
        simp only [owned, hdOf, oldOf, List.count_append, List.count_cons, List.count_nil,
          beq_self_eq_true, if_true] at h1 h2
        omega
      exact ⟨cont, { h with
        nodup := fun i => by
          have := hnd i
          simp only [owned, hdOf, oldOf, List.count_append, List.count_cons, List.count_nil]
            at this ⊢
          omega
        fresh := fun i hi => h.fresh i (by
          simp only [owned, hdOf, oldOf, List.mem_append, List.mem_cons] at hi ⊢
          grind)
        rep := fun i hi => by
          have hib : i ≠ bufr := hbn i (by
            simp only [owned, hdOf, oldOf, List.append_nil] at hi; exact hi)
          simp only [upd_ne hib]
          exact h.rep i (by
            simp only [owned, hdOf, oldOf, List.mem_append, List.mem_cons] at hi ⊢
            grind)
        clean := fun i hi => h.clean i (by
          simp only [oldOf] at hi ⊢
          grind)
        ce1 := by simp
        ce2 := by simp
        ce3 := by simp
        csw := fun _ => h.csw (Or.inl ⟨t, Or.inr (Or.inl rfl)⟩)
        cp2 := by simp
        cp3 := by simp
        fix := fun hf => by
          obtain ⟨f1, f2, f3, f4, f5, f6, f7⟩ := h.fix hf
          exact ⟨f1, f2, f3, f4, f5, by simp, by simp⟩ }⟩
  | cSwitch =>
    cases cpc <;> simp only [Uswsr.step, reduceCtorEq] at hs
    rename_i t
    simp only [Option.some.injEq] at hs; subst hs
    exact ⟨cont, { h with
      ce1 := by simp
      ce2 := by simp
      ce3 := by simp
      csw := fun _ => h.csw (Or.inl ⟨t, Or.inr (Or.inr rfl)⟩)
      cp2 := by simp
      cp3 := by simp
      fix := fun hf => by
        obtain ⟨f1, f2, f3, f4, f5, f6, f7⟩ := h.fix hf
        simp only [hdOf] at f3
        exact ⟨f1, by simp only; rw [f3]; exact f2, rfl, f4, f5, by simp, by simp⟩ }⟩
  | cPopCheck =>
    cases cpc <;> simp only [Uswsr.step, reduceCtorEq] at hs
    simp only [hdOf] at d1 d2
    rw [d1] at hs
    simp only [Option.bind_some, d2.empty_eq] at hs
    have hcsw := h.csw (Or.inr rfl)
    simp only [hdOf] at hcsw
    cases hc : cont bufr with
    | nil =>
      simp only [hc, List.isEmpty_nil, Option.some.injEq] at hs; subst hs
      have hi : inuse = [] := by
        rcases hcsw with h1 | ⟨h1, -⟩
        · exact absurd hc h1
        · exact h1
      exact ⟨cont, { h with
        ce1 := by simp
        ce2 := by simp
        ce3 := by simp
        csw := by simp
        cp2 := by simp
        cp3 := by simp
        fails := fun b hb' => by
          simp only [List.mem_append, List.mem_singleton] at hb'
          rcases hb' with hb' | rfl
          · exact h.fails b hb'
          · have hct := h.content
            simp only [hdOf, hi, List.flatMap_cons, List.flatMap_nil, hc, List.append_nil,
              List.map_nil] at hct
            have := congrArg List.length hct
            simp at this
            simp [St.allPopped, this]
        fix := fun hf => by
          obtain ⟨f1, f2, f3, f4, f5, f6, f7⟩ := h.fix hf
          exact ⟨f1, f2, f3, f4, f5, by simp, by simp⟩ }⟩
    | cons x xs =>
      simp only [hc, List.isEmpty_cons, Option.some.injEq] at hs; subst hs
      exact ⟨cont, { h with
        ce1 := by simp
        ce2 := by simp
        ce3 := by simp
        csw := by simp
        cp2 := fun _ => by simp [hc]
        cp3 := by simp
        fix := fun hf => by
          obtain ⟨f1, f2, f3, f4, f5, f6, f7⟩ := h.fix hf
          exact ⟨f1, f2, f3, f4, f5, by simp, by simp⟩ }⟩
  | cPopLoad =>
    cases cpc <;> simp only [Uswsr.step, reduceCtorEq] at hs
    simp only [hdOf] at d1 d2
    rw [d1] at hs
    have hne := h.cp2 rfl
    simp only at hne
    simp only [Option.bind_some, d2.rd_pread, Option.some.injEq] at hs
    subst hs
    exact ⟨cont, { h with
      ce1 := by simp
      ce2 := by simp
      ce3 := by simp
      csw := by simp
      cp2 := by simp
      cp3 := fun v hv => by
        simp only [CPc.p3.injEq] at hv
        subst hv
        cases hc : cont bufr with
        | nil => exact absurd hc hne
        | cons x xs => exact ⟨x, xs, rfl, rfl⟩
      fix := fun hf => by
        obtain ⟨f1, f2, f3, f4, f5, f6, f7⟩ := h.fix hf
        exact ⟨f1, f2, f3, f4, f5, by simp, by simp⟩ }⟩
  | cPopClear =>
    cases cpc <;> simp only [Uswsr.step, reduceCtorEq] at hs
    rename_i v
    obtain ⟨x, xs, hc, rfl⟩ := h.cp3 v rfl
    simp only [hdOf] at d1 d2 hc
    rw [hc] at d2
    obtain ⟨q', r1, r2, r3, -⟩ := d2.inc
    rw [d1] at hs
    simp only [Option.bind_some, r1, Option.some.injEq] at hs
    subst hs
    have hin : bufr ∉ inuse := by
      simp only [hdOf, List.nodup_cons] at hcnd; exact hcnd.1
    have hother : ∀ i, i ≠ bufr → (if i = bufr then xs else cont i) = cont i := by
      intro i hi; rw [if_neg hi]
    have hcw : ∀ i, i ∈ cache ∨ i ∈ gotOf ppc ∨ i ∈ oldOf (CPc.idle : CPc A) bufr → i ≠ bufr := by
      intro i hi he
      subst he
      have h1 := hnd i
      simp only [owned, hdOf, oldOf, List.count_append, List.count_cons, List.count_nil,
        beq_self_eq_true, if_true] at h1
      rcases hi with hi | hi | hi
      · have := List.count_pos_iff.mpr hi
        omega
      · have := List.count_pos_iff.mpr hi
        omega
      · simp [oldOf] at hi
    exact ⟨fun i => if i = bufr then xs else cont i, { h with
      contFresh := fun i hi => by
        have := h.fresh _ h.hd_mem
        simp only [hdOf] at this hi ⊢
        rw [if_neg (by omega)]; exact h.contFresh i hi
      rep := fun i hi => by
        by_cases hib : i = bufr
        · subst hib
          exact ⟨q', upd_eq, by simp only [if_true]; exact r2, by simp only; omega⟩
        · simp only [upd_ne hib, if_neg hib]
          exact h.rep i hi
      clean := fun i hi => by
        rw [hother i (hcw i hi)]
        exact h.clean i hi
      lastq := fun a t hq => by
        obtain ⟨h1, h2⟩ := h.lastq a t hq
        refine ⟨?_, h2⟩
        rw [hother t ?_]
        · exact h1
        · rintro rfl; simp [hc] at h1
      content := by
        have := h.content
        simp only [hdOf, List.flatMap_cons, if_true, hc] at this ⊢
        rw [this, flatMap_congr_mem (f := fun i => if i = bufr then xs else cont i) (g := cont)]
        · simp
        · intro i hi; exact hother i (by rintro rfl; exact hin hi)
      mid := fun i hi => by
        rw [hother i]
        · exact h.mid i hi
        · rintro rfl; exact hin (List.dropLast_subset _ hi)
      fullne := fun hf hb => by
        rw [hother _ hb]; exact h.fullne hf hb
      room := fun a ha => by
        have := h.room a ha
        simp only at this ⊢
        split
        · rename_i hb; rw [hb, hc] at this; simp at this; omega
        · exact this
      ce1 := by simp
      ce2 := by simp
      ce3 := by simp
      csw := by simp
      cp2 := by simp
      cp3 := by simp
      fix := fun hf => by
        obtain ⟨f1, f2, f3, f4, f5, f6, f7⟩ := h.fix hf
        exact ⟨f1, f2, f3, f4, f5, by simp, by simp⟩ }⟩

theorem step_consts {s s' : St A} {act : Act A} (hs : step s act = some s') :
    s'.n = s.n ∧ s'.fixed = s.fixed := by
  cases act <;> simp only [step] at hs <;> (repeat' split at hs) <;>
    first
    | (simp only [Option.some.injEq] at hs; subst hs; exact ⟨rfl, rfl⟩)
    | simp at hs

theorem reach_consts {n cap : Nat} {fixed : Bool} {s : St A}
    (h : Reach step (init n cap fixed) s) : s.n = n ∧ s.fixed = fixed :=
  Reach.inv (Inv := fun s => s.n = n ∧ s.fixed = fixed) h ⟨rfl, rfl⟩ fun _ _ _ hi hs =>
    ⟨(step_consts hs).1.trans hi.1, (step_consts hs).2.trans hi.2⟩

theorem reach_inv {n cap : Nat} {fixed : Bool} (hn : 0 < n) {s : St A}
    (h : Reach step (init n cap fixed) s) : Inv s :=
  Reach.inv h (Inv.init n cap fixed hn) fun _ _ _ hi hs => hi.step hs

end FF.Uswsr
