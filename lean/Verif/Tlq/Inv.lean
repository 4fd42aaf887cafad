import Verif.Tlq.Model
import Verif.Msq.Inv
import Mathlib.Data.List.Nodup
/-!
# C68: invariant of the queue with two locks
-/
namespace FF.Tlq
open FF
open FF.Msq (Ev Doing doing replay Linked doing_cons_same doing_cons_other)

@[simp] theorem upd_same {α : Type} (f : Nat → α) (i : Nat) (v : α) : upd f i v i = v := by simp [upd]
theorem upd_other {α : Type} (f : Nat → α) {i j : Nat} (v : α) (h : j ≠ i) : upd f i v j = f j := by
  simp [upd, h]

/-! ## What a program counter says -/

/-- does the thread hold `P_lock` -/
def Pc.inP : Pc → Bool
  | .aPop _ | .aGot _ _ | .aNone _ | .pLink _ _ | .pTail _ | .pUnlock => true
  | _ => false

/-- does the thread hold `C_lock` -/
def Pc.inC : Pc → Bool
  | .cTest | .cData | .cHead _ _ | .cCache _ _ | .cKept _ | .cLeft _ _ | .cEmpty => true
  | _ => false

/-- the node that only this thread knows -/
def Pc.own : Pc → Option Addr
  | .aGot _ n | .wData _ n | .wNext _ n | .pLock _ n | .pLink _ n => some n
  | .cCache _ n | .cLeft _ n | .cFree _ n => some n
  | _ => none

/-- what the events of the thread tell -/
def Pc.doing : Pc → Doing
  | .idle | .crash => .nothing
  | .aLock v | .aPop v | .aGot v _ | .aNone v | .aMalloc v | .wData v _ | .wNext v _ | .pLock v _
  | .pLink v _ => .pushing v
  | .pTail _ | .pUnlock | .pRet => .pushed
  | .cLock | .cTest | .cData | .cHead _ _ => .popping
  | .cCache d _ | .cKept d | .cLeft d _ | .cFree d _ => .popped (some d)
  | .cEmpty => .popped none
  | .cRet r => .popped r

/-- What a thread knows of the shared memory. -/
def Know (s : S) : Pc → Prop
  | .wNext v n => s.data n = v
  | .pLock v n | .pLink v n => s.data n = v ∧ s.next n = none
  | .cData => s.next s.head ≠ none
  | .cHead d n => n = s.head ∧ ∃ x, s.next s.head = some x ∧ s.data x = d
  | .crash => False
  | _ => True

/-! ## The invariant -/

/-- the nodes the threads own -/
def owners (n : Nat) (pc : Nat → Pc) : List Addr := (List.range n).filterMap fun u => (pc u).own

/-- Memory; `ch` is the list from `head` on.  Every allocated node is in exactly one place. -/
structure Mem (cap n : Nat) (s : S) (ch : List Addr) : Prop where
  linked : Linked s.next ch
  hd : ch.head? = some s.head
  /-- between the two assignments of a push `tail` is behind -/
  late : ∀ u a, s.pc u = .pTail a → ch.getLast? = some a
  tl : (∀ u a, s.pc u ≠ .pTail a) → ch.getLast? = some s.tail
  ccap : s.cache.length ≤ cap
  nodup : (owners n s.pc ++ s.cache ++ ch).Nodup
  live : ∀ a, s.live a = true ↔ a ∈ owners n s.pc ++ s.cache ++ ch
  know : ∀ u, Know s (s.pc u)

structure Locks (s : S) : Prop where
  P : ∀ u, (s.pc u).inP = true ↔ s.P = some u
  C : ∀ u, (s.pc u).inC = true ↔ s.C = some u

structure Hist (s : S) : Prop where
  doing : ∀ u, doing u s.full = some (s.pc u).doing
  vis : s.full.filter Ev.visible = s.vis

structure Inv (cap n : Nat) (s : S) (ch : List Addr) : Prop where
  m : Mem cap n s ch
  l : Locks s
  h : Hist s
  rep : replay s.full = some (ch.tail.map s.data)
  out : ∀ u, n ≤ u → s.pc u = .idle

theorem init_live {k a : Nat} : (S.init k).live a = true ↔ a ≤ k := by simp [S.init]

theorem init_cache {k a : Nat} : a ∈ (S.init k).cache ↔ 1 ≤ a ∧ a ≤ k := by
  simp only [S.init, List.mem_map, List.mem_range]
  constructor
  · rintro ⟨b, hb, rfl⟩; omega
  · intro ⟨h1, h2⟩; exact ⟨a - 1, by omega, by omega⟩

theorem init_owners (k n : Nat) : owners n (S.init k).pc = [] := by
  simp [owners, S.init, Pc.own]

theorem Inv.init {cap n k : Nat} (hk : k ≤ cap) : Inv cap n (S.init k) [0] where
  m :=
    { linked := rfl
      hd := rfl
      late := fun u a h => by simp [S.init] at h
      tl := fun _ => rfl
      ccap := by simp [S.init, hk]
      nodup := by
        rw [init_owners, List.nil_append, List.nodup_append]
        refine ⟨?_, by simp, ?_⟩
        · simp only [S.init]
          exact List.nodup_map_iff_inj_on (List.nodup_range) |>.2 fun a _ b _ h => by simpa using h
        · intro a ha b hb he
          simp only [List.mem_singleton] at hb
          rw [hb] at he; subst he
          exact absurd (init_cache.1 ha).1 (by decide)
      live := fun a => by
        rw [init_owners, List.nil_append, List.mem_append, init_live, init_cache, List.mem_singleton]
        constructor
        · intro ha
          by_cases h0 : a = 0
          · exact Or.inr h0
          · exact Or.inl ⟨Nat.pos_of_ne_zero h0, ha⟩
        · rintro (h | h)
          · exact h.2
          · subst h; exact Nat.zero_le _
      know := fun u => by simp [S.init, Know] }
  l := ⟨fun u => by simp [S.init, Pc.inP], fun u => by simp [S.init, Pc.inC]⟩
  h := ⟨fun u => rfl, rfl⟩
  rep := rfl
  out u _ := rfl

/-! ## Who owns what -/

/-- what the other threads own does not depend on the thread that moves -/
theorem owners_split (n : Nat) (pc : Nat → Pc) {t : Nat} (ht : t < n) :
    ∃ rest, (∀ p, (owners n (upd pc t p)).Perm (p.own.toList ++ rest)) ∧
      (owners n pc).Perm ((pc t).own.toList ++ rest) ∧
      ∀ v a, v < n → v ≠ t → (pc v).own = some a → a ∈ rest := by
  obtain ⟨l1, l2, hl⟩ := List.append_of_mem (List.mem_range.2 ht)
  have hnd := List.nodup_range (n := n)
  rw [hl] at hnd
  rw [List.nodup_append, List.nodup_cons] at hnd
  obtain ⟨-, ⟨h2, -⟩, h1⟩ := hnd
  have n1 : ∀ u ∈ l1, u ≠ t := fun u hu => h1 u hu t (by simp)
  have n2 : ∀ u ∈ l2, u ≠ t := fun u hu he => h2 (by rw [← he]; exact hu)
  have key : ∀ q : Nat → Pc, (∀ u, u ≠ t → q u = pc u) → (owners n q).Perm
      ((q t).own.toList ++ (l1.filterMap (fun u => (pc u).own) ++ l2.filterMap (fun u => (pc u).own))) := by
    intro q hq
    have e1 : l1.filterMap (fun u => (q u).own) = l1.filterMap (fun u => (pc u).own) :=
      List.filterMap_congr fun u hu => by rw [hq u (n1 u hu)]
    have e2 : l2.filterMap (fun u => (q u).own) = l2.filterMap (fun u => (pc u).own) :=
      List.filterMap_congr fun u hu => by rw [hq u (n2 u hu)]
    unfold owners
    rw [hl, List.filterMap_append, List.filterMap_cons, e1]
    cases hqt : (q t).own with
    | none => simp only [e2]; simp
    | some a => simp only [e2]; simp
  refine ⟨l1.filterMap (fun u => (pc u).own) ++ l2.filterMap (fun u => (pc u).own), fun p => ?_, key pc fun _ _ => rfl, ?_⟩
  · have := key (upd pc t p) fun u hu => upd_other _ _ hu
    simpa using this
  · intro v a hv hne ho
    have : v ∈ List.range n := List.mem_range.2 hv
    rw [hl, List.mem_append, List.mem_cons] at this
    rw [List.mem_append, List.mem_filterMap, List.mem_filterMap]
    rcases this with h | h | h
    · exact Or.inl ⟨v, h, ho⟩
    · exact absurd h hne
    · exact Or.inr ⟨v, h, ho⟩

theorem mem_owners {n : Nat} {pc : Nat → Pc} {a : Addr} :
    a ∈ owners n pc ↔ ∃ u, u < n ∧ (pc u).own = some a := by
  simp [owners, List.mem_filterMap]

theorem Mem.head_mem {cap n : Nat} {s : S} {ch : List Addr} (h : Mem cap n s ch) : s.head ∈ ch := by
  have := h.hd
  cases ch with
  | nil => simp at this
  | cons a c => simp only [List.head?_cons, Option.some.injEq] at this; simp [this]

theorem getLast?_split {l : List Addr} {a : Addr} (h : l.getLast? = some a) : ∃ p, l = p ++ [a] := by
  have hne : l ≠ [] := by intro hh; simp [hh] at h
  rw [List.getLast?_eq_some_getLast hne, Option.some.injEq] at h
  exact ⟨l.dropLast, by rw [← h]; exact (List.dropLast_concat_getLast hne).symm⟩

/-- the last node of the list points to nothing -/
theorem linked_last {f : Addr → Option Addr} {p : List Addr} {a : Addr} (h : Linked f (p ++ [a])) :
    f a = none := by
  induction p with
  | nil => exact h
  | cons b p ih =>
    cases p with
    | nil => exact h.2
    | cons c p => exact ih h.2

theorem upd_eq (f : Nat → Option Nat) : @FF.Msq.upd (Option Nat) f = upd f := rfl

/-! ## Locks and histories -/

/-- a lock is left alone, taken when free, or released by its holder -/
def Turn (L L' : Option Nat) (b b' : Bool) (t : Nat) : Prop :=
  (L' = L ∧ b' = b) ∨ (L = none ∧ L' = some t ∧ b' = true) ∨ (b = true ∧ L' = none ∧ b' = false)

theorem Turn.ok {L L' : Option Nat} {f g : Nat → Bool} {t : Nat} (h : Turn L L' (f t) (g t) t)
    (hf : ∀ u, f u = true ↔ L = some u) (hg : ∀ u, u ≠ t → g u = f u) (u : Nat) :
    g u = true ↔ L' = some u := by
  by_cases hu : u = t
  · subst hu
    rcases h with ⟨h1, h2⟩ | ⟨h1, h2, h3⟩ | ⟨h1, h2, h3⟩
    · rw [h1, h2]; exact hf u
    · simp [h2, h3]
    · simp [h2, h3]
  · rw [hg u hu]
    rcases h with ⟨h1, h2⟩ | ⟨h1, h2, h3⟩ | ⟨h1, h2, h3⟩
    · rw [h1]; exact hf u
    · rw [hf u, h1, h2]; simp [Ne.symm hu]
    · have := (hf t).1 h1
      rw [hf u, this, h2]; simp [Ne.symm hu]

theorem Locks.step {s s' : S} {t : Nat} {p : Pc} (h : Locks s) (hp : s'.pc = upd s.pc t p)
    (hP : Turn s.P s'.P (s.pc t).inP p.inP t) (hC : Turn s.C s'.C (s.pc t).inC p.inC t) : Locks s' := by
  refine ⟨fun u => ?_, fun u => ?_⟩
  · refine Turn.ok (f := fun u => (s.pc u).inP) (g := fun u => (s'.pc u).inP) (t := t) ?_ h.P ?_ u
    · simpa [hp] using hP
    · intro v hv; simp only [hp, upd_other _ _ hv]
  · refine Turn.ok (f := fun u => (s.pc u).inC) (g := fun u => (s'.pc u).inC) (t := t) ?_ h.C ?_ u
    · simpa [hp] using hC
    · intro v hv; simp only [hp, upd_other _ _ hv]

/-- at most one event happens, of the thread that moves -/
def Tells (s s' : S) (t : Nat) (p : Pc) : Prop :=
  (s'.full = s.full ∧ s'.vis = s.vis ∧ p.doing = (s.pc t).doing) ∨
  ∃ e : Ev, s'.full = e :: s.full ∧ e.thread = t ∧ (s.pc t).doing.next e = some p.doing ∧
    s'.vis = if e.visible then e :: s.vis else s.vis

theorem Hist.step {s s' : S} {t : Nat} {p : Pc} (h : Hist s) (hp : s'.pc = upd s.pc t p)
    (hT : Tells s s' t p) : Hist s' := by
  rcases hT with ⟨h1, h2, h3⟩ | ⟨e, h1, h2, h3, h4⟩
  · refine ⟨fun u => ?_, by rw [h1, h2]; exact h.vis⟩
    rw [h1, h.doing u, hp]
    by_cases hu : u = t
    · subst hu; simp [h3]
    · rw [upd_other _ _ hu]
  · refine ⟨fun u => ?_, ?_⟩
    · rw [h1, hp]
      by_cases hu : u = t
      · subst hu; rw [doing_cons_same h2 (h.doing u), h3]; simp
      · rw [doing_cons_other (by rw [h2]; exact Ne.symm hu), upd_other _ _ hu]; exact h.doing u
    · rw [h1, h4, List.filter_cons, h.vis]

end FF.Tlq
