import Verif.Locks.Tas
/-!
# The CLH spin lock

Source: `/repo/ff/spin-lock.hpp` 117-164 (`init` 138-146, `spin_lock` 149-157, `spin_unlock`
159-162).

Any number of threads (the code allows `MAX_NUM_THREADS`), nodes are numbers: the node allocated
for `Tail` is `none`, `MyNode[t]` initially `some t`.  Memory model: total store order, i.e. every
thread has a FIFO buffer of stores that are not visible yet.  The atomic exchange on `Tail` waits
for the thread's own buffer to be empty when `drain = true` (x86: the locked `xchg` is a full
barrier).  With `drain = false` it does not: this is all that GCC documents for
`__sync_lock_test_and_set` ("not a full barrier, but rather an acquire barrier").

Ghost: `q` (threads that have exchanged and not yet unlocked, in exchange order), `base` (the node
the first of them waits on), `xch` (order of the exchanges), `ent` (order of the entries), `done`.
-/
namespace FF.Locks.Clh
open FF.Locks.Tas (upd)

variable {T : Type}

inductive Pc where
  | out
  /-- `MyNode[pid]->locked = true` issued -/
  | marked
  /-- exchange done, spinning on the predecessor's node -/
  | spin
  /-- `spin_lock` has returned -/
  | inside
deriving DecidableEq, Repr

structure St (T : Type) where
  drain : Bool
  tail : Option T
  node : T → Option T
  pred : T → Option T
  /-- visible `locked` fields -/
  mem : Option T → Bool
  /-- stores to `locked` fields not visible yet, oldest first -/
  buf : T → List (Option T × Bool)
  pc : T → Pc
  q : List T
  base : Option T
  xch : List T
  ent : List T
  done : List T

/-- spin-lock.hpp 138-146 (the `locked` fields of the per-thread nodes are uninitialised: any
values `m`). -/
def init (drain : Bool) (m : T → Bool) : St T :=
  { drain, tail := none, node := some, pred := fun _ => none
    mem := fun x => match x with | none => false | some t => m t
    buf := fun _ => [], pc := fun _ => .out, q := [], base := none, xch := [], ent := [], done := [] }

inductive Act (T : Type) where
  | lock (t : T)
  | exchange (t : T)
  /-- one evaluation of the `while` condition -/
  | look (t : T)
  | unlock (t : T)
  /-- the oldest pending store of `t` becomes visible -/
  | commit (t : T)

def step [DecidableEq T] (s : St T) : Act T → Option (St T)
  -- spin-lock.hpp 150
  | .lock t =>
    if s.pc t = .out then some { s with
      buf := upd s.buf t (s.buf t ++ [(s.node t, true)]), pc := upd s.pc t .marked }
    else none
  -- spin-lock.hpp 154
  | .exchange t =>
    if s.pc t = .marked ∧ (s.drain = true → s.buf t = []) then some { s with
      pred := upd s.pred t s.tail
      tail := s.node t
      pc := upd s.pc t .spin
      q := s.q ++ [t]
      xch := s.xch ++ [t] }
    else none
  -- spin-lock.hpp 156; a thread sees its own pending stores first
  | .look t =>
    if s.pc t = .spin then
      let v := match (s.buf t).reverse.find? (fun e => e.1 = s.pred t) with
        | some e => e.2
        | none => s.mem (s.pred t)
      if v then some s else some { s with pc := upd s.pc t .inside, ent := s.ent ++ [t] }
    else none
  -- spin-lock.hpp 160-161
  | .unlock t =>
    if s.pc t = .inside then some { s with
      buf := upd s.buf t (s.buf t ++ [(s.node t, false)])
      node := upd s.node t (s.pred t)
      pc := upd s.pc t .out
      q := s.q.erase t
      base := s.node t
      done := s.done ++ [t] }
    else none
  | .commit t =>
    match s.buf t with
    | [] => none
    | (x, v) :: rest => some { s with mem := upd s.mem x v, buf := upd s.buf t rest }

/-- The predecessors along the queue `q`: the first waits on `b`, each next one on the node of the
one before; the last node is the tail. -/
def Chain (node pred : T → Option T) : Option T → List T → Option T → Prop
  | b, [], tl => tl = b
  | b, t :: q, tl => pred t = b ∧ Chain node pred (node t) q tl

/-- Shapes of a thread's store buffer. -/
def BufOk (base nd : Option T) (mem : Option T → Bool) (buf : List (Option T × Bool)) : Pc → Prop
  | .out => buf = [] ∨ buf = [(base, false)]
  | .marked => (buf = [] ∧ mem nd = true) ∨ buf = [(nd, true)] ∨ buf = [(base, false), (nd, true)]
  | .spin => buf = [] ∧ mem nd = true
  | .inside => buf = [] ∧ mem nd = true

structure Inv (s : St T) : Prop where
  dr : s.drain = true
  qn : s.q.Nodup
  qm : ∀ t, t ∈ s.q ↔ s.pc t = .spin ∨ s.pc t = .inside
  chain : Chain s.node s.pred s.base s.q s.tail
  nb : ∀ t, s.node t ≠ s.base
  inj : ∀ t t', s.node t = s.node t' → t = t'
  bufs : ∀ t, BufOk s.base (s.node t) s.mem (s.buf t) (s.pc t)
  cs : ∀ t, s.pc t = .inside → s.q.head? = some t ∧ s.mem s.base = false
  pf : ∀ t x, (x, false) ∈ s.buf t → s.mem s.base = true
  pu : ∀ t t' x x', (x, false) ∈ s.buf t → (x', false) ∈ s.buf t' → t = t'
  pe : s.mem s.base = true → ∃ t rest, s.buf t = (s.base, false) :: rest
  xq : s.xch = s.done ++ s.q
  en : (∃ t, s.pc t = .inside ∧ s.ent = s.done ++ [t]) ∨
    ((∀ t, s.pc t ≠ .inside) ∧ s.ent = s.done)

theorem Chain.congr {node pred node' pred' : T → Option T} {b tl : Option T} {q : List T}
    (h : Chain node pred b q tl) (h1 : ∀ t ∈ q, node' t = node t) (h2 : ∀ t ∈ q, pred' t = pred t) :
    Chain node' pred' b q tl := by
  induction q generalizing b with
  | nil => exact h
  | cons t q ih =>
    obtain ⟨ha, hb⟩ := h
    refine ⟨by rw [h2 t (by simp)]; exact ha, ?_⟩
    rw [h1 t (by simp)]
    exact ih hb (fun t ht => h1 t (by simp [ht])) (fun t ht => h2 t (by simp [ht]))

theorem Chain.snoc {node pred : T → Option T} {b tl : Option T} {q : List T} {t : T}
    (h : Chain node pred b q tl) (hp : pred t = tl) : Chain node pred b (q ++ [t]) (node t) := by
  induction q generalizing b with
  | nil => exact ⟨by rw [hp]; exact h, rfl⟩
  | cons a q ih => exact ⟨h.1, ih h.2⟩

theorem Chain.pred {node pred : T → Option T} {b tl : Option T} {q : List T} {t : T}
    (h : Chain node pred b q tl) (ht : t ∈ q) :
    (q.head? = some t ∧ pred t = b) ∨ ∃ t0 ∈ q, pred t = node t0 := by
  induction q generalizing b with
  | nil => simp at ht
  | cons a q ih =>
    rcases List.mem_cons.1 ht with rfl | ht
    · exact Or.inl ⟨rfl, h.1⟩
    · rcases ih h.2 ht with ⟨-, h2⟩ | ⟨t0, h1, h2⟩
      · exact Or.inr ⟨a, by simp, h2⟩
      · exact Or.inr ⟨t0, by simp [h1], h2⟩

theorem init_inv (m : T → Bool) : Inv (init true m) where
  dr := rfl
  qn := by simp [init]
  qm := by simp [init]
  chain := rfl
  nb := by simp [init]
  inj := by simp [init]
  bufs := fun _ => Or.inl rfl
  cs := by simp [init]
  pf := by simp [init]
  pu := by simp [init]
  pe := by simp [init]
  xq := rfl
  en := Or.inr ⟨by simp [init], rfl⟩

theorem Inv.step [DecidableEq T] {s s' : St T} {act : Act T} (h : Inv s)
    (hs : Clh.step s act = some s') : Inv s' := by
  cases act with
  | lock t =>
    simp only [Clh.step] at hs
    split at hs <;> simp only [Option.some.injEq, reduceCtorEq] at hs
    rename_i hpc
    subst hs
    have hmem : ∀ t' x, (x, false) ∈ upd s.buf t (s.buf t ++ [(s.node t, true)]) t' →
        (x, false) ∈ s.buf t' := by
      intro t' x; simp only [upd]; split
      · rename_i e; subst e; simp
      · exact id
    exact { h with
      qm := by
        intro t'
        have := h.qm t'
        simp only [upd]; split
        · rename_i e; subst e; simp_all
        · exact this
      bufs := by
        intro t'
        have := h.bufs t'
        simp only [upd]; split
        · rename_i e; subst e
          rw [hpc] at this
          rcases this with h1 | h1
          · exact Or.inr (Or.inl (by rw [h1]; rfl))
          · exact Or.inr (Or.inr (by rw [h1]; rfl))
        · exact this
      cs := by
        intro t'
        simp only [upd]; split
        · simp
        · exact h.cs t'
      pf := fun t' x hx => h.pf t' x (hmem t' x hx)
      pu := fun a b x x' h1 h2 => h.pu a b x x' (hmem _ _ h1) (hmem _ _ h2)
      pe := by
        intro hb
        obtain ⟨t', rest, hr⟩ := h.pe hb
        by_cases e : t' = t
        · subst e; exact ⟨t', rest ++ [(s.node t', true)], by simp [upd, hr]⟩
        · exact ⟨t', rest, by simp [upd, e, hr]⟩
      en := by
        rcases h.en with ⟨t', h1, h2⟩ | ⟨h1, h2⟩
        · refine Or.inl ⟨t', ?_, h2⟩
          have : t' ≠ t := by rintro rfl; rw [hpc] at h1; simp at h1
          simp [upd, this, h1]
        · refine Or.inr ⟨?_, h2⟩
          intro t'; simp only [upd]; split
          · simp
          · exact h1 t' }
  | exchange t =>
    simp only [Clh.step] at hs
    split at hs <;> simp only [Option.some.injEq, reduceCtorEq] at hs
    rename_i hpc
    obtain ⟨hpc, hbuf⟩ := hpc
    have hbuf := hbuf h.dr
    subst hs
    have hnq : t ∉ s.q := by
      intro hc
      have := (h.qm t).1 hc
      rw [hpc] at this; simp at this
    exact { h with
      qn := by
        simp only [List.nodup_append, List.nodup_cons, List.not_mem_nil, not_false_eq_true,
          List.nodup_nil, List.mem_singleton, and_true, true_and]
        refine ⟨h.qn, ?_⟩
        rintro a ha b rfl rfl
        exact hnq ha
      qm := by
        intro t'
        have := h.qm t'
        simp only [upd, List.mem_append, List.mem_singleton]; split
        · rename_i e; subst e; simp
        · rename_i e; simp [e, this]
      chain := by
        apply Chain.snoc
        · exact h.chain.congr (fun _ _ => rfl) (fun t' ht' => by
            have : t' ≠ t := by rintro rfl; exact hnq ht'
            simp [upd, this])
        · simp [upd]
      bufs := by
        intro t'
        have := h.bufs t'
        simp only [upd]; split
        · rename_i e; subst e
          rw [hpc] at this
          rcases this with h1 | h1 | h1
          · exact h1
          · rw [hbuf] at h1; simp at h1
          · rw [hbuf] at h1; simp at h1
        · exact this
      cs := by
        intro t'
        simp only [upd]; split
        · simp
        · intro hi
          obtain ⟨h1, h2⟩ := h.cs t' hi
          refine ⟨?_, h2⟩
          rw [List.head?_append, h1]; rfl
      xq := by simp [h.xq]
      en := by
        rcases h.en with ⟨t', h1, h2⟩ | ⟨h1, h2⟩
        · refine Or.inl ⟨t', ?_, h2⟩
          have : t' ≠ t := by rintro rfl; rw [hpc] at h1; simp at h1
          simp [upd, this, h1]
        · refine Or.inr ⟨?_, h2⟩
          intro t'; simp only [upd]; split
          · simp
          · exact h1 t' }
  | look t =>
    simp only [Clh.step] at hs
    split at hs <;> try simp only [reduceCtorEq] at hs
    rename_i hpc
    have hb := h.bufs t
    rw [hpc] at hb
    obtain ⟨hbuf, hnd⟩ := hb
    rw [hbuf] at hs
    simp only [List.reverse_nil, List.find?_nil] at hs
    cases hfree : s.mem (s.pred t) with
    | true => simp only [hfree, if_true, Option.some.injEq] at hs; subst hs; exact h
    | false =>
      simp only [hfree, Bool.false_eq_true, if_false, Option.some.injEq] at hs
      subst hs
      have htq : t ∈ s.q := (h.qm t).2 (Or.inl hpc)
      have hhead : s.q.head? = some t ∧ s.pred t = s.base := by
        rcases h.chain.pred htq with h1 | ⟨t0, h1, h2⟩
        · exact h1
        · exfalso
          have hb0 := h.bufs t0
          have : s.mem (s.node t0) = true := by
            rcases (h.qm t0).1 h1 with h3 | h3 <;> rw [h3] at hb0 <;> exact hb0.2
          rw [h2, this] at hfree; simp at hfree
      have hno : ∀ t', s.pc t' ≠ .inside := by
        intro t' hi
        have := (h.cs t' hi).1
        rw [hhead.1] at this
        cases this
        rw [hpc] at hi; simp at hi
      exact { h with
        qm := by
          intro t'
          have := h.qm t'
          simp only [upd]; split
          · rename_i e; subst e; simp [htq]
          · exact this
        bufs := by
          intro t'
          have := h.bufs t'
          simp only [upd]; split
          · rename_i e; subst e; exact ⟨hbuf, hnd⟩
          · exact this
        cs := by
          intro t'
          simp only [upd]; split
          · rename_i e; subst e
            exact fun _ => ⟨hhead.1, by rw [← hhead.2]; exact hfree⟩
          · exact h.cs t'
        en := by
          refine Or.inl ⟨t, by simp [upd], ?_⟩
          rcases h.en with ⟨t', h1, -⟩ | ⟨-, h2⟩
          · exact absurd h1 (hno t')
          · simp [h2] }
  | unlock t =>
    simp only [Clh.step] at hs
    split at hs <;> simp only [Option.some.injEq, reduceCtorEq] at hs
    rename_i hpc
    subst hs
    have hb := h.bufs t
    rw [hpc] at hb
    obtain ⟨hbuf, hnd⟩ := hb
    obtain ⟨hhead, hmb⟩ := h.cs t hpc
    obtain ⟨q', hq⟩ : ∃ q', s.q = t :: q' := by
      cases hq : s.q with
      | nil => rw [hq] at hhead; simp at hhead
      | cons a q' => rw [hq] at hhead; simp at hhead; subst hhead; exact ⟨q', rfl⟩
    have hqn := h.qn
    rw [hq] at hqn
    have htq' : t ∉ q' := (List.nodup_cons.1 hqn).1
    have her : s.q.erase t = q' := by rw [hq]; simp
    have hch := h.chain
    rw [hq] at hch
    obtain ⟨hpb, hch⟩ := hch
    have hnop : ∀ t' x, (x, false) ∉ s.buf t' := by
      intro t' x hx
      have := h.pf t' x hx
      rw [hmb] at this; simp at this
    have hmem : ∀ t' x, (x, false) ∈ upd s.buf t (s.buf t ++ [(s.node t, false)]) t' → t' = t := by
      intro t' x; simp only [upd]; split
      · rename_i e; exact fun _ => e
      · exact fun hx => absurd hx (hnop t' x)
    exact
    { dr := h.dr
      qn := by rw [her]; exact (List.nodup_cons.1 hqn).2
      qm := by
        intro t'
        have := h.qm t'
        rw [her]
        simp only [upd]; split
        · rename_i e; subst e; simp [htq']
        · rename_i e
          rw [hq] at this
          simpa [e] using this
      chain := by
        rw [her]
        refine hch.congr (fun t' ht' => ?_) (fun _ _ => rfl)
        have : t' ≠ t := by rintro rfl; exact htq' ht'
        simp [upd, this]
      nb := by
        intro t'
        simp only [upd]; split
        · rw [hpb]; exact fun e => h.nb t e.symm
        · rename_i e; exact fun e' => e (h.inj _ _ e')
      inj := by
        intro a b
        simp only [upd]; split <;> split
        · intros; simp_all
        · rw [hpb]; exact fun e => absurd e.symm (h.nb b)
        · rw [hpb]; exact fun e => absurd e (h.nb a)
        · exact h.inj a b
      bufs := by
        intro t'
        have := h.bufs t'
        simp only [upd]; split
        · rename_i e; subst e; exact Or.inr (by rw [hbuf]; rfl)
        · revert this
          cases hp' : s.pc t' with
          | out =>
            rintro (h1 | h1)
            · exact Or.inl h1
            · exact absurd (by rw [h1]; simp) (hnop t' s.base)
          | marked =>
            rintro (h1 | h1 | h1)
            · exact Or.inl h1
            · exact Or.inr (Or.inl h1)
            · exact absurd (by rw [h1]; simp) (hnop t' s.base)
          | spin => exact id
          | inside => exact id
      cs := by
        intro t'
        simp only [upd]; split
        · simp
        · rename_i e
          intro hi
          have := (h.cs t' hi).1
          rw [hhead] at this
          cases this
          exact absurd rfl e
      pf := fun _ _ _ => hnd
      pu := by
        intro a b x x' h1 h2
        rw [hmem _ _ h1, hmem _ _ h2]
      pe := fun _ => ⟨t, [], by simp [upd, hbuf]⟩
      xq := by rw [her, h.xq, hq]; simp
      en := by
        refine Or.inr ⟨?_, ?_⟩
        · intro t'; simp only [upd]; split
          · simp
          · rename_i e
            intro hi
            have := (h.cs t' hi).1
            rw [hhead] at this
            cases this
            exact absurd rfl e
        · rcases h.en with ⟨t', h1, h2⟩ | ⟨h1, -⟩
          · have := (h.cs t' h1).1
            rw [hhead] at this
            cases this
            exact h2
          · exact absurd hpc (h1 t) }
  | commit t =>
    simp only [Clh.step] at hs
    split at hs <;> simp only [Option.some.injEq, reduceCtorEq] at hs
    rename_i x v rest hbuf
    subst hs
    have hb := h.bufs t
    have hmem : ∀ t' y, (y, false) ∈ upd s.buf t rest t' → (y, false) ∈ s.buf t' := by
      intro t' y; simp only [upd]; split
      · rename_i e; subst e; rw [hbuf]; exact fun h => List.mem_cons_of_mem _ h
      · exact id
    -- either the release of `base` or the mark of the thread's own node
    have hcase : (x = s.base ∧ v = false ∧ (∀ t' y, (y, false) ∉ upd s.buf t rest t') ∧
          ((s.pc t = .out ∧ rest = []) ∨ (s.pc t = .marked ∧ rest = [(s.node t, true)]))) ∨
        (x = s.node t ∧ v = true ∧ rest = [] ∧ s.pc t = .marked) := by
      have hnone : ∀ y, (y, false) ∉ rest → x = s.base → v = false →
          ∀ t' y, (y, false) ∉ upd s.buf t rest t' := by
        intro _ _ h1 h2 t' y hy
        have h3 := h.pu t' t y x (hmem _ _ hy) (by rw [hbuf, h2]; simp)
        subst h3
        simp only [upd, if_true] at hy
        revert hb
        cases s.pc t' <;> simp only [BufOk, hbuf] <;> intro hb <;> simp at hb <;> grind
      revert hb
      cases s.pc t <;> simp only [BufOk, hbuf] <;> intro hb <;> simp at hb <;> grind
    rcases hcase with ⟨rfl, rfl, hno, hpcs⟩ | ⟨rfl, rfl, rfl, hpc⟩
    · exact { h with
        bufs := by
          intro t'
          have := h.bufs t'
          by_cases e : t' = t
          · subst e
            rcases hpcs with ⟨h1, h2⟩ | ⟨h1, h2⟩
            · rw [h1]; exact Or.inl (by simp [upd, h2])
            · rw [h1]; exact Or.inr (Or.inl (by simp [upd, h2]))
          · have hn' := h.nb t'
            revert this
            cases s.pc t' <;> simp only [BufOk, upd, e, if_false, hn'] <;> exact id
        cs := by
          intro t' hi
          exact ⟨(h.cs t' hi).1, by simp [upd]⟩
        pf := fun t' y hy => absurd hy (hno t' y)
        pu := fun a b y y' h1 _ => absurd h1 (hno a y)
        pe := by simp [upd] }
    · have hbase : upd s.mem (s.node t) true s.base = s.mem s.base := by
        simp only [upd]; rw [if_neg (fun e => h.nb t e.symm)]
      exact { h with
        bufs := by
          intro t'
          have := h.bufs t'
          by_cases e : t' = t
          · subst e
            rw [hpc]
            exact Or.inl ⟨by simp [upd], by simp [upd]⟩
          · have hn' : s.node t' ≠ s.node t := fun e' => e (h.inj _ _ e')
            revert this
            cases s.pc t' <;> simp only [BufOk, upd, e, if_false, hn'] <;> exact id
        cs := by
          intro t' hi
          exact ⟨(h.cs t' hi).1, by simp only [hbase]; exact (h.cs t' hi).2⟩
        pf := fun t' y hy => by simp only [hbase]; exact h.pf t' y (hmem _ _ hy)
        pu := fun a b y y' h1 h2 => h.pu a b y y' (hmem _ _ h1) (hmem _ _ h2)
        pe := by
          simp only [hbase]
          intro hm
          obtain ⟨t', r, hr⟩ := h.pe hm
          refine ⟨t', r, ?_⟩
          have : t' ≠ t := by
            rintro rfl
            rw [hbuf] at hr
            simp at hr
          simp [upd, this, hr] }

theorem reach_inv [DecidableEq T] {m : T → Bool} {s : St T} (h : Reach step (init true m) s) :
    Inv s :=
  h.inv (init_inv m) fun _ _ _ hI hs => hI.step hs

/-- **C14, mutual exclusion** (x86: the exchange is a full barrier). -/
theorem C14_mutual_exclusion [DecidableEq T] (m : T → Bool) (s : St T)
    (h : Reach step (init true m) s) (t t' : T)
    (h1 : s.pc t = .inside) (h2 : s.pc t' = .inside) : t = t' := by
  have hI := reach_inv h
  have a := (hI.cs t h1).1
  have b := (hI.cs t' h2).1
  rw [a] at b
  exact Option.some.inj b

/-- **C14, first come first served**: the sequence of entries is a prefix of the sequence of
exchanges, at every moment. -/
theorem C14_fifo [DecidableEq T] (m : T → Bool) (s : St T) (h : Reach step (init true m) s) :
    s.ent <+: s.xch := by
  have hI := reach_inv h
  rw [hI.xq]
  rcases hI.en with ⟨t, h1, h2⟩ | ⟨-, h2⟩
  · rw [h2]
    have := (hI.cs t h1).1
    cases hq : s.q with
    | nil => rw [hq] at this; simp at this
    | cons a q =>
      rw [hq] at this; simp at this; subst this
      exact ⟨q, by simp⟩
  · rw [h2]; exact List.prefix_append _ _

/-- **C14, handover**: if nobody is inside and somebody has done the exchange, then the one whose
exchange came first among those waiting can enter after at most two actions (the pending release
becomes visible, and it looks at its predecessor's node). -/
theorem C14_handover [DecidableEq T] (m : T → Bool) (s : St T) (h : Reach step (init true m) s)
    (hno : ∀ t, s.pc t ≠ .inside) (t : T) (ht : s.pc t = .spin) :
    ∃ t0 as s', as.length ≤ 2 ∧ exec step s as = some s' ∧ s'.pc t0 = .inside ∧
      s'.ent = s.ent ++ [t0] ∧ s.xch[s.ent.length]? = some t0 := by
  have hI := reach_inv h
  have htq := (hI.qm t).2 (Or.inl ht)
  cases hq : s.q with
  | nil => rw [hq] at htq; simp at htq
  | cons t0 q =>
    have hen : s.ent = s.done := by
      rcases hI.en with ⟨t', h1, -⟩ | ⟨-, h2⟩
      · exact absurd h1 (hno t')
      · exact h2
    have h0q : t0 ∈ s.q := by rw [hq]; simp
    have hpc0 : s.pc t0 = .spin := ((hI.qm t0).1 h0q).resolve_right (hno t0)
    have hb0 := hI.bufs t0
    rw [hpc0] at hb0
    have hch := hI.chain
    rw [hq] at hch
    have hp0 := hch.1
    have hx : s.xch[s.ent.length]? = some t0 := by rw [hI.xq, hq, hen]; simp
    cases hm : s.mem s.base with
    | false =>
      exact ⟨t0, [.look t0], { s with pc := upd s.pc t0 .inside, ent := s.ent ++ [t0] }, by simp,
        by simp [exec, step, hpc0, hb0.1, hp0, hm], by simp [upd], rfl, hx⟩
    | true =>
      obtain ⟨t1, rest, h1⟩ := hI.pe hm
      have hne : t0 ≠ t1 := by rintro rfl; rw [hb0.1] at h1; simp at h1
      refine ⟨t0, [.commit t1, .look t0],
        { s with mem := upd s.mem s.base false, buf := upd s.buf t1 rest, pc := upd s.pc t0 .inside, ent := s.ent ++ [t0] },
        by simp, ?_, by simp [upd], rfl, hx⟩
      simp [exec, step, h1, hpc0, upd, hne, hb0.1, hp0]

/-- **Finding**: with an exchange that does not wait for earlier stores (all that is documented for
`__sync_lock_test_and_set`) mutual exclusion fails: thread 0's mark is still invisible when thread
1 looks at its node. -/
theorem C14_acquire_only_counterexample :
    ∃ s, Reach step (init (T := Nat) false (fun _ => false)) s ∧
      s.pc 0 = .inside ∧ s.pc 1 = .inside := by
  refine ⟨_, ⟨[.lock 0, .exchange 0, .look 0, .lock 1, .exchange 1, .look 1], rfl⟩, ?_⟩
  decide

/-! Non-vacuity: three threads, the second takes the lock again while the third waits (its node has
been recycled), and entries follow the exchanges. -/
def demo : List (Act Nat) :=
  [.lock 0, .commit 0, .exchange 0, .look 0, .lock 1, .commit 1, .exchange 1, .look 1, .unlock 0,
   .look 1, .commit 0, .look 1, .lock 0, .lock 2, .commit 2, .exchange 2, .commit 0, .exchange 0,
   .look 0, .look 2, .unlock 1, .commit 1, .look 0, .look 2]

example : (exec step (init (T := Nat) true (fun _ => true)) demo).map
    (fun s => (s.xch, s.ent, s.pc 2, s.pc 0)) = some ([0, 1, 2, 0], [0, 1, 2], .inside, .spin) := by
  decide

end FF.Locks.Clh
