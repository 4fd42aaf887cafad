/-!
# C18: `icl_hash`

Source: `/repo/ff/icl_hash.h` 102-282.

`K` is the type of keys (what the pointers designate), `D` the type of data pointers.
A bucket is the list of its nodes, in link order.  `hash` is `hash_function`, `cmp` is
`hash_key_compare`.
Simplifications: the table and the keys passed are not NULL; `malloc` succeeds; the memory of nodes
and the callbacks `free_key`/`free_data` are not modelled (so the leak of the node that
`icl_hash_update_insert` unlinks is not visible); a key is not modified while it is in the table.
`find` returning the stored data and `find` returning NULL for an absent key are `some`/`none`, so
the claim about NULL data is: use non-null data to tell them apart.
-/
namespace FF.Iclhash

/-! ## Model -/

structure HT (K D : Type) where
  nbuckets : Nat
  nentries : Nat
  buckets : Nat → List (K × D)

variable {K D : Type}

/-- `icl_hash_create` (102-124) -/
def create (n : Nat) : HT K D := { nbuckets := n, nentries := 0, buckets := fun _ => [] }

/-- `icl_hash_find` (137-151) -/
def find (hash : K → Nat) (cmp : K → K → Bool) (h : HT K D) (k : K) : Option D :=
  ((h.buckets (hash k % h.nbuckets)).find? fun e => cmp e.1 k).map Prod.snd

def setBucket (h : HT K D) (i : Nat) (l : List (K × D)) : HT K D :=
  { h with buckets := fun j => if j = i then l else h.buckets j }

/-- `icl_hash_insert` (164-190): the second component tells whether a node was returned -/
def insert (hash : K → Nat) (cmp : K → K → Bool) (h : HT K D) (k : K) (d : D) : HT K D × Bool :=
  let i := hash k % h.nbuckets
  if (h.buckets i).any fun e => cmp e.1 k then (h, false)
  else ({ setBucket h i ((k, d) :: h.buckets i) with nentries := h.nentries + 1 }, true)

/-- The scan of `icl_hash_update_insert` (214-226).  It does not stop at a match.  `unl`: `prev` is
a node that has just been unlinked, so that assigning `prev->next` no longer changes the list. -/
def unlinkAll (cmp : K → K → Bool) (k : K) : (unl : Bool) → List (K × D) → List (K × D)
  | _, [] => []
  | unl, e :: l =>
    if cmp e.1 k then
      if unl then e :: unlinkAll cmp k false l else unlinkAll cmp k true l
    else e :: unlinkAll cmp k false l

/-- `icl_hash_update_insert` (204-244) -/
def updateInsert (hash : K → Nat) (cmp : K → K → Bool) (h : HT K D) (k : K) (d : D) : HT K D :=
  let i := hash k % h.nbuckets
  { setBucket h i ((k, d) :: unlinkAll cmp k false (h.buckets i)) with nentries := h.nentries + 1 }

/-- Unlinks the first match (263-281). -/
def unlinkFirst (cmp : K → K → Bool) (k : K) : List (K × D) → List (K × D)
  | [] => []
  | e :: l => if cmp e.1 k then l else e :: unlinkFirst cmp k l

/-- `icl_hash_delete` (256-282): `true` for the return value 0.  Line 274 *increments* `nentries`. -/
def delete (hash : K → Nat) (cmp : K → K → Bool) (h : HT K D) (k : K) : HT K D × Bool :=
  let i := hash k % h.nbuckets
  if (h.buckets i).any fun e => cmp e.1 k then
    ({ setBucket h i (unlinkFirst cmp k (h.buckets i)) with nentries := h.nentries + 1 }, true)
  else (h, false)

inductive Op (K D : Type) where
  | insert (k : K) (d : D)
  | update (k : K) (d : D)
  | delete (k : K)

def step (hash : K → Nat) (cmp : K → K → Bool) (h : HT K D) : Op K D → HT K D × Bool
  | .insert k d => insert hash cmp h k d
  | .update k d => (updateInsert hash cmp h k d, true)
  | .delete k => delete hash cmp h k

/-! ## Specification: a finite map, up to the equivalence of keys -/

def specStep (cmp : K → K → Bool) (m : K → Option D) : Op K D → (K → Option D) × Bool
  | .insert k d =>
    if (m k).isSome then (m, false) else (fun k' => if cmp k k' then some d else m k', true)
  | .update k d => (fun k' => if cmp k k' then some d else m k', true)
  | .delete k => (fun k' => if cmp k k' then none else m k', (m k).isSome)

/-- Runs a history and collects the answers. -/
def run {S O : Type} (f : S → O → S × Bool) : S → List O → S × List Bool
  | s, [] => (s, [])
  | s, o :: os => let r := f s o; let r' := run f r.1 os; (r'.1, r.2 :: r'.2)

/-- What the library asks of the two functions. -/
structure Good (hash : K → Nat) (cmp : K → K → Bool) : Prop where
  refl : ∀ k, cmp k k = true
  symm : ∀ a b, cmp a b = true → cmp b a = true
  trans : ∀ a b c, cmp a b = true → cmp b c = true → cmp a c = true
  hash : ∀ a b, cmp a b = true → hash a = hash b

/-! ## Invariant -/

variable {hash : K → Nat} {cmp : K → K → Bool}

/-- no two nodes of a bucket have equivalent keys, and nodes are in the bucket of their key -/
structure WF (hash : K → Nat) (cmp : K → K → Bool) (h : HT K D) : Prop where
  npos : 0 < h.nbuckets
  nodup : ∀ i, (h.buckets i).Pairwise fun a b => cmp a.1 b.1 = false
  place : ∀ i e, e ∈ h.buckets i → hash e.1 % h.nbuckets = i

/-- lookup in one bucket -/
def look (cmp : K → K → Bool) (l : List (K × D)) (k : K) : Option D :=
  (l.find? fun e => cmp e.1 k).map Prod.snd

theorem look_cons (e : K × D) (l : List (K × D)) (k : K) :
    look cmp (e :: l) k = if cmp e.1 k then some e.2 else look cmp l k := by
  unfold look
  rw [List.find?_cons]
  cases cmp e.1 k <;> simp

theorem look_none {l : List (K × D)} {k : K} :
    look cmp l k = none ↔ ∀ e ∈ l, cmp e.1 k = false := by
  unfold look
  rw [Option.map_eq_none_iff, List.find?_eq_none]
  constructor
  · intro h e he; simpa using h e he
  · intro h e he; simpa using h e he

theorem look_isSome {l : List (K × D)} {k : K} :
    (l.any fun e => cmp e.1 k) = (look cmp l k).isSome := by
  unfold look
  rw [Option.isSome_map, Bool.eq_iff_iff, List.any_eq_true, List.find?_isSome]

theorem cmp_congr (hg : Good hash cmp) {a b c : K} (h : cmp a b = true) : cmp c a = cmp c b := by
  rw [Bool.eq_iff_iff]
  exact ⟨fun h1 => hg.trans _ _ _ h1 h, fun h1 => hg.trans _ _ _ h1 (hg.symm _ _ h)⟩

theorem unlinkAll_eq (hg : Good hash cmp) (k : K) :
    ∀ (l : List (K × D)), l.Pairwise (fun a b => cmp a.1 b.1 = false) →
      ∀ u, (u = true → ∀ e ∈ l, cmp e.1 k = false) →
        unlinkAll cmp k u l = l.filter fun e => !cmp e.1 k := by
  intro l
  induction l with
  | nil => intro _ u _; cases u <;> rfl
  | cons e l ih =>
    intro hp u hu
    rw [List.pairwise_cons] at hp
    unfold unlinkAll
    cases hc : cmp e.1 k with
    | true =>
      have hrest : ∀ x ∈ l, cmp x.1 k = false := by
        intro x hx
        cases hxk : cmp x.1 k with
        | false => rfl
        | true =>
          have := hp.1 x hx
          rw [hg.trans _ _ _ hc (hg.symm _ _ hxk)] at this
          simp at this
      cases u with
      | true => have := hu rfl e (by simp); rw [hc] at this; simp at this
      | false =>
        simp only [if_true, Bool.false_eq_true, if_false]
        rw [ih hp.2 true (fun _ => hrest), List.filter_cons]
        simp [hc]
    | false =>
      simp only [Bool.false_eq_true, if_false]
      rw [ih hp.2 false (by simp), List.filter_cons]
      simp [hc]

theorem unlinkFirst_eq (hg : Good hash cmp) (k : K) :
    ∀ (l : List (K × D)), l.Pairwise (fun a b => cmp a.1 b.1 = false) →
      unlinkFirst cmp k l = l.filter fun e => !cmp e.1 k := by
  intro l
  induction l with
  | nil => intro _; rfl
  | cons e l ih =>
    intro hp
    rw [List.pairwise_cons] at hp
    unfold unlinkFirst
    rw [List.filter_cons]
    cases hc : cmp e.1 k with
    | true =>
      simp only [if_true, Bool.not_true, Bool.false_eq_true, if_false]
      refine (List.filter_eq_self.2 ?_).symm
      intro x hx
      cases hxk : cmp x.1 k with
      | false => rfl
      | true =>
        have := hp.1 x hx
        rw [hg.trans _ _ _ hc (hg.symm _ _ hxk)] at this
        simp at this
    | false => simp [ih hp.2]

theorem look_filter (hg : Good hash cmp) (k : K) (l : List (K × D)) (k' : K) :
    look cmp (l.filter fun e => !cmp e.1 k) k' = if cmp k k' then none else look cmp l k' := by
  induction l with
  | nil => simp [look]
  | cons e l ih =>
    rw [List.filter_cons]
    cases hc : cmp e.1 k with
    | true =>
      simp only [Bool.not_true, Bool.false_eq_true, if_false]
      rw [ih, look_cons]
      cases hk : cmp k k' with
      | true => simp
      | false =>
        have : cmp e.1 k' = false := by
          cases h2 : cmp e.1 k' with
          | false => rfl
          | true => rw [hg.trans _ _ _ (hg.symm _ _ hc) h2] at hk; simp at hk
        simp [this]
    | false =>
      simp only [Bool.not_false, if_true]
      rw [look_cons, look_cons, ih]
      cases hk : cmp k k' with
      | true =>
        have : cmp e.1 k' = false := by rw [← cmp_congr hg hk]; exact hc
        simp [this]
      | false => simp

theorem find_eq (h : HT K D) (k : K) :
    find hash cmp h k = look cmp (h.buckets (hash k % h.nbuckets)) k := rfl

/-- effect on `find` of replacing the bucket of `k` -/
theorem find_setBucket (h : HT K D) (k : K) (l : List (K × D)) (n : Nat)
    (hl : ∀ k', hash k' % h.nbuckets ≠ hash k % h.nbuckets → cmp k k' = false) (k' : K)
    (f : Option D → Option D)
    (h1 : hash k' % h.nbuckets = hash k % h.nbuckets →
      look cmp l k' = f (look cmp (h.buckets (hash k % h.nbuckets)) k'))
    (h2 : cmp k k' = false → ∀ x, f x = x) :
    find hash cmp { setBucket h (hash k % h.nbuckets) l with nentries := n } k' =
      f (find hash cmp h k') := by
  rw [find_eq, find_eq]
  simp only [setBucket]
  by_cases e : hash k' % h.nbuckets = hash k % h.nbuckets
  · rw [if_pos e, h1 e, e]
  · rw [if_neg e, h2 (hl k' e)]

theorem other_bucket (hg : Good hash cmp) (n : Nat) (k k' : K) (h : hash k' % n ≠ hash k % n) :
    cmp k k' = false := by
  cases hc : cmp k k' with
  | false => rfl
  | true => exact absurd (by rw [hg.hash _ _ hc]) h

theorem WF.setBucket {h : HT K D} (hw : WF hash cmp h) (i : Nat) (l : List (K × D)) (n : Nat)
    (h1 : l.Pairwise fun a b => cmp a.1 b.1 = false)
    (h2 : ∀ e ∈ l, hash e.1 % h.nbuckets = i) :
    WF hash cmp { Iclhash.setBucket h i l with nentries := n } where
  npos := hw.npos
  nodup := by
    intro j; simp only [Iclhash.setBucket]
    split
    · exact h1
    · exact hw.nodup j
  place := by
    intro j e he; simp only [Iclhash.setBucket] at he ⊢
    split at he
    · rename_i hj; rw [hj]; exact h2 e he
    · exact hw.place j e he

theorem step_sim (hg : Good hash cmp) {h : HT K D} {m : K → Option D} (hw : WF hash cmp h)
    (hm : ∀ k, find hash cmp h k = m k) (o : Op K D) :
    WF hash cmp (step hash cmp h o).1 ∧
      (∀ k, find hash cmp (step hash cmp h o).1 k = (specStep cmp m o).1 k) ∧
      (step hash cmp h o).2 = (specStep cmp m o).2 := by
  cases o with
  | insert k d =>
    simp only [step, insert, specStep, look_isSome]
    rw [← find_eq, hm k]
    cases hs : (m k).isSome with
    | true => simp only [if_true]; exact ⟨hw, hm, trivial⟩
    | false =>
      simp only [Bool.false_eq_true, if_false]
      have hnone : look cmp (h.buckets (hash k % h.nbuckets)) k = none := by
        rw [← find_eq, hm k]; simpa using hs
      rw [look_none] at hnone
      refine ⟨hw.setBucket _ _ _ ?_ ?_, ?_, trivial⟩
      · rw [List.pairwise_cons]
        refine ⟨?_, hw.nodup _⟩
        intro e he
        have := hnone e he
        cases hc : cmp k e.1 with
        | false => rfl
        | true => rw [hg.symm _ _ hc] at this; simp at this
      · intro e he
        rw [List.mem_cons] at he
        rcases he with rfl | he
        · rfl
        · exact hw.place _ _ he
      · intro k'
        rw [find_setBucket h k _ _ (fun k' => other_bucket hg _ k k') k'
          (fun x => if cmp k k' then some d else x), hm k']
        · intro _; rw [look_cons]
        · intro hc x; simp [hc]
  | update k d =>
    simp only [step, updateInsert, specStep]
    rw [unlinkAll_eq hg k _ (hw.nodup _) false (by simp)]
    refine ⟨hw.setBucket _ _ _ ?_ ?_, ?_, trivial⟩
    · rw [List.pairwise_cons]
      refine ⟨?_, (hw.nodup _).filter _⟩
      intro e he
      have := (List.mem_filter.1 he).2
      cases hc : cmp k e.1 with
      | false => rfl
      | true => rw [hg.symm _ _ hc] at this; simp at this
    · intro e he
      rw [List.mem_cons] at he
      rcases he with rfl | he
      · rfl
      · exact hw.place _ _ (List.mem_filter.1 he).1
    · intro k'
      rw [find_setBucket h k _ _ (fun k' => other_bucket hg _ k k') k'
        (fun x => if cmp k k' then some d else x), hm k']
      · intro _
        rw [look_cons, look_filter hg]
        cases cmp k k' <;> simp
      · intro hc x; simp [hc]
  | delete k =>
    simp only [step, delete, specStep, look_isSome]
    rw [← find_eq, hm k]
    cases hs : (m k).isSome with
    | true =>
      simp only [if_true]
      rw [unlinkFirst_eq hg k _ (hw.nodup _)]
      refine ⟨hw.setBucket _ _ _ ((hw.nodup _).filter _) ?_, ?_, trivial⟩
      · intro e he; exact hw.place _ _ (List.mem_filter.1 he).1
      · intro k'
        rw [find_setBucket h k _ _ (fun k' => other_bucket hg _ k k') k'
          (fun x => if cmp k k' then none else x), hm k']
        · intro _; rw [look_filter hg]
        · intro hc x; simp [hc]
    | false =>
      simp only [Bool.false_eq_true, if_false]
      refine ⟨hw, ?_, trivial⟩
      intro k'
      cases hc : cmp k k' with
      | false => simp [hm k']
      | true =>
        have hnone : find hash cmp h k = none := by rw [hm k]; simpa using hs
        rw [find_eq, look_none] at hnone
        simp only [if_true]
        rw [find_eq, look_none]
        intro e he
        rw [← hg.hash _ _ hc] at he
        rw [← cmp_congr hg hc]
        exact hnone e he

theorem create_wf {n : Nat} (hn : 0 < n) : WF hash cmp (create n : HT K D) :=
  ⟨hn, by intro i; exact List.Pairwise.nil, by intro i e he; simp [create] at he⟩

/-! ## The property -/

/-- **C18, finite map**: for every number of buckets, every hash and comparison function that fit
together and every history, each call answers, and every later `find` finds, what a finite map
would. -/
theorem C18_finite_map (hg : Good hash cmp) {n : Nat} (hn : 0 < n) (ops : List (Op K D)) :
    (∀ k, find hash cmp (run (step hash cmp) (create n) ops).1 k =
      (run (specStep cmp) (fun _ => none) ops).1 k) ∧
    (run (step hash cmp) (create n) ops).2 = (run (specStep cmp) (fun _ => none) ops).2 := by
  have gen : ∀ (ops : List (Op K D)) (h : HT K D) (m : K → Option D), WF hash cmp h →
      (∀ k, find hash cmp h k = m k) →
      (∀ k, find hash cmp (run (step hash cmp) h ops).1 k = (run (specStep cmp) m ops).1 k) ∧
      (run (step hash cmp) h ops).2 = (run (specStep cmp) m ops).2 := by
    intro ops
    induction ops with
    | nil => intro h m _ hm; exact ⟨hm, rfl⟩
    | cons o ops ih =>
      intro h m hw hm
      obtain ⟨h1, h2, h3⟩ := step_sim hg hw hm o
      obtain ⟨h4, h5⟩ := ih _ _ h1 h2
      simp only [run]
      exact ⟨h4, by rw [h3, h5]⟩
  exact gen ops _ _ (create_wf hn) (by intro k; rfl)

/-- number of keys in the table -/
def keys (h : HT K D) : Nat := ((List.range h.nbuckets).map fun i => (h.buckets i).length).sum

theorem sum_update (n i : Nat) (f : Nat → Nat) (v : Nat) (hi : i < n) :
    ((List.range n).map fun j => if j = i then v else f j).sum + f i =
      ((List.range n).map f).sum + v := by
  induction n with
  | zero => omega
  | succ n ih =>
    rw [List.range_succ, List.map_append, List.map_append, List.sum_append, List.sum_append]
    simp only [List.map_cons, List.map_nil, List.sum_cons, List.sum_nil]
    by_cases e : n = i
    · subst e
      rw [if_pos rfl]
      have : ((List.range n).map fun j => if j = n then v else f j) = (List.range n).map f := by
        apply List.map_congr_left
        intro j hj
        have := List.mem_range.1 hj
        rw [if_neg (by omega)]
      rw [this]; omega
    · rw [if_neg e]
      have := ih (by omega)
      omega

/-- **C18, entry counter, partial**: `nentries` is the number of keys as long as the history only
inserts. -/
theorem C18_nentries_partial {n : Nat} (hn : 0 < n) (kds : List (K × D)) :
    (run (step hash cmp) (create n) (kds.map fun x => Op.insert x.1 x.2)).1.nentries =
      keys (run (step hash cmp) (create n) (kds.map fun x => Op.insert x.1 x.2)).1 := by
  have gen : ∀ (kds : List (K × D)) (h : HT K D), 0 < h.nbuckets → h.nentries = keys h →
      (run (step hash cmp) h (kds.map fun x => Op.insert x.1 x.2)).1.nentries =
        keys (run (step hash cmp) h (kds.map fun x => Op.insert x.1 x.2)).1 := by
    intro kds
    induction kds with
    | nil => intro h _ he; exact he
    | cons x kds ih =>
      intro h hn he
      simp only [List.map_cons, run]
      apply ih
      · simp only [step, insert]; split <;> simp only [setBucket, hn]
      · simp only [step, insert]
        split
        · exact he
        · have := sum_update h.nbuckets (hash x.1 % h.nbuckets) (fun i => (h.buckets i).length)
            ((h.buckets (hash x.1 % h.nbuckets)).length + 1) (Nat.mod_lt _ hn)
          simp only [keys, setBucket] at he ⊢
          rw [he]
          have e : (fun i => (if i = hash x.1 % h.nbuckets then
              (x.1, x.2) :: h.buckets (hash x.1 % h.nbuckets) else h.buckets i).length) =
              fun j => if j = hash x.1 % h.nbuckets then
                (h.buckets (hash x.1 % h.nbuckets)).length + 1 else (h.buckets j).length := by
            funext j; split <;> simp
          rw [e]
          omega
  refine gen kds _ hn ?_
  simp only [create, keys, List.length_nil]
  induction n with
  | zero => rfl
  | succ n ih =>
    rw [List.range_succ, List.map_append, List.sum_append]
    cases n with
    | zero => rfl
    | succ n => rw [← ih (by omega)]; rfl

/-- **Finding**: `icl_hash_delete` increments the counter, and `icl_hash_update_insert` increments it
when it replaces a key. -/
theorem C18_nentries_counterexample :
    (let h := (run (step id (· == ·)) (create 4) [Op.insert 1 10, Op.delete (D := Nat) 1]).1
     h.nentries = 2 ∧ keys h = 0) ∧
    (let h := (run (step id (· == ·)) (create 4) [Op.insert 1 10, Op.update 1 20]).1
     h.nentries = 2 ∧ keys h = 1) := by decide

/-! ## Non-vacuity -/
theorem good_nat : Good (fun k : Nat => k) (fun a b => a == b) :=
  ⟨by simp, by intro a b h; simpa using (by simpa using h : a = b).symm, by simp, by simp⟩
/-- colliding keys, duplicates, replacement and removal -/
example : (run (step (fun k : Nat => k) (fun a b => a == b)) (create 2)
    [Op.insert 1 10, .insert 3 30, .insert 1 11, .update 3 31, .delete 1, .delete 1]).2 =
    [true, true, false, true, true, false] := by decide
example : find (fun k : Nat => k) (fun a b => a == b)
    (run (step (fun k : Nat => k) (fun a b => a == b)) (create 2)
    [Op.insert 1 10, .insert 3 30, .insert 1 11, .update 3 31, .delete 1]).1 3 = some 31 := by decide

end FF.Iclhash
