import Verif.Own.Spec

/-!
# The invariant of the clean-up model and the deletion loop
-/

namespace FF.Own

/-- The objects an object would delete, by role. -/
def part : Obj → Role → List Nat
  | .wrap n c, .handed => if c then [n] else []
  | .comb _ _ cl, .handed => cl
  | .pipe _ _ sup _ _, .handed => sup
  | .pipe _ _ _ _ uniq, .unique => uniq
  | .pipe st all sup dont _, .stage =>
      if all then st.reverse.filter (fun n => !(sup.contains n || dont.contains n)) else []
  | .farm f, .emitter => if f.ec then f.emitter.toList else []
  | .farm f, .collector => if f.cc then f.coll.toList else []
  | .farm f, .worker => if f.wc then f.workers else []
  | .farm f, .handed => f.sup
  | .a2a _ _ sup, .handed => sup
  | _, _ => []

theorem mem_deletes {o : Obj} {x : Nat} : x ∈ deletes o ↔ ∃ r, x ∈ part o r := by
  constructor
  · intro h
    cases o with
    | node => simp [deletes] at h
    | wrap n c => exact ⟨.handed, h⟩
    | comb l r cl => exact ⟨.handed, h⟩
    | a2a w1 w2 sup => exact ⟨.handed, h⟩
    | pipe st all sup dont uniq =>
      simp only [deletes, List.mem_append] at h
      rcases h with (h | h) | h
      · exact ⟨.unique, h⟩
      · exact ⟨.stage, h⟩
      · exact ⟨.handed, h⟩
    | farm f =>
      simp only [deletes, List.mem_append] at h
      rcases h with ((h | h) | h) | h
      · exact ⟨.emitter, h⟩
      · exact ⟨.collector, h⟩
      · exact ⟨.worker, h⟩
      · exact ⟨.handed, h⟩
  · rintro ⟨r, h⟩
    cases o <;> cases r <;> simp_all [deletes, part]

theorem nodup_deletes {o : Obj} (h : ∀ r, (part o r).Nodup)
    (hd : ∀ x r r', x ∈ part o r → x ∈ part o r' → r = r') : (deletes o).Nodup := by
  cases o with
  | node => simp [deletes]
  | wrap n c => exact h .handed
  | comb l r cl => exact h .handed
  | a2a w1 w2 sup => exact h .handed
  | pipe st all sup dont uniq =>
    simp only [deletes]
    refine List.nodup_append.2 ⟨List.nodup_append.2 ⟨h .unique, h .stage, ?_⟩, h .handed, ?_⟩
    · intro a ha b hb e; subst e; exact absurd (hd _ .unique .stage ha hb) (by decide)
    · intro a ha b hb e; subst e
      rcases List.mem_append.1 ha with ha | ha
      · exact absurd (hd _ .unique .handed ha hb) (by decide)
      · exact absurd (hd _ .stage .handed ha hb) (by decide)
  | farm f =>
    simp only [deletes]
    refine List.nodup_append.2 ⟨List.nodup_append.2 ⟨List.nodup_append.2 ⟨h .emitter, h .collector, ?_⟩,
      h .worker, ?_⟩, h .handed, ?_⟩
    · intro a ha b hb e; subst e
      exact absurd (hd _ .emitter .collector ha hb) (by decide)
    · intro a ha b hb e; subst e
      rcases List.mem_append.1 ha with ha | ha
      · exact absurd (hd _ .emitter .worker ha hb) (by decide)
      · exact absurd (hd _ .collector .worker ha hb) (by decide)
    · intro a ha b hb e; subst e
      rcases List.mem_append.1 ha with ha | ha
      · rcases List.mem_append.1 ha with ha | ha
        · exact absurd (hd _ .emitter .handed ha hb) (by decide)
        · exact absurd (hd _ .collector .handed ha hb) (by decide)
      · exact absurd (hd _ .worker .handed ha hb) (by decide)

/-- The responsibilities `g` are what the objects of the heap are going to delete. -/
structure Inv (s : S) (g : G) : Prop where
  ok : s.bad = false
  nodup : ∀ o obj r, s.heap o = some obj → (part obj r).Nodup
  mem : ∀ o obj r x, s.heap o = some obj → (x ∈ part obj r ↔ g x = some (o, r))
  liveX : ∀ x o r, g x = some (o, r) → Live s x
  liveO : ∀ x o r, g x = some (o, r) → Live s o
  lt : ∀ x, Live s x → x < s.next
  log : ∀ x, x < s.next → (Live s x ↔ x ∉ s.log)
  lognd : s.log.Nodup
  loglt : ∀ x ∈ s.log, x < s.next

theorem Inv.init : Inv init (fun _ => none) := by
  constructor <;> simp [FF.Own.init, Live]

theorem Inv.dead {s : S} {g : G} (hi : Inv s g) {x : Nat} (h : s.next ≤ x) : s.heap x = none := by
  cases hx : s.heap x with
  | none => rfl
  | some o => have := hi.lt x (by simp [Live, hx]); omega

theorem Inv.gdead {s : S} {g : G} (hi : Inv s g) {x : Nat} (h : s.next ≤ x) : g x = none := by
  cases hx : g x with
  | none => rfl
  | some o => have := hi.lt x (hi.liveX x o.1 o.2 hx); omega

theorem Inv.gdeadO {s : S} {g : G} (hi : Inv s g) {x o : Nat} {r : Role} (h : s.next ≤ o) :
    g x ≠ some (o, r) := by
  intro hx; have := hi.lt o (hi.liveO x o r hx); omega

/-- Changing the fields of one object. -/
theorem Inv.set {s : S} {g g' : G} {o : Nat} {obj obj' : Obj} (hi : Inv s g) (ho : s.heap o = some obj)
    (hnd : ∀ r, (part obj' r).Nodup)
    (hmem : ∀ r x, x ∈ part obj' r ↔ g' x = some (o, r))
    (hoth : ∀ x o' r, o' ≠ o → (g' x = some (o', r) ↔ g x = some (o', r)))
    (hlive : ∀ x r, g' x = some (o, r) → Live s x) : Inv (s.set o obj') g' := by
  have hlv : ∀ x, Live (s.set o obj') x ↔ Live s x := by
    intro x
    simp only [Live, S.set, upd]
    by_cases h : x = o
    · subst h; simp [ho]
    · simp [h]
  refine ⟨hi.ok, ?_, ?_, ?_, ?_, ?_, ?_, hi.lognd, hi.loglt⟩
  · intro o1 ob r h
    simp only [S.set, upd] at h
    split at h
    · cases h; exact hnd r
    · exact hi.nodup _ _ _ h
  · intro o1 ob r x h
    simp only [S.set, upd] at h
    split at h
    · cases h; subst_vars; exact hmem r x
    · rename_i hne
      rw [hi.mem _ _ _ _ h, hoth _ _ _ hne]
  · intro x o1 r h
    rw [hlv]
    by_cases hne : o1 = o
    · subst hne; exact hlive x r h
    · exact hi.liveX x o1 r ((hoth _ _ _ hne).1 h)
  · intro x o1 r h
    rw [hlv]
    by_cases hne : o1 = o
    · subst hne; simp [Live, ho]
    · exact hi.liveO x o1 r ((hoth _ _ _ hne).1 h)
  · intro x h; exact hi.lt x ((hlv x).1 h)
  · intro x h; rw [hlv]; exact hi.log x h

/-- A new object that takes over some objects. -/
theorem Inv.alloc {s : S} {g g' : G} {obj : Obj} (hi : Inv s g)
    (hnd : ∀ r, (part obj r).Nodup)
    (hmem : ∀ r x, x ∈ part obj r ↔ g' x = some (s.next, r))
    (hoth : ∀ x o' r, o' ≠ s.next → (g' x = some (o', r) ↔ g x = some (o', r)))
    (hlive : ∀ x r, g' x = some (s.next, r) → Live s x) : Inv (s.alloc obj) g' := by
  have hlv : ∀ x, Live (s.alloc obj) x ↔ Live s x ∨ x = s.next := by
    intro x
    simp only [Live, S.alloc, upd]
    by_cases h : x = s.next
    · simp [h]
    · simp [h]
  refine ⟨hi.ok, ?_, ?_, ?_, ?_, ?_, ?_, hi.lognd, ?_⟩
  · intro o1 ob r h
    simp only [S.alloc, upd] at h
    split at h
    · cases h; exact hnd r
    · exact hi.nodup _ _ _ h
  · intro o1 ob r x h
    simp only [S.alloc, upd] at h
    split at h
    · cases h; subst_vars; exact hmem r x
    · rename_i hne
      rw [hi.mem _ _ _ _ h, hoth _ _ _ hne]
  · intro x o1 r h
    rw [hlv]
    by_cases hne : o1 = s.next
    · subst hne; exact Or.inl (hlive x r h)
    · exact Or.inl (hi.liveX x o1 r ((hoth _ _ _ hne).1 h))
  · intro x o1 r h
    rw [hlv]
    by_cases hne : o1 = s.next
    · exact Or.inr hne
    · exact Or.inl (hi.liveO x o1 r ((hoth _ _ _ hne).1 h))
  · intro x h
    rcases (hlv x).1 h with h | h
    · have := hi.lt x h; simp only [S.alloc]; omega
    · simp only [S.alloc]; omega
  · intro x h
    rw [hlv]
    simp only [S.alloc] at h ⊢
    by_cases hx : x = s.next
    · subst hx
      simp only [or_true, true_iff]
      intro hc; have := hi.loglt _ hc; omega
    · rw [← hi.log x (by omega)]; simp [hx]
  · intro x h
    have := hi.loglt x h
    simp only [S.alloc]; omega

/-! ## The deletion loop -/

/-- The number of live objects. -/
def nlive (s : S) : Nat := ((List.range s.next).filter (fun x => (s.heap x).isSome)).length

theorem length_filter_le' {p q : Nat → Bool} (hpq : ∀ x, q x = true → p x = true) (l : List Nat) :
    (l.filter q).length ≤ (l.filter p).length := by
  induction l with
  | nil => simp
  | cons c l ih =>
    have := hpq c
    simp only [List.filter_cons]
    cases hq : q c <;> cases hp : p c <;> simp_all <;> omega

theorem length_filter_lt {l : List Nat} {p q : Nat → Bool} (hpq : ∀ x, q x = true → p x = true) {a : Nat}
    (ha : a ∈ l) (hp : p a = true) (hq : q a = false) : (l.filter q).length < (l.filter p).length := by
  induction l with
  | nil => cases ha
  | cons b l ih =>
    have hle := length_filter_le' hpq l
    simp only [List.filter_cons]
    rcases List.mem_cons.1 ha with h | h
    · subst h; simp only [hp, hq, if_true, List.length_cons]; simp; omega
    · have h1 := ih h
      have h2 := hpq b
      cases hqb : q b <;> cases hpb : p b <;> simp_all <;> omega

theorem Inv.forget_eq {s : S} {g : G} (hi : Inv s g) : forget s g = g := by
  funext y
  unfold forget
  by_cases h : (s.heap y).isSome = true
  · rw [if_pos h]
  · rw [if_neg h]
    cases hg : g y with
    | none => rfl
    | some v => exact absurd (hi.liveX y v.1 v.2 hg) (by simpa [Live] using h)

/-- What a run of the deletion loop does: it deletes exactly what is under the pointers, once each. -/
theorem delLoop_spec : ∀ (k : Nat) (ws : List Nat) (s : S) (g : G), Inv s g → ws.Nodup →
    (∀ w ∈ ws, Live s w ∧ g w = none) → nlive s ≤ k →
    ∃ ds : List Nat, (delLoop k ws s).log = s.log ++ ds ∧ ds.Nodup ∧
      (∀ x, x ∈ ds ↔ ∃ w ∈ ws, Under g x w) ∧
      (∀ x, (delLoop k ws s).heap x = if x ∈ ds then none else s.heap x) ∧
      (∀ x ∈ ds, Live s x) ∧ (delLoop k ws s).next = s.next ∧
      Inv (delLoop k ws s) (forget (delLoop k ws s) g) := by
  intro k
  induction k with
  | zero =>
    intro ws s g hi hn hw hk
    cases ws with
    | nil =>
      refine ⟨[], by simp [delLoop], List.nodup_nil, by simp, by simp [delLoop], by simp, rfl, ?_⟩
      have : forget (delLoop 0 [] s) g = g := by simpa [delLoop] using hi.forget_eq
      rw [this]; exact hi
    | cons n ws =>
      exfalso
      have h := (hw n (by simp)).1
      have h2 := hi.lt n h
      have : n ∈ (List.range s.next).filter (fun x => (s.heap x).isSome) := by
        simp only [List.mem_filter, List.mem_range]; exact ⟨h2, h⟩
      have := List.length_pos_of_mem this
      simp only [nlive] at hk; omega
  | succ k ih =>
    intro ws s g hi hn hw hk
    cases ws with
    | nil =>
      refine ⟨[], by simp [delLoop], List.nodup_nil, by simp, by simp [delLoop], by simp, rfl, ?_⟩
      have : forget (delLoop (k + 1) [] s) g = g := by simpa [delLoop] using hi.forget_eq
      rw [this]; exact hi
    | cons n ws =>
      obtain ⟨hnl, hgn⟩ := hw n (by simp)
      obtain ⟨o, ho⟩ := Option.isSome_iff_exists.1 hnl
      have hnlt := hi.lt n hnl
      have hloop : delLoop (k + 1) (n :: ws) s
          = delLoop k (deletes o ++ ws) { s with heap := upd s.heap n none, log := s.log ++ [n] } := by
        simp only [delLoop, ho]
      -- the state after the destructor of `n` has started
      let s1 : S := { s with heap := upd s.heap n none, log := s.log ++ [n] }
      let g1 : G := fun y => match g y with
        | some (b, r) => if b = n then none else some (b, r)
        | none => none
      have hg1 : ∀ x b r, g1 x = some (b, r) ↔ g x = some (b, r) ∧ b ≠ n := by
        intro x b r
        simp only [g1]
        cases hx : g x with
        | none => simp
        | some v =>
          obtain ⟨b', r'⟩ := v
          dsimp only
          split
          · rename_i h; subst h
            constructor
            · intro h; cases h
            · rintro ⟨h, h'⟩; cases h; exact absurd rfl h'
          · rename_i h
            constructor
            · intro h'; cases h'; exact ⟨rfl, h⟩
            · rintro ⟨h', _⟩; exact h'
      have hlv : ∀ x, Live s1 x ↔ Live s x ∧ x ≠ n := by
        intro x
        simp only [s1, Live, upd]
        by_cases h : x = n
        · simp [h]
        · simp [h]
      have hnotn : ∀ x b r, g x = some (b, r) → x ≠ n := by
        intro x b r h e; subst e; rw [hgn] at h; cases h
      have hi1 : Inv s1 g1 := by
        refine ⟨hi.ok, ?_, ?_, ?_, ?_, ?_, ?_, ?_, ?_⟩
        · intro o1 ob r h
          simp only [s1, upd] at h
          split at h
          · cases h
          · exact hi.nodup _ _ _ h
        · intro o1 ob r x h
          simp only [s1, upd] at h
          split at h
          · cases h
          · rename_i hne
            rw [hi.mem _ _ _ _ h, hg1]; simp [hne]
        · intro x b r h
          obtain ⟨h1, h2⟩ := (hg1 _ _ _).1 h
          exact (hlv x).2 ⟨hi.liveX _ _ _ h1, hnotn _ _ _ h1⟩
        · intro x b r h
          obtain ⟨h1, h2⟩ := (hg1 _ _ _).1 h
          exact (hlv b).2 ⟨hi.liveO _ _ _ h1, h2⟩
        · intro x h; exact hi.lt x ((hlv x).1 h).1
        · intro x h
          rw [hlv, hi.log x h]
          simp [s1]
        · simp only [s1]
          refine List.nodup_append.2 ⟨hi.lognd, by simp, ?_⟩
          intro a ha b hb e
          simp only [List.mem_singleton] at hb
          subst e; subst hb
          exact ((hi.log a hnlt).1 hnl) ha
        · intro x h
          simp only [s1, List.mem_append, List.mem_singleton] at h
          rcases h with h | h
          · exact hi.loglt x h
          · subst h; exact hnlt
      have hdel : ∀ x, x ∈ deletes o ↔ ∃ r, g x = some (n, r) := by
        intro x
        rw [mem_deletes]
        constructor
        · rintro ⟨r, h⟩; exact ⟨r, (hi.mem _ _ _ _ ho).1 h⟩
        · rintro ⟨r, h⟩; exact ⟨r, (hi.mem _ _ _ _ ho).2 h⟩
      have hdn : (deletes o).Nodup := by
        apply nodup_deletes
        · intro r; exact hi.nodup _ _ _ ho
        · intro x r r' h h'
          have h1 := (hi.mem _ _ _ _ ho).1 h
          have h2 := (hi.mem _ _ _ _ ho).1 h'
          rw [h1] at h2; cases h2; rfl
      have hwn : (deletes o ++ ws).Nodup := by
        refine List.nodup_append.2 ⟨hdn, (List.nodup_cons.1 hn).2, ?_⟩
        intro a ha b hb e
        subst e
        obtain ⟨r, h⟩ := (hdel a).1 ha
        have := (hw a (by simp [hb])).2
        rw [this] at h; cases h
      have hww : ∀ w ∈ deletes o ++ ws, Live s1 w ∧ g1 w = none := by
        intro w hw'
        rcases List.mem_append.1 hw' with h | h
        · obtain ⟨r, h'⟩ := (hdel w).1 h
          refine ⟨(hlv w).2 ⟨hi.liveX _ _ _ h', hnotn _ _ _ h'⟩, ?_⟩
          simp [g1, h']
        · obtain ⟨h1, h2⟩ := hw w (by simp [h])
          refine ⟨(hlv w).2 ⟨h1, ?_⟩, by simp [g1, h2]⟩
          intro e; subst e; exact (List.nodup_cons.1 hn).1 h
      have hkk : nlive s1 ≤ k := by
        have : nlive s1 < nlive s := by
          refine length_filter_lt (a := n) ?_ (by simpa [s1] using hnlt) (by simp [ho]) (by simp [s1, upd])
          intro x h
          simp only [s1, upd] at h
          split at h
          · cases h
          · exact h
        omega
      obtain ⟨ds, hlog, hnd, hmem, hheap, hdlive, hnext, hinv⟩ := ih (deletes o ++ ws) s1 g1 hi1 hwn hww hkk
      -- chains before and after cutting the links to `n`
      have hU : ∀ x w, w ≠ n → (Under g1 x w → Under g x w) := by
        intro x w hwn h
        induction h with
        | refl => exact .refl _
        | step h _ ih => exact .step ((hg1 _ _ _).1 h).1 (ih hwn)
      have hU2 : ∀ x w, Under g x w → w ≠ n → g w = none → ¬ Under g x n → Under g1 x w := by
        intro x w h
        induction h with
        | refl => intro _ _ _; exact .refl _
        | step h h' ih =>
          rename_i x o1 b r
          intro h1 h2 h3
          have : o1 ≠ n := by rintro rfl; exact h3 (.step h (.refl _))
          exact .step ((hg1 _ _ _).2 ⟨h, this⟩) (ih h1 h2 (fun hc => h3 (.step h hc)))
      have hU3 : ∀ x m, Under g x m → m = n → x = n ∨ ∃ w ∈ deletes o, Under g1 x w := by
        intro x m h
        induction h with
        | refl => intro e; exact Or.inl e
        | step h h' ih =>
          rename_i x o1 b r
          intro e; subst e
          right
          rcases ih rfl with h1 | ⟨w, h1, h2⟩
          · subst h1; exact ⟨x, (hdel x).2 ⟨r, h⟩, .refl _⟩
          · by_cases ho1 : o1 = b
            · subst ho1; exact ⟨x, (hdel x).2 ⟨r, h⟩, .refl _⟩
            · exact ⟨w, h1, .step ((hg1 _ _ _).2 ⟨h, ho1⟩) h2⟩
      have hnn : n ∉ ds := fun hc => ((hlv n).1 (hdlive n hc)).2 rfl
      refine ⟨n :: ds, ?_, List.nodup_cons.2 ⟨hnn, hnd⟩, ?_, ?_, ?_, ?_, ?_⟩
      · rw [hloop]
        change (delLoop k (deletes o ++ ws) s1).log = _
        rw [hlog]; simp [s1]
      · intro x
        rw [List.mem_cons, hmem]
        constructor
        · rintro (rfl | ⟨w, hw1, hw2⟩)
          · exact ⟨x, by simp, .refl _⟩
          · have hwne : w ≠ n := ((hlv w).1 (hww w hw1).1).2
            rcases List.mem_append.1 hw1 with h | h
            · obtain ⟨r, h'⟩ := (hdel w).1 h
              have : Under g w n := .step h' (.refl _)
              refine ⟨n, by simp, ?_⟩
              have h2 := hU x w hwne hw2
              clear hw2
              induction h2 with
              | refl => exact this
              | step h1 _ ih2 => exact .step h1 (ih2 hw1 hwne h h' this)
            · exact ⟨w, by simp [h], hU x w hwne hw2⟩
        · rintro ⟨w, hw1, hw2⟩
          by_cases hxn : Under g x n
          · rcases hU3 x n hxn rfl with h | ⟨w', h1, h2⟩
            · exact Or.inl h
            · exact Or.inr ⟨w', List.mem_append_left _ h1, h2⟩
          · rcases List.mem_cons.1 hw1 with h | h
            · subst h; exact absurd hw2 hxn
            · have hwne : w ≠ n := by rintro rfl; exact hxn hw2
              exact Or.inr ⟨w, List.mem_append_right _ h, hU2 x w hw2 hwne (hw w hw1).2 hxn⟩
      · intro x
        rw [hloop]
        change (delLoop k (deletes o ++ ws) s1).heap x = _
        rw [hheap x]
        by_cases hx : x = n
        · subst hx; simp [hnn, s1, upd]
        · by_cases hx2 : x ∈ ds
          · simp [hx2]
          · simp [hx, hx2, s1, upd]
      · intro x hx
        rcases List.mem_cons.1 hx with h | h
        · subst h; exact hnl
        · exact ((hlv x).1 (hdlive x h)).1
      · rw [hloop]; exact hnext
      · rw [hloop]
        change Inv (delLoop k (deletes o ++ ws) s1) (forget (delLoop k (deletes o ++ ws) s1) g)
        have : forget (delLoop k (deletes o ++ ws) s1) g = forget (delLoop k (deletes o ++ ws) s1) g1 := by
          funext y
          simp only [forget]
          split
          · rename_i hy
            cases hgy : g y with
            | none => simp [g1, hgy]
            | some v =>
              obtain ⟨b, r⟩ := v
              by_cases hb : b = n
              · exfalso
                subst hb
                have : y ∈ ds := (hmem y).2 ⟨y, List.mem_append_left _ ((hdel y).2 ⟨r, hgy⟩), .refl _⟩
                rw [hheap y, if_pos this] at hy
                cases hy
              · simp [g1, hgy, hb]
          · rfl
        rw [this]; exact hinv

/-- `delete n` deletes exactly what is under `n`, once each. -/
theorem del_spec {s : S} {g : G} {n : Nat} (hi : Inv s g) (hl : Live s n) (hg : g n = none) :
    ∃ ds : List Nat, (del n s).log = s.log ++ ds ∧ ds.Nodup ∧ (∀ x, x ∈ ds ↔ Under g x n) ∧
      (∀ x, (del n s).heap x = if x ∈ ds then none else s.heap x) ∧
      (∀ x ∈ ds, Live s x) ∧ (del n s).next = s.next ∧ Inv (del n s) (forget (del n s) g) := by
  have hk : nlive s ≤ s.next + 1 := by
    have := List.length_filter_le (fun x => (s.heap x).isSome) (List.range s.next)
    simp only [List.length_range] at this
    simp only [nlive]; omega
  obtain ⟨ds, h1, h2, h3, h4, h5, h6, h7⟩ := delLoop_spec (s.next + 1) [n] s g hi (by simp)
    (by simpa using ⟨hl, hg⟩) hk
  exact ⟨ds, h1, h2, by simpa using h3, h4, h5, h6, h7⟩

end FF.Own
