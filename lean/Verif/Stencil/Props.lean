import Verif.Stencil.Model
/-!
# C50: the stencil computes the function on matrices
-/
namespace FF.Stencil

variable {T R : Type}

/-! ## Specification: matrices without addresses -/

/-- An `X` by `Y` matrix. -/
abbrev Mat (T : Type) (X Y : Nat) := Fin X → Fin Y → T

/-- The matrix in a buffer: row `i` starts at `i * X`, as documented for the user's functions
(`in[i*X+j]`). -/
def view (X Y : Nat) (m : Buf T) : Mat T X Y := fun i j => m (idx X i j)

/-- The user's functions as functions on matrices. -/
structure Spec (T R : Type) (X Y : Nat) where
  f : Fin X → Fin Y → Mat T X Y → T
  g : Fin X → Fin Y → Mat T X Y → R
  op : R → R → R
  ident : R
  before : Mat T X Y → R → Mat T X Y × R
  after : Mat T X Y → R → Mat T X Y × R
  cond : R → Nat → Bool
  maxIter : Nat

/-- One round: all the cells of `cs` get the function of the input, all others keep the value they have
in the output matrix. -/
def Spec.round {X Y : Nat} (Q : Spec T R X Y) (cs : List (Nat × Nat)) (inp out : Mat T X Y) (r : R) :
    Mat T X Y × Mat T X Y × R :=
  let (inp, r) := Q.before inp r
  let out := fun i j => if (i.val, j.val) ∈ cs then Q.f i j inp else out i j
  let r := cs.foldl (fun r c =>
    if h : c.1 < X ∧ c.2 < Y then Q.op r (Q.g ⟨c.1, h.1⟩ ⟨c.2, h.2⟩ inp) else r) r
  let (out, r) := Q.after out r
  (inp, out, r)

/-- `n` more rounds are allowed after this one; the matrices change roles after every round.  Result:
input, output, reduction variable, number of rounds. -/
def Spec.loop {X Y : Nat} (Q : Spec T R X Y) (cs : List (Nat × Nat)) :
    Nat → Nat → Mat T X Y → Mat T X Y → R → Mat T X Y × Mat T X Y × R × Nat
  | 0, k, inp, out, r =>
    let p := Q.round cs inp out r
    (p.1, p.2.1, p.2.2, k + 1)
  | n + 1, k, inp, out, r =>
    let p := Q.round cs inp out r
    if Q.cond p.2.2 (k + 1) then Q.loop cs n (k + 1) p.2.1 p.1 p.2.2
    else (p.1, p.2.1, p.2.2, k + 1)

/-- The program of the user is that of the specification. -/
structure Agrees {X Y : Nat} (P : Prog T R) (Q : Spec T R X Y) : Prop where
  f : ∀ (i : Fin X) (j : Fin Y) m, P.f i j m = Q.f i j (view X Y m)
  g : ∀ (i : Fin X) (j : Fin Y) m, P.g i j m = Q.g i j (view X Y m)
  op : P.op = Q.op
  ident : P.ident = Q.ident
  before : ∀ m r, view X Y (P.before m r).1 = (Q.before (view X Y m) r).1 ∧
    (P.before m r).2 = (Q.before (view X Y m) r).2
  after : ∀ m r, view X Y (P.after m r).1 = (Q.after (view X Y m) r).1 ∧
    (P.after m r).2 = (Q.after (view X Y m) r).2
  cond : P.cond = Q.cond
  maxIter : P.maxIter = Q.maxIter

/-! ## Locations -/

/-- **C50**: in a square matrix, and in a matrix of one row, each cell has its own location inside the
buffer. -/
theorem C50_location_partial {X Y : Nat} (h : X = Y ∨ X = 1) :
    (∀ i j, i < X → j < Y → idx X i j < X * Y) ∧
    (∀ i j i' j', i < X → j < Y → i' < X → j' < Y → idx X i j = idx X i' j' → i = i' ∧ j = j') := by
  unfold idx
  rcases h with rfl | rfl
  · constructor
    · intro i j hi hj
      calc i * X + j < i * X + X := by omega
        _ = (i + 1) * X := by rw [Nat.add_mul]; omega
        _ ≤ X * X := Nat.mul_le_mul_right _ hi
    · intro i j i' j' hi hj hi' hj' e
      have h1 := congrArg (· / X) e
      have h2 := congrArg (· % X) e
      simp only [Nat.mul_comm i X, Nat.mul_comm i' X, Nat.mul_add_div (show 0 < X by omega),
        Nat.div_eq_of_lt hj, Nat.div_eq_of_lt hj', Nat.mul_add_mod, Nat.mod_eq_of_lt hj,
        Nat.mod_eq_of_lt hj'] at h1 h2
      omega
  · constructor
    · intro i j hi hj; omega
    · intro i j i' j' hi hj hi' hj' e; omega

/-- **C50, counterexample**: in every other matrix two cells share a location or a cell is outside the
buffer. -/
theorem C50_location_counterexample {X Y : Nat} (hX : 2 ≤ X) (hY : 1 ≤ Y) (hne : X ≠ Y) :
    (∃ i j i' j', i < X ∧ j < Y ∧ i' < X ∧ j' < Y ∧ (i, j) ≠ (i', j') ∧ idx X i j = idx X i' j') ∨
    (∃ i j, i < X ∧ j < Y ∧ X * Y ≤ idx X i j) := by
  rcases Nat.lt_or_gt_of_ne hne with h | h
  · left
    exact ⟨0, X, 1, 0, by omega, h, by omega, by omega, by simp, by simp [idx]⟩
  · right
    refine ⟨X - 1, 0, by omega, by omega, ?_⟩
    unfold idx
    rw [Nat.mul_comm]
    exact Nat.le_trans (Nat.mul_le_mul_right X (show Y ≤ X - 1 by omega)) (Nat.le_add_right _ _)

/-! ## One sweep -/

theorem mem_steps {start stop step x : Nat} (hs : 1 ≤ step) :
    x ∈ steps start stop step ↔ start ≤ x ∧ x < stop ∧ step ∣ x - start := by
  unfold steps
  simp only [List.mem_map, List.mem_range]
  constructor
  · rintro ⟨k, hk, rfl⟩
    rw [Nat.lt_div_iff_mul_lt hs] at hk
    refine ⟨by omega, by omega, ?_⟩
    rw [Nat.add_sub_cancel_left]
    exact Nat.dvd_mul_left _ _
  · rintro ⟨h1, h2, k, hk⟩
    refine ⟨k, ?_, by rw [Nat.mul_comm]; omega⟩
    rw [Nat.lt_div_iff_mul_lt hs]
    rw [Nat.mul_comm] at hk
    omega

theorem steps_nodup {start stop step : Nat} (hs : 1 ≤ step) : (steps start stop step).Nodup := by
  unfold steps
  refine List.Nodup.map ?_ List.nodup_range
  intro a b h
  simp only [Nat.add_left_cancel_iff] at h
  exact Nat.eq_of_mul_eq_mul_right hs h

theorem mem_cells {xs ys : List Nat} {i j : Nat} : (i, j) ∈ cells xs ys ↔ i ∈ xs ∧ j ∈ ys := by
  unfold cells
  simp only [List.mem_flatMap, List.mem_map, Prod.mk.injEq]
  constructor
  · rintro ⟨a, ha, b, hb, rfl, rfl⟩; exact ⟨ha, hb⟩
  · rintro ⟨ha, hb⟩; exact ⟨i, ha, j, hb, rfl, rfl⟩

theorem sweep_spec {X Y : Nat} (hL : X = Y ∨ X = 1) {f : Nat → Nat → Buf T → T} {inp : Buf T} :
    ∀ (cs : List (Nat × Nat)) (out : Buf T), (∀ c ∈ cs, c.1 < X ∧ c.2 < Y) →
    ∃ out', sweep X Y f inp out cs = some out' ∧
      view X Y out' = fun (i : Fin X) (j : Fin Y) => if (i.val, j.val) ∈ cs then f i j inp else view X Y out i j
  | [], out, _ => ⟨out, rfl, by simp⟩
  | (i, j) :: cs, out, h => by
    obtain ⟨h1, h2⟩ := C50_location_partial hL
    have hij := h (i, j) (by simp)
    dsimp only at hij
    obtain ⟨out', g1, g2⟩ := sweep_spec hL cs
      (fun a => if a = idx X i j then f i j inp else out a) (fun c hc => h c (by simp [hc]))
    refine ⟨out', by rw [sweep, wr, if_pos (h1 i j hij.1 hij.2)]; exact g1, ?_⟩
    rw [g2]
    funext a b
    by_cases hm : (a.val, b.val) ∈ cs
    · rw [if_pos hm, if_pos (by simp [hm])]
    · rw [if_neg hm]
      unfold view
      dsimp only
      by_cases he : idx X a b = idx X i j
      · obtain ⟨e1, e2⟩ := h2 a b i j a.2 b.2 hij.1 hij.2 he
        rw [if_pos he, if_pos (by simp [e1, e2]), e1, e2]
      · rw [if_neg he, if_neg]
        simp only [List.mem_cons, Prod.mk.injEq, hm, or_false, not_and]
        intro e1 e2
        rw [e1, e2] at he
        exact he rfl

/-- **C50**: one parallel loop, whatever the order of the cells: cell `(i, j)` gets exactly the value of
the user's function at `(i, j)`, the others do not change, no write is outside the buffer. -/
theorem C50_sweep_partial {X Y : Nat} (hL : X = Y ∨ X = 1) {xs ys : List Nat}
    (hx : ∀ i ∈ xs, i < X) (hy : ∀ j ∈ ys, j < Y) {order : List (Nat × Nat)}
    (ho : order.Perm (cells xs ys)) (f : Nat → Nat → Buf T → T) (inp out : Buf T) :
    ∃ out', sweep X Y f inp out order = some out' ∧
      ∀ i j, i < X → j < Y →
        out' (idx X i j) = if i ∈ xs ∧ j ∈ ys then f i j inp else out (idx X i j) := by
  obtain ⟨out', h1, h2⟩ := sweep_spec hL (f := f) (inp := inp) order out (by
    rintro ⟨i, j⟩ hc
    have := mem_cells.1 (ho.mem_iff.1 hc)
    exact ⟨hx _ this.1, hy _ this.2⟩)
  refine ⟨out', h1, fun i j hi hj => ?_⟩
  have := congrFun (congrFun h2 ⟨i, hi⟩) ⟨j, hj⟩
  simp only [view] at this
  rw [this]
  have e : (i, j) ∈ order ↔ i ∈ xs ∧ j ∈ ys := by rw [ho.mem_iff, mem_cells]
  simp only [e]

/-! ## Rounds -/

theorem foldl_perm_comm {α β : Type} {op : β → α → β} (hc : ∀ r a b, op (op r a) b = op (op r b) a)
    {l l' : List α} (h : l.Perm l') : ∀ r, l.foldl op r = l'.foldl op r := by
  induction h with
  | nil => intro r; rfl
  | cons x _ ih => intro r; exact ih _
  | swap x y l => intro r; simp only [List.foldl_cons]; rw [hc]
  | trans _ _ ih1 ih2 => intro r; rw [ih1, ih2]

/-- The relation between the state and the specification, before a round. -/
structure Rel {X Y : Nat} (s : S T R) (inp out : Mat T X Y) (r : R) (k : Nat) : Prop where
  inp : view X Y (s.buf !s.inp) = inp
  out : view X Y (s.buf s.inp) = out
  r : s.r = r
  iter : s.iter = k

theorem round_rel {X Y : Nat} (hL : X = Y ∨ X = 1) {P : Prog T R} {Q : Spec T R X Y} (A : Agrees P Q)
    (hc : ∀ r a b, Q.op (Q.op r a) b = Q.op (Q.op r b) a) {cs order : List (Nat × Nat)}
    (hin : ∀ c ∈ cs, c.1 < X ∧ c.2 < Y) (ho : order.Perm cs) {s : S T R} {inp out : Mat T X Y} {r : R}
    {k : Nat} (H : Rel s inp out r k) :
    ∃ s', s.round P X Y order = some s' ∧ s'.inp = !s.inp ∧ s'.iter = k + 1 ∧
      view X Y (s'.buf s'.inp) = (Q.round cs inp out r).1 ∧
      view X Y (s'.buf !s'.inp) = (Q.round cs inp out r).2.1 ∧ s'.r = (Q.round cs inp out r).2.2 := by
  have hin' : ∀ c ∈ order, c.1 < X ∧ c.2 < Y := fun c h => hin c (ho.mem_iff.1 h)
  obtain ⟨b1, b2⟩ := A.before (s.buf !s.inp) s.r
  obtain ⟨m, hm⟩ : ∃ m, m = (P.before (s.buf !s.inp) s.r).1 := ⟨_, rfl⟩
  rw [← hm, H.inp, H.r] at b1
  rw [H.inp, H.r] at b2
  obtain ⟨out', h1, h2⟩ := sweep_spec hL (f := P.f) (inp := m) order (s.buf s.inp) hin'
  have hout : view X Y out' = fun i j => if (i.val, j.val) ∈ cs then
      Q.f i j (Q.before inp r).1 else out i j := by
    rw [h2, H.out]
    funext i j
    by_cases e : (i.val, j.val) ∈ cs
    · rw [if_pos e, if_pos (ho.mem_iff.2 e), A.f, b1]
    · rw [if_neg e, if_neg (fun h => e (ho.mem_iff.1 h))]
  have hred : order.foldl (fun q c => P.op q (P.g c.1 c.2 m)) (Q.before inp r).2 =
      cs.foldl (fun q c => if h : c.1 < X ∧ c.2 < Y then
        Q.op q (Q.g ⟨c.1, h.1⟩ ⟨c.2, h.2⟩ (Q.before inp r).1) else q) (Q.before inp r).2 := by
    have e1 : ∀ (l : List (Nat × Nat)), (∀ c ∈ l, c.1 < X ∧ c.2 < Y) → ∀ r0,
        l.foldl (fun q c => P.op q (P.g c.1 c.2 m)) r0 = l.foldl (fun q c =>
          if h : c.1 < X ∧ c.2 < Y then
          Q.op q (Q.g ⟨c.1, h.1⟩ ⟨c.2, h.2⟩ (Q.before inp r).1) else q) r0 := by
      intro l
      induction l with
      | nil => intro _ r0; rfl
      | cons c l ih =>
        intro hl r0
        have hcl := hl c (by simp)
        simp only [List.foldl_cons]
        rw [dif_pos hcl]
        have := A.g ⟨c.1, hcl.1⟩ ⟨c.2, hcl.2⟩ m
        dsimp only at this
        rw [A.op, this, b1]
        have := ih (fun c h => hl c (by simp [h]))
        rw [A.op] at this
        exact this _
    rw [e1 order hin' _]
    refine foldl_perm_comm ?_ ho _
    intro r0 a b
    split <;> split <;> first | rfl | exact hc _ _ _
  obtain ⟨a1, a2⟩ := A.after out' (order.foldl (fun r c => P.op r (P.g c.1 c.2 m)) (Q.before inp r).2)
  rw [hout, hred] at a1 a2
  have hb2 : (P.before (s.buf !s.inp) s.r).2 = (Q.before inp r).2 := by rw [H.r]; exact b2
  have hround : s.round P X Y order = some
      { ((s.swap.put (!s.inp) m).put s.inp
          (P.after out' (order.foldl (fun r c => P.op r (P.g c.1 c.2 m)) (Q.before inp r).2)).1) with
        r := (P.after out' (order.foldl (fun r c => P.op r (P.g c.1 c.2 m)) (Q.before inp r).2)).2,
        iter := s.iter + 1 } := by
    unfold S.round
    have e : ((s.swap.put s.swap.inp (P.before (s.swap.buf s.swap.inp) s.swap.r).1).buf
        !(s.swap.put s.swap.inp (P.before (s.swap.buf s.swap.inp) s.swap.r).1).inp) = s.buf s.inp := by
      cases hh : s.inp <;> simp [S.swap, S.put, hh]
    simp only [e]
    simp only [S.swap]
    rw [← hm, h1, hb2]
    simp [S.put]
  rw [hred] at hround
  refine ⟨_, hround, ?_, ?_, ?_, ?_, ?_⟩
  · simp [S.put, S.swap]
  · simp [H.iter]
  · cases hh : s.inp <;> simp [S.put, S.swap, Spec.round, b1, hh]
  · cases hh : s.inp <;> simp [S.put, S.swap, Spec.round, a1, hh]
  · simp [Spec.round, a2]

theorem loop_rel {X Y : Nat} (hL : X = Y ∨ X = 1) {P : Prog T R} {Q : Spec T R X Y} (A : Agrees P Q)
    (hc : ∀ r a b, Q.op (Q.op r a) b = Q.op (Q.op r b) a) {cs : List (Nat × Nat)}
    {orders : Nat → List (Nat × Nat)} (hin : ∀ c ∈ cs, c.1 < X ∧ c.2 < Y)
    (ho : ∀ k, (orders k).Perm cs) (n : Nat) : ∀ {s : S T R} {inp out : Mat T X Y} {r : R} {k : Nat},
    n = P.maxIter - 1 - k → Rel s inp out r k →
    ∃ s', s.loop P X Y orders = some s' ∧
      view X Y (s'.buf s'.inp) = (Q.loop cs n k inp out r).1 ∧
      view X Y (s'.buf !s'.inp) = (Q.loop cs n k inp out r).2.1 ∧
      s'.r = (Q.loop cs n k inp out r).2.2.1 ∧ s'.iter = (Q.loop cs n k inp out r).2.2.2 ∧
      (s'.inp = if (s'.iter - k) % 2 = 1 then !s.inp else s.inp) ∧ k < s'.iter := by
  induction n with
  | zero =>
    intro s inp out r k hn H
    obtain ⟨s', h1, h2, h3, h4, h5, h6⟩ := round_rel hL A hc hin (ho s.iter) H
    refine ⟨s', ?_, h4, h5, h6, h3, ?_, by omega⟩
    · rw [S.loop, h1]
      dsimp only
      rw [dif_neg (by omega)]
    · rw [h3, h2, if_pos (by omega)]
  | succ n ih =>
    intro s inp out r k hn H
    obtain ⟨s', h1, h2, h3, h4, h5, h6⟩ := round_rel hL A hc hin (ho s.iter) H
    rw [S.loop, h1]
    dsimp only
    unfold Spec.loop
    dsimp only
    rw [← h6]
    by_cases hcd : Q.cond s'.r (k + 1) = true
    · rw [if_pos hcd, dif_pos ⟨by omega, by rw [A.cond, h3]; exact hcd⟩]
      obtain ⟨s'', g1, g2, g3, g4, g5, g6, g7⟩ := ih (k := k + 1) (by omega) ⟨h5, h4, rfl, h3⟩
      refine ⟨s'', g1, g2, g3, g4, g5, ?_, by omega⟩
      rw [g6, h2]
      by_cases e : (s''.iter - (k + 1)) % 2 = 1
      · rw [if_pos e, if_neg (by omega), Bool.not_not]
      · rw [if_neg e, if_pos (by omega)]
    · rw [if_neg hcd, dif_neg (by rw [A.cond, h3]; simp [hcd])]
      refine ⟨s', rfl, h4, h5, rfl, h3, ?_, by omega⟩
      rw [h3, h2, if_pos (by omega)]

/-- The matrix after the initialization. -/
def initMat {X Y : Nat} (fi : Option (Nat → Nat → T)) (m : Mat T X Y) : Mat T X Y :=
  match fi with
  | none => m
  | some fi => fun i j => fi i j

theorem init_spec {X Y : Nat} (hL : X = Y ∨ X = 1) {o : List (Nat × Nat)}
    (ho : o.Perm (cells (List.range X) (List.range Y))) (fi : Nat → Nat → T) (m : Buf T) :
    ∃ m', sweep X Y (fun i j _ => fi i j) m m o = some m' ∧
      view X Y m' = fun i j => fi i.val j.val := by
  have hmem : ∀ i j, (i, j) ∈ o ↔ i < X ∧ j < Y := by
    intro i j; rw [ho.mem_iff, mem_cells, List.mem_range, List.mem_range]
  obtain ⟨m', h1, h2⟩ := sweep_spec hL (f := fun i j _ => fi i j) (inp := m) o m (by
    rintro ⟨i, j⟩ hc; exact (hmem i j).1 hc)
  refine ⟨m', h1, ?_⟩
  rw [h2]
  funext i j
  rw [if_pos ((hmem _ _).2 ⟨i.2, j.2⟩)]

/-- **C50**: a run of the stencil on a square matrix (or a matrix of one row) computes what the sequential
program on matrices computes: for every user function, every window, every order in which the threads
compute the cells, and every commutative reduction.  The number of rounds is the same, and the result is in
the user's `Mout` after an odd number of rounds and in `Min` after an even number. -/
theorem C50_run_partial {X Y : Nat} (hL : X = Y ∨ X = 1) {P : Prog T R} {Q : Spec T R X Y}
    (A : Agrees P Q) (hc : ∀ r a b, Q.op (Q.op r a) b = Q.op (Q.op r b) a)
    {x0 x1 xs y0 y1 ys : Nat} (hxs : 1 ≤ xs) (hys : 1 ≤ ys) (hx1 : x1 ≤ X) (hy1 : y1 ≤ Y)
    {o1 o2 : List (Nat × Nat)} {orders : Nat → List (Nat × Nat)}
    (h1 : o1.Perm (cells (List.range X) (List.range Y)))
    (h2 : o2.Perm (cells (List.range X) (List.range Y)))
    (ho : ∀ k, (orders k).Perm (cells (steps x0 x1 xs) (steps y0 y1 ys)))
    (fi fo : Option (Nat → Nat → T)) (bin bout : Buf T) :
    ∃ s, svc P X Y fi fo o1 o2 orders bin bout = some s ∧
      let res := Q.loop (cells (steps x0 x1 xs) (steps y0 y1 ys)) (Q.maxIter - 1) 0
        (initMat fi (view X Y bin)) (initMat fo (view X Y bout)) Q.ident
      s.r = res.2.2.1 ∧ s.iter = res.2.2.2 ∧
      view X Y (s.buf (decide (s.iter % 2 = 1))) = res.2.1 := by
  have hin : ∀ c ∈ cells (steps x0 x1 xs) (steps y0 y1 ys), c.1 < X ∧ c.2 < Y := by
    rintro ⟨i, j⟩ hm
    obtain ⟨a, b⟩ := mem_cells.1 hm
    have := (mem_steps hxs).1 a
    have := (mem_steps hys).1 b
    dsimp only
    omega
  have key : ∀ a b : Buf T, ∀ ma mb : Mat T X Y, view X Y a = ma → view X Y b = mb →
      ∃ s, (S.mk (fun x => if x then b else a) false P.ident 0).swap.loop P X Y orders = some s ∧
      let res := Q.loop (cells (steps x0 x1 xs) (steps y0 y1 ys)) (Q.maxIter - 1) 0 ma mb Q.ident
      s.r = res.2.2.1 ∧ s.iter = res.2.2.2 ∧
      view X Y (s.buf (decide (s.iter % 2 = 1))) = res.2.1 := by
    intro a b ma mb ha hb
    obtain ⟨s, g1, g2, g3, g4, g5, g6, g7⟩ := loop_rel hL A hc hin ho (P.maxIter - 1 - 0)
      (s := (S.mk (fun x => if x then b else a) false P.ident 0).swap) (k := 0) rfl
      (⟨by simpa [S.swap] using ha, by simpa [S.swap] using hb, by simp [S.swap, A.ident], rfl⟩ :
        Rel _ ma mb Q.ident 0)
    rw [Nat.sub_zero, A.maxIter] at g3 g4 g5
    refine ⟨s, g1, g4, g5, ?_⟩
    rw [← g3]
    congr 2
    rw [g6]
    simp only [S.swap, Nat.sub_zero]
    by_cases e : s.iter % 2 = 1 <;> simp [e]
  unfold svc
  cases fi with
  | none =>
    cases fo with
    | none => exact key bin bout _ _ rfl rfl
    | some fo =>
      obtain ⟨m, k1, k2⟩ := init_spec hL h2 fo bout
      simp only [k1]
      exact key bin m _ _ rfl k2
  | some fi =>
    obtain ⟨m', k1', k2'⟩ := init_spec hL h1 fi bin
    cases fo with
    | none =>
      simp only [k1']
      exact key m' bout _ _ k2' rfl
    | some fo =>
      obtain ⟨m, k1, k2⟩ := init_spec hL h2 fo bout
      simp only [k1, k1']
      exact key m' m _ _ k2' k2

/-! ## A concrete case, and what happens in other matrices -/

/-- Every cell gets the sum of itself and its left neighbour; the sum of all new cells is reduced; 3
rounds. -/
def demoP : Prog Nat Nat where
  f := fun i j m => m (idx 3 i j) + m (idx 3 i (j - 1))
  g := fun i j m => m (idx 3 i j) + m (idx 3 i (j - 1))
  op := (· + ·)
  ident := 0
  before := fun m r => (m, r)
  after := fun m r => (m, r)
  cond := fun r _ => decide (r < 1000)
  maxIter := 3

def demoQ : Spec Nat Nat 3 3 where
  f := fun i j m => m i j + m i ⟨j - 1, by omega⟩
  g := fun i j m => m i j + m i ⟨j - 1, by omega⟩
  op := (· + ·)
  ident := 0
  before := fun m r => (m, r)
  after := fun m r => (m, r)
  cond := fun r _ => decide (r < 1000)
  maxIter := 3

theorem demo_agrees : Agrees demoP demoQ :=
  ⟨fun _ _ _ => rfl, fun _ _ _ => rfl, rfl, rfl, fun _ _ => ⟨rfl, rfl⟩, fun _ _ => ⟨rfl, rfl⟩, rfl, rfl⟩

theorem demo_comm : ∀ r a b, demoQ.op (demoQ.op r a) b = demoQ.op (demoQ.op r b) a := by
  intro r a b; simp only [demoQ]; omega

/-- Columns 1 and 2 of every row, 3 rounds: the first row, the reduction and the number of rounds. -/
def demoRes := demoQ.loop (cells (steps 0 3 1) (steps 1 3 1)) 2 0 (fun i j => 1 + i.val + j.val)
  (fun _ _ => 0) 0

example : ((List.range 3).map (fun j => demoRes.2.1 0 (Fin.ofNat 3 j)), demoRes.2.2) =
    ([0, 4, 11], 159, 3) := by decide +kernel

example : [(2, 1), (2, 2), (1, 1), (0, 1), (1, 2), (0, 2)].Perm (cells (steps 0 3 1) (steps 1 3 1)) := by
  decide

/-- **C50, counterexample**: 2 rows and 3 columns: the initialization of cell (1, 0) overwrites cell
(0, 2), and location 5 of the buffer is never written. -/
theorem C50_overwrite_counterexample :
    (sweep 2 3 (fun i j _ => 10 * i + j) (fun _ => 99) (fun _ => 99)
      (cells (List.range 2) (List.range 3))).map (fun m => (List.range 6).map m) =
      some [0, 1, 10, 11, 12, 99] := by decide

/-- **C50, counterexample**: 3 rows and 2 columns: the initialization writes outside the buffer. -/
theorem C50_outside_counterexample :
    (sweep 3 2 (fun i j _ => 10 * i + j) (fun _ => 99) (fun _ => 99)
      (cells (List.range 3) (List.range 2))).isNone = true := by decide

end FF.Stencil
