import Verif.Grp.Spec
/-!
# C67: invariant
-/
namespace FF.Grp
variable {D : Type} {N : Net D}

/-- data among what a wrapper has put out -/
def od (l : List (O D)) : List (Option Nat × D) :=
  l.filterMap fun o => match o with | .msg m => m.body.map fun d => (m.dest, d) | .fin => none

/-- What the wrapper of `x` does with the messages `l`: its state at the end and all it puts out. -/
def wrun (N : Net D) (x : Nat) (l : List (M D)) : W (N.node x) × List (O D) :=
  l.foldl (fun a m => ((wstep N x a.1 m).1, a.2 ++ (wstep N x a.1 m).2))
    ({ st := (N.node x).init, seen := [], exited := false }, [])

/-- All that the wrapper of a node that has consumed `l` has put out at the end of the run. -/
def produced (N : Net D) (x : Nat) (l : List (M D)) : List (O D) :=
  if N.ing x = [] then srcOut N x else (wrun N x l).2

@[simp] theorem upd_self {β : Type} (f : Nat → β) (i : Nat) (b : β) : upd f i b i = b := by simp [upd]
theorem upd_ne {β : Type} (f : Nat → β) {i j : Nat} (b : β) (h : j ≠ i) : upd f i b j = f j := by
  simp [upd, h]
@[simp] theorem upd2_self {β : Type} (f : Nat → Nat → β) (i j : Nat) (b : β) : upd2 f i j b i j = b := by
  simp [upd2]
theorem upd2_ne {β : Type} (f : Nat → Nat → β) {i j i' j' : Nat} (b : β) (h : ¬ (i' = i ∧ j' = j)) :
    upd2 f i j b i' j' = f i' j' := by simp [upd2, h]
@[simp] theorem updW_self (w : (x : Nat) → W (N.node x)) (i : Nat) (b : W (N.node i)) :
    updW N w i b i = b := by simp [updW]
theorem updW_ne (w : (x : Nat) → W (N.node x)) {i j : Nat} (b : W (N.node i)) (h : j ≠ i) :
    updW N w i b j = w j := by simp [updW, h]

/-- messages of a list of blocked sends that go to `g` -/
def toG (l : List (Nat × M D)) (g : Nat) : List (M D) := (l.filter (·.1 == g)).map (·.2)

@[simp] theorem toG_nil (g : Nat) : toG ([] : List (Nat × M D)) g = [] := rfl
theorem toG_cons (c : Nat) (m : M D) (l : List (Nat × M D)) (g : Nat) :
    toG ((c, m) :: l) g = if c = g then m :: toG l g else toG l g := by
  by_cases h : c = g <;> simp [toG, h]
theorem mem_toG {l : List (Nat × M D)} {g : Nat} {m : M D} : m ∈ toG l g ↔ (g, m) ∈ l := by
  simp [toG]

/-- all that went or will go over a connection, all that was put or will be put into the queue of a
node, all that a wrapper has put out -/
def S.C (s : S N) (a g : Nat) : List (M D) := s.cproc a g ++ s.wire a g ++ toG (s.stodo a) g
def S.R (s : S N) (x : Nat) : List (M D) := s.cons x ++ s.inq x ++ toG (s.rtodo (N.grp x)) x
def S.X (s : S N) (x : Nat) : List (O D) := s.oproc x ++ s.outq x ++ s.pend x

/-- data -/
def IsD : O D → Prop
  | .msg m => m.body ≠ none
  | .fin => False

/-- Everything a wrapper puts out before a message is data. -/
def Ord (l : List (O D)) : Prop := l.Pairwise fun a b => b ≠ .fin → IsD a

/-- a stream of `y`: data, and then the logical end mark if `b` -/
def Str (y : Nat) (l : List (M D)) (b : Prop) : Prop :=
  (b → ∃ ds, (∀ m ∈ ds, m.body ≠ none) ∧ l = ds ++ [leos y]) ∧ (¬ b → ∀ m ∈ l, m.body ≠ none)

/-- A message that node `x` may put out. -/
structure OutOk (N : Net D) (x : Nat) (m : M D) : Prop where
  src : m.src = x
  ne : N.eg x ≠ []
  dest : ∀ d, m.dest = some d → d ∈ N.eg x
  eos : m.body = none → m = leos x

/-- A message that may be on the connection from `a` to `g`. -/
structure ConnOk (N : Net D) (a g : Nat) (m : M D) : Prop where
  lt : m.src < N.n
  grp : N.grp m.src = a
  dest : ∀ d, m.dest = some d → d ∈ N.eg m.src ∧ N.grp d = g
  anon : m.dest = none → g ∈ conns N m.src
  eos : m.body = none → m = leos m.src

/-- who may get what, seen from the sender -/
def ok1 (N : Net D) (y : Nat) (p : Option Nat × D) (g : Nat) : Prop :=
  match p.1 with
  | some d => N.grp d = g
  | none => g ∈ conns N y

structure Inv (N : Net D) (s : S N) : Prop where
  wrun : ∀ x, x < N.n → N.ing x ≠ [] →
    s.w x = (wrun N x (s.cons x)).1 ∧ s.X x = (wrun N x (s.cons x)).2
  srcs : ∀ x, x < N.n → N.ing x = [] → s.X x = if (s.w x).exited then srcOut N x else []
  out : ∀ x, x < N.n → ∀ m, O.msg m ∈ s.X x → OutOk N x m
  ord : ∀ x, x < N.n → Ord (s.X x)
  /-- what a wrapper has put out at its end -/
  ends : ∀ x, x < N.n → (s.w x).exited = true → .fin ∈ s.X x ∧ (N.eg x ≠ [] → .msg (leos x) ∈ s.X x)
  fin : ∀ x, x < N.n → ∀ o ∈ s.X x, ¬ IsD o → (s.w x).exited = true
  seen : ∀ x, x < N.n → N.ing x ≠ [] → (∀ y, y ∈ (s.w x).seen ↔ leos y ∈ s.cons x) ∧
    (s.w x).seen.Nodup ∧ ((s.w x).exited = true ↔ (N.ing x).length ≤ (s.w x).seen.length)
  off : ∀ x, s.off x = true ↔ .fin ∈ s.oproc x
  conn : ∀ a g, ∀ m ∈ s.C a g, ConnOk N a g m
  recv : ∀ x, ∀ m ∈ s.R x, x < N.n ∧ m.src ∈ N.ing x
  rt : ∀ g, ∀ p ∈ s.rtodo g, N.grp p.1 = g
  deal1 : ∀ y, y < N.n → Deal (ok1 N y) (od (s.oproc y)) fun g => dat y (s.C (N.grp y) g)
  deal2 : ∀ y, y < N.n → ∀ g, Deal (okTo N y) (dat y (s.cproc (N.grp y) g)) fun x =>
    if N.grp x = g then dat y (s.R x) else []
  eos1 : ∀ y, y < N.n → ∀ g, Str y ((s.C (N.grp y) g).filter (·.src == y))
    (.msg (leos y) ∈ s.oproc y ∧ g ∈ conns N y)
  eos2 : ∀ y, y < N.n → ∀ x, x < N.n → y ∈ N.ing x → Str y ((s.R x).filter (·.src == y))
    (leos y ∈ s.cproc (N.grp y) (N.grp x))

theorem Inv.start : Inv N (S.start N) where
  wrun := fun x _ _ => by simp [S.start, S.X, FF.Grp.wrun]
  srcs := fun x _ _ => by simp [S.start, S.X]
  out := fun x _ m h => by simp [S.start, S.X] at h
  ord := fun x _ => by simp [S.start, S.X, Ord]
  ends := fun x _ h => by simp [S.start] at h
  fin := fun x _ o h => by simp [S.start, S.X] at h
  seen := fun x _ h => by
    refine ⟨fun y => by simp [S.start], by simp [S.start], ?_⟩
    have : 0 < (N.ing x).length := List.length_pos_iff.2 h
    simp only [S.start, List.length_nil]
    constructor
    · intro h; cases h
    · intro h; omega
  off := fun x => by simp [S.start]
  conn := fun a g m h => by simp [S.start, S.C] at h
  recv := fun x m h => by simp [S.start, S.R] at h
  rt := fun g p h => by simp [S.start] at h
  deal1 := fun y _ => .nil fun i => by simp [S.start, S.C, dat]
  deal2 := fun y _ g => .nil fun i => by simp [S.start, S.R, dat]
  eos1 := fun y _ g => ⟨fun h => by simp [S.start] at h, fun _ m h => by simp [S.start, S.C] at h⟩
  eos2 := fun y _ x _ _ => ⟨fun h => by simp [S.start] at h, fun _ m h => by simp [S.start, S.R] at h⟩

/-- Steps that only move something along. -/
theorem Inv.move {s s' : S N} (hi : Inv N s) (hw : s'.w = s.w) (hc : s'.cons = s.cons)
    (ho : s'.oproc = s.oproc) (hp : s'.cproc = s.cproc) (hf : s'.off = s.off)
    (hC : ∀ a g, s'.C a g = s.C a g) (hR : ∀ x, s'.R x = s.R x) (hX : ∀ x, s'.X x = s.X x)
    (hrt : ∀ g, ∀ p ∈ s'.rtodo g, N.grp p.1 = g) : Inv N s' where
  wrun := fun x h1 h2 => by rw [hw, hX, hc]; exact hi.wrun x h1 h2
  srcs := fun x h1 h2 => by rw [hw, hX]; exact hi.srcs x h1 h2
  out := fun x h1 => by rw [hX]; exact hi.out x h1
  ord := fun x h1 => by rw [hX]; exact hi.ord x h1
  ends := fun x h1 => by rw [hX, hw]; exact hi.ends x h1
  fin := fun x h1 => by rw [hX, hw]; exact hi.fin x h1
  seen := fun x h1 h2 => by rw [hw, hc]; exact hi.seen x h1 h2
  off := fun x => by rw [hf, ho]; exact hi.off x
  conn := fun a g => by rw [hC]; exact hi.conn a g
  recv := fun x => by rw [hR]; exact hi.recv x
  rt := hrt
  deal1 := fun y h => by simp only [hC, ho]; exact hi.deal1 y h
  deal2 := fun y h g => by simp only [hR, hp]; exact hi.deal2 y h g
  eos1 := fun y h g => by simp only [hC, ho]; exact hi.eos1 y h g
  eos2 := fun y h x hx hy => by simp only [hR, hp]; exact hi.eos2 y h x hx hy

theorem Inv.push {s s' : S N} {x : Nat} (hi : Inv N s) (h : step N s (.push x) = some s') : Inv N s' := by
  simp only [step] at h
  cases hp : s.pend x with
  | nil => rw [hp] at h; exact absurd h (by simp)
  | cons o os =>
    rw [hp] at h
    simp only at h
    split at h
    · simp only [Option.some.injEq] at h
      subst h
      refine hi.move rfl rfl rfl rfl rfl (fun _ _ => rfl) (fun _ => rfl) (fun y => ?_) hi.rt
      by_cases e : y = x
      · subst e; simp [S.X, hp]
      · simp [S.X, upd_ne _ _ e]
    · exact absurd h (by simp)

theorem Inv.send {s s' : S N} {g : Nat} (hi : Inv N s) (h : step N s (.send g) = some s') : Inv N s' := by
  simp only [step] at h
  cases hp : s.stodo g with
  | nil => rw [hp] at h; exact absurd h (by simp)
  | cons o os =>
    obtain ⟨c, m⟩ := o
    rw [hp] at h
    simp only at h
    split at h
    · simp only [Option.some.injEq] at h
      subst h
      refine hi.move rfl rfl rfl rfl rfl (fun a b => ?_) (fun _ => rfl) (fun y => rfl) hi.rt
      by_cases e : a = g
      · subst e
        by_cases e' : b = c
        · subst e'; simp [S.C, hp, toG_cons]
        · simp [S.C, hp, toG_cons, upd2_ne, e', Ne.symm e']
      · simp [S.C, upd_ne _ _ e, upd2_ne, e]
    · exact absurd h (by simp)

theorem Inv.deliver {s s' : S N} {g : Nat} (hi : Inv N s) (h : step N s (.deliver g) = some s') :
    Inv N s' := by
  simp only [step] at h
  cases hp : s.rtodo g with
  | nil => rw [hp] at h; exact absurd h (by simp)
  | cons o os =>
    obtain ⟨x, m⟩ := o
    rw [hp] at h
    simp only at h
    have hgx : N.grp x = g := hi.rt g (x, m) (by rw [hp]; exact List.mem_cons_self)
    split at h
    · simp only [Option.some.injEq] at h
      subst h
      refine hi.move rfl rfl rfl rfl rfl (fun _ _ => rfl) (fun y => ?_) (fun y => rfl) ?_
      · by_cases e' : y = x
        · subst e'; subst hgx; simp [S.R, hp, toG_cons]
        · by_cases e : N.grp y = g
          · simp [S.R, e, hp, toG_cons, upd_ne _ _ e', Ne.symm e']
          · simp [S.R, upd_ne _ _ e, upd_ne _ _ e']
      · intro g' p hm
        by_cases e : g' = g
        · subst e
          simp only [upd_self] at hm
          exact hi.rt _ p (by rw [hp]; exact List.mem_cons_of_mem _ hm)
        · simp only [upd_ne _ _ e] at hm
          exact hi.rt g' p hm
    · exact absurd h (by simp)

end FF.Grp
