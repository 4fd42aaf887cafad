import Verif.Grp.Thm
/-!
# C67: networks for examples and counterexamples
-/
namespace FF.Grp

/-- sends `outs` when called without input -/
def srcN (outs : List (Option Nat × Nat)) (r : Ret Nat) : UNode Nat where
  σ := Unit
  init := ()
  first := fun _ => ((), outs, r)
  svc := fun _ _ _ => ((), [], .goon)
  eosn := fun _ _ => ((), [])

/-- counts its inputs; sends and returns what `f` says, and at an end mark sends `e` -/
def fnN (f : Nat → Nat → List (Option Nat × Nat) × Ret Nat) (e : List (Option Nat × Nat)) : UNode Nat where
  σ := Nat
  init := 0
  first := fun c => (c, [], .eos)
  svc := fun c _ d => (c + 1, f c d)
  eosn := fun c _ => (c, e)

/-- two sources, two workers, one sink in four groups: 0, 1 → 2, 3 → 4 -/
def exN : Net Nat where
  n := 5
  k := 4
  node := fun x => match x with
    | 0 => srcN [(none, 1), (some 1, 2)] .eos
    | 1 => srcN [(some 0, 3)] .eos
    | 2 => fnN (fun c d => ([(some 0, c)], .out (d + 10))) []
    | 3 => fnN (fun _ d => ([], .out (d + 20))) [(none, 7)]
    | _ => fnN (fun _ _ => ([], .goon)) []
  grp := fun x => match x with | 0 => 0 | 1 => 1 | 2 => 2 | 3 => 2 | _ => 3
  ing := fun x => match x with | 0 => [] | 1 => [] | 2 => [0, 1] | 3 => [0, 1] | 4 => [2, 3] | _ => []
  eg := fun x => match x with | 0 => [2, 3] | 1 => [2, 3] | 2 => [4] | 3 => [4] | _ => []
  capI := fun _ => some 1
  capO := fun _ => 1
  capW := fun _ _ => 1

theorem lt_five {p : Nat → Prop} (h0 : p 0) (h1 : p 1) (h2 : p 2) (h3 : p 3) (h4 : p 4) :
    ∀ x, x < 5 → p x
  | 0, _ => h0 | 1, _ => h1 | 2, _ => h2 | 3, _ => h3 | 4, _ => h4
  | _ + 5, h => absurd h (by omega)

/-- the conditions of `Good` on one node, with `k` output channels -/
structure UOk {D : Type} (u : UNode D) (k : Nat) : Prop where
  steady : ∀ st i d, (u.svc st i d).2.2 ≠ .eos
  idx0 : ∀ p ∈ (u.first u.init).2.1, ∀ i, p.1 = some i → i < k
  idx1 : ∀ st j d, ∀ p ∈ (u.svc st j d).2.1, ∀ i, p.1 = some i → i < k
  idx2 : ∀ st j, ∀ p ∈ (u.eosn st j).2, ∀ i, p.1 = some i → i < k

theorem srcN_ok {outs : List (Option Nat × Nat)} {r : Ret Nat} {k : Nat}
    (h : ∀ p ∈ outs, ∀ i, p.1 = some i → i < k) : UOk (srcN outs r) k :=
  ⟨by simp [srcN], h, by simp [srcN], by simp [srcN]⟩

theorem fnN_ok {f : Nat → Nat → List (Option Nat × Nat) × Ret Nat} {e : List (Option Nat × Nat)} {k : Nat}
    (h : ∀ c d, (f c d).2 ≠ .eos) (h1 : ∀ c d, ∀ p ∈ (f c d).1, ∀ i, p.1 = some i → i < k)
    (h2 : ∀ p ∈ e, ∀ i, p.1 = some i → i < k) : UOk (fnN f e) k :=
  ⟨fun c _ d => h c d, by simp [fnN], fun c _ d => h1 c d, fun _ _ => h2⟩

theorem Good.ofNodes {N : Net Nat}
    (dual : ∀ x, x < N.n → ∀ y, y < N.n → (x ∈ N.eg y ↔ y ∈ N.ing x))
    (ing_lt : ∀ x, x < N.n → ∀ y ∈ N.ing x, y < N.n ∧ y < x)
    (eg_lt : ∀ x, x < N.n → ∀ y ∈ N.eg x, y < N.n)
    (nodup : ∀ x, x < N.n → (N.ing x).Nodup)
    (grp_lt : ∀ x, x < N.n → N.grp x < N.k)
    (sources : ∀ x, x < N.n → ∀ y, y < N.n → N.grp x = N.grp y → N.ing x = [] → N.ing y = [])
    (once : ∀ x, x < N.n → N.ing x = [] → ((N.node x).first (N.node x).init).2.2 = .eos)
    (nodes : ∀ x, x < N.n → UOk (N.node x) (N.eg x).length) : Good N where
  dual := fun x y hx hy => dual x hx y hy
  ing_lt := fun x hx y hy => (ing_lt x hx y hy).1
  eg_lt := eg_lt
  nodup := nodup
  grp_lt := grp_lt
  acyclic := ⟨id, fun x hx y hy => (ing_lt x hx y hy).2⟩
  sources := fun x y hx hy => sources x hx y hy
  once := once
  steady := fun x hx => (nodes x hx).steady
  idx0 := fun x hx => (nodes x hx).idx0
  idx1 := fun x hx => (nodes x hx).idx1
  idx2 := fun x hx => (nodes x hx).idx2

theorem exN_good : Good exN := by
  refine Good.ofNodes (by decide) (by decide) (by decide) (by decide) (by decide) (by decide) ?_ ?_
  · refine lt_five ?_ ?_ ?_ ?_ ?_ <;> intro h <;> first | rfl | exact absurd h (by decide)
  · refine lt_five ?_ ?_ ?_ ?_ ?_
    · exact srcN_ok (by simp; decide)
    · exact srcN_ok (by simp; decide)
    · exact fnN_ok (by simp) (by simp; decide) (by simp)
    · exact fnN_ok (by simp) (by simp) (by simp)
    · exact fnN_ok (by simp) (by simp) (by simp)

theorem exN_room : Room exN where
  out := fun _ => Nat.one_pos
  wire := fun _ _ => Nat.one_pos
  inq := fun _ => by simp [exN]
  order := ⟨id, by
    have : ∀ x, x < 5 → ∀ y ∈ exN.ing x, exN.grp y < exN.grp x := by decide
    exact fun _ x _ hx _ _ => this x hx⟩

/-- a source that returns one item at each call; 0 → 1 -/
def srcNet : Net Nat where
  n := 2
  k := 2
  node := fun x => match x with
    | 0 => srcN [] (.out 1)
    | _ => fnN (fun _ _ => ([], .goon)) []
  grp := id
  ing := fun x => match x with | 1 => [0] | _ => []
  eg := fun x => match x with | 0 => [1] | _ => []
  capI := fun _ => none
  capO := fun _ => 4
  capW := fun _ _ => 4

/-- 0 → 1 → 2; node 1 ends its stream at its first input -/
def earlyNet : Net Nat where
  n := 3
  k := 3
  node := fun x => match x with
    | 0 => srcN [(none, 1), (none, 2)] .eos
    | 1 => fnN (fun c d => if c = 0 then ([], .eos) else ([], .out d)) []
    | _ => fnN (fun _ _ => ([], .goon)) []
  grp := id
  ing := fun x => match x with | 1 => [0] | 2 => [1] | _ => []
  eg := fun x => match x with | 0 => [1] | 1 => [2] | _ => []
  capI := fun _ => none
  capO := fun _ => 8
  capW := fun _ _ => 8

/-- 0 → 1 → 2 → 3 → 4; 1 and 3 are in one group, 2 and 4 in another one; all the queues are bounded -/
def deadNet : Net Nat where
  n := 5
  k := 3
  node := fun x => match x with
    | 0 => srcN [(none, 0)] .eos
    | 1 => fnN (fun _ _ => ([(none, 1), (none, 2), (none, 3), (none, 4), (none, 5)], .goon)) []
    | 2 => fnN (fun _ _ =>
        ([(none, 1), (none, 2), (none, 3), (none, 4), (none, 5), (none, 6), (none, 7)], .goon)) []
    | 3 => fnN (fun _ d => ([(none, d), (none, d)], .goon)) []
    | _ => fnN (fun _ _ => ([], .goon)) []
  grp := fun x => match x with | 0 => 0 | 1 => 1 | 2 => 2 | 3 => 1 | _ => 2
  ing := fun x => match x with | 1 => [0] | 2 => [1] | 3 => [2] | 4 => [3] | _ => []
  eg := fun x => match x with | 0 => [1] | 1 => [2] | 2 => [3] | 3 => [4] | _ => []
  capI := fun _ => some 1
  capO := fun _ => 1
  capW := fun _ _ => 1

end FF.Grp
