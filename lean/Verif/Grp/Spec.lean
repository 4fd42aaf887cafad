import Verif.Grp.Model
/-!
# C67: specification
-/
namespace FF.Grp
variable {D : Type}

/-- The elements of `l` are dealt out, in order, to receivers: `f i` is what receiver `i` gets; `ok a i`
says who may get what. -/
inductive Deal {α : Type} (ok : α → Nat → Prop) : List α → (Nat → List α) → Prop
  | nil {f} : (∀ i, f i = []) → Deal ok [] f
  | snoc {l a f f'} (i : Nat) : Deal ok l f → ok a i → f' i = f i ++ [a] → (∀ j, j ≠ i → f' j = f j) →
      Deal ok (l ++ [a]) f'

/-- data sent by `y`, among the messages `l`: destination and contents -/
def dat (y : Nat) (l : List (M D)) : List (Option Nat × D) :=
  l.filterMap fun m => if m.src = y then m.body.map fun d => (m.dest, d) else none

/-- who may get what: a message with a destination goes there, another one to some consumer -/
def okTo (N : Net D) (y : Nat) (p : Option Nat × D) (x : Nat) : Prop :=
  match p.1 with
  | some d => x = d
  | none => x ∈ N.eg y

/-- the item a call of `svc` returns, if any -/
def ret : Ret D → List (Option Nat × D)
  | .out d => [(none, d)]
  | _ => []

/-- What a node with state `st` sends when it is given, one after the other, data or the end of the
stream from its input channels. -/
def respond (u : UNode D) (st : u.σ) : List (Nat × Option D) → List (Option Nat × D)
  | [] => []
  | (i, some d) :: l => (u.svc st i d).2.1 ++ ret (u.svc st i d).2.2 ++ respond u (u.svc st i d).1 l
  | (i, none) :: l => (u.eosn st i).2 ++ respond u (u.eosn st i).1 l

/-- All that node `x` sends if it receives `l`, with nodes in the place of the numbers of output
channels. -/
def sent (N : Net D) (x : Nat) (l : List (M D)) : List (Option Nat × D) :=
  (if N.ing x = [] then
    ((N.node x).first (N.node x).init).2.1 ++ ret ((N.node x).first (N.node x).init).2.2
  else respond (N.node x) (N.node x).init (l.map fun m => ((N.ing x).idxOf m.src, m.body))).map
    fun p => (p.1.map fun i => (N.eg x).getD i 0, p.2)

/-- A complete run of the network in which node `x` consumes `cons x`: from each of its feeders `x`
receives data and then, once and last, the logical end mark, and nothing from others; and the data that
`y` sends, in response to what it consumes, are dealt out to its consumers, in order. -/
structure Complete (N : Net D) (cons : Nat → List (M D)) : Prop where
  feeders : ∀ x, x < N.n → ∀ m ∈ cons x, m.src ∈ N.ing x
  ends : ∀ x, x < N.n → ∀ y ∈ N.ing x, ∃ l, (∀ m ∈ l, m.body ≠ none) ∧
    (cons x).filter (·.src == y) = l ++ [leos y]
  dealt : ∀ y, y < N.n → N.eg y ≠ [] → Deal (okTo N y) (sent N y (cons y)) fun x => dat y (cons x)

/-- Networks and nodes the theorems are about. -/
structure Good (N : Net D) : Prop where
  /-- both ends of the channels agree (C64) -/
  dual : ∀ x y, x < N.n → y < N.n → (x ∈ N.eg y ↔ y ∈ N.ing x)
  ing_lt : ∀ x, x < N.n → ∀ y ∈ N.ing x, y < N.n
  eg_lt : ∀ x, x < N.n → ∀ y ∈ N.eg x, y < N.n
  nodup : ∀ x, x < N.n → (N.ing x).Nodup
  grp_lt : ∀ x, x < N.n → N.grp x < N.k
  /-- no cycles -/
  acyclic : ∃ h : Nat → Nat, ∀ x, x < N.n → ∀ y ∈ N.ing x, h y < h x
  /-- the sources are in groups without receiver -/
  sources : ∀ x y, x < N.n → y < N.n → N.grp x = N.grp y → N.ing x = [] → N.ing y = []
  /-- a source does all its work in one call of `svc` -/
  once : ∀ x, x < N.n → N.ing x = [] → ((N.node x).first (N.node x).init).2.2 = .eos
  /-- the other nodes go on until their input ends -/
  steady : ∀ x, x < N.n → ∀ st i d, ((N.node x).svc st i d).2.2 ≠ .eos
  /-- `ff_send_out_to` is used with numbers of output channels -/
  idx0 : ∀ x, x < N.n → ∀ p ∈ ((N.node x).first (N.node x).init).2.1, ∀ i, p.1 = some i →
    i < (N.eg x).length
  idx1 : ∀ x, x < N.n → ∀ st j d, ∀ p ∈ ((N.node x).svc st j d).2.1, ∀ i, p.1 = some i →
    i < (N.eg x).length
  idx2 : ∀ x, x < N.n → ∀ st j, ∀ p ∈ ((N.node x).eosn st j).2, ∀ i, p.1 = some i →
    i < (N.eg x).length

/-- The queues can hold something, and there is an order of the groups such that each group in which the
queue in front of some node is bounded comes after all the groups that feed it. -/
structure Room (N : Net D) : Prop where
  out : ∀ x, 0 < N.capO x
  wire : ∀ g g', 0 < N.capW g g'
  inq : ∀ x, N.capI x ≠ some 0
  order : ∃ r : Nat → Nat, ∀ x' x, x' < N.n → x < N.n → N.capI x' ≠ none → N.grp x' = N.grp x →
    ∀ y ∈ N.ing x, r (N.grp y) < r (N.grp x)

/-- Nothing can happen any more. -/
def Stuck (N : Net D) (s : S N) : Prop := ∀ a, step N s a = none

/-- Everything has ended: all the wrappers, senders and receivers; the connections and the queues in
front of the nodes are empty. -/
structure Final (N : Net D) (s : S N) : Prop where
  nodes : ∀ x, x < N.n → (s.w x).exited = true ∧ s.pend x = [] ∧ s.inq x = []
  senders : (∀ x, x < N.n → s.off x = true) ∧ ∀ g, s.stodo g = []
  receivers : ∀ g, s.ended g = true ∧ s.rtodo g = []
  wires : ∀ g g', s.wire g g' = []

end FF.Grp
