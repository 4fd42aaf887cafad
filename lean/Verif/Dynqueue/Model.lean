import Verif.Common.Trans
/-!
# `ff::dynqueue` used by one producer and one consumer, access by access

Source: `/repo/ff/dynqueue.hpp` 110-117 (`allocnode`), 136-152 (constructor), 167-176 (`push`),
178-197 (`pop`), default configuration (no `STRONG_WAIT_FREE`, no `NO_CACHE`, no
`_FF_DYNQUEUE_OPTIMIZATION`).

Memory model for nodes: the producer has a store buffer; pending stores to different fields may be
committed in any order, except across `WMB()` (PSO with write fence; TSO and SC executions are special
cases).  The consumer does not store to nodes.  `head` is private to the consumer and `tail` to the
producer.  Nodes are addresses `Nat`; `nodes i = none` means *not allocated*; `malloc` may return any
address that is not allocated (in particular one that was freed) with arbitrary content.  `bad` becomes
true when a load or a committed store touches an unallocated node.

Simplification: the internal `cache` (an SPSC queue, C01) is an atomic FIFO list that may answer
"empty"/"full" at will (which only makes the model more general, and covers `fillcache` misses).
-/
namespace FF.Dynqueue
variable {A : Type}

/-- `struct Node` (dynqueue.hpp 58-61). -/
structure Node (A : Type) where
  data : Option A
  next : Option Nat

/-- the field written by a store, with the value -/
inductive Fld (A : Type) where
  | data (v : A)
  | next (x : Option Nat)
deriving DecidableEq

/-- a pending store: number of `WMB()` executed before it, node, field and value -/
structure Ent (A : Type) where
  ep : Nat
  node : Nat
  fld : Fld A
deriving DecidableEq

def Fld.same : Fld A → Fld A → Bool
  | .data _, .data _ => true
  | .next _, .next _ => true
  | _, _ => false

/-- Where the producer is inside `push(a)`. -/
inductive PPc (A : Type) where
  | idle
  /-- `allocnode` returned `n` -/
  | got (a : A) (n : Nat)
  /-- `n->data = data` issued -/
  | dataW (a : A) (n : Nat)
  /-- `n->next = NULL` issued -/
  | nextW (a : A) (n : Nat)
  /-- `WMB()` executed -/
  | fenced (a : A) (n : Nat)
  /-- `tail->next = n` issued -/
  | linked (n : Nat)
deriving DecidableEq

/-- Where the consumer is inside `pop`. -/
inductive CPc (A : Type) where
  | idle
  /-- `head->next` was not NULL (183) -/
  | seen
  /-- `head->next` loaded again, value `m` (187) -/
  | nxt (m : Option Nat)
  /-- `*data = v` done (187) -/
  | val (v : Option A)
  /-- `head = head->next` done (188); old node `n` still to be recycled or freed (190) -/
  | moved (n : Nat)
deriving DecidableEq

structure St (A : Type) where
  nodes : Nat → Option (Node A)
  head : Nat
  tail : Nat
  cache : List Nat
  ep : Nat
  sb : List (Ent A)
  ppc : PPc A
  cpc : CPc A
  bad : Bool
  /-- ghost: elements in the order in which `tail->next = n` was executed -/
  pushed : List A
  /-- ghost: values popped -/
  popped : List (Option A)

/-- constructor (136-152) -/
def init : St A :=
  { nodes := fun i => if i = 0 then some ⟨none, none⟩ else none, head := 0, tail := 0, cache := [],
    ep := 0, sb := [], ppc := .idle, cpc := .idle, bad := false, pushed := [], popped := [] }

inductive Act (A : Type) where
  /-- `cache.pop` succeeds -/
  | pCache (a : A)
  /-- `cache.pop` fails, `malloc` returns address `i` with arbitrary content -/
  | pMalloc (a : A) (i : Nat) (junk : Node A)
  | pData
  | pNull
  | pFence
  | pLink
  | pTail
  /-- the `m`-th pending store becomes visible -/
  | commit (m : Nat)
  | cCheck
  | cNext
  | cData
  | cMove
  /-- `if (!cache.push(n)) free(n)` -/
  | cRecycle (ok : Bool)

def setFld (nd : Node A) : Fld A → Node A
  | .data v => { nd with data := some v }
  | .next x => { nd with next := x }

def step (s : St A) : Act A → Option (St A)
  | .pCache a =>
    match s.ppc, s.cache with
    | .idle, n :: rest => some { s with cache := rest, ppc := .got a n }
    | _, _ => none
  | .pMalloc a i junk =>
    match s.ppc, s.nodes i with
    | .idle, none => some { s with
        nodes := fun j => if j = i then some junk else s.nodes j, ppc := .got a i }
    | _, _ => none
  -- n->data = data (170)
  | .pData =>
    match s.ppc with
    | .got a n => some { s with sb := s.sb ++ [⟨s.ep, n, .data a⟩], ppc := .dataW a n }
    | _ => none
  -- n->next = NULL (170)
  | .pNull =>
    match s.ppc with
    | .dataW a n => some { s with sb := s.sb ++ [⟨s.ep, n, .next none⟩], ppc := .nextW a n }
    | _ => none
  -- WMB() (171)
  | .pFence =>
    match s.ppc with
    | .nextW a n => some { s with ep := s.ep + 1, ppc := .fenced a n }
    | _ => none
  -- tail->next = n (172)
  | .pLink =>
    match s.ppc with
    | .fenced a n => some { s with
        sb := s.sb ++ [⟨s.ep, s.tail, .next (some n)⟩], ppc := .linked n, pushed := s.pushed ++ [a] }
    | _ => none
  -- tail = n (173)
  | .pTail =>
    match s.ppc with
    | .linked n => some { s with tail := n, ppc := .idle }
    | _ => none
  | .commit m =>
    match s.sb[m]? with
    | none => none
    | some e =>
      if (s.sb.all fun x => decide (e.ep ≤ x.ep)) = true ∧
          ((s.sb.take m).all fun x => !(x.node == e.node && x.fld.same e.fld)) = true then
        match s.nodes e.node with
        | none => some { s with bad := true }
        | some nd => some { s with
            sb := s.sb.eraseIdx m
            nodes := fun j => if j = e.node then some (setFld nd e.fld) else s.nodes j }
      else none
  -- if (head->next) (183)
  | .cCheck =>
    match s.cpc with
    | .idle =>
      match s.nodes s.head with
      | none => some { s with bad := true }
      | some nd => if nd.next.isSome then some { s with cpc := .seen } else some s
    | _ => none
  -- load of head->next (187)
  | .cNext =>
    match s.cpc with
    | .seen =>
      match s.nodes s.head with
      | none => some { s with bad := true }
      | some nd => some { s with cpc := .nxt nd.next }
    | _ => none
  -- *data = (head->next)->data (187)
  | .cData =>
    match s.cpc with
    | .nxt m =>
      match m.bind s.nodes with
      | none => some { s with bad := true }
      | some nd => some { s with cpc := .val nd.data }
    | _ => none
  -- head = head->next (186, 188)
  | .cMove =>
    match s.cpc with
    | .val v =>
      match s.nodes s.head with
      | none => some { s with bad := true }
      | some nd =>
        match nd.next with
        | none => some { s with bad := true }
        | some h => some { s with head := h, cpc := .moved s.head, popped := s.popped ++ [v] }
    | _ => none
  -- if (!cache.push(n)) free(n) (190)
  | .cRecycle ok =>
    match s.cpc with
    | .moved n =>
      if ok then some { s with cache := s.cache ++ [n], cpc := .idle }
      else some { s with nodes := fun j => if j = n then none else s.nodes j, cpc := .idle }
    | _ => none

end FF.Dynqueue
