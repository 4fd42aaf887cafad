/-!
# Specification of a concurrent FIFO queue

What it means that every operation of a concurrent queue takes effect at one instant between its call
and its return.  Nothing here mentions the implementation.
-/
namespace FF.Msq

/-- Events of an execution.  `callPush … retPop` are what the users of the queue see; `effPush` and
`effPop` mark the instants at which the operations take effect. -/
inductive Ev where
  | callPush (t v : Nat)
  | callPop (t : Nat)
  | retPush (t : Nat)
  /-- `pop` returns true with the element, or false -/
  | retPop (t : Nat) (r : Option Nat)
  | effPush (t v : Nat)
  | effPop (t : Nat) (r : Option Nat)
  deriving DecidableEq, Repr

def Ev.thread : Ev → Nat
  | .callPush t _ | .callPop t | .retPush t | .retPop t _ | .effPush t _ | .effPop t _ => t

def Ev.visible : Ev → Bool
  | .effPush _ _ | .effPop _ _ => false
  | _ => true

/-- A queue used sequentially: `push` appends, `pop` takes the first element, or nothing exactly when
the queue is empty. -/
def Ev.apply (q : List Nat) : Ev → Option (List Nat)
  | .effPush _ v => some (q ++ [v])
  | .effPop _ none => if q = [] then some [] else none
  | .effPop _ (some v) =>
    match q with
    | [] => none
    | w :: q => if w = v then some q else none
  | _ => some q

/-- The contents of the queue after the operations have taken effect in the order of a history
(newest event first); `none` if an answer is wrong. -/
def replay : List Ev → Option (List Nat)
  | [] => some []
  | e :: h => (replay h).bind fun q => e.apply q

/-- What a thread is doing, as far as its own events tell. -/
inductive Doing where
  | nothing
  | pushing (v : Nat)
  | pushed
  | popping
  | popped (r : Option Nat)
  deriving DecidableEq, Repr

/-- Each operation is called, takes effect once, and then returns what its effect gave. -/
def Doing.next : Doing → Ev → Option Doing
  | .nothing, .callPush _ v => some (.pushing v)
  | .pushing v, .effPush _ w => if v = w then some .pushed else none
  | .pushed, .retPush _ => some .nothing
  | .nothing, .callPop _ => some .popping
  | .popping, .effPop _ r => some (.popped r)
  | .popped r, .retPop _ r' => if r = r' then some .nothing else none
  | _, _ => none

def doing (t : Nat) : List Ev → Option Doing
  | [] => some .nothing
  | e :: h => if e.thread = t then (doing t h).bind fun d => d.next e else doing t h

/-- A history of calls and returns is linearizable: the instants at which the operations take effect
can be put between the calls and the returns such that a sequential queue gives the same answers. -/
def Linearizable (vis : List Ev) : Prop :=
  ∃ full : List Ev, full.filter Ev.visible = vis ∧ (∀ t, ∃ d, doing t full = some d) ∧
    ∃ q, replay full = some q

/-- the definition accepts what it should and refuses what it should -/
example : Linearizable [.retPop 1 (some 7), .retPush 0, .callPop 1, .callPush 0 7] :=
  ⟨[.retPop 1 (some 7), .effPop 1 (some 7), .retPush 0, .effPush 0 7, .callPop 1, .callPush 0 7], rfl,
    fun t => by
      by_cases h0 : 0 = t
      · subst h0; exact ⟨_, rfl⟩
      · by_cases h1 : 1 = t
        · subst h1; exact ⟨_, rfl⟩
        · exact ⟨.nothing, by simp [doing, Ev.thread, h0, h1]⟩, _, rfl⟩

end FF.Msq
