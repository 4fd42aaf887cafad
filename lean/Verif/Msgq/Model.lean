import Verif.Common.Trans
/-!
# C77: the queue of messages of any size

Source: `/repo/ff/ff_queue.hpp` (`ff_queue`, lines 86-242).  One producer and one consumer; messages are stored one behind
the other in buckets; in front of each message is a word with the address of the next one.  Buckets that the consumer has left are
used again or freed.

Simplifications: an address is a bucket and an offset in bytes, and two buckets do not overlap; the bytes of one
message are written and read as one value (`pay`), where they lie is in the bounds that are proved; memory is
sequentially consistent (the code uses compiler barriers, which is what x86 needs); `malloc` does not fail and gives any
bucket that is not allocated; `sizeof(void*)` is 8; the recursion of `dequeue_prepare` is a further `look`; the test whether
`head_pos` is between the ends of a bucket is a comparison of buckets (`C77_head` shows that the position is between the ends of its
own bucket).
-/
namespace FF.Msgq

/-- The word in front of a message (ff_queue.hpp 102, 133-138, 141-160, 232-233). -/
inductive Cell where
  /-- value 1: nothing behind -/
  | last
  /-- address of the next word in the same bucket -/
  | next (o : Nat)
  /-- address of another bucket, with the lowest bit set -/
  | jump (b : Nat)
  /-- whatever was in memory -/
  | junk
  deriving DecidableEq

/-- `msg_size` (ff_queue.hpp 121): the size rounded up to words, and the word in front. -/
def msgSize (sz : Nat) : Nat := (sz + 7) / 8 * 8 + 8

/-- `bucket_size` in `enqueue_prepare_slow` (ff_queue.hpp 206-208). -/
def newSize (bs sz : Nat) : Nat := if bs < sz + 16 then sz + 16 else bs

/-- The producer.  `again`: `enqueue_prepare` was called by `enqueue_prepare_slow` (238). -/
inductive PPc (D : Type) where
  | idle
  /-- in `enqueue_prepare` (118-131) -/
  | prep (d : D) (again : Bool)
  /-- in `enqueue_prepare_slow`, before the load of `head_pos_` (211) -/
  | slow (d : D) (again : Bool)
  /-- after it: the bucket of `head_pos` -/
  | loaded (d : D) (h : Nat) (again : Bool)
  /-- has a bucket (230-231) -/
  | fresh (d : D) (b : Nat)
  /-- its first word is set (232) -/
  | marked (d : D) (b : Nat)
  /-- `enqueue_prepare` has returned -/
  | ready (d : D)
  /-- the program has written the message -/
  | filled (d : D)
  /-- in `enqueue_commit`, after the first store (135) -/
  | ended (d : D)

/-- The consumer. -/
inductive CPc where
  | idle
  /-- in `dequeue_prepare`, will move to another bucket (156-157) -/
  | hop (b : Nat)
  /-- `dequeue_prepare` has returned a message -/
  | has
  /-- the program has read it -/
  | read

structure S (D : Type) where
  cell : Nat → Nat → Cell
  pay : Nat → Nat → Option D
  /-- `bucket->size` -/
  size : Nat → Nat
  /-- the bucket is allocated -/
  mem : Nat → Bool
  /-- the buckets from `last_bucket_` to `tail_bucket_`, linked by `next` -/
  chain : List Nat
  /-- `bucket_count_` -/
  count : Nat
  /-- `head_pos_` -/
  hb : Nat
  ho : Nat
  /-- `tail_pos_`, `tail_end_`, `tail_next_` -/
  tb : Nat
  t : Nat
  tend : Nat
  tnext : Nat
  p : PPc D
  c : CPc
  /-- ghost: the messages committed by the producer -/
  sent : List D
  /-- ghost: the messages read by the consumer -/
  got : List (Option D)

variable {D : Type}

def set2 {α : Type} (f : Nat → Nat → α) (b o : Nat) (v : α) : Nat → Nat → α :=
  fun b' o' => if b' = b ∧ o' = o then v else f b' o'

def set1 {α : Type} (f : Nat → α) (b : Nat) (v : α) : Nat → α := fun b' => if b' = b then v else f b'

/-- The constructor (ff_queue.hpp 90-104): one bucket of `bs` bytes. -/
def S.init (bs b : Nat) (pay : Nat → Nat → Option D) (cell : Nat → Nat → Cell) : S D :=
  { cell := set2 cell b 0 .last, pay, size := fun _ => bs, mem := fun b' => decide (b' = b), chain := [b], count := 1
    hb := b, ho := 0, tb := b, t := 0, tend := bs, tnext := 0, p := .idle, c := .idle, sent := [], got := [] }

/-- The loop of `enqueue_prepare_slow` (ff_queue.hpp 212-228) on the chain of buckets: the bucket to use again if there is one,
the rest of the chain, the buckets freed. -/
def reclaim (size : Nat → Nat) (bsz count maxc h : Nat) : List Nat → Option Nat × List Nat × List Nat
  | [] => (none, [], [])
  | b :: bs =>
    if b = h then (none, b :: bs, [])
    else if size b < bsz ∨ (maxc < count ∧ bs.head? ≠ some h) then
      let r := reclaim size bsz count maxc h bs
      (r.1, r.2.1, b :: r.2.2)
    else (some b, bs, [])

inductive Act (D : Type) where
  /-- the program calls `enqueue_prepare` for a message -/
  | start (d : D)
  | fast
  | load
  /-- the bucket that `malloc` gives if it is called -/
  | choose (nb : Nat)
  | mark
  | link
  | fill
  | commit1
  | commit2
  /-- load of `*head_pos_` in `dequeue_prepare` (144) -/
  | look
  | hop
  | get
  /-- `dequeue_commit` (162-167) -/
  | drop

/-- One action; `bs` and `maxc` are the arguments of the constructor, `sz` the size of a message. -/
def step (bs maxc : Nat) (sz : D → Nat) (s : S D) : Act D → Option (S D)
  | .start d =>
    match s.p with
    | .idle => some { s with p := .prep d false }
    | _ => none
  | .fast =>
    match s.p with
    | .prep d again =>
      if msgSize (sz d) + 8 ≤ s.tend - s.t then some { s with tnext := s.t + msgSize (sz d), p := .ready d }
      else some { s with p := .slow d again }
    | _ => none
  | .load =>
    match s.p with
    | .slow d again => some { s with p := .loaded d s.hb again }
    | _ => none
  | .choose nb =>
    match s.p with
    | .loaded d h _ =>
      let r := reclaim s.size (newSize bs (sz d)) s.count maxc h s.chain
      let mem' := fun b => s.mem b && !r.2.2.contains b
      match r.1 with
      | some b => some { s with mem := mem', chain := r.2.1, p := .fresh d b }
      | none =>
        if mem' nb = false then
          some { s with mem := set1 mem' nb true, size := set1 s.size nb (newSize bs (sz d)), chain := r.2.1
                        count := s.count + 1, p := .fresh d nb }
        else none
    | _ => none
  | .mark =>
    match s.p with
    | .fresh d b => some { s with cell := set2 s.cell b 0 .last, p := .marked d b }
    | _ => none
  | .link =>
    match s.p with
    | .marked d b =>
      some { s with cell := set2 s.cell s.tb s.t (.jump b), tb := b, t := 0, tend := newSize bs (sz d)
                    chain := s.chain ++ [b], p := .prep d true }
    | _ => none
  | .fill =>
    match s.p with
    | .ready d => some { s with pay := set2 s.pay s.tb s.t (some d), p := .filled d }
    | _ => none
  | .commit1 =>
    match s.p with
    | .filled d => some { s with cell := set2 s.cell s.tb s.tnext .last, p := .ended d }
    | _ => none
  | .commit2 =>
    match s.p with
    | .ended d =>
      some { s with cell := set2 s.cell s.tb s.t (.next s.tnext), t := s.tnext, sent := s.sent ++ [d], p := .idle }
    | _ => none
  | .look =>
    match s.c with
    | .idle =>
      match s.cell s.hb s.ho with
      | .last => some s
      | .next _ => some { s with c := .has }
      | .jump b => some { s with c := .hop b }
      | .junk => none
    | _ => none
  | .hop =>
    match s.c with
    | .hop b => some { s with hb := b, ho := 0, c := .idle }
    | _ => none
  | .get =>
    match s.c with
    | .has => some { s with got := s.got ++ [s.pay s.hb s.ho], c := .read }
    | _ => none
  | .drop =>
    match s.c with
    | .read =>
      match s.cell s.hb s.ho with
      | .next o => some { s with ho := o, c := .idle }
      | _ => none
    | _ => none

end FF.Msgq
