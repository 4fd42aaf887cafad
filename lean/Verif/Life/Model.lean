import Verif.Common.Trans
/-!
# C70: who owns a task, its serialised bytes and the message that carries them

Source: `/repo/ff/distributed/ff_ddefines.hpp` 52-123 (`serializedBuffer_t`, `message2_t`),
`/repo/ff/distributed/ff_messageAllocator.hpp` 8-50 (`MessageAllocator`), `/repo/ff/node.hpp` 1645-1703
(`freetaskF`, `serializeF`, `deserializeF`), `/repo/ff/distributed/ff_wrappers.hpp` 62-103, 146-192
(`WrapperINOUT::serialize`, `svc`), `/repo/ff/distributed/ff_dadapters.hpp` 131-213 (`EmitterAdapter2::forward`),
275-308 (`CollectorAdapter2::svc`), `/repo/ff/distributed/ff_dsenderMTCL.hpp` 394-459 (`uBuffer::push`),
`/repo/ff/distributed/ff_dreceiverMTCL.hpp` 74-145 (creation of the messages received).

Any number of wrapped nodes (threads `w`), one sender and one receiver share a set of message objects.  A
task, its serialised bytes and the bytes of a received message are blocks of memory; every access to a block
checks that the block is allocated, every access to a message checks that the thread holds the message, and a
failed check sets `bad`.

Simplifications.  A queue of messages is the set of the messages in it: the order is not part of this claim
(it is part of C43, C60 and C67).  The addressing fields of a message (`src`, `dest`, `type`, `locality`) are left out.
The allocator may hand out a new message although a recycled one is in its queue.  Flush messages are left out.
-/
namespace FF.Life
open FF

/-- function update -/
def upd {I V : Type} [DecidableEq I] (f : I → V) (i : I) (v : V) : I → V := fun j => if j = i then v else f j

@[simp] theorem upd_same {I V : Type} [DecidableEq I] (f : I → V) (i : I) (v : V) : upd f i v i = v := if_pos rfl
theorem upd_ne {I V : Type} [DecidableEq I] (f : I → V) {i j : I} (v : V) (h : j ≠ i) : upd f i v j = f j := if_neg h

/-- What the user's `serialize()` returned for a task (`serializedBuffer_t`, ff_ddefines.hpp 63-74; for
cereal: a new buffer, `copied` and no hook, node.hpp 1672-1679).  `owner` is the task itself when there is a
hook: then the hook releases what keeps the bytes alive. -/
structure Ser where
  bytes : List Nat
  /-- the bytes are in a buffer of their own (otherwise they belong to the task) -/
  copied : Bool
  /-- `release` is not null -/
  hook : Bool
  deriving DecidableEq, Repr

/-- Blocks of memory: the user's task `k`; the buffer that `serialize` allocated for task `k`; the bytes of
the `j`-th message received. -/
inductive Blk where
  | obj (k : Nat)
  | buf (k : Nat)
  | inp (j : Nat)
  deriving DecidableEq, Repr

/-- What the pointer `data` of a message refers to: the serialised bytes of task `k`, or the bytes of the
`j`-th message received. -/
inductive Dat where
  | out (k : Nat)
  | inp (j : Nat)
  deriving DecidableEq, Repr

/-- `message2_t` (ff_ddefines.hpp 76-87) -/
structure M where
  size : Nat
  data : Option Dat
  cleanup : Bool
  /-- `blobOwner` -/
  owner : Option Nat
  /-- `freeCallback` is not null -/
  hook : Bool
  deriving DecidableEq, Repr

/-- a new message (ff_ddefines.hpp 81-87, 90) -/
def M.new : M := { size := 0, data := none, cleanup := false, owner := none, hook := false }

/-- The program's own functions and the settings of the sender. -/
structure Cfg where
  /-- `serialize()` of the `k`-th task -/
  ser : Nat → Ser
  /-- the bytes of the `j`-th message received -/
  rbytes : Nat → List Nat
  /-- does `deserialize` copy the bytes of the `j`-th message received -/
  dcopied : Nat → Bool
  /-- node `w` is inside a `CollectorAdapter2` (otherwise in a `WrapperINOUT`) -/
  coll : Nat → Bool
  /-- `batchingLimit` and `sizeLimit` of the sender, `SINGLE_SEND_SIZE_THRESHOLD` -/
  batch : Nat
  limit : Nat
  thr : Nat

/-- A block was released. -/
inductive Rel where
  /-- `free(data)` in `cleanContent` -/
  | free (d : Dat)
  /-- `freeCallback(blobOwner, data, size)` in `cleanContent` -/
  | hook (owner : Option Nat) (d : Dat) (size : Nat)
  /-- `freetaskF(task)` -/
  | task (k : Nat)
  /-- by the program -/
  | user (b : Blk)
  deriving DecidableEq, Repr

inductive Life where
  | unborn | alive | dead
  deriving DecidableEq, Repr

/-- Who holds a message. -/
inductive Place where
  /-- not allocated -/
  | none
  /-- in the queue of the allocator -/
  | pool
  /-- the message that node `w` prepares for sending (`msg` in `serialize` or `forward`) -/
  | send (w : Nat)
  /-- the message that node `w` is working on (`msg` in `svc`) -/
  | hold (w : Nat)
  /-- `reusableMsg` of node `w` -/
  | reuse (w : Nat)
  /-- in the queue from node `w` to the sender -/
  | chan (w : Nat)
  /-- in the queue from the receiver to node `w` -/
  | inq (w : Nat)
  /-- the message that the sender works on -/
  | snd
  deriving DecidableEq, Repr

/-- Where node `w` is in `serialize` / `forward`. -/
inductive Pc where
  | idle
  /-- it has a message for task `k` -/
  | got (k m : Nat)
  /-- `serializeF` has returned -/
  | filled (k m : Nat)
  /-- the message has been sent -/
  | pushed (k : Nat)
  /-- the task has been given to a node of the same group -/
  | loc (k m : Nat)
  deriving DecidableEq, Repr

/-- Where the sender is in `push`. -/
inductive SPc where
  | idle
  | has (m : Nat)
  | sent (m : Nat)
  deriving DecidableEq, Repr

/-- What goes out on a connection: a message with payload, or a header with size 0. -/
inductive Wire where
  | data (d : Dat) (bytes : List Nat)
  | eos
  deriving DecidableEq, Repr

/-- ghost: the history of task `k` -/
inductive St where
  | new
  | got (w m : Nat)
  | filled (w m : Nat)
  | queued (w m : Nat)
  | sent (w m : Nat)
  | doneR (w : Nat)
  | loc (w m : Nat)
  | doneL
  deriving DecidableEq, Repr

/-- ghost: the history of the `j`-th message received -/
inductive StI where
  | new
  | inq (w m : Nat)
  | held (w m : Nat)
  | over
  deriving DecidableEq, Repr

structure S where
  mem : Nat → M
  place : Nat → Place
  life : Blk → Life
  pc : Nat → Pc
  hold : Nat → Option Nat
  reuse : Nat → Option Nat
  spc : SPc
  /-- the number of tasks created, of messages received -/
  next : Nat
  nextIn : Nat
  /-- the tasks given to nodes of the same group -/
  locals : List Nat
  /-- the received buffers that `deserialize` kept -/
  given : List Nat
  wire : List Wire
  log : List Rel
  bad : Bool
  /-- ghost -/
  st : Nat → St
  sti : Nat → StI

/-- The start: nothing is allocated.  (`MessageAllocator::init` puts new messages into the queue of the
allocator, 12-16: here they are allocated when they are needed.) -/
def S.init : S :=
  { mem := fun _ => M.new, place := fun _ => .none, life := fun _ => .unborn, pc := fun _ => .idle,
    hold := fun _ => none, reuse := fun _ => none, spc := .idle, next := 0, nextIn := 0, locals := [], given := [],
    wire := [], log := [], bad := false, st := fun _ => .new, sti := fun _ => .new }

/-- The block that holds the bytes `d`. -/
def Cfg.blk (c : Cfg) : Dat → Blk
  | .out k => if (c.ser k).copied then .buf k else .obj k
  | .inp j => .inp j

/-- The bytes `d`. -/
def Cfg.bytes (c : Cfg) : Dat → List Nat
  | .out k => (c.ser k).bytes
  | .inp j => c.rbytes j

def S.crash (s : S) : S := { s with bad := true }

/-- Releases block `b`: an error if it is not allocated. -/
def S.kill (s : S) (b : Blk) (r : Rel) : S :=
  if s.life b = .alive then { s with life := upd s.life b .dead, log := s.log ++ [r] } else s.crash

/-- The call of the release policy in `cleanContent` (ff_ddefines.hpp 103-108): the hook releases the owner
when the bytes belong to the task and the buffer otherwise; `free` of bytes that are inside a task is an
error. -/
def S.releaseData (c : Cfg) (s : S) (x : M) : S :=
  match x.data with
  | none => s
  | some d =>
    if x.cleanup then
      if x.hook then
        match d with
        | .out k =>
          if (c.ser k).copied then s.kill (.buf k) (.hook x.owner d x.size)
          else match x.owner with
            | some o => s.kill (.obj o) (.hook x.owner d x.size)
            | none => s.crash
        | .inp _ => s.crash
      else match d with
        | .out k => if (c.ser k).copied then s.kill (.buf k) (.free d) else s.crash
        | .inp j => s.kill (.inp j) (.free d)
    else s

/-- `cleanContent` (ff_ddefines.hpp 102-114) -/
def S.cleanContent (c : Cfg) (s : S) (m : Nat) : S :=
  let s' := s.releaseData c (s.mem m)
  { s' with mem := upd s'.mem m { size := 0, data := none, cleanup := false, owner := none, hook := false } }

/-- `delete m` (ff_ddefines.hpp 93) -/
def S.delete (c : Cfg) (s : S) (m : Nat) : S :=
  let s' := s.cleanContent c m
  { s' with place := upd s'.place m .none }

/-- `releaseMessage` (ff_messageAllocator.hpp 30-34); `keep`: there is room in the queue of the allocator -/
def S.release (c : Cfg) (s : S) (m : Nat) (keep : Bool) : S :=
  let s' := s.cleanContent c m
  if keep then { s' with place := upd s'.place m .pool } else s'.delete c m

/-- `allocateMessage` (ff_messageAllocator.hpp 24-28) returns `m`: a recycled message, or a new one -/
def S.alloc (s : S) (m : Nat) : Option S :=
  match s.place m with
  | .pool => some s
  | .none => some { s with mem := upd s.mem m M.new }
  | _ => none

inductive Act where
  /-- node `w` sends a new task: `serialize` 78-79 or `forward` 172, 201; `m`: the message the allocator
  returns if there is no `reusableMsg` -/
  | start (w m : Nat)
  /-- `serialize` 93-94, `forward` 177-178, 207-208 -/
  | fill (w : Nat)
  /-- `serialize` 96, `forward` 180, 209 -/
  | push (w : Nat)
  /-- `serialize` 99-100, `forward` 181, 210 -/
  | freeTask (w : Nat)
  /-- `forward` 161: the task has been serialised, the sender's queue was full, and a node of the same group
  had room -/
  | giveLocal (w : Nat)
  /-- `forward` 163-165 -/
  | dropMsg (w : Nat) (keep : Bool)
  /-- a node of the same group deletes the task it was given -/
  | userObj (k : Nat)
  /-- node `w` sends a logical EOS (`serialize` 65, `forward` 137) -/
  | eos (w m : Nat)
  /-- the receiver forwards a message to node `w` (81-96, 117-128) -/
  | recv (w m : Nat)
  /-- the receiver forwards a logical EOS to node `w` (104, 134) -/
  | recvEos (w m : Nat)
  /-- node `w` takes message `m` from its input: a logical EOS (`svc` 151-172, `CollectorAdapter2` 290-301), or
  `deserializeF` (178, 306) -/
  | take (w m : Nat)
  /-- the program deletes what keeps the `j`-th received buffer -/
  | userInp (j : Nat)
  /-- `svc` has returned: 179-187; `CollectorAdapter2` 307-308 -/
  | done (w : Nat) (keep : Bool)
  /-- the sender takes message `m` from the queue of node `w` -/
  | pop (w m : Nat)
  /-- `uBuffer::push` 400-434, 445-450: the bytes are copied or sent -/
  | send
  /-- `uBuffer::push` 436, 456 -/
  | finish (keep : Bool)
  deriving DecidableEq, Repr

/-- Is a message of this size sent on its own (`push` 400). -/
def Cfg.direct (c : Cfg) (size : Nat) : Bool := c.batch == 1 || decide (c.limit ≤ size)

/-- The message after `serializeF` and `cleanup = true` (node.hpp 1665-1670 or 1678, `serialize` 94). -/
def Cfg.fillM (c : Cfg) (k : Nat) : M :=
  { size := (c.ser k).bytes.length, data := some (.out k), cleanup := true,
    owner := if (c.ser k).hook then some k else none, hook := (c.ser k).hook }

/-- A message received (ff_dreceiverMTCL.hpp 82-93, 118-123): `owner` and `hook` are as they were. -/
def Cfg.recvM (c : Cfg) (j : Nat) (x : M) : M :=
  { x with size := (c.rbytes j).length, data := some (.inp j), cleanup := true }

/-- The message that node `w` uses for sending (`serialize` 78-79). -/
def S.takeMsg (s : S) (w m : Nat) : Option (S × Nat) :=
  match s.reuse w with
  | some r => if s.place r = .reuse w then some ({ s with reuse := upd s.reuse w none }, r)
              else some (s.crash, r)
  | none => match s.alloc m with
    | some s' => some (s', m)
    | none => none

def step (c : Cfg) (s : S) : Act → Option S
  | .start w m =>
    match s.pc w with
    | .idle =>
      match s.takeMsg w m with
      | some (s', r) =>
        some { s' with
          pc := upd s'.pc w (.got s'.next r), place := upd s'.place r (.send w), next := s'.next + 1,
          life := upd s'.life (.obj s'.next) .alive, st := upd s'.st s'.next (.got w r) }
      | none => none
    | _ => none
  | .fill w =>
    match s.pc w with
    | .got k m =>
      if s.place m = .send w then
        some { s with
          pc := upd s.pc w (.filled k m), mem := upd s.mem m (c.fillM k),
          life := if (c.ser k).copied then upd s.life (.buf k) .alive else s.life,
          st := upd s.st k (.filled w m) }
      else some s.crash
    | _ => none
  | .push w =>
    match s.pc w with
    | .filled k m =>
      if s.place m = .send w then
        some { s with
          pc := upd s.pc w (.pushed k), place := upd s.place m (.chan w), st := upd s.st k (.queued w m) }
      else some s.crash
    | _ => none
  | .freeTask w =>
    match s.pc w with
    | .pushed k =>
      let s' := if (c.ser k).copied then s.kill (.obj k) (.task k) else s
      some { s' with pc := upd s'.pc w .idle }
    | _ => none
  | .giveLocal w =>
    match s.pc w with
    | .filled k m =>
      some { s with pc := upd s.pc w (.loc k m), locals := s.locals ++ [k], st := upd s.st k (.loc w m) }
    | _ => none
  | .dropMsg w keep =>
    match s.pc w with
    | .loc k m =>
      if s.place m = .send w then
        let s1 := if (c.ser k).copied then s
          else { s with mem := upd s.mem m { s.mem m with cleanup := false } }
        let s2 := s1.release c m keep
        some { s2 with pc := upd s2.pc w .idle, st := upd s2.st k .doneL }
      else some s.crash
    | _ => none
  | .userObj k =>
    if k ∈ s.locals ∧ s.life (.obj k) = .alive then some (s.kill (.obj k) (.user (.obj k))) else none
  | .eos w m =>
    match s.pc w with
    | .idle =>
      match s.alloc m with
      | some s' => some { s' with place := upd s'.place m (.chan w) }
      | none => none
    | _ => none
  | .recv w m =>
    match s.alloc m with
    | some s' =>
      some { s' with
        place := upd s'.place m (.inq w), mem := upd s'.mem m (c.recvM s'.nextIn (s'.mem m)),
        nextIn := s'.nextIn + 1, life := upd s'.life (.inp s'.nextIn) .alive,
        sti := upd s'.sti s'.nextIn (.inq w m) }
    | none => none
  | .recvEos w m =>
    match s.alloc m with
    | some s' => some { s' with place := upd s'.place m (.inq w) }
    | none => none
  | .take w m =>
    match s.pc w, s.hold w with
    | .idle, none =>
      if s.place m = .inq w then
        if (s.mem m).size = 0 then some (s.delete c m)
        else match (s.mem m).data with
          | some (.inp j) =>
            if s.life (.inp j) = .alive then
              some { s with
                hold := upd s.hold w (some m), place := upd s.place m (.hold w),
                given := if c.dcopied j then s.given else s.given ++ [j],
                sti := upd s.sti j (.held w m) }
            else some s.crash
          | _ => some s.crash
      else none
    | _, _ => none
  | .userInp j =>
    if j ∈ s.given ∧ s.life (.inp j) = .alive then some (s.kill (.inp j) (.user (.inp j))) else none
  | .done w keep =>
    match s.pc w, s.hold w with
    | .idle, some m =>
      if s.place m = .hold w then
        match (s.mem m).data with
        | some (.inp j) =>
          let s1 := if c.dcopied j then s
            else { s with mem := upd s.mem m { s.mem m with cleanup := false } }
          let s2 :=
            if c.coll w = true ∨ (s.reuse w).isSome then s1.release c m keep
            else
              let s' := s1.cleanContent c m
              { s' with reuse := upd s'.reuse w (some m), place := upd s'.place m (.reuse w) }
          some { s2 with hold := upd s2.hold w none, sti := upd s2.sti j .over }
        | _ => some s.crash
      else some s.crash
    | _, _ => none
  | .pop w m =>
    match s.spc with
    | .idle => if s.place m = .chan w then some { s with spc := .has m, place := upd s.place m .snd } else none
    | _ => none
  | .send =>
    match s.spc with
    | .has m =>
      if s.place m = .snd then
        if (s.mem m).size = 0 then some { s with spc := .sent m, wire := s.wire ++ [.eos] }
        else match (s.mem m).data with
          | some d =>
            if s.life (c.blk d) = .alive then
              some { s with
                spc := .sent m, wire := s.wire ++ [.data d (c.bytes d)],
                mem := if c.direct (s.mem m).size ∧ c.thr < (s.mem m).size
                  then upd s.mem m { s.mem m with size := 0 } else s.mem,
                st := match d with
                  | .out k => match s.st k with
                    | .queued w _ => upd s.st k (.sent w m)
                    | _ => s.st
                  | .inp _ => s.st }
            else some s.crash
          | none => some s.crash
      else some s.crash
    | _ => none
  | .finish keep =>
    match s.spc with
    | .sent m =>
      if s.place m = .snd then
        let s' := s.release c m keep
        some { s' with
          spc := .idle,
          st := match (s.mem m).data with
            | some (.out k) => match s.st k with
              | .sent w _ => upd s'.st k (.doneR w)
              | _ => s'.st
            | _ => s'.st }
      else some s.crash
    | _ => none

abbrev Reachable (c : Cfg) (s : S) : Prop := Reach (step c) S.init s

end FF.Life
