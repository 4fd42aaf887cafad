import Verif.Common.Trans
import Verif.Node.Model
import Verif.Net.Wire
/-!
# Model of the sender of the distributed runtime

`uBuffer`, `uBufferAllocator` and the credit counters of `ff_dsenderMTCL2`
(`ff/distributed/ff_dsenderMTCL.hpp`), with the transport and the acknowledgements of the receivers.

The sender is one thread.  Its calls are split where it can wait: for a free buffer, and for a credit.
While one connection waits the model also lets the other connections go on, so the behaviours of the code
are among those of the model.  A buffer given to `isend` is read when the transport sends it, which may be
any time later (`tx`), unless the transport copies it at once (`Cfg.copies`).  Errors of the transport are
not modelled.
-/
namespace FF.Net.Sender
open FF FF.Net FF.Node

/-- The parameters: messages in a batch, bytes in a batch, messages on the fly
(ff/distributed/ff_dsenderMTCL.hpp:289), acknowledgements compiled in (`DFF_ACK`), and whether the transport
copies at once. -/
structure Cfg where
  batch : Nat
  limit : Nat
  otf : Nat
  acks : Bool
  copies : Bool

/-- `uBuffer_buf` (ff/distributed/ff_dsenderMTCL.hpp:61-65): the two memory blocks. -/
structure Buf where
  pay : List Nat
  hdr : List Nat

/-- Size of the payload block (ff/distributed/ff_dsenderMTCL.hpp:297-300). -/
def Cfg.paySize (cfg : Cfg) : Nat := 2 * max cfg.limit THRESH + cfg.batch * HS + 4

/-- Size of the header block (ff/distributed/ff_dsenderMTCL.hpp:73). -/
def Cfg.hdrSize (cfg : Cfg) : Nat := cfg.batch * HS

/-- A transfer given to the transport and not sent: from a buffer; copied at once; the payload of a big
message (`send` returns when it is taken). -/
inductive Flight where
  | ref (b len : Nat)
  | copy (bytes : List Nat)
  | raw (bytes : List Nat)
  deriving DecidableEq

/-- The transfer is a batch (or a direct send), not the payload of a big message. -/
def Flight.isBatch : Flight → Bool
  | .raw _ => false
  | _ => true

/-- Where the sender is with this connection: between calls; in `flush`, before the wait for a credit, and
the message to send directly afterwards, if any; in the direct send, before the wait for a credit. -/
inductive Pc where
  | idle
  | flushing (next : Option Msg)
  | direct (m : Msg)
  deriving DecidableEq

/-- A connection: `uBuffer` (ff/distributed/ff_dsenderMTCL.hpp:119-130), the transport, and the
acknowledgements: batches given to the transport, sent by it, handled by the receiver, and
acknowledgements the sender has not read. -/
structure Conn where
  buf : Option Nat
  n : Nat
  cur : Nat
  pc : Pc
  credit : Int
  flight : List Flight
  wire : List (List Nat)
  sent : Nat
  txd : Nat
  handled : Nat
  back : Nat

/-- The sender: buffers allocated, the queue of released buffers, the connections; `bad`: a write fell
outside a buffer. -/
structure S where
  bufs : Nat → Buf
  nb : Nat
  free : List Nat
  conn : Nat → Conn
  bad : Bool

/-- The sender after `svc_init` (ff/distributed/ff_dsenderMTCL.hpp:291-331): two buffers, full credit; the
memory has any content. -/
def init (cfg : Cfg) (junk : Nat → Nat → Nat) : S where
  bufs := fun b => ⟨(List.range cfg.paySize).map (junk b), (List.range cfg.hdrSize).map (junk b)⟩
  nb := 2
  free := [0, 1]
  conn := fun _ => ⟨none, 0, 0, .idle, cfg.otf, [], [], 0, 0, 0, 0⟩
  bad := false

/-- `memcpy` of `bytes` at `off`. -/
def wr (l : List Nat) (off : Nat) (bytes : List Nat) : List Nat :=
  l.take off ++ bytes ++ l.drop (off + bytes.length)

/-- The write is inside the block. -/
def fits (l : List Nat) (off : Nat) (bytes : List Nat) : Bool := decide (off + bytes.length ≤ l.length)

/-- The bytes of a transfer. -/
def content (bufs : Nat → Buf) : Flight → List Nat
  | .ref b len => (bufs b).pay.take len
  | .copy l => l
  | .raw l => l

/-- `MTCL::test(b->r)`: no transfer from the buffer is under way; on the connections below `nc`. -/
def Quiet (s : S) (b : Nat) : Prop := ∀ c len, Flight.ref b len ∉ (s.conn c).flight

/-- The effective payload in the first frame of a direct send (ff/distributed/ff_dsenderMTCL.hpp:406-408). -/
def inline (m : Msg) : List Nat := if m.data.length > THRESH then [] else m.data

/-- Writing a direct send in the buffer (ff/distributed/ff_dsenderMTCL.hpp:406-416). -/
def fillDirect (s : S) (c b : Nat) (m : Msg) : S :=
  let p0 := (s.bufs b).pay
  let d := inline m
  let h := header m m.data.length
  { s with
    bufs := upd s.bufs b { s.bufs b with pay := wr (wr (wr p0 0 d) d.length h) (d.length + HS) (be 4 1) }
    conn := upd s.conn c { s.conn c with pc := .direct m }
    bad := s.bad || !(fits p0 0 d && fits p0 d.length h && fits p0 (d.length + HS) (be 4 1)) }

/-- The end of a batch in the buffer (ff/distributed/ff_dsenderMTCL.hpp:466-471). -/
def trailer (s : S) (c b : Nat) (next : Option Msg) : S :=
  let k := s.conn c
  let h := (s.bufs b).hdr.take (k.n * HS)
  let p0 := (s.bufs b).pay
  { s with
    bufs := upd s.bufs b { s.bufs b with pay := wr (wr p0 k.cur h) (k.cur + h.length) (be 4 k.n) }
    conn := upd s.conn c { k with cur := k.cur + k.n * HS + 4, pc := .flushing next }
    bad := s.bad || !(fits p0 k.cur h && fits p0 (k.cur + h.length) (be 4 k.n) &&
      decide (k.n * HS ≤ (s.bufs b).hdr.length)) }

/-- A message put in the batch (ff/distributed/ff_dsenderMTCL.hpp:445-450). -/
def fillBatch (s : S) (c b : Nat) (m : Msg) : S :=
  let k := s.conn c
  let h := header m m.data.length
  { s with
    bufs := upd s.bufs b ⟨wr (s.bufs b).pay k.cur m.data, wr (s.bufs b).hdr (k.n * HS) h⟩
    conn := upd s.conn c { k with n := k.n + 1, cur := k.cur + m.data.length }
    bad := s.bad || !(fits (s.bufs b).pay k.cur m.data && fits (s.bufs b).hdr (k.n * HS) h) }

/-- `isend` of the first `len` bytes of the buffer. -/
def flightOf (cfg : Cfg) (s : S) (b len : Nat) : Flight :=
  if cfg.copies then .copy ((s.bufs b).pay.take len) else .ref b len

/-- What can happen: the sender takes a buffer for the connection (the test of its request is part of the
schedule); pushes a message; flushes; gets a credit and sends; the transport sends the next transfer of the
connection; the receiver acknowledges a batch; the sender reads an acknowledgement. -/
inductive Act where
  | acquire (c b : Nat)
  | push (c : Nat) (m : Msg)
  | flush (c : Nat)
  | send (c : Nat)
  | tx (c : Nat)
  | ack (c : Nat)
  | getAck (c : Nat)

open Classical in
/-- One step. -/
noncomputable def step (cfg : Cfg) (s : S) : Act → Option S
  -- `uBufferAllocator::alloc` (ff/distributed/ff_dsenderMTCL.hpp:85-101, 395-398)
  | .acquire c b =>
    if (s.conn c).pc ≠ .idle ∨ (s.conn c).buf ≠ none then none
    else if s.free = [] then
      if b = s.nb then
        some { s with nb := s.nb + 1, conn := upd s.conn c { s.conn c with buf := some b, cur := 0 } }
      else none
    else if b ∈ s.free ∧ Quiet s b then
      some { s with
        free := s.free.erase b
        conn := upd s.conn c { s.conn c with buf := some b, cur := 0 } }
    else none
  -- `uBuffer::push` (ff/distributed/ff_dsenderMTCL.hpp:400-457)
  | .push c m =>
    let k := s.conn c
    match k.pc, k.buf with
    | .idle, some b =>
      if cfg.batch = 1 ∨ cfg.limit ≤ m.data.length then
        if k.n ≠ 0 then some (trailer s c b (some m)) else some (fillDirect s c b m)
      else
        let s1 := fillBatch s c b m
        if k.n + 1 = cfg.batch ∨ cfg.limit ≤ k.cur + m.data.length ∨ m.data.length = 0 ∨ m.type = 1 then
          some (trailer s1 c b none)
        else some s1
    | _, _ => none
  -- `uBuffer::flush` (ff/distributed/ff_dsenderMTCL.hpp:461-471)
  | .flush c =>
    match (s.conn c).pc, (s.conn c).buf with
    | .idle, some b => if (s.conn c).n = 0 then some s else some (trailer s c b none)
    | .idle, none => some s
    | _, _ => none
  -- the credit and `isend` (ff/distributed/ff_dsenderMTCL.hpp:418-442, 473-497)
  | .send c =>
    let k := s.conn c
    if cfg.acks = true ∧ k.credit = 0 then none
    else
      let credit := if cfg.acks then k.credit - 1 else k.credit
      match k.pc, k.buf with
      | .flushing none, some b =>
        some { s with
          free := b :: s.free
          conn := upd s.conn c { k with
            buf := none, n := 0, cur := 0, pc := .idle, credit := credit, sent := k.sent + 1
            flight := k.flight ++ [flightOf cfg s b k.cur] } }
      | .flushing (some m), some b =>
        some (fillDirect { s with
          conn := upd s.conn c { k with
            n := 0, cur := 0, credit := credit, sent := k.sent + 1
            flight := k.flight ++ [flightOf cfg s b k.cur] } } c b m)
      | .direct m, some b =>
        some { s with
          free := b :: s.free
          conn := upd s.conn c { k with
            buf := none, n := 0, cur := 0, pc := .idle, credit := credit, sent := k.sent + 1
            flight := k.flight ++ flightOf cfg s b ((inline m).length + HS + 4) ::
              (if m.data.length > THRESH then [.raw m.data] else []) } }
      | _, _ => none
  -- the transport
  | .tx c =>
    let k := s.conn c
    match k.flight with
    | [] => none
    | x :: xs =>
      some { s with conn := upd s.conn c { k with
        flight := xs, wire := k.wire ++ [content s.bufs x]
        txd := if x.isBatch then k.txd + 1 else k.txd } }
  -- the receiver handles a batch (ff/distributed/ff_dreceiverMTCL.hpp:68-72)
  | .ack c =>
    let k := s.conn c
    if k.handled < k.txd then
      some { s with conn := upd s.conn c { k with handled := k.handled + 1, back := k.back + 1 } }
    else none
  -- `waitAckFrom`, `waitAckFromAny` (ff/distributed/ff_dsenderMTCL.hpp:203-254)
  | .getAck c =>
    let k := s.conn c
    if k.back = 0 then none
    else some { s with conn := upd s.conn c { k with back := k.back - 1, credit := k.credit + 1 } }

/-! ## Specification -/

/-- What goes on the wire as one unit. -/
inductive Sent where
  | batch (ms : List Msg)
  | direct (m : Msg)

/-- The messages in a unit. -/
def Sent.msgs : Sent → List Msg
  | .batch ms => ms
  | .direct m => [m]

/-- The frames of a unit. -/
def Sent.frames : Sent → List (List Nat)
  | .batch ms => [batchFrame ms]
  | .direct m => directFrames m

/-- The messages given to connection `c` by the schedule. -/
def pushed (c : Nat) : List Act → List Msg
  | [] => []
  | .push d m :: as => if d = c then m :: pushed c as else pushed c as
  | _ :: as => pushed c as

end FF.Net.Sender
