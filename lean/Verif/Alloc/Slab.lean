import Verif.Common.Trans
import Verif.Common.Mem
import Verif.Node.Model
import Verif.Alloc.Class
/-!
# The slab allocator `ff_allocator` (`ff/allocator.hpp`)

One owner thread allocates with `malloc` and `posix_memalign`; any thread frees.  The model keeps
byte addressed memory, in which the records `Seg_ctl` (24 bytes at the start of a segment:
`cacheentry`, `allocator`, `availbuffers`; ff/allocator.hpp:331-344) and `Buf_ctl` (8 bytes in front
of every buffer; 319) lie between the bytes of the user.

Every thread takes small steps; the steps of different threads interleave in any order.

Simplifications: the leak queues are the unbounded FIFO queues that C08 is about.  A cache is known
by its number `c` (0..8) and the word `cacheentry` contains `c`.  The array `fb` of registered
threads is a list that grows (the code reallocates it while other threads may read it: a race if
more than 32 threads register, not modelled).  Not modelled: `delayedReclaim`, `realloc`, `growsup`,
the destructors, the statistics, failure of the system allocator.
-/
namespace FF.Alloc.Slab
open FF.Mem FF.Node

/-- Numbers of 8 bytes. -/
abbrev W : Nat := 18446744073709551616

/-- Number of buffers of a segment, for each class: argument of `init`, ff/allocator.hpp:1002. -/
structure Cfg where
  nsl : Nat → Nat

/-- Length of a segment (ff/allocator.hpp:459-460). -/
def Cfg.slen (G : Cfg) (c : Nat) : Nat := bsz c * G.nsl c + 24 + G.nsl c * 8

/-- Address of the `Buf_ctl` of buffer `k` of the segment at `a`. -/
def hb (c a k : Nat) : Nat := a + 24 + k * (bsz c + 8)

/-- Memory obtained from the system: address, length, and the class of a segment (`none`: obtained
with `::malloc` for one request). -/
structure Reg where
  a : Nat
  len : Nat
  cls : Option Nat
  deriving DecidableEq

/-- A request: `malloc(n)` if `al = 0`, else `posix_memalign(al, n)`. -/
structure Req where
  al : Nat
  n : Nat
  deriving DecidableEq

/-- Bytes to be found (`realsize`, ff/allocator.hpp:1166).  Simplification: the sum does not wrap
around at 2^64. -/
def Req.real (r : Req) : Nat := r.n + r.al

/-- An allocation in the hands of the user: the pointer and size the user knows, and, ghost, the
address of the block it was taken from and its class. -/
structure Ent where
  p : Nat
  n : Nat
  al : Nat
  blk : Nat
  cls : Option Nat
  deriving DecidableEq

/-- Where the owner is in `malloc`. -/
inductive OPc where
  | idle
  | sys (r : Req)
  | pop (r : Req) (c i : Nat)
  | slab (r : Req) (c : Nat)
  | carve (r : Req) (c : Nat)
  | got (r : Req) (c b : Nat)
  deriving DecidableEq

/-- Where a thread is in `free`; `e` is the allocation it frees. -/
inductive FPc where
  | idle
  | walk (e : Ent) (b : Nat)
  | put (e : Ent) (b : Nat)
  | push (e : Ent) (c b : Nat)
  | recl (e : Ent) (c b : Nat)
  deriving DecidableEq

/-- Ghost: where a block is. -/
inductive Pl where
  | none
  | fresh
  | own
  | live
  | fr (t : Nat)
  | q (c t : Nat)
  | hand
  | gone
  deriving DecidableEq

structure S where
  mem : Mem
  /-- memory held from the system -/
  regs : List Reg
  /-- `buffptr`, ff/allocator.hpp:833 -/
  bufp : Nat → Nat
  /-- `availbuffers`, ff/allocator.hpp:834 -/
  avail : Nat → Nat
  /-- registered threads, ff/allocator.hpp:828 -/
  fb : Nat → List Nat
  /-- leak queue of a thread in a cache -/
  q : Nat → Nat → List Nat
  /-- `lastqueue`, ff/allocator.hpp:842 -/
  lastq : Nat → Nat
  /-- `nomoremalloc`, ff/allocator.hpp:837 -/
  nomore : Nat → Bool
  /-- `deregisterAllocator` has been called: no more requests -/
  closed : Bool
  own : OPc
  fr : Nat → FPc
  /-- block popped by `deregisterAllocator`, not yet reclaimed -/
  dr : Option (Nat × Nat)
  /-- the system's `free` has been called on an address that it did not give -/
  bad : Bool
  live : List Ent
  pl : Nat → Pl

inductive Act where
  | start (r : Req)
  | sysm (a : Nat)
  | popk
  | slab (a : Nat)
  | prealloc (c a : Nat)
  | carve
  | fin
  | write (e : Ent) (off v : Nat)
  | free (t : Nat) (e : Ent)
  | walk (t : Nat)
  | put (t : Nat)
  | push (t : Nat)
  | recl (t : Nat)
  | dereg (c : Nat)
  | drain (c t : Nat)
  | drecl

/-- The system gives memory that it has not given before, aligned, not at address 0 and inside the
address space. -/
def S.newRegion (s : S) (a len : Nat) : Bool :=
  decide (0 < a ∧ a % 8 = 0 ∧ a + len < W) &&
    s.regs.all fun r => decide (r.a + r.len ≤ a ∨ a + len ≤ r.a)

/-- `for(p=buf; p!=ptraligned; p++) p->ptr = v` over `k` words (ff/allocator.hpp:1195-1197). -/
def fill (m : Mem) (a v : Nat) : Nat → Mem
  | 0 => m
  | k + 1 => st (fill m a v k) (a + 8 * k) v

/-- The headers of the buffers of a segment. -/
def Cfg.blocks (G : Cfg) (c a : Nat) : List Nat := (List.range (G.nsl c)).map (hb c a)

/-- `::free(a)`; an address that the system did not give is an error. -/
def S.sysFree (s : S) (a : Nat) : S :=
  match s.regs.find? fun r => decide (r.a = a) with
  | some r => { s with regs := s.regs.erase r }
  | Option.none => { s with bad := true }

/-- `checkReclaim` (ff/allocator.hpp:522-532): one more buffer of the segment `sg` is available; when
all are, the segment goes back to the system (`freeslab`, 498-510).  It runs under the lock of the
cache, hence it is one step. -/
def S.reclaim (G : Cfg) (s : S) (c sg b : Nat) : S :=
  let v := ld s.mem (sg + 16) + 1
  let s1 := { s with mem := st s.mem (sg + 16) v, pl := upd s.pl b .gone }
  if v = G.nsl c then
    let s2 := s1.sysFree sg
    { s2 with pl := fun x => if x ∈ G.blocks c sg then .none else s1.pl x }
  else s1

/-- `newslab` (ff/allocator.hpp:451-485) when the system gives the segment at `a`. -/
def S.newslab (G : Cfg) (s : S) (c a : Nat) : S :=
  { s with
    regs := ⟨a, G.slen c, some c⟩ :: s.regs
    mem := st (st (st (st s.mem a c) (a + 8) 1) (a + 16) (G.nsl c)) (a + 24) a
    bufp := upd s.bufp c (a + 24)
    avail := upd s.avail c (s.avail c + G.nsl c)
    pl := fun x => if x ∈ G.blocks c a then .fresh else s.pl x }

/-- One step.

`start`: `malloc` (ff/allocator.hpp:1126-1132) or `posix_memalign` (1163-1173) chooses the path; a
cache with fresh buffers gives one of them (743), otherwise the leak queues are looked at (766).
`sysm`: the request is served by the system (1134-1137, 1175-1182).
`popk`: one round of `getfrom_fb` (569-576); after the last one a new segment is needed (777).
`slab`: `newslab` (451-485); `prealloc`: the same, called by `init` (658).  `carve`: `getitem` takes the next fresh buffer (744-762).
`fin`: `malloc` returns the buffer (1145), `posix_memalign` fills the words in front of the aligned
address (1189-1200).
`write`: the user stores a byte in an allocation.
`free`: `free(void*)` looks at the word in front of the pointer (1224-1233).  `walk`: the loop
(1234-1237).  `put`: `putitem` reads the segment, its cache and `nomoremalloc` (788-801; 1238, 915-921,
930-935).  `push`: the thread registers if necessary (673-707) and pushes into its queue (807-813).
`recl`: `checkReclaim` (801).
`dereg`, `drain`, `drecl`: `deregisterAllocator` (712-731). -/
def step (G : Cfg) (s : S) : Act → Option S
  | .start r =>
    if s.own = .idle ∧ s.closed = false ∧ (r.al ≠ 0 → isPowerOfTwoMultiple r.al 8 = true) ∧
        r.al < W then
      match path G.nsl r.real with
      | .system => some { s with own := .sys r }
      | .slab c =>
        if s.avail c ≠ 0 then some { s with own := .carve r c } else some { s with own := .pop r c 0 }
      | .undef => Option.none
    else Option.none
  | .sysm a =>
    match s.own with
    | .sys r =>
      if s.newRegion a (r.real + 8) then
        if r.al = 0 then
          some { s with
            own := .idle
            mem := st s.mem a 0
            regs := ⟨a, r.real + 8, Option.none⟩ :: s.regs
            live := s.live ++ [⟨a + 8, r.n, 0, a, Option.none⟩] }
        else
          some { s with
            own := .idle
            mem := st (st s.mem a 0) (alignUp (a + 8) r.al - 8) 0
            regs := ⟨a, r.real + 8, Option.none⟩ :: s.regs
            live := s.live ++ [⟨alignUp (a + 8) r.al, r.n, r.al, a, Option.none⟩] }
      else Option.none
    | _ => Option.none
  | .popk =>
    match s.own with
    | .pop r c i =>
      if i < (s.fb c).length then
        let k := (s.lastq c + i) % (s.fb c).length
        let t := (s.fb c).getD k 0
        match s.q c t with
        | b :: rest =>
          some { s with
            own := .got r c b
            lastq := upd s.lastq c k
            q := upd s.q c (upd (s.q c) t rest)
            pl := upd s.pl b .own }
        | [] => some { s with own := .pop r c (i + 1) }
      else some { s with own := .slab r c }
    | _ => Option.none
  | .slab a =>
    match s.own with
    | .slab r c =>
      if s.newRegion a (G.slen c) then
        some { s.newslab G c a with own := .carve r c }
      else Option.none
    | _ => Option.none
  | .prealloc c a =>
    if s.own = .idle ∧ s.closed = false ∧ c < 9 ∧ 0 < G.nsl c ∧ s.avail c = 0 ∧
        s.newRegion a (G.slen c) then
      some (s.newslab G c a)
    else Option.none
  | .carve =>
    match s.own with
    | .carve r c =>
      let b := s.bufp c
      let sg := ld s.mem b
      let m1 := st s.mem (sg + 16) (ld s.mem (sg + 16) - 1)
      let av := s.avail c - 1
      some { s with
        own := .got r c b
        avail := upd s.avail c av
        bufp := upd s.bufp c (if av ≠ 0 then b + 8 + bsz c else 0)
        mem := if av ≠ 0 then st m1 (b + 8 + bsz c) sg else m1
        pl := upd s.pl b .own }
    | _ => Option.none
  | .fin =>
    match s.own with
    | .got r c b =>
      if r.al = 0 then
        some { s with
          own := .idle
          live := s.live ++ [⟨b + 8, r.n, 0, b, some c⟩]
          pl := upd s.pl b .live }
      else
        let p := alignUp (b + 8) r.al
        some { s with
          own := .idle
          mem := fill s.mem (b + 8) (ld s.mem b) ((p - (b + 8)) / 8)
          live := s.live ++ [⟨p, r.n, r.al, b, some c⟩]
          pl := upd s.pl b .live }
    | _ => Option.none
  | .write e off v =>
    if e ∈ s.live ∧ off < e.n then some { s with mem := stb s.mem (e.p + off) v } else Option.none
  | .free t e =>
    if e ∈ s.live ∧ s.fr t = .idle then
      let b := e.p - 8
      if ld s.mem b = 0 then
        some { s.sysFree b with live := s.live.erase e }
      else
        some { s with live := s.live.erase e, fr := upd s.fr t (.walk e b), pl := upd s.pl e.blk (.fr t) }
    else Option.none
  | .walk t =>
    match s.fr t with
    | .walk e b =>
      if ld s.mem b = ld s.mem (b - 8) then some { s with fr := upd s.fr t (.walk e (b - 8)) }
      else some { s with fr := upd s.fr t (.put e b) }
    | _ => Option.none
  | .put t =>
    match s.fr t with
    | .put e b =>
      let c := ld s.mem (ld s.mem b)
      if s.nomore c then some { s with fr := upd s.fr t (.recl e c b) }
      else some { s with fr := upd s.fr t (.push e c b) }
    | _ => Option.none
  | .push t =>
    match s.fr t with
    | .push _ c b =>
      some { s with
        fr := upd s.fr t .idle
        fb := if t ∈ s.fb c then s.fb else upd s.fb c (s.fb c ++ [t])
        q := upd s.q c (upd (s.q c) t (s.q c t ++ [b]))
        pl := upd s.pl b (.q c t) }
    | _ => Option.none
  | .recl t =>
    match s.fr t with
    | .recl _ c b => some { s.reclaim G c (ld s.mem b) b with fr := upd s.fr t .idle }
    | _ => Option.none
  | .dereg c =>
    if s.own = .idle then some { s with nomore := upd s.nomore c true, closed := true }
    else Option.none
  | .drain c t =>
    if s.nomore c ∧ s.dr = Option.none then
      match s.q c t with
      | b :: rest =>
        some { s with dr := some (c, b), q := upd s.q c (upd (s.q c) t rest), pl := upd s.pl b .hand }
      | [] => Option.none
    else Option.none
  | .drecl =>
    match s.dr with
    | some (c, b) => some { s.reclaim G c (ld s.mem b) b with dr := Option.none }
    | Option.none => Option.none

/-- After the constructor and `init(_nslabs, false)` (ff/allocator.hpp:1002-1042): no segment yet.
`init(_nslabs, true)` continues with a step `prealloc` for every cache. -/
def S.start (m : Mem) : S where
  mem := m
  regs := []
  bufp := fun _ => 0
  avail := fun _ => 0
  fb := fun _ => []
  q := fun _ _ => []
  lastq := fun _ => 0
  nomore := fun _ => false
  closed := false
  own := .idle
  fr := fun _ => .idle
  dr := Option.none
  bad := false
  live := []
  pl := fun _ => .none

end FF.Alloc.Slab
