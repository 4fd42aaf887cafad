import Verif.Net.SenderModel
/-!
# C43, C45: the sender of the distributed runtime
-/
namespace FF.Net.Sender
open FF FF.Net FF.Node

/-! ## Memory -/

theorem wr_take {l : List Nat} {off : Nat} {bs : List Nat} (h : off ≤ l.length) :
    (wr l off bs).take (off + bs.length) = l.take off ++ bs := by
  unfold wr
  exact List.take_left' (by simp; omega)

theorem wr_take' {l : List Nat} {off : Nat} {bs : List Nat} {n : Nat} (h : off ≤ l.length)
    (hn : n = off + bs.length) : (wr l off bs).take n = l.take off ++ bs := by
  subst hn; exact wr_take h

theorem wr_length {l : List Nat} {off : Nat} {bs : List Nat} (h : off + bs.length ≤ l.length) :
    (wr l off bs).length = l.length := by
  simp [wr]; omega

theorem inline_length (m : Msg) : (inline m).length ≤ THRESH := by
  unfold inline; split
  · simp
  · omega

/-- The first frame of a direct send. -/
def first (m : Msg) : List Nat := inline m ++ header m m.data.length ++ be 4 1

theorem directFrames_eq (m : Msg) : directFrames m =
    first m :: (if m.data.length > THRESH then [m.data] else []) := by
  unfold directFrames first inline
  split <;> simp

/-! ## Invariants -/

/-- The message the connection has taken but not put in a unit yet. -/
def hold : Pc → List Msg
  | .idle => []
  | .flushing none => []
  | .flushing (some m) => [m]
  | .direct m => [m]

/-- The state of a connection that has been given the messages `P`. -/
structure CI (cfg : Cfg) (bufs : Nat → Buf) (k : Conn) (P : List Msg) (us : List Sent)
    (pend : List Msg) : Prop where
  all : us.flatMap Sent.msgs ++ pend ++ hold k.pc = P
  out : k.wire ++ k.flight.map (content bufs) = us.flatMap Sent.frames
  num : us.length = k.sent
  nn : pend.length = k.n
  nobuf : k.buf = none → k.pc = .idle ∧ pend = []
  small : ∀ m ∈ pend, m.data.length < cfg.limit
  usok : ∀ ms, Sent.batch ms ∈ us →
    ms ≠ [] ∧ ms.length ≤ cfg.batch ∧ ∀ m ∈ ms, m.data.length < cfg.limit
  idle : k.pc = .idle → ∀ b, k.buf = some b →
    (bufs b).pay.take k.cur = (pend.map Msg.data).flatten ∧
    k.cur = ((pend.map Msg.data).flatten).length ∧
    (bufs b).hdr.take (k.n * HS) = (pend.map fun m => header m m.data.length).flatten ∧
    (pend ≠ [] → pend.length < cfg.batch ∧ k.cur < cfg.limit)
  fl : ∀ nx, k.pc = .flushing nx → (pend ≠ [] ∧ pend.length ≤ cfg.batch) ∧
    (nx ≠ none → cfg.copies = true) ∧ ∀ b, k.buf = some b → (bufs b).pay.take k.cur = batchFrame pend
  dr : ∀ m, k.pc = .direct m → pend = [] ∧
    ∀ b, k.buf = some b → (bufs b).pay.take ((inline m).length + HS + 4) = first m

/-- The buffers. -/
structure G (cfg : Cfg) (s : S) : Prop where
  nodup : s.free.Nodup
  lt : ∀ b ∈ s.free, b < s.nb
  own : ∀ c b, (s.conn c).buf = some b → b < s.nb ∧ b ∉ s.free
  inj : ∀ c d b, (s.conn c).buf = some b → (s.conn d).buf = some b → c = d
  ref : ∀ c b len, Flight.ref b len ∈ (s.conn c).flight → b ∈ s.free
  good : s.bad = false
  pay : ∀ b, (s.bufs b).pay.length = cfg.paySize
  hdr : ∀ b, (s.bufs b).hdr.length = cfg.hdrSize
  copies : cfg.copies = true → ∀ c b len, Flight.ref b len ∉ (s.conn c).flight

structure Inv (cfg : Cfg) (P : Nat → List Msg) (s : S) : Prop where
  g : G cfg s
  c : ∀ c, ∃ us pend, CI cfg s.bufs (s.conn c) (P c) us pend

theorem init_inv (cfg : Cfg) (junk) : Inv cfg (fun _ => []) (init cfg junk) := by
  refine ⟨⟨by simp [init], by simp [init], by simp [init], by simp [init], by simp [init], rfl,
    by simp [init], by simp [init], by simp [init]⟩, fun c => ⟨[], [], ?_⟩⟩
  constructor <;> simp [init, hold]

/-- A connection is not touched by a change of a buffer it does not use. -/
theorem CI.frame {cfg bufs bufs' k P us pend} (h : CI cfg bufs k P us pend)
    (h1 : ∀ b, k.buf = some b → bufs' b = bufs b)
    (h2 : ∀ b len, Flight.ref b len ∈ k.flight → bufs' b = bufs b) : CI cfg bufs' k P us pend := by
  refine ⟨h.all, ?_, h.num, h.nn, h.nobuf, h.small, h.usok, ?_, ?_, ?_⟩
  · rw [← h.out]
    congr 1
    apply List.map_congr_left
    intro x hx
    cases x with
    | ref b len => simp [content, h2 b len hx]
    | copy l => rfl
    | raw l => rfl
  · intro hp b hb; rw [h1 b hb]; exact h.idle hp b hb
  · intro nx hp
    refine ⟨(h.fl nx hp).1, (h.fl nx hp).2.1, fun b hb => ?_⟩
    rw [h1 b hb]; exact (h.fl nx hp).2.2 b hb
  · intro m hp
    refine ⟨(h.dr m hp).1, fun b hb => ?_⟩
    rw [h1 b hb]; exact (h.dr m hp).2 b hb

/-- A step on connection `c` and its buffer `b`. -/
theorem Inv.local' {cfg P s} (h : Inv cfg P s) {s' : S} {c b : Nat} {k' : Conn} {P' : Nat → List Msg}
    (hb : (s.conn c).buf = some b)
    (hbufs : ∀ x, x ≠ b → s'.bufs x = s.bufs x) (hconn : s'.conn = upd s.conn c k')
    (hP : ∀ d, d ≠ c → P' d = P d) (hg : G cfg s')
    (hc : ∃ us pend, CI cfg s'.bufs k' (P' c) us pend) : Inv cfg P' s' := by
  refine ⟨hg, fun d => ?_⟩
  by_cases e : d = c
  · subst e; rw [hconn]; simpa [upd] using hc
  · obtain ⟨us, pend, hd⟩ := h.c d
    refine ⟨us, pend, ?_⟩
    have e1 : s'.conn d = s.conn d := by rw [hconn]; simp [upd, e]
    rw [e1, hP d e]
    refine hd.frame (fun x hx => hbufs x ?_) (fun x len hx => hbufs x ?_)
    · intro ex; subst ex; exact e (h.g.inj d c _ hx hb)
    · intro ex; subst ex; exact (h.g.own c _ hb).2 (h.g.ref d _ len hx)

/-! ### The three writes -/

theorem pay_fillDirect {l : List Nat} {m : Msg} (h : (inline m).length + HS + 4 ≤ l.length) :
    (wr (wr (wr l 0 (inline m)) (inline m).length (header m m.data.length)) ((inline m).length + HS)
      (be 4 1)).take ((inline m).length + HS + 4) = first m := by
  have h1 : (wr l 0 (inline m)).length = l.length := wr_length (by omega)
  have h2 : (wr (wr l 0 (inline m)) (inline m).length (header m m.data.length)).length = l.length := by
    rw [wr_length (by rw [h1, header_length]; omega), h1]
  rw [wr_take' (by rw [h2]; omega) (by rw [be_length])]
  rw [wr_take' (by rw [h1]; omega) (by rw [header_length])]
  have := wr_take (l := l) (off := 0) (bs := inline m) (by omega)
  rw [Nat.zero_add] at this
  rw [this]; simp [first]

theorem len_fillDirect {l : List Nat} {m : Msg} (h : (inline m).length + HS + 4 ≤ l.length) :
    (wr (wr (wr l 0 (inline m)) (inline m).length (header m m.data.length)) ((inline m).length + HS)
      (be 4 1)).length = l.length := by
  have h1 : (wr l 0 (inline m)).length = l.length := wr_length (by omega)
  have h2 : (wr (wr l 0 (inline m)) (inline m).length (header m m.data.length)).length = l.length := by
    rw [wr_length (by rw [h1, header_length]; omega), h1]
  rw [wr_length (by rw [h2, be_length]; omega), h2]

theorem direct_fits (cfg : Cfg) (hb : 1 ≤ cfg.batch) (m : Msg) :
    (inline m).length + HS + 4 ≤ cfg.paySize := by
  have := inline_length m
  have h1 : HS ≤ cfg.batch * HS := Nat.le_mul_of_pos_left _ hb
  unfold Cfg.paySize
  omega

theorem G.upd_conn {cfg s} (h : G cfg s) {c : Nat} {k' : Conn} (hb : k'.buf = (s.conn c).buf)
    (hf : ∀ b len, Flight.ref b len ∈ k'.flight → Flight.ref b len ∈ (s.conn c).flight) :
    G cfg { s with conn := upd s.conn c k' } := by
  have e : ∀ d, (upd s.conn c k' d).buf = (s.conn d).buf := by
    intro d; by_cases e : d = c
    · subst e; simpa [upd] using hb
    · simp [upd, e]
  have e2 : ∀ d b len, Flight.ref b len ∈ (upd s.conn c k' d).flight →
      Flight.ref b len ∈ (s.conn d).flight := by
    intro d b len; by_cases e : d = c
    · subst e; simpa [upd] using hf b len
    · simp [upd, e]
  refine ⟨h.nodup, h.lt, ?_, ?_, ?_, h.good, h.pay, h.hdr, ?_⟩
  · intro d b hd; dsimp only at hd; rw [e] at hd; exact h.own d b hd
  · intro d d' b hd hd'; dsimp only at hd hd'; rw [e] at hd hd'; exact h.inj d d' b hd hd'
  · intro d b len hd; exact h.ref d b len (e2 d b len hd)
  · intro hc d b len hd; exact h.copies hc d b len (e2 d b len hd)

theorem fillDirect_G {cfg s c b m} (hcb : 1 ≤ cfg.batch) (h : G cfg s) : G cfg (fillDirect s c b m) := by
  have hfit := direct_fits cfg hcb m
  have h1 := h.upd_conn (c := c) (k' := { s.conn c with pc := .direct m }) rfl (by simp)
  refine ⟨h1.nodup, h1.lt, h1.own, h1.inj, h1.ref, ?_, ?_, ?_, h1.copies⟩
  · simp only [fillDirect, h.good, fits, h.pay, header_length, be_length, Bool.false_or,
      Bool.not_eq_false', Bool.and_eq_true, decide_eq_true_eq]
    omega
  · intro x
    by_cases e : x = b
    · subst e
      simp only [fillDirect, upd, if_true]
      rw [len_fillDirect (by rw [h.pay]; exact hfit), h.pay]
    · simp only [fillDirect, upd, if_neg e, h.pay]
  · intro x
    by_cases e : x = b
    · subst e; simp only [fillDirect, upd, if_true, h.hdr]
    · simp only [fillDirect, upd, if_neg e, h.hdr]

/-- The direct send is written in the buffer. -/
theorem fillDirect_inv {cfg P s c b m} (hcb : 1 ≤ cfg.batch) (hg : G cfg s)
    (hoth : ∀ d, d ≠ c → ∃ us pend, CI cfg s.bufs (s.conn d) (P d) us pend)
    (hb : (s.conn c).buf = some b) (hn : (s.conn c).n = 0) {us : List Sent}
    (hall : us.flatMap Sent.msgs ++ [m] = P c)
    (hout : (s.conn c).wire ++ (s.conn c).flight.map (content s.bufs) = us.flatMap Sent.frames)
    (hnum : us.length = (s.conn c).sent)
    (husok : ∀ ms, Sent.batch ms ∈ us →
      ms ≠ [] ∧ ms.length ≤ cfg.batch ∧ ∀ m ∈ ms, m.data.length < cfg.limit) :
    Inv cfg P (fillDirect s c b m) := by
  refine ⟨fillDirect_G hcb hg, fun d => ?_⟩
  have hother : ∀ d x len, Flight.ref x len ∈ (s.conn d).flight →
      (fillDirect s c b m).bufs x = s.bufs x := by
    intro d x len hx
    have : x ≠ b := by intro e; subst e; exact (hg.own c _ hb).2 (hg.ref d _ len hx)
    simp [fillDirect, upd, this]
  by_cases e : d = c
  · subst e
    refine ⟨us, [], ?_⟩
    have ek : (fillDirect s d b m).conn d = { s.conn d with pc := .direct m } := by
      simp [fillDirect, upd]
    rw [ek]
    refine ⟨by simpa [hold] using hall, ?_, hnum, by simp [hn], by simp [hb], by simp, husok,
      by simp, by simp, ?_⟩
    · rw [← hout]; dsimp only; congr 1
      apply List.map_congr_left
      intro x hx
      cases x with
      | ref y len => simp [content, hother d y len hx]
      | copy l => rfl
      | raw l => rfl
    · intro m' hm'
      simp only [Pc.direct.injEq] at hm'; subst hm'
      refine ⟨rfl, fun b' hb' => ?_⟩
      dsimp only at hb'
      rw [hb, Option.some.injEq] at hb'; subst hb'
      simp only [fillDirect, upd, if_true]
      exact pay_fillDirect (by rw [hg.pay]; exact direct_fits cfg hcb m)
  · obtain ⟨us', pend', hd⟩ := hoth d e
    refine ⟨us', pend', ?_⟩
    have ek : (fillDirect s c b m).conn d = s.conn d := by simp [fillDirect, upd, e]
    rw [ek]
    refine hd.frame (fun x hx => ?_) (fun x len hx => hother d x len hx)
    have : x ≠ b := by intro e'; subst e'; exact e (hg.inj d c _ hx hb)
    simp [fillDirect, upd, this]

/-- The batch is closed. -/
theorem trailer_inv {cfg P s c b next} (hg : G cfg s)
    (hoth : ∀ d, d ≠ c → ∃ us pend, CI cfg s.bufs (s.conn d) (P d) us pend)
    (hb : (s.conn c).buf = some b) (hnx : next ≠ none → cfg.copies = true)
    {us : List Sent} {pend : List Msg}
    (hall : us.flatMap Sent.msgs ++ pend ++ next.toList = P c)
    (hout : (s.conn c).wire ++ (s.conn c).flight.map (content s.bufs) = us.flatMap Sent.frames)
    (hnum : us.length = (s.conn c).sent) (hnn : pend.length = (s.conn c).n)
    (husok : ∀ ms, Sent.batch ms ∈ us →
      ms ≠ [] ∧ ms.length ≤ cfg.batch ∧ ∀ m ∈ ms, m.data.length < cfg.limit)
    (hne : pend ≠ []) (hsmall : ∀ m ∈ pend, m.data.length < cfg.limit)
    (hle : pend.length ≤ cfg.batch)
    (hp : (s.bufs b).pay.take (s.conn c).cur = (pend.map Msg.data).flatten)
    (hcur : (s.conn c).cur = ((pend.map Msg.data).flatten).length)
    (hh : (s.bufs b).hdr.take ((s.conn c).n * HS) = (pend.map fun m => header m m.data.length).flatten)
    (hbound : (s.conn c).cur ≤ 2 * cfg.limit) :
    Inv cfg P (trailer s c b next) := by
  have hhl : ((s.bufs b).hdr.take ((s.conn c).n * HS)).length = (s.conn c).n * HS := by
    rw [hh, headers_length, hnn]
  have hnb : (s.conn c).n * HS ≤ cfg.batch * HS := Nat.mul_le_mul_right _ (hnn ▸ hle)
  have hfit : (s.conn c).cur + (s.conn c).n * HS + 4 ≤ cfg.paySize := by
    unfold Cfg.paySize; omega
  have hl1 : (wr (s.bufs b).pay (s.conn c).cur ((s.bufs b).hdr.take ((s.conn c).n * HS))).length =
      cfg.paySize := by rw [wr_length (by rw [hhl, hg.pay]; omega), hg.pay]
  have h1 := hg.upd_conn (c := c)
    (k' := { s.conn c with cur := (s.conn c).cur + (s.conn c).n * HS + 4, pc := .flushing next })
    rfl (by simp)
  refine ⟨⟨h1.nodup, h1.lt, h1.own, h1.inj, h1.ref, ?_, ?_, ?_, h1.copies⟩, fun d => ?_⟩
  · simp only [trailer, hg.good, fits, hg.pay, hg.hdr, hhl, be_length, Bool.false_or,
      Bool.not_eq_false', Bool.and_eq_true, decide_eq_true_eq, Cfg.hdrSize]
    omega
  · intro x
    by_cases e : x = b
    · subst e
      simp only [trailer, upd, if_true]
      rw [wr_length (by rw [hl1, hhl, be_length]; omega), hl1]
    · simp only [trailer, upd, if_neg e, hg.pay]
  · intro x
    by_cases e : x = b
    · subst e; simp only [trailer, upd, if_true, hg.hdr]
    · simp only [trailer, upd, if_neg e, hg.hdr]
  have hother : ∀ d x len, Flight.ref x len ∈ (s.conn d).flight →
      (trailer s c b next).bufs x = s.bufs x := by
    intro d x len hx
    have : x ≠ b := by intro e; subst e; exact (hg.own c _ hb).2 (hg.ref d _ len hx)
    simp [trailer, upd, this]
  by_cases e : d = c
  · subst e
    refine ⟨us, pend, ?_⟩
    have ek : (trailer s d b next).conn d = { s.conn d with
        cur := (s.conn d).cur + (s.conn d).n * HS + 4, pc := .flushing next } := by
      simp [trailer, upd]
    rw [ek]
    refine ⟨?_, ?_, hnum, hnn, by simp [hb], hsmall, husok, by simp, ?_, by simp⟩
    · rw [← hall]; cases next <;> rfl
    · rw [← hout]; dsimp only; congr 1
      apply List.map_congr_left
      intro x hx
      cases x with
      | ref y len => simp [content, hother d y len hx]
      | copy l => rfl
      | raw l => rfl
    · intro nx hx
      simp only [Pc.flushing.injEq] at hx; subst hx
      refine ⟨⟨hne, hle⟩, hnx, fun b' hb' => ?_⟩
      dsimp only at hb'
      rw [hb, Option.some.injEq] at hb'; subst hb'
      simp only [trailer, upd, if_true]
      rw [wr_take' (by rw [hl1, hhl]; omega) (by rw [hhl, be_length]), 
        wr_take' (by rw [hg.pay]; omega) rfl, hp, hh, hnn.symm]
      rfl
  · obtain ⟨us', pend', hd⟩ := hoth d e
    refine ⟨us', pend', ?_⟩
    have ek : (trailer s c b next).conn d = s.conn d := by simp [trailer, upd, e]
    rw [ek]
    refine hd.frame (fun x hx => ?_) (fun x len hx => hother d x len hx)
    have : x ≠ b := by intro e'; subst e'; exact e (hg.inj d c _ hx hb)
    simp [trailer, upd, this]

/-- A message is put in the batch: what holds before it is decided whether to flush. -/
theorem fillBatch_inv {cfg P s c b m} (hcb : 1 ≤ cfg.batch) (h : Inv cfg P s)
    (hb : (s.conn c).buf = some b) (hi : (s.conn c).pc = .idle) (hm : m.data.length < cfg.limit) :
    Inv cfg (upd P c (P c ++ [m])) (
      if (s.conn c).n + 1 = cfg.batch ∨ cfg.limit ≤ (s.conn c).cur + m.data.length ∨
        m.data.length = 0 ∨ m.type = 1 then trailer (fillBatch s c b m) c b none
      else fillBatch s c b m) := by
  have hg := h.g
  obtain ⟨us, pend, hc⟩ := h.c c
  obtain ⟨hp, hcur, hh, hlt⟩ := hc.idle hi b hb
  have hnlt : (s.conn c).n + 1 ≤ cfg.batch := by
    rw [← hc.nn]
    by_cases e : pend = []
    · subst e; simpa using hcb
    · exact (hlt e).1
  have hcl : (s.conn c).cur ≤ cfg.limit := by
    by_cases e : pend = []
    · subst e; simp at hcur; omega
    · exact Nat.le_of_lt (hlt e).2
  have hnb : ((s.conn c).n + 1) * HS ≤ cfg.batch * HS := Nat.mul_le_mul_right _ hnlt
  rw [Nat.add_mul, Nat.one_mul] at hnb
  have hfp : (s.conn c).cur + m.data.length ≤ cfg.paySize := by unfold Cfg.paySize; omega
  have hfh : (s.conn c).n * HS + HS ≤ cfg.hdrSize := hnb
  obtain ⟨s1, hs1⟩ : ∃ s1, fillBatch s c b m = s1 := ⟨_, rfl⟩
  have ek : s1.conn c = { s.conn c with
      n := (s.conn c).n + 1, cur := (s.conn c).cur + m.data.length } := by
    subst hs1; simp [fillBatch, upd]
  have eo : ∀ d, d ≠ c → s1.conn d = s.conn d := by
    intro d e; subst hs1; simp [fillBatch, upd, e]
  have hg1 : G cfg s1 := by
    have h1 := hg.upd_conn (c := c) (k' := { s.conn c with
      n := (s.conn c).n + 1, cur := (s.conn c).cur + m.data.length }) rfl (by simp)
    subst hs1
    refine ⟨h1.nodup, h1.lt, h1.own, h1.inj, h1.ref, ?_, ?_, ?_, h1.copies⟩
    · simp only [fillBatch, hg.good, fits, hg.pay, hg.hdr, header_length, Bool.false_or,
        Bool.not_eq_false', Bool.and_eq_true, decide_eq_true_eq]
      omega
    · intro x
      by_cases e : x = b
      · subst e
        simp only [fillBatch, upd, if_true]
        rw [wr_length (by rw [hg.pay]; exact hfp), hg.pay]
      · simp only [fillBatch, upd, if_neg e, hg.pay]
    · intro x
      by_cases e : x = b
      · subst e
        simp only [fillBatch, upd, if_true]
        rw [wr_length (by rw [hg.hdr, header_length]; exact hfh), hg.hdr]
      · simp only [fillBatch, upd, if_neg e, hg.hdr]
  have hother : ∀ d x len, Flight.ref x len ∈ (s.conn d).flight → s1.bufs x = s.bufs x := by
    intro d x len hx
    have : x ≠ b := by intro e; subst e; exact (hg.own c _ hb).2 (hg.ref d _ len hx)
    subst hs1; simp [fillBatch, upd, this]
  have hoth : ∀ d, d ≠ c → ∃ us pend,
      CI cfg s1.bufs (s1.conn d) (upd P c (P c ++ [m]) d) us pend := by
    intro d e
    obtain ⟨us', pend', hd⟩ := h.c d
    refine ⟨us', pend', ?_⟩
    rw [eo d e, show upd P c (P c ++ [m]) d = P d by simp [upd, e]]
    refine hd.frame (fun x hx => ?_) (fun x len hx => hother d x len hx)
    have : x ≠ b := by intro e'; subst e'; exact e (hg.inj d c _ hx hb)
    subst hs1; simp [fillBatch, upd, this]
  have hb1 : (s1.conn c).buf = some b := by rw [ek]; exact hb
  have hall1 : us.flatMap Sent.msgs ++ (pend ++ [m]) ++ [] = upd P c (P c ++ [m]) c := by
    have := hc.all
    rw [hi] at this
    simp only [hold, List.append_nil] at this
    simp [upd, ← this]
  have hout1 : (s1.conn c).wire ++ (s1.conn c).flight.map (content s1.bufs) =
      us.flatMap Sent.frames := by
    rw [← hc.out, ek]; dsimp only; congr 1
    apply List.map_congr_left
    intro x hx
    cases x with
    | ref y len => simp [content, hother c y len hx]
    | copy l => rfl
    | raw l => rfl
  have hnum1 : us.length = (s1.conn c).sent := by rw [ek]; exact hc.num
  have hnn1 : (pend ++ [m]).length = (s1.conn c).n := by rw [ek]; simp [hc.nn]
  have hsm1 : ∀ x ∈ pend ++ [m], x.data.length < cfg.limit := by
    intro x hx
    rcases List.mem_append.1 hx with hx | hx
    · exact hc.small x hx
    · rw [List.mem_singleton] at hx; subst hx; exact hm
  have hcur1 : (s1.conn c).cur = (((pend ++ [m]).map Msg.data).flatten).length := by
    rw [ek]; simp [hcur]
  have hp1 : (s1.bufs b).pay.take (s1.conn c).cur = ((pend ++ [m]).map Msg.data).flatten := by
    rw [ek]; subst hs1
    simp only [fillBatch, upd, if_true]
    rw [wr_take (by rw [hg.pay]; omega), hp]; simp
  have hh1 : (s1.bufs b).hdr.take ((s1.conn c).n * HS) =
      ((pend ++ [m]).map fun m => header m m.data.length).flatten := by
    rw [ek]; subst hs1
    simp only [fillBatch, upd, if_true]
    rw [wr_take' (by rw [hg.hdr]; omega) (by rw [header_length, Nat.add_mul, Nat.one_mul]), hh]; simp
  rw [hs1]
  split
  · refine trailer_inv hg1 hoth hb1 (by simp) hall1 hout1 hnum1 hnn1 hc.usok (by simp) hsm1 ?_ hp1 hcur1
      hh1 ?_
    · rw [hnn1, ek]; exact hnlt
    · rw [ek]; dsimp only; omega
  · rename_i hno
    rw [not_or] at hno
    refine ⟨hg1, fun d => ?_⟩
    by_cases e : d = c
    · subst e
      refine ⟨us, pend ++ [m], ?_⟩
      have hi1 : (s1.conn d).pc = .idle := by rw [ek]; exact hi
      refine ⟨by rw [hi1]; exact hall1, hout1, hnum1, hnn1, by rw [hb1]; simp, hsm1, hc.usok, ?_,
        by rw [hi1]; simp, by rw [hi1]; simp⟩
      intro _ b' hb'
      rw [hb1, Option.some.injEq] at hb'; subst hb'
      refine ⟨hp1, hcur1, hh1, fun _ => ⟨?_, ?_⟩⟩
      · rw [hnn1, ek]; dsimp only; omega
      · rw [ek]; dsimp only; omega
    · exact hoth d e

/-- A buffer is released with its transfer. -/
theorem release_inv {cfg P s c b} (h : Inv cfg P s) (hb : (s.conn c).buf = some b)
    {k' : Conn} (hk : k'.buf = none) {len : Nat} {rest : List Flight}
    (hr : ∀ x ∈ rest, ∃ l, x = .raw l)
    (hf : k'.flight = (s.conn c).flight ++ flightOf cfg s b len :: rest)
    (hc : ∃ us pend, CI cfg s.bufs k' (P c) us pend) :
    Inv cfg P { s with free := b :: s.free, conn := upd s.conn c k' } := by
  have hg := h.g
  refine h.local' (c := c) (b := b) hb (fun _ _ => rfl) rfl (fun _ _ => rfl) ?_ hc
  have hbuf : ∀ d x, (upd s.conn c k' d).buf = some x → d ≠ c ∧ (s.conn d).buf = some x := by
    intro d x hx
    by_cases e : d = c
    · subst e; simp [upd, hk] at hx
    · simp only [upd, if_neg e] at hx; exact ⟨e, hx⟩
  have hfl : ∀ d x len', Flight.ref x len' ∈ (upd s.conn c k' d).flight →
      Flight.ref x len' ∈ (s.conn d).flight ∨ (x = b ∧ cfg.copies = false) := by
    intro d x len' hx
    by_cases e : d = c
    · subst e
      simp only [upd, if_true, hf, List.mem_append, List.mem_cons] at hx
      rcases hx with hx | hx | hx
      · exact Or.inl hx
      · right
        unfold flightOf at hx
        split at hx
        · simp at hx
        · rename_i hcp
          simp only [Flight.ref.injEq] at hx
          exact ⟨hx.1, by simpa using hcp⟩
      · obtain ⟨l, e⟩ := hr _ hx; simp at e
    · simp only [upd, if_neg e] at hx; exact Or.inl hx
  refine ⟨?_, ?_, ?_, ?_, ?_, hg.good, hg.pay, hg.hdr, ?_⟩
  · simp only [List.nodup_cons]; exact ⟨(hg.own c b hb).2, hg.nodup⟩
  · intro x hx
    rcases List.mem_cons.1 hx with e | hx
    · subst e; exact (hg.own c _ hb).1
    · exact hg.lt x hx
  · intro d x hx
    obtain ⟨hd, hx1⟩ := hbuf d x hx
    refine ⟨(hg.own d x hx1).1, ?_⟩
    simp only [List.mem_cons, not_or]
    refine ⟨?_, (hg.own d x hx1).2⟩
    intro e; subst e; exact hd (hg.inj d c _ hx1 hb)
  · intro d d' x hx hx'
    exact hg.inj d d' x (hbuf d x hx).2 (hbuf d' x hx').2
  · intro d x len' hx
    rcases hfl d x len' hx with hx | ⟨hx, _⟩
    · exact List.mem_cons_of_mem _ (hg.ref d x len' hx)
    · subst hx; exact List.mem_cons_self
  · intro hcp d x len' hx
    rcases hfl d x len' hx with hx | ⟨_, hx⟩
    · exact hg.copies hcp d x len' hx
    · rw [hcp] at hx; simp at hx

theorem content_flightOf (cfg : Cfg) (s : S) (b len : Nat) :
    content s.bufs (flightOf cfg s b len) = (s.bufs b).pay.take len := by
  unfold flightOf; split <;> rfl

/-- The messages of the schedule so far, after one action. -/
def addP (P : Nat → List Msg) : Act → Nat → List Msg
  | .push c m => upd P c (P c ++ [m])
  | _ => P

/-- A message that can be sent without touching a buffer under way. -/
def Calm (cfg : Cfg) : Act → Prop
  | .push _ m => cfg.copies = true ∨ cfg.batch = 1 ∨ m.data.length < cfg.limit
  | _ => True

theorem Inv.step {cfg P s a s'} (hcb : 1 ≤ cfg.batch) (h : Inv cfg P s) (hcalm : Calm cfg a)
    (hs : step cfg s a = some s') : Inv cfg (addP P a) s' := by
  have hg := h.g
  cases a with
  | acquire c b =>
    simp only [Sender.step] at hs
    split at hs
    · simp at hs
    rename_i hno
    rw [not_or, not_not, not_not] at hno
    obtain ⟨hi, hb⟩ := hno
    obtain ⟨us, pend, hc⟩ := h.c c
    have hp := (hc.nobuf hb).2
    have hCI : CI cfg s.bufs { s.conn c with buf := some b, cur := 0 } (P c) us pend := by
      refine ⟨hc.all, hc.out, hc.num, hc.nn, by simp, hc.small, hc.usok, ?_, ?_, ?_⟩
      · intro _ x _
        have := hc.nn
        subst hp
        simp at this
        simp [← this]
      · intro m hm; dsimp only at hm; rw [hi] at hm; simp at hm
      · intro m hm; dsimp only at hm; rw [hi] at hm; simp at hm
    have hcs : ∀ d, ∃ us pend, CI cfg s.bufs
        (upd s.conn c { s.conn c with buf := some b, cur := 0 } d) (P d) us pend := by
      intro d
      by_cases e : d = c
      · subst e; simp only [upd, if_true]; exact ⟨us, pend, hCI⟩
      · simp only [upd, if_neg e]; exact h.c d
    have hfl : ∀ d x len, Flight.ref x len ∈
        (upd s.conn c { s.conn c with buf := some b, cur := 0 } d).flight →
        Flight.ref x len ∈ (s.conn d).flight := by
      intro d x len
      by_cases e : d = c
      · subst e; simp [upd]
      · simp [upd, e]
    have hbu : ∀ d x, (upd s.conn c { s.conn c with buf := some b, cur := 0 } d).buf = some x →
        (d = c ∧ x = b) ∨ (s.conn d).buf = some x := by
      intro d x
      by_cases e : d = c
      · subst e; simp only [upd, if_true, Option.some.injEq]; intro hx; exact Or.inl ⟨trivial, hx.symm⟩
      · simp only [upd, if_neg e]; exact Or.inr
    split at hs
    · rename_i hfr
      split at hs
      · rename_i hbn
        simp only [Option.some.injEq] at hs; subst hs
        refine ⟨⟨hg.nodup, ?_, ?_, ?_, ?_, hg.good, hg.pay, hg.hdr, ?_⟩, hcs⟩
        · intro x hx; dsimp only at hx ⊢; have := hg.lt x hx; omega
        · intro d x hx
          dsimp only
          rcases hbu d x hx with ⟨_, e⟩ | hx
          · subst e; rw [hfr]; exact ⟨by omega, by simp⟩
          · have := hg.own d x hx; exact ⟨by omega, this.2⟩
        · intro d d' x hx hx'
          rcases hbu d x hx with ⟨e, e'⟩ | hx
          · rcases hbu d' x hx' with ⟨e2, _⟩ | hx'
            · rw [e, e2]
            · have := (hg.own d' x hx').1; omega
          · rcases hbu d' x hx' with ⟨_, e'⟩ | hx'
            · have := (hg.own d x hx).1; omega
            · exact hg.inj d d' x hx hx'
        · intro d x len hx; exact hg.ref d x len (hfl d x len hx)
        · intro hcp d x len hx; exact hg.copies hcp d x len (hfl d x len hx)
      · simp at hs
    · split at hs
      · rename_i hbf
        obtain ⟨hbf, hq⟩ := hbf
        simp only [Option.some.injEq] at hs; subst hs
        refine ⟨⟨hg.nodup.erase _, ?_, ?_, ?_, ?_, hg.good, hg.pay, hg.hdr, ?_⟩, hcs⟩
        · intro x hx; exact hg.lt x (List.mem_of_mem_erase hx)
        · intro d x hx
          rcases hbu d x hx with ⟨_, e⟩ | hx
          · subst e; exact ⟨hg.lt _ hbf, hg.nodup.not_mem_erase⟩
          · exact ⟨(hg.own d x hx).1, fun hm => (hg.own d x hx).2 (List.mem_of_mem_erase hm)⟩
        · intro d d' x hx hx'
          rcases hbu d x hx with ⟨e, e'⟩ | hx
          · rcases hbu d' x hx' with ⟨e2, _⟩ | hx'
            · rw [e, e2]
            · rw [e'] at hx'; exact absurd hbf (hg.own d' _ hx').2
          · rcases hbu d' x hx' with ⟨_, e'⟩ | hx'
            · rw [e'] at hx; exact absurd hbf (hg.own d _ hx).2
            · exact hg.inj d d' x hx hx'
        · intro d x len hx
          have hx1 := hfl d x len hx
          refine (List.mem_erase_of_ne ?_).2 (hg.ref d x len hx1)
          intro e; rw [e] at hx1; exact hq d len hx1
        · intro hcp d x len hx; exact hg.copies hcp d x len (hfl d x len hx)
      · simp at hs
  | push c m =>
    simp only [Sender.step] at hs
    split at hs
    · rename_i b hi hb
      obtain ⟨us, pend, hc⟩ := h.c c
      obtain ⟨hp, hcur, hh, hlt⟩ := hc.idle hi b hb
      have hall := hc.all
      rw [hi] at hall
      simp only [hold, List.append_nil] at hall
      have hoth : ∀ d, d ≠ c → ∃ us pend,
          CI cfg s.bufs (s.conn d) (upd P c (P c ++ [m]) d) us pend := by
        intro d e
        rw [show upd P c (P c ++ [m]) d = P d by simp [upd, e]]
        exact h.c d
      split at hs
      · rename_i hdir
        split at hs
        · rename_i hn
          simp only [Option.some.injEq] at hs; subst hs
          have hne : pend ≠ [] := by
            intro e; subst e; have := hc.nn; simp at this; exact hn this.symm
          have hl := hlt hne
          refine trailer_inv hg hoth hb ?_ (us := us) (pend := pend) ?_ hc.out hc.num hc.nn hc.usok hne
            hc.small (by omega) hp hcur hh (by omega)
          · intro _
            have hlen : 0 < pend.length := List.length_pos_of_ne_nil hne
            rcases hcalm with h1 | h1 | h1
            · exact h1
            · omega
            · omega
          · simp [addP, upd, ← hall]
        · rename_i hn
          rw [not_not] at hn
          simp only [Option.some.injEq] at hs; subst hs
          have hpe : pend = [] := List.length_eq_zero_iff.1 (hc.nn.trans hn)
          subst hpe
          refine fillDirect_inv hcb hg hoth hb hn (us := us) ?_ hc.out hc.num hc.usok
          simp only [List.append_nil] at hall
          simp [addP, upd, ← hall]
      · rename_i hdir
        rw [not_or] at hdir
        have := fillBatch_inv hcb h hb hi (m := m) (by omega)
        have e : s' = (if (s.conn c).n + 1 = cfg.batch ∨ cfg.limit ≤ (s.conn c).cur + m.data.length ∨
            m.data.length = 0 ∨ m.type = 1 then trailer (fillBatch s c b m) c b none
            else fillBatch s c b m) := by
          split at hs
          · rename_i h1; rw [if_pos h1]; exact (Option.some.inj hs).symm
          · rename_i h1; rw [if_neg h1]; exact (Option.some.inj hs).symm
        rw [e]; exact this
    · simp at hs
  | flush c =>
    simp only [Sender.step] at hs
    split at hs
    · rename_i b hi hb
      split at hs
      · simp only [Option.some.injEq] at hs; subst hs; exact h
      · rename_i hn
        simp only [Option.some.injEq] at hs; subst hs
        obtain ⟨us, pend, hc⟩ := h.c c
        obtain ⟨hp, hcur, hh, hlt⟩ := hc.idle hi b hb
        have hne : pend ≠ [] := by
          intro e; subst e; have := hc.nn; simp at this; exact hn this.symm
        have hl := hlt hne
        have hall := hc.all
        rw [hi] at hall
        exact trailer_inv hg (fun d _ => h.c d) hb (by simp) (us := us) (pend := pend) hall hc.out hc.num
          hc.nn hc.usok hne hc.small (by omega) hp hcur hh (by omega)
    · simp only [Option.some.injEq] at hs; subst hs; exact h
    · simp at hs
  | send c =>
    simp only [Sender.step] at hs
    split at hs
    · simp at hs
    obtain ⟨us, pend, hc⟩ := h.c c
    have husok' : pend ≠ [] → pend.length ≤ cfg.batch → ∀ ms, Sent.batch ms ∈ us ++ [Sent.batch pend] →
        ms ≠ [] ∧ ms.length ≤ cfg.batch ∧ ∀ m ∈ ms, m.data.length < cfg.limit := by
      intro h1 h2 ms hms
      rcases List.mem_append.1 hms with hms | hms
      · exact hc.usok ms hms
      · simp only [List.mem_singleton, Sent.batch.injEq] at hms
        subst hms; exact ⟨h1, h2, hc.small⟩
    split at hs
    · rename_i b hpc hb
      obtain ⟨⟨hne, hle⟩, _, hfr⟩ := hc.fl _ hpc
      have hfr := hfr b hb
      simp only [Option.some.injEq] at hs; subst hs
      refine release_inv h hb rfl (len := (s.conn c).cur) (rest := []) (by simp) rfl ?_
      have hall := hc.all
      rw [hpc] at hall
      refine ⟨us ++ [.batch pend], [], ?_, ?_, by simp [hc.num], rfl, by simp, by simp,
        husok' hne hle, by simp, by simp, by simp⟩
      · simpa [hold, Sent.msgs, addP] using hall
      · simp only [List.map_append, List.map_cons, List.map_nil, content_flightOf, hfr,
          List.flatMap_append, ← hc.out]
        simp [Sent.frames]
    · rename_i m b hpc hb
      obtain ⟨⟨hne, hle⟩, hcp, hfr⟩ := hc.fl _ hpc
      have hfr := hfr b hb
      have hcp := hcp (by simp)
      simp only [Option.some.injEq] at hs; subst hs
      have hall := hc.all
      rw [hpc] at hall
      have hg1 : G cfg { s with conn := upd s.conn c { s.conn c with
          n := 0, cur := 0, credit := (if cfg.acks then (s.conn c).credit - 1 else (s.conn c).credit)
          sent := (s.conn c).sent + 1
          flight := (s.conn c).flight ++ [flightOf cfg s b (s.conn c).cur] } } := by
        refine hg.upd_conn rfl ?_
        intro x len hx
        simp only [List.mem_append, List.mem_singleton] at hx
        rcases hx with hx | hx
        · exact hx
        · simp [flightOf, hcp] at hx
      refine fillDirect_inv hcb hg1 ?_ (by simp [upd, hb]) (by simp [upd])
        (us := us ++ [.batch pend]) ?_ ?_ ?_ (husok' hne hle)
      · intro d e
        simp only [upd, if_neg e]
        exact h.c d
      · simpa [hold, Sent.msgs, addP] using hall
      · simp only [upd, if_true, List.map_append, List.map_cons, List.map_nil, content_flightOf, hfr,
          List.flatMap_append, ← hc.out]
        simp [Sent.frames]
      · simp [upd, hc.num]
    · rename_i m b hpc hb
      obtain ⟨hpe, hfr⟩ := hc.dr _ hpc
      have hfr := hfr b hb
      subst hpe
      simp only [Option.some.injEq] at hs; subst hs
      refine release_inv h hb rfl (len := (inline m).length + HS + 4)
        (rest := if m.data.length > THRESH then [.raw m.data] else []) ?_ rfl ?_
      · intro x hx
        split at hx
        · simp only [List.mem_singleton] at hx; exact ⟨_, hx⟩
        · simp at hx
      have hall := hc.all
      rw [hpc] at hall
      refine ⟨us ++ [.direct m], [], ?_, ?_, by simp [hc.num], rfl, by simp, by simp, ?_, by simp,
        by simp, by simp⟩
      · simpa [hold, Sent.msgs, addP] using hall
      · simp only [List.map_append, List.map_cons, content_flightOf, hfr,
          List.flatMap_append, ← hc.out, List.flatMap_cons, List.flatMap_nil, Sent.frames,
          directFrames_eq]
        split <;> simp [content]
      · intro ms hms
        rcases List.mem_append.1 hms with hms | hms
        · exact hc.usok ms hms
        · simp at hms
    · simp at hs
  | tx c =>
    simp only [Sender.step] at hs
    split at hs
    · simp at hs
    · rename_i x xs hx
      simp only [Option.some.injEq] at hs; subst hs
      refine ⟨hg.upd_conn rfl (fun b len hm => by rw [hx]; exact List.mem_cons_of_mem _ hm), fun d => ?_⟩
      by_cases e : d = c
      · subst e
        obtain ⟨us, pend, hc⟩ := h.c d
        refine ⟨us, pend, ?_⟩
        simp only [upd, if_true]
        refine ⟨hc.all, ?_, hc.num, hc.nn, hc.nobuf, hc.small, hc.usok, hc.idle, hc.fl, hc.dr⟩
        rw [← hc.out, hx]; simp
      · simp only [upd, if_neg e]; exact h.c d
  | ack c =>
    simp only [Sender.step] at hs
    split at hs
    · simp only [Option.some.injEq] at hs; subst hs
      refine ⟨hg.upd_conn rfl (fun _ _ hm => hm), fun d => ?_⟩
      by_cases e : d = c
      · subst e
        obtain ⟨us, pend, hc⟩ := h.c d
        refine ⟨us, pend, ?_⟩
        simp only [upd, if_true]
        exact ⟨hc.all, hc.out, hc.num, hc.nn, hc.nobuf, hc.small, hc.usok, hc.idle, hc.fl, hc.dr⟩
      · simp only [upd, if_neg e]; exact h.c d
    · simp at hs
  | getAck c =>
    simp only [Sender.step] at hs
    split at hs
    · simp at hs
    · simp only [Option.some.injEq] at hs; subst hs
      refine ⟨hg.upd_conn rfl (fun _ _ hm => hm), fun d => ?_⟩
      by_cases e : d = c
      · subst e
        obtain ⟨us, pend, hc⟩ := h.c d
        refine ⟨us, pend, ?_⟩
        simp only [upd, if_true]
        exact ⟨hc.all, hc.out, hc.num, hc.nn, hc.nobuf, hc.small, hc.usok, hc.idle, hc.fl, hc.dr⟩
      · simp only [upd, if_neg e]; exact h.c d

end FF.Net.Sender
