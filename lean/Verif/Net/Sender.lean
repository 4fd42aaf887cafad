import Verif.Net.SenderProps
/-!
# C43, C45: theorems about the sender of the distributed runtime
-/
namespace FF.Net.Sender
open FF FF.Net FF.Node

/-! ## C43: no write outside the buffers -/

/-- Bounds that hold in all schedules. -/
structure B (cfg : Cfg) (s : S) : Prop where
  good : s.bad = false
  pay : ∀ b, (s.bufs b).pay.length = cfg.paySize
  hdr : ∀ b, (s.bufs b).hdr.length = cfg.hdrSize
  idle : ∀ c, (s.conn c).pc = .idle →
    (s.conn c).n < cfg.batch ∧ ((s.conn c).buf ≠ none → (s.conn c).cur ≤ cfg.limit)
  buf : ∀ c, (s.conn c).pc ≠ .idle → (s.conn c).buf ≠ none

theorem B.upd_conn {cfg s} (h : B cfg s) {c : Nat} {k' : Conn}
    (h1 : k'.pc = .idle → k'.n < cfg.batch ∧ (k'.buf ≠ none → k'.cur ≤ cfg.limit))
    (h2 : k'.pc ≠ .idle → k'.buf ≠ none) : B cfg { s with conn := upd s.conn c k' } := by
  refine ⟨h.good, h.pay, h.hdr, fun d => ?_, fun d => ?_⟩
  · by_cases e : d = c
    · subst e; simpa [upd] using h1
    · simp only [upd, if_neg e]; exact h.idle d
  · by_cases e : d = c
    · subst e; simpa [upd] using h2
    · simp only [upd, if_neg e]; exact h.buf d

theorem fillDirect_B {cfg s c b m} (hcb : 1 ≤ cfg.batch) (h : B cfg s) (hb : (s.conn c).buf = some b) :
    B cfg (fillDirect s c b m) := by
  have hfit := direct_fits cfg hcb m
  have h1 := h.upd_conn (c := c) (k' := { s.conn c with pc := .direct m }) (by simp) (by simp [hb])
  refine ⟨?_, ?_, ?_, h1.idle, h1.buf⟩
  · simp only [fillDirect, h.good, fits, h.pay, header_length, be_length, Bool.false_or,
      Bool.not_eq_false', Bool.and_eq_true, decide_eq_true_eq]
    omega
  · intro x
    by_cases e : x = b
    · subst e
      simp only [fillDirect, upd, if_true]
      rw [len_fillDirect (by rw [h.pay]; exact hfit), h.pay]
    · simp only [fillDirect, upd, if_neg e, h.pay]
  · intro x
    by_cases e : x = b
    · subst e; simp only [fillDirect, upd, if_true, h.hdr]
    · simp only [fillDirect, upd, if_neg e, h.hdr]

theorem trailer_B {cfg s c b nx} (h : B cfg s) (hb : (s.conn c).buf = some b)
    (hn : (s.conn c).n ≤ cfg.batch) (hc : (s.conn c).cur ≤ 2 * cfg.limit) :
    B cfg (trailer s c b nx) := by
  have hnb : (s.conn c).n * HS ≤ cfg.batch * HS := Nat.mul_le_mul_right _ hn
  have hhl : ((s.bufs b).hdr.take ((s.conn c).n * HS)).length = (s.conn c).n * HS := by
    rw [List.length_take, h.hdr]; unfold Cfg.hdrSize; omega
  have hfit : (s.conn c).cur + (s.conn c).n * HS + 4 ≤ cfg.paySize := by
    unfold Cfg.paySize; omega
  have hl1 : (wr (s.bufs b).pay (s.conn c).cur ((s.bufs b).hdr.take ((s.conn c).n * HS))).length =
      cfg.paySize := by rw [wr_length (by rw [hhl, h.pay]; omega), h.pay]
  have h1 := h.upd_conn (c := c)
    (k' := { s.conn c with cur := (s.conn c).cur + (s.conn c).n * HS + 4, pc := .flushing nx })
    (by simp) (by simp [hb])
  refine ⟨?_, ?_, ?_, h1.idle, h1.buf⟩
  · simp only [trailer, h.good, fits, h.pay, h.hdr, hhl, be_length, Bool.false_or,
      Bool.not_eq_false', Bool.and_eq_true, decide_eq_true_eq, Cfg.hdrSize]
    omega
  · intro x
    by_cases e : x = b
    · subst e
      simp only [trailer, upd, if_true]
      rw [wr_length (by rw [hl1, hhl, be_length]; omega), hl1]
    · simp only [trailer, upd, if_neg e, h.pay]
  · intro x
    by_cases e : x = b
    · subst e; simp only [trailer, upd, if_true, h.hdr]
    · simp only [trailer, upd, if_neg e, h.hdr]

theorem init_B {cfg : Cfg} (hcb : 1 ≤ cfg.batch) (junk) : B cfg (init cfg junk) := by
  refine ⟨rfl, by simp [init], by simp [init], ?_, by simp [init]⟩
  intro c _
  exact ⟨hcb, by simp [init]⟩

theorem B.step {cfg s a s'} (hcb : 1 ≤ cfg.batch) (h : B cfg s) (hs : step cfg s a = some s') :
    B cfg s' := by
  cases a with
  | acquire c b =>
    simp only [Sender.step] at hs
    split at hs
    · simp at hs
    rename_i hno
    rw [not_or, not_not, not_not] at hno
    obtain ⟨hi, hb⟩ := hno
    have h1 := h.upd_conn (c := c) (k' := { s.conn c with buf := some b, cur := 0 })
      (fun hp => ⟨(h.idle c hp).1, fun _ => Nat.zero_le _⟩) (by simp)
    split at hs
    · split at hs
      · simp only [Option.some.injEq] at hs; subst hs
        exact ⟨h1.good, h1.pay, h1.hdr, h1.idle, h1.buf⟩
      · simp at hs
    · split at hs
      · simp only [Option.some.injEq] at hs; subst hs
        exact ⟨h1.good, h1.pay, h1.hdr, h1.idle, h1.buf⟩
      · simp at hs
  | push c m =>
    simp only [Sender.step] at hs
    split at hs
    · rename_i b hi hb
      obtain ⟨hn, hcur⟩ := h.idle c hi
      have hcur := hcur (by simp [hb])
      split at hs
      · split at hs
        · simp only [Option.some.injEq] at hs; subst hs
          exact trailer_B h hb (by omega) (by omega)
        · simp only [Option.some.injEq] at hs; subst hs
          exact fillDirect_B hcb h hb
      · rename_i hdir
        rw [not_or] at hdir
        have hnb : ((s.conn c).n + 1) * HS ≤ cfg.batch * HS := Nat.mul_le_mul_right _ hn
        rw [Nat.add_mul, Nat.one_mul] at hnb
        have hfp : (s.conn c).cur + m.data.length ≤ cfg.paySize := by unfold Cfg.paySize; omega
        have hfh : (s.conn c).n * HS + HS ≤ cfg.hdrSize := hnb
        obtain ⟨s1, hs1⟩ : ∃ s1, fillBatch s c b m = s1 := ⟨_, rfl⟩
        have ek : s1.conn c = { s.conn c with
            n := (s.conn c).n + 1, cur := (s.conn c).cur + m.data.length } := by
          subst hs1; simp [fillBatch, upd]
        have eo : ∀ d, d ≠ c → s1.conn d = s.conn d := by
          intro d e; subst hs1; simp [fillBatch, upd, e]
        have hg1 : s1.bad = false ∧ (∀ b, (s1.bufs b).pay.length = cfg.paySize) ∧
            ∀ b, (s1.bufs b).hdr.length = cfg.hdrSize := by
          subst hs1
          refine ⟨?_, ?_, ?_⟩
          · simp only [fillBatch, h.good, fits, h.pay, h.hdr, header_length, Bool.false_or,
              Bool.not_eq_false', Bool.and_eq_true, decide_eq_true_eq]
            omega
          · intro x
            by_cases e : x = b
            · subst e
              simp only [fillBatch, upd, if_true]
              rw [wr_length (by rw [h.pay]; exact hfp), h.pay]
            · simp only [fillBatch, upd, if_neg e, h.pay]
          · intro x
            by_cases e : x = b
            · subst e
              simp only [fillBatch, upd, if_true]
              rw [wr_length (by rw [h.hdr, header_length]; exact hfh), h.hdr]
            · simp only [fillBatch, upd, if_neg e, h.hdr]
        rw [hs1] at hs
        split at hs
        · simp only [Option.some.injEq] at hs; subst hs
          -- the connection may be at the limits: the same writes on a state without them
          have hnb' : (s1.conn c).n * HS ≤ cfg.batch * HS := by
            rw [ek]; exact Nat.mul_le_mul_right _ hn
          have hcb' : (s1.conn c).cur ≤ 2 * cfg.limit := by rw [ek]; dsimp only; omega
          have hhl : ((s1.bufs b).hdr.take ((s1.conn c).n * HS)).length = (s1.conn c).n * HS := by
            rw [List.length_take, hg1.2.2]; unfold Cfg.hdrSize; omega
          have hfit : (s1.conn c).cur + (s1.conn c).n * HS + 4 ≤ cfg.paySize := by
            unfold Cfg.paySize; omega
          have hl1 : (wr (s1.bufs b).pay (s1.conn c).cur
              ((s1.bufs b).hdr.take ((s1.conn c).n * HS))).length = cfg.paySize := by
            rw [wr_length (by rw [hhl, hg1.2.1]; omega), hg1.2.1]
          refine ⟨?_, ?_, ?_, ?_, ?_⟩
          · simp only [trailer, hg1.1, fits, hg1.2.1, hg1.2.2, hhl, be_length, Bool.false_or,
              Bool.not_eq_false', Bool.and_eq_true, decide_eq_true_eq, Cfg.hdrSize]
            omega
          · intro x
            by_cases e : x = b
            · subst e
              simp only [trailer, upd, if_true]
              rw [wr_length (by rw [hl1, hhl, be_length]; omega), hl1]
            · simp only [trailer, upd, if_neg e, hg1.2.1]
          · intro x
            by_cases e : x = b
            · subst e; simp only [trailer, upd, if_true, hg1.2.2]
            · simp only [trailer, upd, if_neg e, hg1.2.2]
          · intro d
            by_cases e : d = c
            · subst e; simp [trailer, upd]
            · simp only [trailer, upd, if_neg e, eo d e]; exact h.idle d
          · intro d
            by_cases e : d = c
            · subst e; simp [trailer, upd, ek, hb]
            · simp only [trailer, upd, if_neg e, eo d e]; exact h.buf d
        · rename_i hno
          simp only [not_or] at hno
          simp only [Option.some.injEq] at hs; subst hs
          refine ⟨hg1.1, hg1.2.1, hg1.2.2, ?_, ?_⟩
          · intro d
            by_cases e : d = c
            · subst e; rw [ek]; dsimp only; intro _; exact ⟨by omega, fun _ => by omega⟩
            · rw [eo d e]; exact h.idle d
          · intro d
            by_cases e : d = c
            · subst e; rw [ek]; exact h.buf d
            · rw [eo d e]; exact h.buf d
    · simp at hs
  | flush c =>
    simp only [Sender.step] at hs
    split at hs
    · rename_i b hi hb
      split at hs
      · simp only [Option.some.injEq] at hs; subst hs; exact h
      · simp only [Option.some.injEq] at hs; subst hs
        obtain ⟨hn, hcur⟩ := h.idle c hi
        have hcur := hcur (by simp [hb])
        exact trailer_B h hb (by omega) (by omega)
    · simp only [Option.some.injEq] at hs; subst hs; exact h
    · simp at hs
  | send c =>
    simp only [Sender.step] at hs
    split at hs
    · simp at hs
    split at hs
    · simp only [Option.some.injEq] at hs; subst hs
      have h1 := h.upd_conn (c := c) (k' := { s.conn c with
        buf := none, n := 0, cur := 0, pc := .idle }) (fun _ => ⟨hcb, by simp⟩) (by simp)
      refine ⟨h.good, h.pay, h.hdr, fun d => ?_, fun d => ?_⟩
      · have := h1.idle d
        by_cases e : d = c
        · subst e; simpa [upd] using this
        · simpa [upd, e] using this
      · have := h1.buf d
        by_cases e : d = c
        · subst e; simp [upd]
        · simpa [upd, e] using this
    · rename_i m b hpc hb
      simp only [Option.some.injEq] at hs; subst hs
      refine fillDirect_B hcb (h.upd_conn ?_ ?_) ?_
      · dsimp only; rw [hpc]; simp
      · dsimp only; rw [hb]; simp
      · simp [upd, hb]
    · simp only [Option.some.injEq] at hs; subst hs
      have h1 := h.upd_conn (c := c) (k' := { s.conn c with
        buf := none, n := 0, cur := 0, pc := .idle }) (fun _ => ⟨hcb, by simp⟩) (by simp)
      refine ⟨h.good, h.pay, h.hdr, fun d => ?_, fun d => ?_⟩
      · have := h1.idle d
        by_cases e : d = c
        · subst e; simpa [upd] using this
        · simpa [upd, e] using this
      · have := h1.buf d
        by_cases e : d = c
        · subst e; simp [upd]
        · simpa [upd, e] using this
    · simp at hs
  | tx c =>
    simp only [Sender.step] at hs
    split at hs
    · simp at hs
    · simp only [Option.some.injEq] at hs; subst hs
      exact h.upd_conn (h.idle c) (h.buf c)
  | ack c =>
    simp only [Sender.step] at hs
    split at hs
    · simp only [Option.some.injEq] at hs; subst hs
      exact h.upd_conn (h.idle c) (h.buf c)
    · simp at hs
  | getAck c =>
    simp only [Sender.step] at hs
    split at hs
    · simp at hs
    · simp only [Option.some.injEq] at hs; subst hs
      exact h.upd_conn (h.idle c) (h.buf c)

theorem reach_B {cfg junk s} (hcb : 1 ≤ cfg.batch) (hr : Reach (step cfg) (init cfg junk) s) :
    B cfg s := hr.inv (init_B hcb junk) (fun _ _ _ hi hst => hi.step hcb hst)

/-- **C43**: in no schedule is anything written outside the send buffers. -/
theorem C43_in_bounds {cfg junk s} (hcb : 1 ≤ cfg.batch) (hr : Reach (step cfg) (init cfg junk) s) :
    s.bad = false := (reach_B hcb hr).good

/-! ## C43: what is on the wire -/

theorem exec_Inv {cfg : Cfg} (hcb : 1 ≤ cfg.batch) : ∀ (acts : List Act) (s s' : S) (P : Nat → List Msg),
    Inv cfg P s → (∀ a ∈ acts, Calm cfg a) → exec (step cfg) s acts = some s' →
    Inv cfg (fun c => P c ++ pushed c acts) s'
  | [], s, s', P, h, _, he => by
    simp only [exec, Option.some.injEq] at he; subst he
    simpa [pushed] using h
  | a :: acts, s, s', P, h, hc, he => by
    simp only [exec] at he
    split at he
    · simp at he
    rename_i s1 h1
    have := exec_Inv hcb acts s1 s' _ (h.step hcb (hc a (by simp)) h1)
      (fun x hx => hc x (List.mem_cons_of_mem _ hx)) he
    have e : (fun c => addP P a c ++ pushed c acts) = fun c => P c ++ pushed c (a :: acts) := by
      funext c
      cases a with
      | push d m =>
        by_cases e : c = d
        · subst e; simp [addP, upd, pushed]
        · simp [addP, upd, pushed, e, Ne.symm e]
      | _ => rfl
    rw [e] at this
    exact this

/-- **C43**: in every schedule, the frames sent and under way on a connection are those of units (batches
and direct sends) that contain, in order and each once, the messages given to the connection, but for the
last ones not sent yet; these are none when the connection is between calls and holds no message.  Every
batch is within the limits.

Missing: a message at the byte limit or above it, given to a connection that batches, on a transport that
does not copy at once (see `C43_overwrite_counterexample`). -/
theorem C43_wire_partial {cfg junk acts s} (hcb : 1 ≤ cfg.batch)
    (hov : cfg.copies = true ∨ cfg.batch = 1 ∨ ∀ c, ∀ m ∈ pushed c acts, m.data.length < cfg.limit)
    (he : exec (step cfg) (init cfg junk) acts = some s) (c : Nat) :
    ∃ (us : List Sent) (pend : List Msg), us.flatMap Sent.msgs ++ pend = pushed c acts ∧
      (s.conn c).wire ++ (s.conn c).flight.map (content s.bufs) = us.flatMap Sent.frames ∧
      us.length = (s.conn c).sent ∧
      (∀ ms, Sent.batch ms ∈ us →
        ms ≠ [] ∧ ms.length ≤ cfg.batch ∧ ∀ m ∈ ms, m.data.length < cfg.limit) ∧
      ((s.conn c).pc = .idle → pend.length = (s.conn c).n ∧ (s.conn c).n < cfg.batch) := by
  have hcalm : ∀ a ∈ acts, Calm cfg a := by
    intro a ha
    cases a with
    | push d m =>
      rcases hov with h | h | h
      · exact Or.inl h
      · exact Or.inr (Or.inl h)
      · refine Or.inr (Or.inr (h d m ?_))
        clear he h
        induction acts with
        | nil => simp at ha
        | cons x xs ih =>
          rcases List.mem_cons.1 ha with e | ha
          · subst e; simp [pushed]
          · have := ih ha
            cases x with
            | push d' m' => simp only [pushed]; split <;> simp [this]
            | _ => exact this
    | _ => trivial
  obtain ⟨us, pend, hc⟩ := (exec_Inv hcb acts _ _ _ (init_inv cfg junk) hcalm he).c c
  refine ⟨us, pend ++ hold (s.conn c).pc, ?_, hc.out, hc.num, hc.usok, ?_⟩
  · rw [← List.append_assoc]; simpa using hc.all
  · intro hi
    refine ⟨by rw [hi]; simpa [hold] using hc.nn, ((reach_B hcb ⟨acts, he⟩).idle c hi).1⟩

theorem flush_empty {cfg : Cfg} {s s' : S} {c : Nat}
    (h : exec (step cfg) s [.flush c] = some s' ∨ exec (step cfg) s [.flush c, .send c] = some s')
    (hi : (s'.conn c).pc = .idle) (hbuf : (s.conn c).buf = none → (s.conn c).n = 0) :
    (s'.conn c).n = 0 := by
  have key : ∀ s1, step cfg s (.flush c) = some s1 →
      ((s1.conn c).pc = .idle ∧ (s1.conn c).n = 0) ∨ (s1.conn c).pc = .flushing none := by
    intro s1 h1
    simp only [Sender.step] at h1
    split at h1
    · rename_i b hp hb
      split at h1
      · rename_i hn
        simp only [Option.some.injEq] at h1; subst h1; exact Or.inl ⟨hp, hn⟩
      · simp only [Option.some.injEq] at h1; subst h1
        right; simp [trailer, upd]
    · rename_i hp hb
      simp only [Option.some.injEq] at h1; subst h1; exact Or.inl ⟨hp, hbuf hb⟩
    · simp at h1
  rcases h with h | h
  · simp only [exec] at h
    split at h
    · simp at h
    · rename_i s1 h1
      simp only [Option.some.injEq] at h; subst h
      rcases key _ h1 with h2 | h2
      · exact h2.2
      · rw [h2] at hi; simp at hi
  · simp only [exec] at h
    split at h
    · simp at h
    · rename_i s1 h1
      split at h
      · simp at h
      · rename_i s2 h2
        simp only [Option.some.injEq] at h; subst h
        simp only [Sender.step] at h2
        split at h2
        · simp at h2
        split at h2
        · simp only [Option.some.injEq] at h2; subst h2; simp [upd]
        · rename_i m b hp _
          rcases key _ h1 with h3 | h3
          · rw [h3.1] at hp; simp at hp
          · rw [h3] at hp; simp at hp
        · simp only [Option.some.injEq] at h2; subst h2; simp [upd]
        · simp at h2

theorem pushed_append (c : Nat) (as bs : List Act) :
    pushed c (as ++ bs) = pushed c as ++ pushed c bs := by
  induction as with
  | nil => rfl
  | cons a as ih =>
    cases a with
    | push d m => simp only [List.cons_append, pushed]; split <;> simp [ih]
    | _ => simpa [pushed] using ih

/-- Without a buffer there is no pending message. -/
def Nobuf (s : S) : Prop := ∀ c, (s.conn c).buf = none → (s.conn c).n = 0

theorem Nobuf.step {cfg s a s'} (h : Nobuf s) (hs : step cfg s a = some s') : Nobuf s' := by
  have aux : ∀ (c : Nat) (k' : Conn), (k'.buf = none → k'.n = 0) →
      ∀ d, (upd s.conn c k' d).buf = none → (upd s.conn c k' d).n = 0 := by
    intro c k' hk d
    by_cases e : d = c
    · subst e; simpa [upd] using hk
    · simp only [upd, if_neg e]; exact h d
  cases a with
  | acquire c b =>
    simp only [Sender.step] at hs
    split at hs
    · simp at hs
    split at hs
    · split at hs
      · simp only [Option.some.injEq] at hs; subst hs; exact aux c _ (by simp)
      · simp at hs
    · split at hs
      · simp only [Option.some.injEq] at hs; subst hs; exact aux c _ (by simp)
      · simp at hs
  | push c m =>
    simp only [Sender.step] at hs
    split at hs
    · rename_i b hi hb
      split at hs
      · split at hs
        · simp only [Option.some.injEq] at hs; subst hs; exact aux c _ (by simp [hb])
        · simp only [Option.some.injEq] at hs; subst hs; exact aux c _ (by simp [hb])
      · split at hs
        · simp only [Option.some.injEq] at hs; subst hs
          intro d
          by_cases e : d = c
          · subst e; simp [trailer, fillBatch, upd, hb]
          · simp only [trailer, fillBatch, upd, if_neg e]; exact h d
        · simp only [Option.some.injEq] at hs; subst hs; exact aux c _ (by simp [hb])
    · simp at hs
  | flush c =>
    simp only [Sender.step] at hs
    split at hs
    · rename_i b hi hb
      split at hs
      · simp only [Option.some.injEq] at hs; subst hs; exact h
      · simp only [Option.some.injEq] at hs; subst hs; exact aux c _ (by simp [hb])
    · simp only [Option.some.injEq] at hs; subst hs; exact h
    · simp at hs
  | send c =>
    simp only [Sender.step] at hs
    split at hs
    · simp at hs
    split at hs
    · simp only [Option.some.injEq] at hs; subst hs; exact aux c _ (by simp)
    · rename_i m b hi hb
      simp only [Option.some.injEq] at hs; subst hs
      intro d
      by_cases e : d = c
      · subst e; simp [fillDirect, upd]
      · simp only [fillDirect, upd, if_neg e]; exact h d
    · simp only [Option.some.injEq] at hs; subst hs; exact aux c _ (by simp)
    · simp at hs
  | tx c =>
    simp only [Sender.step] at hs
    split at hs
    · simp at hs
    · simp only [Option.some.injEq] at hs; subst hs; exact aux c _ (h c)
  | ack c =>
    simp only [Sender.step] at hs
    split at hs
    · simp only [Option.some.injEq] at hs; subst hs; exact aux c _ (h c)
    · simp at hs
  | getAck c =>
    simp only [Sender.step] at hs
    split at hs
    · simp at hs
    · simp only [Option.some.injEq] at hs; subst hs; exact aux c _ (h c)

/-- **C43**: once a flush of the connection has been carried out, with or without something to send, every
message given to the connection is on the wire or under way. -/
theorem C43_flush_partial {cfg junk acts s} {c : Nat} (hcb : 1 ≤ cfg.batch)
    (hov : cfg.copies = true ∨ cfg.batch = 1 ∨ ∀ c, ∀ m ∈ pushed c acts, m.data.length < cfg.limit)
    (he : exec (step cfg) (init cfg junk) (acts ++ [.flush c]) = some s ∨
      exec (step cfg) (init cfg junk) (acts ++ [.flush c, .send c]) = some s)
    (hi : (s.conn c).pc = .idle) :
    ∃ us : List Sent, us.flatMap Sent.msgs = pushed c acts ∧
      (s.conn c).wire ++ (s.conn c).flight.map (content s.bufs) = us.flatMap Sent.frames := by
  obtain ⟨tail, he', htail⟩ : ∃ tail, exec (step cfg) (init cfg junk) (acts ++ tail) = some s ∧
      (tail = [.flush c] ∨ tail = [.flush c, .send c]) := by
    rcases he with h | h
    · exact ⟨_, h, Or.inl rfl⟩
    · exact ⟨_, h, Or.inr rfl⟩
  have hpt : ∀ d, pushed d (acts ++ tail) = pushed d acts := by
    intro d; rw [pushed_append]; rcases htail with e | e <;> subst e <;> simp [pushed]
  have hov' : cfg.copies = true ∨ cfg.batch = 1 ∨
      ∀ d, ∀ m ∈ pushed d (acts ++ tail), m.data.length < cfg.limit := by
    rcases hov with h | h | h
    · exact Or.inl h
    · exact Or.inr (Or.inl h)
    · refine Or.inr (Or.inr fun d m hm => h d m ?_); rwa [hpt] at hm
  obtain ⟨us, pend, h1, h2, _, _, h5⟩ := C43_wire_partial hcb hov' he' c
  have hsplit := exec_append (step cfg) (init cfg junk) acts tail
  rw [he'] at hsplit
  cases hm : exec (step cfg) (init cfg junk) acts with
  | none => rw [hm] at hsplit; simp at hsplit
  | some s0 =>
    rw [hm] at hsplit
    simp only [Option.bind_some] at hsplit
    have hnb : Nobuf s0 := exec_inv (Inv := Nobuf) (by intro d _; rfl)
      (fun _ _ _ hi' hst => hi'.step hst) hm
    have hn : (s.conn c).n = 0 := by
      refine flush_empty (cfg := cfg) (s := s0) ?_ hi (hnb c)
      rcases htail with e | e
      · subst e; exact Or.inl hsplit.symm
      · subst e; exact Or.inr hsplit.symm
    have hp := (h5 hi).1
    rw [hn] at hp
    have := List.length_eq_zero_iff.1 hp
    subst this
    rw [List.append_nil, hpt] at h1
    exact ⟨us, h1, h2⟩

/-! ## From the sender to the receiver -/

/-- What the receiver makes of the frames of a connection, read in order; the payload of a big message is
the next frame (ff/distributed/ff_dreceiverMTCL.hpp:85-88). -/
def receive : List (List Nat) → Option (List Item)
  | [] => some []
  | f :: fs =>
    match decode f with
    | none => none
    | some [.big src dest type size] =>
      match fs with
      | [] => some []
      | p :: fs' =>
        if p.length = size then (receive fs').map (Item.data ⟨src, dest, type, p⟩ :: ·) else none
    | some l => (receive fs).map (l ++ ·)

theorem receive_cons {f : List Nat} {l : List Item} (fs) (h : decode f = some l)
    (hl : ∀ s d t z, l ≠ [.big s d t z]) : receive (f :: fs) = (receive fs).map (l ++ ·) := by
  rw [receive]
  split
  · rename_i h'; rw [h] at h'; simp at h'
  · rename_i h'; rw [h] at h'; simp only [Option.some.injEq] at h'; exact absurd h' (hl _ _ _ _)
  · rename_i h'; rw [h] at h'; simp only [Option.some.injEq] at h'; subst h'; rfl

theorem arrives_not_big (ms : List Msg) (s d t z) : ms.flatMap arrives ≠ [.big s d t z] := by
  intro h
  have : Item.big s d t z ∈ ms.flatMap arrives := by rw [h]; simp
  rw [List.mem_flatMap] at this
  obtain ⟨m, _, hm⟩ := this
  unfold arrives at hm
  split at hm
  · split at hm <;> simp at hm
  · simp at hm

/-- Any part of the frames of some units, from the start, gives the messages of the first units. -/
theorem receive_frames {cfg : Cfg} (hb : cfg.batch < 2 ^ 31) (hl : cfg.limit ≤ THRESH + 1) :
    ∀ (us : List Sent),
    (∀ ms, Sent.batch ms ∈ us → ms ≠ [] ∧ ms.length ≤ cfg.batch ∧ ∀ m ∈ ms, m.data.length < cfg.limit) →
    (∀ m ∈ us.flatMap Sent.msgs, m.Ok) → ∀ w r, w ++ r = us.flatMap Sent.frames →
    ∃ k, receive w = some (((us.take k).flatMap Sent.msgs).flatMap arrives) ∧ (r = [] → k = us.length)
  | [], _, _, w, r, h => by
    simp only [List.flatMap_nil, List.append_eq_nil_iff] at h
    exact ⟨0, by rw [h.1]; rfl, by simp⟩
  | u :: us, hu, hok, w, r, h => by
    have ih := receive_frames hb hl us (fun ms hms => hu ms (List.mem_cons_of_mem _ hms))
      (fun m hm => hok m (by
        rw [List.flatMap_cons]; exact List.mem_append_right _ hm))
    -- a unit in one frame
    have one : ∀ f, u.frames = [f] → decode f = some (u.msgs.flatMap arrives) →
        ∃ k, receive w = some ((((u :: us).take k).flatMap Sent.msgs).flatMap arrives) ∧
          (r = [] → k = (u :: us).length) := by
      intro f hf hd
      rw [List.flatMap_cons, hf] at h
      cases w with
      | nil =>
        refine ⟨0, rfl, fun e => ?_⟩
        subst e; simp at h
      | cons x w =>
        simp only [List.cons_append, List.nil_append, List.cons.injEq] at h
        obtain ⟨e, h⟩ := h
        subst e
        obtain ⟨k, hk, hr⟩ := ih w r h
        refine ⟨k + 1, ?_, fun e => by rw [hr e]; rfl⟩
        rw [receive_cons _ hd (arrives_not_big _), hk]
        simp
    cases u with
    | batch ms =>
      obtain ⟨h1, h2, h3⟩ := hu ms (by simp)
      have hms : ∀ m ∈ ms, m.Ok := fun m hm => hok m (by
        rw [List.flatMap_cons]; exact List.mem_append_left _ hm)
      refine one (batchFrame ms) rfl ?_
      by_cases e : 2 ≤ ms.length
      · exact C42_batch e (by omega) hms
      · match ms, h1 with
        | [m], _ =>
          have := C42_single_partial (hms m (by simp)) (by have := h3 m (by simp); omega)
          simpa [Sent.msgs] using this
        | _ :: _ :: _, _ => simp at e
    | direct m =>
      have hm : m.Ok := hok m (by rw [List.flatMap_cons]; exact List.mem_append_left _ (by simp [Sent.msgs]))
      by_cases e : m.data.length ≤ THRESH
      · obtain ⟨f, hf, hd⟩ := C42_direct hm e
        exact one f hf (by simpa [Sent.msgs] using hd)
      · obtain ⟨f, hf, hd⟩ := C42_direct_big hm (by omega)
        rw [List.flatMap_cons, Sent.frames, hf] at h
        clear one
        rcases w with _ | ⟨x, _ | ⟨y, w⟩⟩
        · exact ⟨0, rfl, fun e => by subst e; simp at h⟩
        · simp only [List.cons_append, List.nil_append, List.cons.injEq] at h
          obtain ⟨e1, h⟩ := h
          subst e1
          refine ⟨0, by simp [receive, hd], fun e => by subst e; simp at h⟩
        · simp only [List.cons_append, List.nil_append, List.cons.injEq] at h
          obtain ⟨e1, e2, h⟩ := h
          subst e1 e2
          obtain ⟨k, hk, hr⟩ := ih w r h
          refine ⟨k + 1, ?_, fun e => by rw [hr e]; rfl⟩
          have hne : m.data ≠ [] := by
            intro e'; rw [e'] at e; simp at e
          simp only [receive, hd, hk, if_true, Option.map_some, List.take_succ_cons, List.flatMap_cons,
            Sent.msgs, List.flatMap_append, List.flatMap_nil, List.append_nil]
          simp [arrives, hne]

/-- **C42, C43, end to end**: in every schedule, what the receiver makes of the frames it has been sent on
a connection is what should arrive for the first messages given to that connection; all of them, when the
connection is between calls, holds no message and nothing is under way.

Missing: see `C43_wire_partial`, and a byte limit above the threshold for separate sends (see
`C42_single_counterexample`). -/
theorem C43_end_to_end_partial {cfg junk acts s} (hcb : 1 ≤ cfg.batch) (hb : cfg.batch < 2 ^ 31)
    (hl : cfg.limit ≤ THRESH + 1)
    (hov : cfg.copies = true ∨ cfg.batch = 1 ∨ ∀ c, ∀ m ∈ pushed c acts, m.data.length < cfg.limit)
    (he : exec (step cfg) (init cfg junk) acts = some s) (c : Nat) (hok : ∀ m ∈ pushed c acts, m.Ok) :
    ∃ ms, ms <+: pushed c acts ∧ receive (s.conn c).wire = some (ms.flatMap arrives) ∧
      ((s.conn c).pc = .idle → (s.conn c).n = 0 → (s.conn c).flight = [] → ms = pushed c acts) := by
  obtain ⟨us, pend, h1, h2, _, h4, h5⟩ := C43_wire_partial hcb hov he c
  obtain ⟨k, hk, hr⟩ := receive_frames hb hl us h4 (fun m hm => hok m (by
    rw [← h1]; exact List.mem_append_left _ hm)) _ _ h2
  refine ⟨_, ?_, hk, ?_⟩
  · rw [← h1]
    refine List.IsPrefix.trans ?_ (List.prefix_append _ _)
    refine ⟨(us.drop k).flatMap Sent.msgs, ?_⟩
    rw [← List.flatMap_append, List.take_append_drop]
  · intro hi hn hf
    have hp := (h5 hi).1
    rw [hn] at hp
    have := List.length_eq_zero_iff.1 hp
    subst this
    rw [hr (by rw [hf]; rfl), List.take_length, ← h1, List.append_nil]

/-! ## C45: credits -/

/-- The transfers under way that carry a batch. -/
def batches (l : List Flight) : Nat := l.countP Flight.isBatch

/-- The accounts of a connection. -/
structure Acc (cfg : Cfg) (k : Conn) : Prop where
  nonneg : 0 ≤ k.credit
  sum : k.credit + k.sent + k.back = cfg.otf + k.handled
  fl : k.txd + batches k.flight = k.sent
  h : k.handled ≤ k.txd

theorem batches_flightOf (cfg : Cfg) (s : S) (b len : Nat) (r : List Flight) :
    batches (flightOf cfg s b len :: r) = batches r + 1 := by
  unfold batches flightOf
  split <;> rw [List.countP_cons_of_pos (by rfl)]

theorem batches_append (l r : List Flight) : batches (l ++ r) = batches l + batches r := by
  simp [batches]

theorem Acc.step {cfg s a s'} (hak : cfg.acks = true) (h : ∀ c, Acc cfg (s.conn c))
    (hs : step cfg s a = some s') : ∀ c, Acc cfg (s'.conn c) := by
  have aux : ∀ (c : Nat) (k' : Conn), Acc cfg k' → ∀ d, Acc cfg (upd s.conn c k' d) := by
    intro c k' hk d
    by_cases e : d = c
    · subst e; simpa [upd] using hk
    · simp only [upd, if_neg e]; exact h d
  have same : ∀ (c : Nat) (k' : Conn), k'.credit = (s.conn c).credit → k'.sent = (s.conn c).sent →
      k'.back = (s.conn c).back → k'.handled = (s.conn c).handled → k'.txd = (s.conn c).txd →
      k'.flight = (s.conn c).flight → Acc cfg k' := by
    intro c k' h1 h2 h3 h4 h5 h6
    have := h c
    exact ⟨by rw [h1]; exact this.nonneg, by rw [h1, h2, h3, h4]; exact this.sum,
      by rw [h5, h6, h2]; exact this.fl, by rw [h4, h5]; exact this.h⟩
  cases a with
  | acquire c b =>
    simp only [Sender.step] at hs
    split at hs
    · simp at hs
    split at hs
    · split at hs
      · simp only [Option.some.injEq] at hs; subst hs
        exact aux c _ (same c _ rfl rfl rfl rfl rfl rfl)
      · simp at hs
    · split at hs
      · simp only [Option.some.injEq] at hs; subst hs
        exact aux c _ (same c _ rfl rfl rfl rfl rfl rfl)
      · simp at hs
  | push c m =>
    simp only [Sender.step] at hs
    split at hs
    · rename_i b hi hb
      split at hs
      · split at hs
        · simp only [Option.some.injEq] at hs; subst hs
          exact aux c _ (same c _ rfl rfl rfl rfl rfl rfl)
        · simp only [Option.some.injEq] at hs; subst hs
          exact aux c _ (same c _ rfl rfl rfl rfl rfl rfl)
      · split at hs
        · simp only [Option.some.injEq] at hs; subst hs
          intro d
          by_cases e : d = c
          · subst e
            refine same d _ ?_ ?_ ?_ ?_ ?_ ?_ <;> simp [trailer, fillBatch, upd]
          · simp only [trailer, fillBatch, upd, if_neg e]; exact h d
        · simp only [Option.some.injEq] at hs; subst hs
          exact aux c _ (same c _ rfl rfl rfl rfl rfl rfl)
    · simp at hs
  | flush c =>
    simp only [Sender.step] at hs
    split at hs
    · split at hs
      · simp only [Option.some.injEq] at hs; subst hs; exact h
      · simp only [Option.some.injEq] at hs; subst hs
        exact aux c _ (same c _ rfl rfl rfl rfl rfl rfl)
    · simp only [Option.some.injEq] at hs; subst hs; exact h
    · simp at hs
  | send c =>
    simp only [Sender.step] at hs
    split at hs
    · simp at hs
    rename_i hcr
    have hc0 : (s.conn c).credit ≠ 0 := fun e => hcr ⟨hak, e⟩
    have h0 := h c
    have hnn := h0.nonneg
    have hsum := h0.sum
    have hfl := h0.fl
    split at hs
    · simp only [Option.some.injEq] at hs; subst hs
      refine aux c _ ⟨?_, ?_, ?_, h0.h⟩
      · simp only [hak, if_true]; omega
      · simp only [hak, if_true]; omega
      · simp only [batches_append, batches_flightOf]; simp only [batches, List.countP_nil] at *; omega
    · simp only [Option.some.injEq] at hs; subst hs
      intro d
      by_cases e : d = c
      · subst e
        refine ⟨?_, ?_, ?_, ?_⟩
        · simp only [fillDirect, upd, if_true, hak]; omega
        · simp only [fillDirect, upd, if_true, hak]; omega
        · simp only [fillDirect, upd, if_true, batches_append, batches_flightOf]
          simp only [batches, List.countP_nil] at *; omega
        · simp only [fillDirect, upd, if_true]; exact h0.h
      · simp only [fillDirect, upd, if_neg e]; exact h d
    · simp only [Option.some.injEq] at hs; subst hs
      refine aux c _ ⟨?_, ?_, ?_, h0.h⟩
      · simp only [hak, if_true]; omega
      · simp only [hak, if_true]; omega
      · simp only [batches_append, batches_flightOf]
        split
        · simp only [batches, List.countP_singleton, Flight.isBatch] at *
          simp only [Bool.false_eq_true, if_false]; omega
        · simp only [batches, List.countP_nil] at *; omega
    · simp at hs
  | tx c =>
    simp only [Sender.step] at hs
    split at hs
    · simp at hs
    · rename_i x xs hx
      simp only [Option.some.injEq] at hs; subst hs
      have h0 := h c
      have hfl := h0.fl
      have hh := h0.h
      rw [hx] at hfl
      refine aux c _ ⟨h0.nonneg, h0.sum, ?_, ?_⟩
      · simp only [batches, List.countP_cons] at hfl ⊢; split at hfl <;> simp_all <;> omega
      · dsimp only; split <;> omega
  | ack c =>
    simp only [Sender.step] at hs
    split at hs
    · simp only [Option.some.injEq] at hs; subst hs
      have h0 := h c
      have hsum := h0.sum
      refine aux c _ ⟨h0.nonneg, ?_, h0.fl, ?_⟩
      · dsimp only; omega
      · dsimp only; omega
    · simp at hs
  | getAck c =>
    simp only [Sender.step] at hs
    split at hs
    · simp at hs
    · simp only [Option.some.injEq] at hs; subst hs
      have h0 := h c
      have hsum := h0.sum
      have hnn := h0.nonneg
      refine aux c _ ⟨?_, ?_, h0.fl, h0.h⟩
      · dsimp only; omega
      · dsimp only; omega

theorem init_Acc (cfg : Cfg) (junk) : ∀ c, Acc cfg ((init cfg junk).conn c) := by
  intro c
  exact ⟨by simp [init], by simp [init], rfl, Nat.le_refl _⟩

theorem reach_Acc {cfg junk s} (hak : cfg.acks = true) (hr : Reach (step cfg) (init cfg junk) s) :
    ∀ c, Acc cfg (s.conn c) :=
  hr.inv (Inv := fun s => ∀ c, Acc cfg (s.conn c)) (init_Acc cfg junk)
    (fun _ _ _ hi hst => Acc.step hak hi hst)

/-- **C45**: with acknowledgements, in every schedule at most `otf` batches of a connection are sent and not
acknowledged by the receiver; and the acknowledgements the sender has read account for the credit. -/
theorem C45_window {cfg junk s} (hak : cfg.acks = true) (hr : Reach (step cfg) (init cfg junk) s)
    (c : Nat) : (s.conn c).sent ≤ (s.conn c).handled + cfg.otf ∧ (s.conn c).handled ≤ (s.conn c).sent ∧
      0 ≤ (s.conn c).credit ∧
      (s.conn c).credit = cfg.otf - ((s.conn c).sent - ((s.conn c).handled - (s.conn c).back) : Int) := by
  have h := reach_Acc hak hr c
  have h1 := h.nonneg
  have h2 := h.sum
  have h3 := h.fl
  have h4 := h.h
  omega

/-- **C45**: nothing is sent without credit. -/
theorem C45_send {cfg junk s s' c} (hak : cfg.acks = true) (hr : Reach (step cfg) (init cfg junk) s)
    (hs : step cfg s (.send c) = some s') : 0 < (s.conn c).credit ∧
      (s'.conn c).credit = (s.conn c).credit - 1 ∧ (s'.conn c).sent = (s.conn c).sent + 1 := by
  have h := (reach_Acc hak hr c).nonneg
  simp only [Sender.step] at hs
  split at hs
  · simp at hs
  rename_i hcr
  have hc0 : (s.conn c).credit ≠ 0 := fun e => hcr ⟨hak, e⟩
  refine ⟨by omega, ?_⟩
  split at hs
  · simp only [Option.some.injEq] at hs; subst hs; simp [upd, hak]
  · simp only [Option.some.injEq] at hs; subst hs; simp [upd, hak, fillDirect]
  · simp only [Option.some.injEq] at hs; subst hs; simp [upd, hak]
  · simp at hs

/-- The steps that are not the sender's calls. -/
def Outside (c : Nat) (a : Act) : Prop := a = .tx c ∨ a = .ack c ∨ a = .getAck c

theorem unblock {cfg : Cfg} (hot : 1 ≤ cfg.otf) {c : Nat} :
    ∀ (n : Nat) (s : S), (s.conn c).flight.length = n → Acc cfg (s.conn c) →
      (s.conn c).pc ≠ .idle → (s.conn c).buf ≠ none →
      ∃ as s', (∀ a ∈ as, Outside c a) ∧ exec (step cfg) s as = some s' ∧
        (step cfg s' (.send c)).isSome ∧ (s'.conn c).pc = (s.conn c).pc := by
  have ready : ∀ s : S, (s.conn c).credit ≠ 0 → (s.conn c).pc ≠ .idle → (s.conn c).buf ≠ none →
      (step cfg s (.send c)).isSome := by
    intro s h1 h2 h3
    cases hb : (s.conn c).buf with
    | none => exact absurd hb h3
    | some b =>
      simp only [Sender.step, hb]
      rw [if_neg (fun e => h1 e.2)]
      cases hp : (s.conn c).pc with
      | idle => exact absurd hp h2
      | flushing nx => cases nx <;> rfl
      | direct m => rfl
  have readBack : ∀ s : S, 0 < (s.conn c).back → Acc cfg (s.conn c) → (s.conn c).pc ≠ .idle →
      (s.conn c).buf ≠ none → ∃ s', step cfg s (.getAck c) = some s' ∧
        (step cfg s' (.send c)).isSome ∧ (s'.conn c).pc = (s.conn c).pc := by
    intro s hb ha h2 h3
    have e : step cfg s (.getAck c) = some { s with conn := upd s.conn c { s.conn c with
          back := (s.conn c).back - 1, credit := (s.conn c).credit + 1 } } := by
      simp only [Sender.step]; rw [if_neg (by omega)]
    refine ⟨_, e, ready _ ?_ ?_ ?_, ?_⟩
    · have := ha.nonneg
      simp only [upd, if_true]; omega
    · simpa [upd] using h2
    · simpa [upd] using h3
    · simp [upd]
  intro n
  induction n with
  | zero =>
    intro s hn ha h2 h3
    by_cases hc : (s.conn c).credit = 0
    · by_cases hb : 0 < (s.conn c).back
      · obtain ⟨s', h4, h5, h6⟩ := readBack s hb ha h2 h3
        exact ⟨[.getAck c], s', by simp [Outside], by simp [exec, h4], h5, h6⟩
      · have hf : (s.conn c).flight = [] := List.length_eq_zero_iff.1 hn
        have h1 := ha.sum
        have hfl := ha.fl
        rw [hf] at hfl
        simp only [batches, List.countP_nil] at hfl
        have e : step cfg s (.ack c) = some { s with conn := upd s.conn c { s.conn c with
            handled := (s.conn c).handled + 1, back := (s.conn c).back + 1 } } := by
          simp only [Sender.step]; rw [if_pos (by omega)]
        have ha' : Acc cfg { s.conn c with
            handled := (s.conn c).handled + 1, back := (s.conn c).back + 1 } := by
          refine ⟨ha.nonneg, ?_, ha.fl, ?_⟩ <;> dsimp only <;> omega
        obtain ⟨s', h4, h5, h6⟩ := readBack { s with conn := upd s.conn c { s.conn c with
            handled := (s.conn c).handled + 1, back := (s.conn c).back + 1 } }
          (by simp [upd]) (by simpa [upd] using ha') (by simpa [upd] using h2) (by simpa [upd] using h3)
        exact ⟨[.ack c, .getAck c], s', by simp [Outside], by simp [exec, e, h4], h5,
          by simpa [upd] using h6⟩
    · exact ⟨[], s, by simp, rfl, ready s hc h2 h3, rfl⟩
  | succ n ih =>
    intro s hn ha h2 h3
    cases hx : (s.conn c).flight with
    | nil => rw [hx] at hn; simp at hn
    | cons x xs =>
      have e : step cfg s (.tx c) = some { s with conn := upd s.conn c { s.conn c with
          flight := xs, wire := (s.conn c).wire ++ [content s.bufs x]
          txd := if x.isBatch then (s.conn c).txd + 1 else (s.conn c).txd } } := by
        simp only [Sender.step, hx]
      have hfl := ha.fl
      have hh := ha.h
      rw [hx] at hfl hn
      obtain ⟨as, s', h4, h5, h6, h7⟩ := ih { s with conn := upd s.conn c { s.conn c with
          flight := xs, wire := (s.conn c).wire ++ [content s.bufs x]
          txd := if x.isBatch then (s.conn c).txd + 1 else (s.conn c).txd } }
        (by simpa [upd] using hn)
        (by
          simp only [upd, if_true]
          refine ⟨ha.nonneg, ha.sum, ?_, ?_⟩
          · simp only [batches, List.countP_cons] at hfl ⊢; split at hfl <;> simp_all <;> omega
          · dsimp only; split <;> omega)
        (by simpa [upd] using h2) (by simpa [upd] using h3)
      refine ⟨.tx c :: as, s', ?_, by simp [exec, e, h5], h6, by simpa [upd] using h7⟩
      intro a ha
      rcases List.mem_cons.1 ha with e | ha
      · exact Or.inl e
      · exact h4 a ha

/-- **C45**: a sender that waits for a credit is not stuck: the transport and the receiver can always let
it send. -/
theorem C45_unblocks {cfg junk s c} (hak : cfg.acks = true) (hot : 1 ≤ cfg.otf) (hcb : 1 ≤ cfg.batch)
    (hr : Reach (step cfg) (init cfg junk) s) (hw : (s.conn c).pc ≠ .idle) :
    ∃ as s', (∀ a ∈ as, Outside c a) ∧ exec (step cfg) s as = some s' ∧
      (step cfg s' (.send c)).isSome := by
  obtain ⟨as, s', h1, h2, h3, _⟩ :=
    unblock hot _ s rfl (reach_Acc hak hr c) hw ((reach_B hcb hr).buf c hw)
  exact ⟨as, s', h1, h2, h3⟩

/-! ## Examples -/

/-- Batches of two messages, at most two bytes, ten batches on the fly; the transport reads the buffer
later. -/
def cfgO : Cfg := ⟨2, 2, 10, true, false⟩
def mA : Msg := ⟨0, 1, 0, [7]⟩
def mB : Msg := ⟨0, 1, 0, [8, 9]⟩

/-- **C43, counterexample**: a message at the byte limit, given to a connection that holds another one:
the batch is flushed, then the message is written over it in the same buffer while the transport may not
have sent it.  The first frame on the wire does not even start with the first message. -/
theorem C43_overwrite_counterexample (junk : Nat → Nat → Nat) :
    ∃ s, exec (step cfgO) (init cfgO junk)
        [.acquire 0 0, .push 0 mA, .push 0 mB, .send 0, .send 0, .tx 0, .tx 0] = some s ∧
      (s.conn 0).pc = .idle ∧ (s.conn 0).flight = [] ∧
      ∃ f g, (s.conn 0).wire = [f, g] ∧ f.head? = some 8 ∧ (batchFrame [mA]).head? = some 7 := by
  have e : (batchFrame [⟨0, 1, 0, [7]⟩]).head? = some 7 := by decide
  have e2 : ¬ THRESH < 2 := by decide
  simp [exec, step, init, upd, Quiet, cfgO, mA, mB, fillBatch, trailer, fillDirect, flightOf, content,
    inline, wr, e2, e, List.head?_append, List.head?_take]

/-- A schedule of the kind the theorems are about: two connections, a batch of two, a flush; one batch is
acknowledged. -/
example (junk : Nat → Nat → Nat) :
    ∃ s, exec (step ⟨2, 3, 1, true, false⟩) (init ⟨2, 3, 1, true, false⟩ junk)
        [.acquire 0 0, .push 0 mA, .acquire 1 1, .push 0 mB, .push 1 mB, .send 0, .flush 1, .send 1,
          .tx 0, .ack 0, .getAck 0, .tx 1] = some s ∧
      (s.conn 0).wire.length = 1 ∧ (s.conn 1).wire.length = 1 ∧ (s.conn 0).credit = 1 ∧
      (s.conn 1).credit = 0 := by
  simp [exec, step, init, upd, Quiet, mB, fillBatch, trailer, fillDirect, flightOf, content,
    inline, wr, mA, apply_ite Conn.flight, Flight.isBatch]

end FF.Net.Sender
