import Verif.Msgq.Thm
/-!
# C77: the theorems on the queue of messages of any size

Source: `/repo/ff/ff_queue.hpp`.
-/
namespace FF.Msgq
variable {D : Type}

/-- A state of some run: the queue is made with buckets of `bs` bytes and a maximum of `maxc` buckets; messages are values of `D`,
`sz` gives their size in bytes. -/
def Run (bs maxc : Nat) (sz : D → Nat) (s : S D) : Prop :=
  ∃ b pay cell, Reach (step bs maxc sz) (S.init bs b pay cell) s

theorem Run.inv {bs maxc : Nat} (hbs : 8 ≤ bs) {sz : D → Nat} {s : S D} (h : Run bs maxc sz s) : Inv bs sz s := by
  obtain ⟨b, pay, cell, h⟩ := h
  exact h.inv (init_inv hbs sz b pay cell) (fun _ _ _ => inv_step)

/-- **C77.** The messages that the consumer has read are the first of those committed: in order, once, unchanged. -/
theorem C77_fifo {bs maxc : Nat} (hbs : 8 ≤ bs) {sz : D → Nat} {s : S D} (h : Run bs maxc sz s) :
    s.got <+: s.sent.map some := by
  obtain ⟨_, _, _, _, _, B, ms, pre, hP, _, _, hc⟩ := h.inv hbs
  revert hc
  cases s.c with
  | idle => intro h; exact ⟨_, h.symm⟩
  | hop b => rintro ⟨h, _⟩; exact ⟨_, h.symm⟩
  | has => rintro ⟨h, _⟩; exact ⟨_, h.symm⟩
  | read => rintro ⟨g, d, ms', h1, h2, h3, _⟩; exact ⟨ms'.map some, by rw [h3, h1, h2]; simp⟩

/-- **C77.** `dequeue_prepare` returns 0 only if every committed message was read. -/
theorem C77_empty {bs maxc : Nat} (hbs : 8 ≤ bs) {sz : D → Nat} {s : S D} (h : Run bs maxc sz s) (hc : s.c = .idle)
    (hl : s.cell s.hb s.ho = .last) : s.got = s.sent.map some := by
  obtain ⟨_, _, _, _, _, B, ms, pre, hP, _, _, hi⟩ := h.inv hbs
  rw [hc] at hi
  have := hP.of_last hl
  subst this
  simpa [CInv] using hi.symm

/-- The actions of the consumer. -/
def Act.cons : Act D → Bool
  | .look | .hop | .get | .drop => true
  | _ => false

/-- **C77.** The consumer never waits for the producer: in every state it has an action. -/
theorem C77_consumer_free {bs maxc : Nat} (hbs : 8 ≤ bs) {sz : D → Nat} {s : S D} (h : Run bs maxc sz s) :
    ∃ a, a.cons = true ∧ (step bs maxc sz s a).isSome = true := by
  obtain ⟨_, _, _, _, _, B, ms, pre, hP, _, _, hc⟩ := h.inv hbs
  cases hcc : s.c with
  | idle =>
    refine ⟨.look, rfl, ?_⟩
    cases hw : s.cell s.hb s.ho with
    | junk => exact absurd hw hP.not_junk
    | _ => simp [step, hcc, hw]
  | hop b => exact ⟨.hop, rfl, by simp [step, hcc]⟩
  | has => exact ⟨.get, rfl, by simp [step, hcc]⟩
  | read =>
    rw [hcc] at hc
    obtain ⟨g, d, ms', _, _, _, o, ho⟩ := hc
    exact ⟨.drop, rfl, by simp [step, hcc, ho]⟩

theorem receives_aux {bs maxc : Nat} {sz : D → Nat} {tb t b off : Nat} {B : List Nat} {ms : List D}
    {cell : Nat → Nat → Cell} {pay : Nat → Nat → Option D} {size : Nat → Nat}
    (hP : Path sz cell pay size tb t b off B ms) (hne : ms ≠ []) :
    ∀ s : S D, s.cell = cell → s.pay = pay → s.hb = b → s.ho = off → s.c = .idle →
      ∃ as s', (∀ a ∈ as, a.cons = true) ∧ exec (step bs maxc sz) s as = some s' ∧ s'.c = .read ∧
        s'.got = s.got ++ [ms.head?] := by
  induction hP with
  | tail => exact absurd rfl hne
  | next h1 h2 h3 h ih =>
    intro s e1 e2 e3 e4 hc
    refine ⟨[.look, .get], { s with c := .read, got := s.got ++ [s.pay s.hb s.ho] }, by simp [Act.cons], ?_, rfl, ?_⟩
    · subst e1 e3 e4
      simp [exec, step, hc, h1]
    · subst e1 e2 e3 e4
      simp [h2]
  | @jump b off b' bs' ms h1 h2 h3 h ih =>
    intro s e1 e2 e3 e4 hc
    obtain ⟨as, s', g1, g2, g3, g4⟩ := ih hne { s with hb := b', ho := 0, c := .idle } e1 e2 rfl rfl rfl
    refine ⟨.look :: .hop :: as, s', ?_, ?_, g3, g4⟩
    · intro a ha
      rcases List.mem_cons.mp ha with rfl | ha
      · rfl
      rcases List.mem_cons.mp ha with rfl | ha
      · rfl
      exact g1 a ha
    · subst e1 e3 e4
      simp only [exec, step, hc, h1]
      exact g2

/-- **C77.** A committed message can be received by actions of the consumer alone. -/
theorem C77_receives {bs maxc : Nat} (hbs : 8 ≤ bs) {sz : D → Nat} {s : S D} (h : Run bs maxc sz s) (hc : s.c = .idle)
    (hl : s.got.length < s.sent.length) :
    ∃ as s', (∀ a ∈ as, a.cons = true) ∧ exec (step bs maxc sz) s as = some s' ∧ s'.c = .read ∧
      s'.got = s.got ++ [s.sent[s.got.length]?] := by
  obtain ⟨_, _, _, _, _, B, ms, pre, hP, _, _, hi⟩ := h.inv hbs
  rw [hc] at hi
  simp only [CInv] at hi
  have hms : ms ≠ [] := by
    rintro rfl
    have := congrArg List.length hi
    simp at this
    omega
  obtain ⟨as, s', g1, g2, g3, g4⟩ := receives_aux (maxc := maxc) (bs := bs) hP hms s rfl rfl rfl rfl hc
  refine ⟨as, s', g1, g2, g3, ?_⟩
  rw [g4]
  have h1 : (s.sent.map some)[s.got.length]? = (ms.map some)[0]? := by
    rw [hi, List.getElem?_append_right (Nat.le_refl _), Nat.sub_self]
  cases ms with
  | nil => exact absurd rfl hms
  | cons m r =>
    simp only [List.getElem?_map, List.map_cons, List.getElem?_cons_zero] at h1
    cases hq : s.sent[s.got.length]? with
    | none => rw [hq] at h1; simp at h1
    | some x => rw [hq] at h1; simp at h1; simp [h1]

/-- **C77.** The position of the consumer is in an allocated bucket of the chain, which the producer neither holds nor has freed. -/
theorem C77_head {bs maxc : Nat} (hbs : 8 ≤ bs) {sz : D → Nat} {s : S D} (h : Run bs maxc sz s) :
    s.mem s.hb = true ∧ s.hb ∈ s.chain ∧ s.hb ∉ s.p.held ∧ s.ho + 8 ≤ s.size s.hb := by
  obtain ⟨_, _, _, hm, hh, B, ms, pre, hP, hch, _, _⟩ := h.inv hbs
  obtain ⟨r, hr⟩ := hP.hd
  have hmem : s.hb ∈ s.chain := by rw [hch, hr]; simp
  exact ⟨(hm _).mpr (Or.inl hmem), hmem, fun hx => hh _ hx hmem, hP.bound⟩

/-- **C77.** A message that the consumer holds, with the word in front and the word behind, is inside its bucket, and the producer writes
behind it. -/
theorem C77_message {bs maxc : Nat} (hbs : 8 ≤ bs) {sz : D → Nat} {s : S D} (h : Run bs maxc sz s) {d : D}
    (hc : s.c = .has ∨ s.c = .read) (hd : s.pay s.hb s.ho = some d) :
    s.ho + 8 + sz d + 8 ≤ s.size s.hb ∧ (s.hb = s.tb → s.ho + 8 + sz d ≤ s.t) := by
  obtain ⟨_, _, _, _, _, B, ms, pre, hP, _, _, hi⟩ := h.inv hbs
  have ho : ∃ o, s.cell s.hb s.ho = .next o := by
    rcases hc with hc | hc <;> rw [hc] at hi
    · exact hi.2
    · obtain ⟨_, _, _, _, _, _, h⟩ := hi; exact h
  obtain ⟨o, ho⟩ := ho
  generalize hx : s.hb = x at *
  generalize hy : s.ho = y at *
  cases hP with
  | tail h1 => rw [h1] at ho; simp at ho
  | jump h1 => rw [h1] at ho; simp at ho
  | next h1 h2 h3 hP' =>
    rw [h2] at hd
    cases hd
    have h4 := hP'.bound
    have : sz d + 8 ≤ msgSize (sz d) := by unfold msgSize; omega
    exact ⟨by omega, fun e => by have := hP'.off_le e; omega⟩

/-- **C77.** The memory that `enqueue_prepare` returns (the position of the word in front is `t`) is aligned, has room for the message and for the next word,
and is in an allocated bucket. -/
theorem C77_room {bs maxc : Nat} (hbs : 8 ≤ bs) {sz : D → Nat} {s : S D} (h : Run bs maxc sz s) {d : D}
    (hp : s.p = .ready d) : s.mem s.tb = true ∧ s.t % 8 = 0 ∧ s.t + 8 + sz d ≤ s.tnext ∧ s.tnext + 8 ≤ s.size s.tb := by
  obtain ⟨hal, ht, _, hm, _, B, ms, pre, hP, hch, hi, _⟩ := h.inv hbs
  rw [hp] at hi
  have htb : s.tb ∈ s.chain := by rw [hch]; exact List.mem_append_right _ hP.tb_mem
  have : sz d + 8 ≤ msgSize (sz d) := by unfold msgSize; omega
  obtain ⟨h1, h2⟩ := hi
  exact ⟨(hm _).mpr (Or.inl htb), hal, by omega, by omega⟩

/-- **C77.** Between two calls of the producer the allocated buckets are those that the destructor frees, each once. -/
theorem C77_memory {bs maxc : Nat} (hbs : 8 ≤ bs) {sz : D → Nat} {s : S D} (h : Run bs maxc sz s) (hp : s.p = .idle) :
    s.chain.Nodup ∧ ∀ b, s.mem b = true ↔ b ∈ s.chain := by
  obtain ⟨_, _, hn, hm, _, _⟩ := h.inv hbs
  exact ⟨hn, fun b => by simpa [hp, PPc.held] using hm b⟩

/-- **C77.** The assertion in the loop (`last_bucket_ != 0`) holds: the bucket at which the loop stops is in the chain. -/
theorem C77_assert {bs maxc : Nat} (hbs : 8 ≤ bs) {sz : D → Nat} {s : S D} (h : Run bs maxc sz s) {d : D} {hd : Nat} {again : Bool}
    (hp : s.p = .loaded d hd again) : hd ∈ s.chain := by
  obtain ⟨_, _, _, _, _, B, ms, pre, hP, hch, hi, _⟩ := h.inv hbs
  rw [hp] at hi
  obtain ⟨p1, mid, h1, h2⟩ := hi
  rw [h1]
  exact List.mem_append_right _ (List.mem_of_mem_head? h2)

/-! ## How long `enqueue_prepare` takes -/

/-- The size rounded up to words, the word in front and the next word fit in a new bucket. -/
def Fits (bs n : Nat) : Prop := n % 8 = 0 ∨ (n + 7) / 8 * 8 + 16 ≤ bs

theorem fits_iff (bs n : Nat) : Fits bs n ↔ msgSize n + 8 ≤ newSize bs n := by
  unfold Fits msgSize newSize
  split <;> omega

/-- The second call has the whole new bucket. -/
def Second (bs : Nat) (sz : D → Nat) (s : S D) : Prop :=
  match s.p with
  | .prep d true => s.t = 0 ∧ s.tend = newSize bs (sz d)
  | .slow d true => ¬Fits bs (sz d)
  | .loaded d _ true => ¬Fits bs (sz d)
  | _ => True

theorem second_step {bs maxc : Nat} {sz : D → Nat} {s s' : S D} {a : Act D} (hI : Second bs sz s)
    (h : step bs maxc sz s a = some s') : Second bs sz s' := by
  cases a with
  | start d => simp only [step] at h; split at h <;> cases h; trivial
  | fast =>
    simp only [step] at h
    split at h
    · rename_i d again hpc
      split at h
      · cases h; trivial
      · rename_i hroom
        cases h
        cases again with
        | false => trivial
        | true =>
          simp only [Second, hpc] at hI
          show ¬Fits bs (sz d)
          rw [fits_iff, ← hI.2]
          rw [hI.1] at hroom
          simpa using hroom
    · exact absurd h (by simp)
  | load =>
    simp only [step] at h
    split at h
    · rename_i d again hpc
      cases h
      cases again with
      | false => trivial
      | true => simp only [Second, hpc] at hI; exact hI
    · exact absurd h (by simp)
  | choose nb =>
    simp only [step] at h
    split at h
    · split at h
      · cases h; trivial
      · split at h <;> cases h; trivial
    · exact absurd h (by simp)
  | mark => simp only [step] at h; split at h <;> cases h; trivial
  | link => simp only [step] at h; split at h <;> cases h; exact ⟨rfl, rfl⟩
  | fill => simp only [step] at h; split at h <;> cases h; trivial
  | commit1 => simp only [step] at h; split at h <;> cases h; trivial
  | commit2 => simp only [step] at h; split at h <;> cases h; trivial
  | look =>
    simp only [step] at h
    split at h
    · split at h <;> cases h <;> exact hI
    · exact absurd h (by simp)
  | hop => simp only [step] at h; split at h <;> cases h; exact hI
  | get => simp only [step] at h; split at h <;> cases h; exact hI
  | drop =>
    simp only [step] at h
    split at h
    · split at h <;> cases h; exact hI
    · exact absurd h (by simp)

/-- **C77.** If the rounded size fits, `enqueue_prepare` takes at most one further bucket, whatever the consumer does. -/
theorem C77_prepare_once {bs maxc : Nat} {sz : D → Nat} {s : S D} (h : Run bs maxc sz s) {d : D} (hf : Fits bs (sz d)) :
    s.p ≠ .slow d true := by
  obtain ⟨b, pay, cell, h⟩ := h
  have hI : Second bs sz s := h.inv (Inv := Second bs sz) trivial (fun _ _ _ => second_step)
  intro hp
  simp only [Second, hp] at hI
  exact hI hf

theorem exists_free (s : S D) (l : List Nat) (h : ∀ b, s.mem b = true → b ∈ l) : ∃ b, s.mem b = false := by
  refine ⟨l.sum + 1, ?_⟩
  cases hm : s.mem (l.sum + 1) with
  | false => rfl
  | true =>
    have h1 := h _ hm
    have : ∀ (l : List Nat) x, x ∈ l → x ≤ l.sum := by
      intro l
      induction l with
      | nil => simp
      | cons a l ih =>
        intro x hx
        rcases List.mem_cons.mp hx with rfl | hx
        · simp
        · have := ih x hx; simp; omega
    have := this l _ h1
    omega

/-- **C77.** The producer never waits for the consumer: in every state in a call, and between `enqueue_prepare` and `enqueue_commit`, it
has an action. -/
theorem C77_producer_free {bs maxc : Nat} (hbs : 8 ≤ bs) {sz : D → Nat} {s : S D} (h : Run bs maxc sz s) (hni : s.p ≠ .idle) :
    ∃ a, a.cons = false ∧ (step bs maxc sz s a).isSome = true := by
  cases hp : s.p with
  | idle => exact absurd hp hni
  | prep d again =>
    refine ⟨.fast, rfl, ?_⟩
    simp only [step, hp]
    split <;> rfl
  | slow d again => exact ⟨.load, rfl, by simp [step, hp]⟩
  | loaded d hd again =>
    have hI := h.inv hbs
    obtain ⟨nb, hnb⟩ := exists_free s s.chain (fun b hb => by simpa [hp, PPc.held] using (hI.mem b).mp hb)
    refine ⟨.choose nb, rfl, ?_⟩
    cases hr : (reclaim s.size (newSize bs (sz d)) s.count maxc hd s.chain).1 with
    | none => simp only [step, hp, hr, hnb, Bool.false_and, if_true]; rfl
    | some b => simp only [step, hp, hr]; rfl
  | fresh d b => exact ⟨.mark, rfl, by simp [step, hp]⟩
  | marked d b => exact ⟨.link, rfl, by simp [step, hp]⟩
  | ready d => exact ⟨.fill, rfl, by simp [step, hp]⟩
  | filled d => exact ⟨.commit1, rfl, by simp [step, hp]⟩
  | ended d => exact ⟨.commit2, rfl, by simp [step, hp]⟩

/-- The producer is in the call for the message `d`, and will not have room. -/
def Lost (sz : D → Nat) (d : D) (sent : List D) (s : S D) : Prop :=
  s.sent = sent ∧
  match s.p with
  | .prep d' _ => d' = d ∧ s.tend - s.t < msgSize (sz d) + 8
  | .slow d' _ => d' = d
  | .loaded d' _ _ => d' = d
  | .fresh d' _ => d' = d
  | .marked d' _ => d' = d
  | _ => False

theorem lost_step {bs maxc : Nat} {sz : D → Nat} {d : D} (hf : ¬Fits bs (sz d)) {l : List D} {s s' : S D} {a : Act D}
    (hI : Lost sz d l s) (h : step bs maxc sz s a = some s') : Lost sz d l s' := by
  obtain ⟨hs, hI⟩ := hI
  cases a with
  | start d' =>
    simp only [step] at h
    split at h <;> cases h
    rename_i hp; simp only [hp] at hI
  | fast =>
    simp only [step] at h
    split at h
    · rename_i d' again hp
      simp only [hp] at hI
      obtain ⟨rfl, hlt⟩ := hI
      split at h
      · omega
      · cases h; exact ⟨hs, rfl⟩
    · exact absurd h (by simp)
  | load =>
    simp only [step] at h
    split at h <;> cases h
    rename_i hp; simp only [hp] at hI
    exact ⟨hs, hI⟩
  | choose nb =>
    simp only [step] at h
    split at h
    · rename_i hp
      simp only [hp] at hI
      split at h
      · cases h; exact ⟨hs, hI⟩
      · split at h <;> cases h; exact ⟨hs, hI⟩
    · exact absurd h (by simp)
  | mark =>
    simp only [step] at h
    split at h <;> cases h
    rename_i hp; simp only [hp] at hI
    exact ⟨hs, hI⟩
  | link =>
    simp only [step] at h
    split at h <;> cases h
    rename_i d' b hp
    simp only [hp] at hI
    subst hI
    refine ⟨hs, rfl, ?_⟩
    rw [fits_iff] at hf
    show newSize bs (sz d') - 0 < _
    omega
  | fill => simp only [step] at h; split at h <;> cases h; rename_i hp; simp only [hp] at hI
  | commit1 => simp only [step] at h; split at h <;> cases h; rename_i hp; simp only [hp] at hI
  | commit2 => simp only [step] at h; split at h <;> cases h; rename_i hp; simp only [hp] at hI
  | look =>
    simp only [step] at h
    split at h
    · split at h <;> cases h <;> exact ⟨hs, hI⟩
    · exact absurd h (by simp)
  | hop => simp only [step] at h; split at h <;> cases h; exact ⟨hs, hI⟩
  | get => simp only [step] at h; split at h <;> cases h; exact ⟨hs, hI⟩
  | drop =>
    simp only [step] at h
    split at h
    · split at h <;> cases h; exact ⟨hs, hI⟩
    · exact absurd h (by simp)

/-- **C77, counterexample.** For every message whose size is not a multiple of 8 and, rounded up and with two words, is more than
the size of a bucket: if the bucket in use has no room, `enqueue_prepare` never returns, whatever happens (the new bucket is made for the size
that is not rounded up, so the recursion does not end). -/
theorem C77_prepare_counterexample {bs maxc : Nat} {sz : D → Nat} {d : D} (h8 : sz d % 8 ≠ 0)
    (hb : bs < (sz d + 7) / 8 * 8 + 16) {s s' : S D} {again : Bool} (hp : s.p = .prep d again)
    (hroom : s.tend - s.t < msgSize (sz d) + 8) (h : Reach (step bs maxc sz) s s') :
    s'.sent = s.sent ∧ s'.p ≠ .ready d ∧ s'.p ≠ .idle := by
  have hf : ¬Fits bs (sz d) := by unfold Fits; omega
  have h0 : Lost sz d s.sent s := ⟨rfl, by rw [hp]; exact ⟨rfl, hroom⟩⟩
  obtain ⟨h1, h2⟩ := h.inv (Inv := Lost sz d s.sent) h0 (fun _ _ _ => lost_step hf)
  exact ⟨h1, fun e => by rw [e] at h2; exact h2, fun e => by rw [e] at h2; exact h2⟩

/-! ## Examples -/

/-- Messages of `n` bytes. -/
private abbrev st (a : Option (S Nat)) := a.map fun s => (s.sent, s.got, s.chain, s.count)

private def send (d nb : Nat) : List (Act Nat) := [.start d, .fast, .load, .choose nb, .mark, .link, .fast, .fill, .commit1, .commit2]
private def sendFast (d : Nat) : List (Act Nat) := [.start d, .fast, .fill, .commit1, .commit2]

private def run0 : List (Act Nat) :=
  sendFast 8 ++ send 9 2 ++ [.look, .get, .drop, .look, .hop, .look, .get, .drop] ++ send 7 3

/-- Buckets of 40 bytes: 8 bytes, then 9 bytes in a second bucket; the consumer reads both; then 7 bytes go to the first bucket, used
again. -/
example : st (exec (step 40 5 id) (S.init 40 1 (fun _ _ => none) (fun _ _ => .junk)) run0) =
    some ([8, 9, 7], [some 8, some 9], [2, 1], 2) := by decide

/-- A message of 17 bytes with buckets of 16 bytes: the call is in progress after two further buckets. -/
example : st (exec (step 16 5 id) (S.init 16 1 (fun _ _ => none) (fun _ _ => .junk))
    [.start 17, .fast, .load, .choose 2, .mark, .link, .fast, .load, .choose 3, .mark, .link, .fast]) =
    some ([], [], [1, 2, 3], 3) := by decide

example : ¬Fits 16 17 ∧ Fits 16 24 ∧ Fits 40 17 := by simp [Fits]

end FF.Msgq
