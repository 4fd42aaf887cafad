import Verif.Msgq.Model
/-!
# C77: what the queue of messages of any size guarantees

Source: `/repo/ff/ff_queue.hpp`.  For every schedule of the producer and the consumer: messages arrive in order, once and unchanged;
`dequeue_prepare` says "empty" only if everything was received; no bucket is used again or freed while the consumer can
read it; all accesses are inside allocated buckets; a call of `enqueue_prepare` takes at most one new bucket *if* the rounded size
fits, and never returns otherwise (`C77_prepare_counterexample`).
-/
namespace FF.Msgq
variable {D : Type}

@[simp] theorem set2_same {α : Type} (f : Nat → Nat → α) (b o : Nat) (v : α) : set2 f b o v b o = v := by simp [set2]

theorem set2_ne {α : Type} (f : Nat → Nat → α) {b o b' o' : Nat} (v : α) (h : ¬(b' = b ∧ o' = o)) :
    set2 f b o v b' o' = f b' o' := by simp [set2, h]

/-- The words that the consumer finds from position (`b`, `off`) on lead through the buckets `bs` and the messages `ms` to the tail. -/
inductive Path (sz : D → Nat) (cell : Nat → Nat → Cell) (pay : Nat → Nat → Option D) (size : Nat → Nat) (tb t : Nat) :
    Nat → Nat → List Nat → List D → Prop where
  | tail : cell tb t = .last → t + 8 ≤ size tb → Path sz cell pay size tb t tb t [tb] []
  | next {b off bs ms} {d : D} : cell b off = .next (off + msgSize (sz d)) → pay b off = some d → off + 8 ≤ size b →
      Path sz cell pay size tb t b (off + msgSize (sz d)) bs ms → Path sz cell pay size tb t b off bs (d :: ms)
  | jump {b off b' bs ms} : cell b off = .jump b' → b ∉ bs → off + 8 ≤ size b →
      Path sz cell pay size tb t b' 0 bs ms → Path sz cell pay size tb t b off (b :: bs) ms

section path
variable {sz : D → Nat} {cell cell' : Nat → Nat → Cell} {pay pay' : Nat → Nat → Option D} {size size' : Nat → Nat}
variable {tb t b off : Nat} {bs : List Nat} {ms : List D}

theorem Path.hd (h : Path sz cell pay size tb t b off bs ms) : ∃ r, bs = b :: r := by
  induction h with
  | tail => exact ⟨_, rfl⟩
  | next _ _ _ _ ih => exact ih
  | jump => exact ⟨_, rfl⟩

theorem Path.tb_mem (h : Path sz cell pay size tb t b off bs ms) : tb ∈ bs := by
  induction h with
  | tail => simp
  | next _ _ _ _ ih => exact ih
  | jump _ _ _ _ ih => exact List.mem_cons_of_mem _ ih

theorem Path.bound (h : Path sz cell pay size tb t b off bs ms) : off + 8 ≤ size b := by
  cases h <;> assumption

theorem msgSize_pos (n : Nat) : 8 ≤ msgSize n := by simp [msgSize]

theorem Path.off_le (h : Path sz cell pay size tb t b off bs ms) (hb : b = tb) : off ≤ t := by
  induction h with
  | tail => exact Nat.le_refl _
  | next _ _ _ _ ih => have := ih hb; omega
  | jump _ hn _ h _ => exact absurd (hb ▸ h.tb_mem) hn

/-- The word at a position that is not the tail is not the word at the tail. -/
theorem Path.ne_tail (h : Path sz cell pay size tb t b off bs ms) (hc : cell b off ≠ .last) : ¬(b = tb ∧ off = t) := by
  rintro ⟨rfl, rfl⟩
  cases h with
  | tail hc' => exact hc hc'
  | next _ _ _ h => have := h.off_le rfl; have := msgSize_pos (sz ‹D›); omega
  | jump _ hn _ h => exact hn h.tb_mem

theorem Path.frame (h : Path sz cell pay size tb t b off bs ms)
    (hc : ∀ b' o', b' ∈ bs → (b' = tb → o' ≤ t) → cell' b' o' = cell b' o')
    (hp : ∀ b' o', b' ∈ bs → (b' = tb → o' < t) → pay' b' o' = pay b' o')
    (hs : ∀ b', b' ∈ bs → size' b' = size b') : Path sz cell' pay' size' tb t b off bs ms := by
  induction h with
  | tail h1 h2 => exact .tail (by rw [hc _ _ (by simp) (by simp), h1]) (by rw [hs _ (by simp)]; exact h2)
  | @next b off bs ms d h1 h2 h3 h ih =>
    obtain ⟨r, hr⟩ := h.hd
    have hm : b ∈ bs := by rw [hr]; simp
    have hl := h.off_le
    have := msgSize_pos (sz d)
    exact .next (by rw [hc _ _ hm (fun e => by have := hl e; omega), h1])
      (by rw [hp _ _ hm (fun e => by have := hl e; omega), h2]) (by rw [hs _ hm]; exact h3) (ih hc hp hs)
  | @jump b off b' bs ms h1 h2 h3 h ih =>
    have hne : b ≠ tb := fun e => h2 (e ▸ h.tb_mem)
    exact .jump (by rw [hc _ _ (by simp) (fun e => absurd e hne), h1]) h2 (by rw [hs _ (by simp)]; exact h3)
      (ih (fun b' o' hb => hc b' o' (List.mem_cons_of_mem _ hb)) (fun b' o' hb => hp b' o' (List.mem_cons_of_mem _ hb))
        (fun b' hb => hs b' (List.mem_cons_of_mem _ hb)))

theorem Path.of_jump (h : Path sz cell pay size tb t b off bs ms) {b' : Nat} (hc : cell b off = .jump b') :
    ∃ bs', bs = b :: bs' ∧ Path sz cell pay size tb t b' 0 bs' ms := by
  cases h with
  | tail h1 => rw [h1] at hc; simp at hc
  | next h1 => rw [h1] at hc; simp at hc
  | jump h1 h2 h3 h => rw [h1] at hc; simp at hc; exact ⟨_, rfl, hc ▸ h⟩

theorem Path.of_next (h : Path sz cell pay size tb t b off bs ms) {o : Nat} (hc : cell b off = .next o) :
    ∃ d ms', ms = d :: ms' ∧ pay b off = some d ∧ Path sz cell pay size tb t b o bs ms' := by
  cases h with
  | tail h1 => rw [h1] at hc; simp at hc
  | jump h1 => rw [h1] at hc; simp at hc
  | next h1 h2 h3 h => rw [h1] at hc; simp at hc; exact ⟨_, _, rfl, h2, hc ▸ h⟩

theorem Path.of_last (h : Path sz cell pay size tb t b off bs ms) (hc : cell b off = .last) : ms = [] := by
  cases h with
  | tail => rfl
  | jump h1 => rw [h1] at hc; simp at hc
  | next h1 => rw [h1] at hc; simp at hc

theorem Path.not_junk (h : Path sz cell pay size tb t b off bs ms) : cell b off ≠ .junk := by
  cases h with
  | tail h1 => rw [h1]; simp
  | jump h1 => rw [h1]; simp
  | next h1 => rw [h1]; simp

/-- `enqueue_commit` puts one message behind. -/
theorem Path.commit (h : Path sz cell pay size tb t b off bs ms) {d : D} {o : Nat} (ho : o = t + msgSize (sz d))
    (hl : cell tb o = .last) (hp : pay tb t = some d) (hb : o + 8 ≤ size tb) :
    Path sz (set2 cell tb t (.next o)) pay size tb o b off bs (ms ++ [d]) := by
  have := msgSize_pos (sz d)
  induction h with
  | tail h1 h2 =>
    refine .next (by rw [set2_same, ho]) hp h2 ?_
    rw [← ho]
    exact .tail (by rw [set2_ne _ _ (by omega), hl]) hb
  | @next b off bs ms d' h1 h2 h3 h ih =>
    have hn := (Path.next h1 h2 h3 h).ne_tail (by rw [h1]; simp)
    exact .next (by rw [set2_ne _ _ hn, h1]) h2 h3 ih
  | @jump b off b' bs ms h1 h2 h3 h ih =>
    have hn := (Path.jump h1 h2 h3 h).ne_tail (by rw [h1]; simp)
    exact .jump (by rw [set2_ne _ _ hn, h1]) h2 h3 ih

/-- The link to a new bucket. -/
theorem Path.link (h : Path sz cell pay size tb t b off bs ms) {nb : Nat} (hn : nb ∉ bs) (hl : cell nb 0 = .last)
    (hb : 8 ≤ size nb) : Path sz (set2 cell tb t (.jump nb)) pay size nb 0 b off (bs ++ [nb]) ms := by
  induction h with
  | tail h1 h2 =>
    have hne : nb ≠ tb := by simpa using hn
    refine .jump (set2_same _ _ _ _) (by simpa using fun e => hne e.symm) h2 ?_
    exact .tail (by rw [set2_ne _ _ (by simp [hne]), hl]) (by omega)
  | @next b off bs ms d' h1 h2 h3 h ih =>
    have hne := (Path.next h1 h2 h3 h).ne_tail (by rw [h1]; simp)
    exact .next (by rw [set2_ne _ _ hne, h1]) h2 h3 (ih hn)
  | @jump b off b' bs ms h1 h2 h3 h ih =>
    have hne := (Path.jump h1 h2 h3 h).ne_tail (by rw [h1]; simp)
    have hn' : nb ≠ b ∧ nb ∉ bs := by simpa using hn
    exact .jump (by rw [set2_ne _ _ hne, h1]) (by simp [h2, Ne.symm hn'.1]) h3 (ih hn'.2)

end path

/-- The loop leaves the chain from the bucket of the consumer on, and splits what is before. -/
theorem reclaim_spec (size : Nat → Nat) (bsz count maxc h : Nat) (pre post : List Nat) (hn : (pre ++ h :: post).Nodup) :
    ∃ pre', (reclaim size bsz count maxc h (pre ++ h :: post)).2.1 = pre' ++ h :: post ∧
      pre = (reclaim size bsz count maxc h (pre ++ h :: post)).2.2 ++
        (reclaim size bsz count maxc h (pre ++ h :: post)).1.toList ++ pre' ∧
      ∀ b, (reclaim size bsz count maxc h (pre ++ h :: post)).1 = some b → bsz ≤ size b := by
  induction pre with
  | nil => exact ⟨[], by simp [reclaim], by simp [reclaim], by simp [reclaim]⟩
  | cons a pre ih =>
    obtain ⟨pre', h1, h2, h3⟩ := ih (List.nodup_cons.mp hn).2
    have hne : a ≠ h := by rintro rfl; simp at hn
    by_cases hc : size a < bsz ∨ (maxc < count ∧ (pre ++ h :: post).head? ≠ some h)
    · refine ⟨pre', ?_, ?_, ?_⟩
      · simp only [List.cons_append, reclaim, hne, if_false, hc, if_true]; exact h1
      · simp only [List.cons_append, reclaim, hne, if_false, hc, if_true]; exact congrArg (a :: ·) h2
      · simp only [List.cons_append, reclaim, hne, if_false, hc, if_true]; exact h3
    · refine ⟨pre, ?_, ?_, ?_⟩
      · simp only [List.cons_append, reclaim, hne, if_false, hc]
      · simp only [List.cons_append, reclaim, hne, if_false, hc]; simp
      · simp only [List.cons_append, reclaim, hne, if_false, hc, Option.some.injEq]
        rintro b rfl
        omega

/-- What the producer knows. -/
def PInv (sz : D → Nat) (n : Nat) (s : S D) (bs : List Nat) : PPc D → Prop
  | .idle | .prep _ _ | .slow _ _ => True
  | .loaded _ h _ => ∃ pre mid, s.chain = pre ++ (mid ++ bs) ∧ (mid ++ bs).head? = some h
  | .fresh d b => b ∉ s.chain ∧ newSize n (sz d) ≤ s.size b
  | .marked d b => b ∉ s.chain ∧ newSize n (sz d) ≤ s.size b ∧ s.cell b 0 = .last
  | .ready d => s.tnext = s.t + msgSize (sz d) ∧ s.tnext + 8 ≤ s.tend
  | .filled d => s.tnext = s.t + msgSize (sz d) ∧ s.tnext + 8 ≤ s.tend ∧ s.pay s.tb s.t = some d
  | .ended d => s.tnext = s.t + msgSize (sz d) ∧ s.tnext + 8 ≤ s.tend ∧ s.pay s.tb s.t = some d ∧ s.cell s.tb s.tnext = .last

/-- The bucket that the producer has in its hands. -/
def PPc.held : PPc D → List Nat
  | .fresh _ b | .marked _ b => [b]
  | _ => []

/-- What the consumer knows; the messages received, without the one that is not yet dropped. -/
def CInv (s : S D) (ms : List D) : CPc → Prop
  | .idle => s.sent.map some = s.got ++ ms.map some
  | .hop b => s.sent.map some = s.got ++ ms.map some ∧ s.cell s.hb s.ho = .jump b
  | .has => s.sent.map some = s.got ++ ms.map some ∧ ∃ o, s.cell s.hb s.ho = .next o
  | .read => ∃ g d ms', s.got = g ++ [some d] ∧ ms = d :: ms' ∧ s.sent.map some = g ++ ms.map some ∧
      ∃ o, s.cell s.hb s.ho = .next o

structure Inv (n : Nat) (sz : D → Nat) (s : S D) : Prop where
  al : s.t % 8 = 0
  tend : s.tend ≤ s.size s.tb
  nodup : s.chain.Nodup
  mem : ∀ b, s.mem b = true ↔ b ∈ s.chain ∨ b ∈ s.p.held
  held : ∀ b ∈ s.p.held, b ∉ s.chain
  path : ∃ bs ms pre, Path sz s.cell s.pay s.size s.tb s.t s.hb s.ho bs ms ∧ s.chain = pre ++ bs ∧ PInv sz n s bs s.p ∧ CInv s ms s.c

theorem init_inv {bs : Nat} (hbs : 8 ≤ bs) (sz : D → Nat) (b : Nat) (pay : Nat → Nat → Option D) (cell : Nat → Nat → Cell) :
    Inv bs sz (S.init bs b pay cell) where
  al := rfl
  tend := Nat.le_refl _
  nodup := by simp [S.init]
  mem := by intro b'; simp [S.init, PPc.held]
  held := by simp [S.init, PPc.held]
  path := ⟨[b], [], [], .tail (by simp [S.init]) (by simp [S.init]; omega), rfl, trivial, by simp [CInv, S.init]⟩

theorem newSize_ge (bs sz : Nat) : 16 ≤ newSize bs sz := by unfold newSize; split <;> omega

theorem msgSize_mod (n : Nat) : msgSize n % 8 = 0 := by simp [msgSize]

theorem inv_step {bs maxc : Nat} {sz : D → Nat} {s s' : S D} {a : Act D} (hI : Inv bs sz s)
    (h : step bs maxc sz s a = some s') : Inv bs sz s' := by
  obtain ⟨hal, htend, hnd, hmem, hheld, B, ms, pre, hP, hch, hp, hc⟩ := hI
  have htb : s.tb ∈ s.chain := by rw [hch]; exact List.mem_append_right _ hP.tb_mem
  cases a with
  | start d =>
    simp only [step] at h
    split at h
    · rename_i hpc
      cases h
      rw [hpc] at hmem hheld
      exact ⟨hal, htend, hnd, hmem, hheld, B, ms, pre, hP, hch, trivial, hc⟩
    · exact absurd h (by simp)
  | fast =>
    simp only [step] at h
    split at h
    · rename_i d again hpc
      rw [hpc] at hmem hheld
      split at h
      · rename_i hroom
        cases h
        exact ⟨hal, htend, hnd, hmem, hheld, B, ms, pre, hP, hch, ⟨rfl, by
          have := msgSize_pos (sz d); show s.t + _ + 8 ≤ s.tend; omega⟩, hc⟩
      · cases h
        exact ⟨hal, htend, hnd, hmem, hheld, B, ms, pre, hP, hch, trivial, hc⟩
    · exact absurd h (by simp)
  | load =>
    simp only [step] at h
    split at h
    · rename_i d again hpc
      rw [hpc] at hmem hheld
      cases h
      obtain ⟨r, hr⟩ := hP.hd
      exact ⟨hal, htend, hnd, hmem, hheld, B, ms, pre, hP, hch, ⟨pre, [], hch, by simp [hr]⟩, hc⟩
    · exact absurd h (by simp)
  | choose nb =>
    simp only [step] at h
    split at h
    · rename_i d hh again hpc
      rw [hpc] at hmem hheld hp
      obtain ⟨pre1, mid, hch1, hhd⟩ := hp
      obtain ⟨post, hpost⟩ : ∃ post, mid ++ B = hh :: post := by
        cases hm : mid ++ B with
        | nil => rw [hm] at hhd; simp at hhd
        | cons x xs => rw [hm] at hhd; simp at hhd; exact ⟨xs, by rw [hhd]⟩
      rw [hpost] at hch1
      have hspec := reclaim_spec s.size (newSize bs (sz d)) s.count maxc hh pre1 post (hch1 ▸ hnd)
      rw [← hch1] at hspec
      generalize hR : reclaim s.size (newSize bs (sz d)) s.count maxc hh s.chain = R at h hspec
      obtain ⟨r1, r2, r3⟩ := R
      obtain ⟨pre', h1, h2, h3⟩ := hspec
      simp only at h1 h2 h3
      have hch2 : s.chain = r3 ++ r1.toList ++ r2 := by rw [hch1, h1, h2]; simp
      have hr2 : r2 = (pre' ++ mid) ++ B := by rw [h1, ← hpost]; simp
      have hnd2 := hnd
      rw [hch2] at hnd2
      have hnd2' : r2.Nodup := (List.nodup_append.mp hnd2).2.1
      have hsub : ∀ b, b ∈ r2 → b ∈ s.chain := fun b hb => by rw [hch2]; exact List.mem_append_right _ hb
      have hdis : ∀ b, b ∈ r3 ++ r1.toList → b ∉ r2 := fun b hb hb2 => (List.nodup_append.mp hnd2).2.2 b hb b hb2 rfl
      have hdis3 : ∀ b, b ∈ r3 → b ∉ r1.toList := fun b hb hb2 =>
        (List.nodup_append.mp (List.nodup_append.mp hnd2).1).2.2 b hb b hb2 rfl
      have hmem2 : ∀ b, (s.mem b && !r3.contains b) = true ↔ b ∈ r2 ∨ b ∈ r1.toList := by
        intro b
        have hmb := hmem b
        simp only [PPc.held, List.not_mem_nil, or_false] at hmb
        rw [Bool.and_eq_true, hmb, hch2]
        simp only [List.mem_append, Bool.not_eq_true', List.contains_eq_mem, decide_eq_false_iff_not]
        constructor
        · rintro ⟨(h | h) | h, hn⟩
          · exact absurd h hn
          · exact Or.inr h
          · exact Or.inl h
        · rintro (h | h)
          · exact ⟨Or.inr h, fun h3' => hdis b (List.mem_append_left _ h3') h⟩
          · exact ⟨Or.inl (Or.inr h), fun h3' => hdis3 b h3' h⟩
      cases r1 with
      | some b =>
        simp only [Option.some.injEq] at h
        subst h
        have hb : b ∉ r2 := hdis b (by simp)
        refine ⟨hal, htend, hnd2', ?_, ?_, B, ms, pre' ++ mid, hP, hr2, ⟨hb, ?_⟩, hc⟩
        · intro b'; exact (hmem2 b').trans (by simp [PPc.held])
        · intro b' hb'
          have : b' = b := by simpa [PPc.held] using hb'
          rw [this]; exact hb
        · exact h3 b rfl
      | none =>
        simp only at h
        split at h
        · rename_i hfree
          simp only [Option.some.injEq] at h
          subst h
          have hb : nb ∉ r2 := fun hb => by
            have := (hmem2 nb).mpr (Or.inl hb); rw [hfree] at this; simp at this
          have hne : ∀ b', b' ∈ B → b' ≠ nb := fun b' hb' e => hb (by rw [hr2, ← e]; exact List.mem_append_right _ hb')
          refine ⟨hal, ?_, hnd2', ?_, ?_, B, ms, pre' ++ mid, ?_, hr2, ⟨hb, ?_⟩, hc⟩
          · simp only [set1, hne _ hP.tb_mem, if_false]; exact htend
          · intro b'
            have := hmem2 b'
            simp only [Option.toList, List.not_mem_nil, or_false] at this
            by_cases e : b' = nb
            · simp [set1, e, PPc.held]
            · simp only [set1, e, if_false, PPc.held, List.mem_singleton, or_false]; exact this
          · intro b' hb'
            have : b' = nb := by simpa [PPc.held] using hb'
            rw [this]; exact hb
          · exact hP.frame (fun _ _ _ _ => rfl) (fun _ _ _ _ => rfl) (fun b' hb' => by simp [set1, hne b' hb'])
          · simp [set1]
        · exact absurd h (by simp)
    · exact absurd h (by simp)
  | mark =>
    simp only [step] at h
    split at h
    · rename_i d b hpc
      rw [hpc] at hmem hheld hp
      cases h
      obtain ⟨hb, h8⟩ := hp
      have hcell : ∀ b' o', b' ∈ B → set2 s.cell b 0 .last b' o' = s.cell b' o' := fun b' o' hb' =>
        set2_ne _ _ (fun e => hb (by rw [hch, ← e.1]; exact List.mem_append_right _ hb'))
      obtain ⟨r, hr⟩ := hP.hd
      have hhc := hcell s.hb s.ho (by rw [hr]; simp)
      refine ⟨hal, htend, hnd, hmem, hheld, B, ms, pre, ?_, hch, ⟨hb, h8, set2_same _ _ _ _⟩, ?_⟩
      · exact hP.frame (fun b' o' hb' _ => hcell b' o' hb') (fun _ _ _ _ => rfl) (fun _ _ => rfl)
      · revert hc
        cases s.c <;> simp only [CInv, hhc] <;> exact id
    · exact absurd h (by simp)
  | link =>
    simp only [step] at h
    split at h
    · rename_i d b hpc
      rw [hpc] at hmem hheld hp
      cases h
      obtain ⟨hb, h8, hl⟩ := hp
      have hnB : b ∉ B := fun h => hb (by rw [hch]; exact List.mem_append_right _ h)
      refine ⟨rfl, ?_, ?_, ?_, by simp [PPc.held], B ++ [b], ms, pre, hP.link hnB hl (by have := newSize_ge bs (sz d); omega), by simp [hch], trivial, ?_⟩
      · exact h8
      · rw [List.nodup_append]
        exact ⟨hnd, by simp, fun x hx y hy e => hb (by simp at hy; rw [← hy, ← e]; exact hx)⟩
      · intro b'; rw [hmem b']; simp [PPc.held]
      · have key : s.cell s.hb s.ho ≠ .last → set2 s.cell s.tb s.t (.jump b) s.hb s.ho = s.cell s.hb s.ho :=
          fun hne => set2_ne _ _ (hP.ne_tail hne)
        revert hc
        cases s.c with
        | idle => exact id
        | hop x => rintro ⟨h1, h2⟩; exact ⟨h1, (key (by rw [h2]; simp)).trans h2⟩
        | has => rintro ⟨h1, o, h2⟩; exact ⟨h1, o, (key (by rw [h2]; simp)).trans h2⟩
        | read => rintro ⟨g, d', ms', h1, h2, h3, o, h4⟩; exact ⟨g, d', ms', h1, h2, h3, o, (key (by rw [h4]; simp)).trans h4⟩
    · exact absurd h (by simp)
  | fill =>
    simp only [step] at h
    split at h
    · rename_i d hpc
      rw [hpc] at hmem hheld hp
      cases h
      refine ⟨hal, htend, hnd, hmem, hheld, B, ms, pre, ?_, hch, ⟨hp.1, hp.2, set2_same _ _ _ _⟩, hc⟩
      exact hP.frame (fun _ _ _ _ => rfl)
        (fun b' o' _ hlt => set2_ne _ _ (fun e => by have := hlt e.1; omega)) (fun _ _ => rfl)
    · exact absurd h (by simp)
  | commit1 =>
    simp only [step] at h
    split at h
    · rename_i d hpc
      rw [hpc] at hmem hheld hp
      cases h
      obtain ⟨h1, h2, h3⟩ := hp
      have := msgSize_pos (sz d)
      have hne : ∀ b' o', (b' = s.tb → o' ≤ s.t) → set2 s.cell s.tb s.tnext .last b' o' = s.cell b' o' := fun b' o' hle =>
        set2_ne _ _ (fun e => by have := hle e.1; omega)
      have hhc := hne s.hb s.ho hP.off_le
      refine ⟨hal, htend, hnd, hmem, hheld, B, ms, pre, ?_, hch, ⟨h1, h2, h3, set2_same _ _ _ _⟩, ?_⟩
      · exact hP.frame (fun b' o' _ hle => hne b' o' hle) (fun _ _ _ _ => rfl) (fun _ _ => rfl)
      · revert hc
        cases s.c <;> simp only [CInv, hhc] <;> exact id
    · exact absurd h (by simp)
  | commit2 =>
    simp only [step] at h
    split at h
    · rename_i d hpc
      rw [hpc] at hmem hheld hp
      cases h
      obtain ⟨h1, h2, h3, h4⟩ := hp
      refine ⟨?_, htend, hnd, hmem, hheld, B, ms ++ [d], pre, hP.commit h1 h4 h3 (by omega), hch, trivial, ?_⟩
      · show s.tnext % 8 = 0
        have := msgSize_mod (sz d)
        omega
      · have key : s.cell s.hb s.ho ≠ .last → set2 s.cell s.tb s.t (.next s.tnext) s.hb s.ho = s.cell s.hb s.ho :=
          fun hne => set2_ne _ _ (hP.ne_tail hne)
        revert hc
        cases s.c with
        | idle => intro h; simp only [CInv] at h ⊢; simp [h]
        | hop x => rintro ⟨h1, h2⟩; exact ⟨by simp [h1], (key (by rw [h2]; simp)).trans h2⟩
        | has => rintro ⟨h1, o, h2⟩; exact ⟨by simp [h1], o, (key (by rw [h2]; simp)).trans h2⟩
        | read =>
          rintro ⟨g, d', ms', h1, h2, h3, o, h4⟩
          exact ⟨g, d', ms' ++ [d], h1, by simp [h2], by simp [h3], o, (key (by rw [h4]; simp)).trans h4⟩
    · exact absurd h (by simp)
  | look =>
    simp only [step] at h
    split at h
    · rename_i hcc
      rw [hcc] at hc
      split at h
      · cases h; exact ⟨hal, htend, hnd, hmem, hheld, B, ms, pre, hP, hch, hp, hcc ▸ hc⟩
      · rename_i o ho
        cases h
        exact ⟨hal, htend, hnd, hmem, hheld, B, ms, pre, hP, hch, hp, hc, o, ho⟩
      · rename_i b ho
        cases h
        exact ⟨hal, htend, hnd, hmem, hheld, B, ms, pre, hP, hch, hp, hc, ho⟩
      · exact absurd h (by simp)
    · exact absurd h (by simp)
  | hop =>
    simp only [step] at h
    split at h
    · rename_i b hcc
      rw [hcc] at hc
      cases h
      obtain ⟨hs, hcell⟩ := hc
      obtain ⟨B', rfl, hP'⟩ := hP.of_jump hcell
      refine ⟨hal, htend, hnd, hmem, hheld, B', ms, pre ++ [s.hb], hP', by simp [hch], ?_, hs⟩
      revert hp
      show PInv sz bs s _ s.p → PInv sz bs _ _ s.p
      cases s.p with
      | loaded d hh again =>
        rintro ⟨pre1, mid, h5, h6⟩
        exact ⟨pre1, mid ++ [s.hb], by simpa using h5, by simpa using h6⟩
      | _ => exact id
    · exact absurd h (by simp)
  | get =>
    simp only [step] at h
    split at h
    · rename_i hcc
      rw [hcc] at hc
      cases h
      obtain ⟨hs, o, ho⟩ := hc
      obtain ⟨d, ms', rfl, h2, hP'⟩ := hP.of_next ho
      exact ⟨hal, htend, hnd, hmem, hheld, B, d :: ms', pre, hP, hch, hp, s.got, d, ms', by simp [h2], rfl, hs, o, ho⟩
    · exact absurd h (by simp)
  | drop =>
    simp only [step] at h
    split at h
    · rename_i hcc
      rw [hcc] at hc
      obtain ⟨g, d, ms', h1, h2, h3, o, h4⟩ := hc
      subst h2
      rw [h4] at h
      cases h
      obtain ⟨d', ms'', he, _, hP'⟩ := hP.of_next h4
      cases he
      refine ⟨hal, htend, hnd, hmem, hheld, B, ms', pre, hP', hch, hp, ?_⟩
      show s.sent.map some = s.got ++ ms'.map some
      rw [h3, h1]; simp
    · exact absurd h (by simp)

end FF.Msgq
