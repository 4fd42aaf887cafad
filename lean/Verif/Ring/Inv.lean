import Verif.Ring.Spec
/-!
# Invariants of a ring
-/
namespace FF.Ring
open FF.Node
variable {D : Type}

theorem after_snoc (nd : Node D) (ms : List (Msg D)) (m : Msg D) (h : (after nd ms).exited = false) :
    after nd (ms ++ [m]) = (body nd (after nd ms) m).1 := by
  unfold after at *
  rw [run_append, run_cons nd _ h]
  simp [run]

theorem after_exited_mono (nd : Node D) {xs ys : List (Msg D)} (h : xs <+: ys)
    (he : (after nd xs).exited = true) : (after nd ys).exited = true := by
  obtain ⟨t, rfl⟩ := h
  have he' : (run nd (L.start nd 1) xs).1.exited = true := he
  unfold after
  rw [run_append, run_exited nd _ he']
  exact he'

structure RInv (n : Nat) (nd : Nat → Node D) (init : List (Msg D)) (s : P D) : Prop where
  out : ∀ i, i ≤ n → s.pushed i ++ s.pending i = stream (nd i) (s.consumed i)
  chan : ∀ i, i < n → s.pushed i = s.consumed (i + 1) ++ s.chan (i + 1)
  close : init ++ s.pushed n = s.consumed 0 ++ s.chan 0
  live : ∀ i, i ≤ n → ∀ xs, xs <+: s.consumed i → xs ≠ s.consumed i →
    (after (nd i) xs).exited = false

theorem RInv.init (n : Nat) (nd : Nat → Node D) (left : List (Msg D)) :
    RInv n nd (.nul :: left) (start left) where
  out i _ := by simp [start, P.start, stream, run]
  chan i _ := by simp [start, P.start, upd]
  close := by simp [start, P.start, upd]
  live i _ xs h1 h2 := by
    simp only [start, P.start] at h1 h2
    exact absurd (List.prefix_nil.1 h1) h2

theorem prefix_snoc {α : Type} {xs l : List α} {a : α} (h : xs <+: l ++ [a]) (hne : xs ≠ l ++ [a]) :
    xs <+: l := by
  rcases List.prefix_concat_iff.1 h with h | h
  · exact absurd h (by simpa using hne)
  · exact h

theorem RInv.step {n : Nat} {nd : Nat → Node D} {cap : Nat → Option Nat} {init : List (Msg D)}
    {s s' : P D} {a : PAct} (h : RInv n nd init s) (hs : rstep n nd cap s a = some s') :
    RInv n nd init s' := by
  cases a with
  | pop i =>
    simp only [rstep] at hs
    split at hs
    · rename_i hc
      obtain ⟨hi, hp, he⟩ := hc
      split at hs
      · simp at hs
      · rename_i m ms hm
        simp only [Option.some.injEq] at hs
        subst hs
        refine ⟨?_, ?_, ?_, ?_⟩
        · intro j hj
          by_cases hji : j = i
          · subst hji
            simp only [upd, if_true]
            rw [stream_snoc _ _ _ he, ← h.out j hj, hp, List.append_nil]
          · simp only [upd, hji, if_false]; exact h.out j hj
        · intro j hj
          by_cases hji : j + 1 = i
          · subst hji
            simp only [upd, if_true]
            rw [h.chan j hj, hm]; simp
          · simp only [upd, hji, if_false]; exact h.chan j hj
        · by_cases h0 : i = 0
          · subst h0
            simp only [upd, if_true]
            rw [h.close, hm]; simp
          · have : (0 : Nat) ≠ i := fun hh => h0 hh.symm
            simp only [upd, this, if_false]; exact h.close
        · intro j hj xs h1 h2
          by_cases hji : j = i
          · subst hji
            simp only [upd, if_true] at h1 h2
            by_cases hx : xs = s.consumed j
            · rw [hx]; exact he
            · exact h.live j hj xs (prefix_snoc h1 h2) hx
          · simp only [upd, hji, if_false] at h1 h2
            exact h.live j hj xs h1 h2
    · simp at hs
  | push i =>
    simp only [rstep] at hs
    split at hs
    · rename_i hc
      obtain ⟨hi, hc⟩ := hc
      split at hs
      · simp at hs
      · rename_i m ms hm
        simp only [Option.some.injEq] at hs
        subst hs
        refine ⟨?_, ?_, ?_, h.live⟩
        · intro j hj
          by_cases hji : j = i
          · subst hji
            simp only [upd, if_true]
            rw [← h.out j hj, hm]; simp
          · simp only [upd, hji, if_false]; exact h.out j hj
        · intro j hj
          by_cases hji : j = i
          · subst hji
            have : nxt n j = j + 1 := by unfold nxt; rw [if_neg (by omega)]
            simp only [this, upd, if_true]
            rw [h.chan j hj]; simp
          · have : j + 1 ≠ nxt n i := by unfold nxt; split <;> omega
            simp only [upd, hji, this, if_false]; exact h.chan j hj
        · by_cases hn : i = n
          · subst hn
            have : nxt i i = 0 := by unfold nxt; rw [if_pos rfl]
            simp only [this, upd, if_true]
            rw [← List.append_assoc, h.close]; simp
          · have h1 : (0 : Nat) ≠ nxt n i := by unfold nxt; rw [if_neg hn]; omega
            have h2 : n ≠ i := fun hh => hn hh.symm
            simp only [upd, h1, h2, if_false]; exact h.close
    · simp at hs

theorem RInv.reach {n : Nat} {nd : Nat → Node D} {cap : Nat → Option Nat} {left : List (Msg D)}
    {s : P D} (hr : Reach (rstep n nd cap) (start left) s) : RInv n nd (.nul :: left) s :=
  hr.inv (RInv.init n nd left) (fun _ _ _ h hs => h.step hs)

/-! ## The specification -/

theorem turns_mono (n : Nat) (nd : Nat → Node D) (init : List (Msg D)) (m i : Nat) :
    turns n nd init m i <+: turns n nd init (m + 1) i := by
  induction m generalizing i with
  | zero =>
    cases i with
    | zero => simp only [turns, if_true]; exact List.prefix_append _ _
    | succ j => simp [turns]
  | succ m ih =>
    cases i with
    | zero =>
      show init ++ stream (nd n) (turns n nd init m n) <+:
        init ++ stream (nd n) (turns n nd init (m + 1) n)
      exact (List.prefix_append_right_inj _).2 (stream_mono _ (ih n))
    | succ j => exact stream_mono _ (ih j)

theorem turns_le (n : Nat) (nd : Nat → Node D) (init : List (Msg D)) {m m' : Nat} (h : m ≤ m')
    (i : Nat) : turns n nd init m i <+: turns n nd init m' i := by
  obtain ⟨d, rfl⟩ := Nat.exists_eq_add_of_le h
  clear h
  induction d with
  | zero => exact List.prefix_rfl
  | succ d ih => exact ih.trans (turns_mono n nd init (m + d) i)

/-- What has arrived in front of every stage is a prefix of what the specification says. -/
def Below (n : Nat) (nd : Nat → Node D) (init : List (Msg D)) (s : P D) : Prop :=
  ∃ m, ∀ i, i ≤ n → s.consumed i ++ s.chan i <+: turns n nd init m i

theorem Below.step {n : Nat} {nd : Nat → Node D} {cap : Nat → Option Nat} {init : List (Msg D)}
    {s s' : P D} {a : PAct} (hi : RInv n nd init s) (h : Below n nd init s)
    (hs : rstep n nd cap s a = some s') : Below n nd init s' := by
  obtain ⟨m, hb⟩ := h
  have hi' := hi.step hs
  cases a with
  | pop i =>
    refine ⟨m, fun j hj => ?_⟩
    have : s'.consumed j ++ s'.chan j = s.consumed j ++ s.chan j := by
      simp only [rstep] at hs
      split at hs
      · split at hs
        · simp at hs
        · rename_i x xs hx
          simp only [Option.some.injEq] at hs
          subst hs
          by_cases hji : j = i
          · subst hji; simp only [upd, if_true]; rw [hx]; simp
          · simp only [upd, hji, if_false]
      · simp at hs
    rw [this]; exact hb j hj
  | push i =>
    refine ⟨m + 1, fun j hj => ?_⟩
    have hcons : s'.consumed = s.consumed := by
      simp only [rstep] at hs
      split at hs
      · split at hs
        · simp at hs
        · simp only [Option.some.injEq] at hs
          subst hs; rfl
      · simp at hs
    have hpre : ∀ k, k ≤ n → s'.pushed k <+: stream (nd k) (turns n nd init m k) := by
      intro k hk
      have h1 : s'.pushed k <+: stream (nd k) (s'.consumed k) := ⟨_, hi'.out k hk⟩
      rw [hcons] at h1
      exact h1.trans (stream_mono _ ((List.prefix_append _ _).trans (hb k hk)))
    cases j with
    | zero =>
      rw [← hi'.close]
      exact (List.prefix_append_right_inj _).2 (hpre n (Nat.le_refl n))
    | succ k =>
      rw [← hi'.chan k (by omega)]
      exact hpre k (by omega)

theorem Below.reach {n : Nat} {nd : Nat → Node D} {cap : Nat → Option Nat} {left : List (Msg D)}
    {s : P D} (hr : Reach (rstep n nd cap) (start left) s) : Below n nd (.nul :: left) s := by
  have := hr.inv (Inv := fun s => RInv n nd (.nul :: left) s ∧ Below n nd (.nul :: left) s)
    ⟨RInv.init n nd left, 0, fun i _ => by
      cases i with
      | zero => simp [start, P.start, upd, turns]
      | succ j => simp [start, P.start, upd, turns]⟩
    (fun _ _ _ h hs => ⟨h.1.step hs, Below.step h.1 h.2 hs⟩)
  exact this.2

/-! ## Marks -/

/-- end marks that are sent on -/
def isEnd : Msg D → Bool
  | .eos | .eosw => true
  | _ => false

/-- tasks and end marks -/
def Good (m : Msg D) : Prop := isTask m = true ∨ m = .eos ∨ m = .eosw

theorem Good.of_data {m : Msg D} (h : m.isData = true) : Good m := by
  cases m <;> simp [Msg.isData] at h; exact Or.inl rfl

theorem isEnd_data {m : Msg D} (h : m.isData = true) : isEnd m = false := by
  cases m <;> simp [Msg.isData] at h; rfl

/-- output of a plain stage: tasks while it runs; tasks and one end mark when it has ended -/
theorem stream_shape (nd : Node D) (hp : Plain nd) (ms : List (Msg D)) (hms : ∀ m ∈ ms, Good m) :
    ∃ out : List (Msg D), (∀ m ∈ out, m.isData = true) ∧
      ((after nd ms).exited = false → stream nd ms = out) ∧
      ((after nd ms).exited = true → ∃ e, isEnd e = true ∧ stream nd ms = out ++ [e]) := by
  obtain ⟨out, h1, h2, h3⟩ := C19_one_eos nd hp (L.start nd 1) rfl ms hms
  refine ⟨out, h1, h2, fun h => ?_⟩
  rcases h3 h with h | h
  · exact ⟨.eos, rfl, h⟩
  · exact ⟨.eosw, rfl, h⟩

theorem stream_good (nd : Node D) (hp : Plain nd) (ms : List (Msg D)) (hms : ∀ m ∈ ms, Good m) :
    ∀ m ∈ stream nd ms, m.isData = true ∨ m = .eos ∨ m = .eosw := by
  obtain ⟨out, h1, h2, h3⟩ := stream_shape nd hp ms hms
  intro m hm
  cases he : (after nd ms).exited with
  | false => rw [h2 he] at hm; exact Or.inl (h1 m hm)
  | true =>
    obtain ⟨e, he1, he2⟩ := h3 he
    rw [he2] at hm
    rcases List.mem_append.1 hm with hm | hm
    · exact Or.inl (h1 m hm)
    · simp only [List.mem_singleton] at hm
      subst hm
      cases m <;> simp [isEnd] at he1 <;> simp

theorem markBody_exited (nd : Node D) (l : L nd) (hn : l.neos = 1) (fwd : List (Msg D)) :
    (markBody nd l fwd).1.exited = true := by
  simp [markBody, hn]

theorem body_neos (nd : Node D) (l : L nd) (hn : l.neos = 1) (m : Msg D)
    (he : (body nd l m).1.exited = false) : (body nd l m).1.neos = 1 := by
  cases m with
  | eos => simp [body, markBody_exited nd l hn] at he
  | eosw => simp [body, markBody_exited nd l hn] at he
  | eosnf => simp [body, markBody_exited nd l hn] at he
  | goout => simp [body] at he
  | nul => simp [body, svcBody, hn]
  | data d => simp [body, svcBody, hn]
  | goon => simp [body, svcBody, hn]
  | flush => simp [body, svcBody, hn]

/-- reading an end mark ends the loop -/
theorem run_mark (nd : Node D) (l : L nd) (hn : l.neos = 1) (ms : List (Msg D))
    (h : ∃ m ∈ ms, isEnd m = true) : (run nd l ms).1.exited = true := by
  induction ms generalizing l with
  | nil => obtain ⟨m, hm, _⟩ := h; simp at hm
  | cons x xs ih =>
    cases hl : l.exited with
    | true => rw [run_exited nd l hl]; exact hl
    | false =>
      rw [run_cons nd l hl]
      show (run nd (body nd l x).1 xs).1.exited = true
      cases hb : (body nd l x).1.exited with
      | true => rw [run_exited nd _ hb]; exact hb
      | false =>
        refine ih _ (body_neos nd l hn x hb) ?_
        obtain ⟨m, hm, he⟩ := h
        rcases List.mem_cons.1 hm with rfl | hm
        · exfalso
          cases m <;> simp [isEnd] at he <;> simp [body, markBody_exited nd l hn] at hb
        · exact ⟨m, hm, he⟩

theorem after_mark (nd : Node D) (ms : List (Msg D)) (h : ∃ m ∈ ms, isEnd m = true) :
    (after nd ms).exited = true := run_mark nd _ rfl ms h

/-- a stage that does not end by itself has read an end mark if it has ended -/
theorem run_obedient (nd : Node D) (ho : Obedient nd) (l : L nd) (hl : l.exited = false)
    (ms : List (Msg D)) (hms : ∀ m ∈ ms, Good m) (he : (run nd l ms).1.exited = true) :
    ∃ m ∈ ms, isEnd m = true := by
  induction ms generalizing l with
  | nil => simp [run, hl] at he
  | cons x xs ih =>
    rcases hms x (by simp) with hx | hx
    · have hb : (body nd l x).1.exited = false := by
        rw [body_task nd l hx]; simp [svcBody, ho l.st x]
      rw [run_cons nd l hl] at he
      obtain ⟨m, hm, hm'⟩ := ih _ hb (fun m hm => hms m (by simp [hm])) he
      exact ⟨m, by simp [hm], hm'⟩
    · exact ⟨x, by simp, by rcases hx with rfl | rfl <;> rfl⟩

theorem after_obedient (nd : Node D) (ho : Obedient nd) (ms : List (Msg D))
    (hms : ∀ m ∈ ms, Good m) (he : (after nd ms).exited = true) : ∃ m ∈ ms, isEnd m = true :=
  run_obedient nd ho _ rfl ms hms he

end FF.Ring
