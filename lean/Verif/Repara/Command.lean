/-!
# The command that selects the device and the memory flags of a kernel (C85)

Models `extractFlags` (ff/bitflags.hpp 68-111) and `Kernel::getDeviceID` (ff/repara/rprkernels.hpp 549-562) up to the
string that is looked up in `String2Target` (560).  Positions in a string are modelled by the rest of the string from
there.  `none` is a failed assertion.
-/
namespace FF.Repara.Command

/-- one decimal digit -/
def digit (n : Nat) : Char := Char.ofNat (48 + n)

/-- `std::to_string` of a kernel id that is not negative -/
def dec (n : Nat) : List Char :=
  if n < 10 then [digit n] else dec (n / 10) ++ [digit (n % 10)]

/-- `kid` (bitflags.hpp 75, rprkernels.hpp 551) -/
def kid (k : Nat) : List Char := ['k', 'e', 'r', 'n', 'e', 'l', '_'] ++ dec k

/-- `cmd.rfind(pat)`: the rest of the string from the last occurrence -/
def rfind (pat : List Char) : List Char → Option (List Char)
  | [] => if pat.isPrefixOf [] then some [] else none
  | c :: s =>
    match rfind pat s with
    | some r => some r
    | none => if pat.isPrefixOf (c :: s) then some (c :: s) else none

/-- `find_first_of(c, n)`: the rest of the string after the first `c` -/
def after (c : Char) : List Char → Option (List Char)
  | [] => none
  | d :: s => if d = c then some s else after c s

/-- the characters before the first `c`; `none` if there is none -/
def upto (c : Char) : List Char → Option (List Char)
  | [] => none
  | d :: s => if d = c then some [] else (upto c s).map (d :: ·)

/-- `MemoryFlags` (bitflags.hpp 47-55): `COPY`, `REUSE`, `RELEASE` -/
structure Flags where
  copy : Bool
  reuse : Bool
  release : Bool
  deriving DecidableEq, Repr

/-- the flags of one parameter (98-103) -/
def flagsOf (t : List Char) : Flags :=
  { copy := if 'S' ∈ t then true else if 'R' ∈ t then true else false
    reuse := if 'U' ∈ t then true else false
    release := if 'F' ∈ t then true else false }

/-- the loop 95-108 over the texts that end with `;`; `t` are the characters of the current one already read.  What
follows the last `;` is not used. -/
def items (t : List Char) : List Char → List (List Char)
  | [] => []
  | c :: s => if c = ';' then t :: items [] s else items (t ++ [c]) s

/-- `extractFlags(cmd, kernel_id)` (68-111) -/
def extractFlags (cmd : List Char) (k : Nat) : Option (List Flags) :=
  if cmd = [] then some [{ copy := true, reuse := false, release := false }]   -- 71-74, 48-50
  else do
    let r ← rfind (kid k) cmd                                                    -- 77-78
    let r ← after ';' r                                                          -- 79-80
    let r ← after ';' r                                                          -- 81-82
    let r ← upto '$' r                                                           -- 84-88
    if items [] r = [] then none                                                 -- 91-93
    else some ((items [] r).map flagsOf)

/-- the device of `getDeviceID(cmd, target)` (rprkernels.hpp 549-559), for a command that is not empty -/
def device (cmd : List Char) (k : Nat) : Option (List Char) := do
  let r ← rfind (kid k) cmd
  let r ← after ';' r
  upto ';' r

/-! ## Specification: the format of commands (rprkernels.hpp 542-547, bitflags.hpp 60-67) -/

/-- what a command says about one kernel -/
structure Entry where
  id : Nat
  dev : List Char
  /-- one text for each parameter -/
  params : List (List Char)

/-- `$kernel_1;GPU:0;UF;SF;` -/
def Entry.text (e : Entry) : List Char :=
  ['$', 'k', 'e', 'r', 'n', 'e', 'l', '_'] ++ (dec e.id ++ (';' :: (e.dev ++ ';' :: (e.params.map (· ++ [';'])).flatten)))

/-- `schedule_id;$kernel_1;GPU:0;UF;SF;$kernel_2;CPU:0;R;$` -/
def command (sched : List Char) (es : List Entry) : List Char :=
  sched ++ ';' :: ((es.map Entry.text).flatten ++ ['$'])

/-- a text without the separators and without `_` -/
def Plain (t : List Char) : Prop := ';' ∉ t ∧ '$' ∉ t ∧ '_' ∉ t

def Entry.Ok (e : Entry) : Prop := Plain e.dev ∧ ∀ t ∈ e.params, Plain t

/-- what the letters mean: `S`, `R` copy, `U` reuse, `F` release -/
def Meaning (t : List Char) (f : Flags) : Prop :=
  (f.copy = true ↔ 'S' ∈ t ∨ 'R' ∈ t) ∧ (f.reuse = true ↔ 'U' ∈ t) ∧ (f.release = true ↔ 'F' ∈ t)

theorem meaning (t : List Char) : Meaning t (flagsOf t) := by
  refine ⟨?_, ?_, ?_⟩ <;> simp only [flagsOf] <;> (repeat' split) <;> simp_all

/-! ## Searches -/

theorem digit_ne {n : Nat} (h : n < 10) : digit n ≠ ';' ∧ digit n ≠ '$' ∧ digit n ≠ '_' ∧ digit n ≠ 'k' := by
  have : n = 0 ∨ n = 1 ∨ n = 2 ∨ n = 3 ∨ n = 4 ∨ n = 5 ∨ n = 6 ∨ n = 7 ∨ n = 8 ∨ n = 9 := by omega
  rcases this with rfl | rfl | rfl | rfl | rfl | rfl | rfl | rfl | rfl | rfl <;> decide

theorem dec_ne (n : Nat) : ∀ c ∈ dec n, c ≠ ';' ∧ c ≠ '$' ∧ c ≠ '_' ∧ c ≠ 'k' := by
  induction n using Nat.strongRecOn with
  | ind n ih =>
    rw [dec]
    split
    · rename_i h
      intro c hc
      simp only [List.mem_singleton] at hc
      subst hc; exact digit_ne h
    · rename_i h
      intro c hc
      rcases List.mem_append.1 hc with hc | hc
      · exact ih (n / 10) (by omega) c hc
      · simp only [List.mem_singleton] at hc
        subst hc; exact digit_ne (by omega)

theorem rfind_ne {k : Nat} {c : Char} {s : List Char} (h : c ≠ 'k') : rfind (kid k) (c :: s) = rfind (kid k) s := by
  simp only [rfind]
  have : (kid k).isPrefixOf (c :: s) = false := by
    simp [kid, List.isPrefixOf, Ne.symm h]
  rw [this]
  cases rfind (kid k) s <;> simp

theorem rfind_nes {k : Nat} {p s : List Char} (h : ∀ c ∈ p, c ≠ 'k') : rfind (kid k) (p ++ s) = rfind (kid k) s := by
  induction p with
  | nil => rfl
  | cons c p ih =>
    rw [List.cons_append, rfind_ne (h c (by simp)), ih fun c hc => h c (by simp [hc])]

theorem kid_sep (k : Nat) : ';' ∉ kid k := by
  intro h
  rcases List.mem_append.1 h with h | h
  · revert h; decide
  · exact (dec_ne k _ h).1 rfl

/-- no occurrence begins in a text without `_` that ends with `;` -/
theorem rfind_skip {k : Nat} {p s : List Char} (h : '_' ∉ p) : rfind (kid k) (p ++ ';' :: s) = rfind (kid k) s := by
  induction p with
  | nil => exact rfind_ne (by decide)
  | cons c p ih =>
    rw [List.cons_append, rfind, ih fun hc => h (by simp [hc])]
    have : (kid k).isPrefixOf (c :: (p ++ ';' :: s)) = false := by
      cases hp : (kid k).isPrefixOf (c :: (p ++ ';' :: s)) with
      | false => rfl
      | true =>
        have h1 : kid k <+: (c :: p ++ [';']) ++ s := by
          have := List.isPrefixOf_iff_prefix.1 hp
          simpa using this
        rcases List.prefix_or_prefix_of_prefix h1 (List.prefix_append _ _) with h2 | h2
        · have h3 : '_' ∈ (c :: p ++ [';']) := h2.subset (by simp [kid])
          rcases List.mem_append.1 h3 with h3 | h3
          · exact absurd h3 h
          · simp at h3
        · exact absurd (h2.subset (by simp)) (kid_sep k)
    rw [this]
    cases rfind (kid k) s <;> simp

theorem rfind_params {k : Nat} {ps : List (List Char)} {s : List Char} (h : ∀ t ∈ ps, '_' ∉ t) :
    rfind (kid k) ((ps.map (· ++ [';'])).flatten ++ s) = rfind (kid k) s := by
  induction ps with
  | nil => rfl
  | cons t ps ih =>
    simp only [List.map_cons, List.flatten_cons, List.append_assoc, List.cons_append, List.nil_append]
    rw [rfind_skip (h t (by simp)), ih fun t ht => h t (by simp [ht])]

/-- the rest of the command after the `;` that follows the name of a kernel -/
def Entry.rest (e : Entry) : List Char := e.dev ++ ';' :: (e.params.map (· ++ [';'])).flatten

theorem prefix_sep {a b s : List Char} (h : ';' ∉ a) : a <+: b ++ ';' :: s ↔ a <+: b := by
  refine ⟨fun hp => ?_, fun hp => hp.trans (List.prefix_append _ _)⟩
  have h1 : a <+: (b ++ [';']) ++ s := by simpa using hp
  rcases List.prefix_or_prefix_of_prefix h1 (List.prefix_append _ _) with h2 | h2
  · rcases List.prefix_concat_iff.1 h2 with h3 | h3
    · exact absurd (h3 ▸ by simp) h
    · exact h3
  · exact absurd (h2.subset (by simp)) h

theorem rfind_entry {k : Nat} {e : Entry} {s : List Char} (he : e.Ok) :
    rfind (kid k) (e.text ++ s) =
      match rfind (kid k) s with
      | some r => some r
      | none => if dec k <+: dec e.id then some (['k', 'e', 'r', 'n', 'e', 'l', '_'] ++ (dec e.id ++ ';' :: (e.rest ++ s)))
                else none := by
  have e1 : e.text ++ s = '$' :: 'k' :: (['e', 'r', 'n', 'e', 'l', '_'] ++ (dec e.id ++ ';' :: (e.rest ++ s))) := by
    simp [Entry.text, Entry.rest]
  have e2 : rfind (kid k) (['e', 'r', 'n', 'e', 'l', '_'] ++ (dec e.id ++ ';' :: (e.rest ++ s))) = rfind (kid k) s := by
    rw [rfind_nes (by decide), rfind_nes fun c hc => (dec_ne _ c hc).2.2.2, rfind_ne (by decide)]
    simp only [Entry.rest, List.append_assoc, List.cons_append]
    rw [rfind_skip he.1.2.2, rfind_params fun t ht => (he.2 t ht).2.2]
  rw [e1, rfind_ne (by decide), rfind, e2]
  cases rfind (kid k) s with
  | some r => rfl
  | none =>
    simp only
    have : ((kid k).isPrefixOf ('k' :: (['e', 'r', 'n', 'e', 'l', '_'] ++ (dec e.id ++ ';' :: (e.rest ++ s)))) = true) ↔
        dec k <+: dec e.id := by
      rw [List.isPrefixOf_iff_prefix,
        ← prefix_sep (s := e.rest ++ s) (fun h => (dec_ne k _ h).1 rfl)]
      show ['k', 'e', 'r', 'n', 'e', 'l', '_'] ++ dec k <+: ['k', 'e', 'r', 'n', 'e', 'l', '_'] ++ _ ↔ _
      exact List.prefix_append_right_inj _
    by_cases hp : dec k <+: dec e.id
    · rw [if_pos (this.2 hp), if_pos hp]; rfl
    · rw [if_neg (fun h => hp (this.1 h)), if_neg hp]

theorem after_app {c : Char} {p s : List Char} (h : c ∉ p) : after c (p ++ c :: s) = some s := by
  induction p with
  | nil => simp [after]
  | cons d p ih =>
    have : d ≠ c := fun e => h (by simp [e])
    simp only [List.cons_append, after, this, if_false]
    exact ih fun hc => h (by simp [hc])

theorem upto_app {c : Char} {p s : List Char} (h : c ∉ p) : upto c (p ++ c :: s) = some p := by
  induction p with
  | nil => simp [upto]
  | cons d p ih =>
    have : d ≠ c := fun e => h (by simp [e])
    simp only [List.cons_append, upto, this, if_false]
    rw [ih fun hc => h (by simp [hc])]; rfl

theorem items_app {t p s : List Char} (h : ';' ∉ p) : items t (p ++ ';' :: s) = (t ++ p) :: items [] s := by
  induction p generalizing t with
  | nil => simp [items]
  | cons d p ih =>
    have : d ≠ ';' := fun e => h (by simp [e])
    simp only [List.cons_append, items, this, if_false]
    rw [ih fun hc => h (by simp [hc])]; simp

theorem items_params {ps : List (List Char)} (h : ∀ t ∈ ps, ';' ∉ t) : items [] ((ps.map (· ++ [';'])).flatten) = ps := by
  induction ps with
  | nil => rfl
  | cons t ps ih =>
    simp only [List.map_cons, List.flatten_cons, List.append_assoc, List.cons_append, List.nil_append]
    rw [items_app (h t (by simp)), ih fun t ht => h t (by simp [ht])]; rfl

theorem params_dollar {ps : List (List Char)} (h : ∀ t ∈ ps, '$' ∉ t) : '$' ∉ (ps.map (· ++ [';'])).flatten := by
  induction ps with
  | nil => simp
  | cons t ps ih =>
    simp only [List.map_cons, List.flatten_cons, List.mem_append, List.mem_singleton, not_or]
    exact ⟨⟨h t (by simp), by decide⟩, ih fun t ht => h t (by simp [ht])⟩

/-- what follows an entry begins with `$` -/
theorem next_dollar (es : List Entry) : ∃ s, (es.map Entry.text).flatten ++ ['$'] = '$' :: s := by
  cases es with
  | nil => exact ⟨[], rfl⟩
  | cons e es => exact ⟨_, by simp only [List.map_cons, List.flatten_cons, Entry.text, List.cons_append]; rfl⟩

/-- nothing is found in entries with other names -/
theorem rfind_none {k : Nat} {es : List Entry} (hok : ∀ e ∈ es, e.Ok) (h : ∀ e ∈ es, ¬ dec k <+: dec e.id) :
    rfind (kid k) ((es.map Entry.text).flatten ++ ['$']) = none := by
  induction es with
  | nil => simp [rfind, kid, List.isPrefixOf]
  | cons e es ih =>
    simp only [List.map_cons, List.flatten_cons, List.append_assoc]
    rw [rfind_entry (hok e (by simp)), ih (fun e he => hok e (by simp [he])) fun e he => h e (by simp [he])]
    simp only
    rw [if_neg (h e (by simp))]

/-- the name of a kernel is found in the last entry whose number begins with the digits of that of the kernel -/
theorem rfind_last {k : Nat} {sched : List Char} {es1 es2 : List Entry} {e : Entry} (hs : Plain sched)
    (hok : ∀ x ∈ es1 ++ e :: es2, x.Ok) (he : dec k <+: dec e.id) (h2 : ∀ x ∈ es2, ¬ dec k <+: dec x.id) :
    rfind (kid k) (command sched (es1 ++ e :: es2)) =
      some (['k', 'e', 'r', 'n', 'e', 'l', '_'] ++ (dec e.id ++ ';' :: (e.rest ++ ((es2.map Entry.text).flatten ++ ['$'])))) := by
  unfold command
  rw [rfind_skip hs.2.2]
  induction es1 with
  | nil =>
    simp only [List.nil_append, List.map_cons, List.flatten_cons, List.append_assoc]
    rw [rfind_entry (hok e (by simp)), rfind_none (fun x hx => hok x (by simp [hx])) h2]
    simp only
    rw [if_pos he]
  | cons x es1 ih =>
    simp only [List.cons_append, List.map_cons, List.flatten_cons, List.append_assoc]
    rw [rfind_entry (hok x (by simp)), ih fun y hy => hok y (by simp at hy ⊢; exact Or.inr hy)]
    rfl

theorem name_sep (n : Nat) : ';' ∉ ['k', 'e', 'r', 'n', 'e', 'l', '_'] ++ dec n := kid_sep n

/-! ## Theorems -/

/-- **C85** (which entry is used).  In a command of the documented format, the device and the flags used for kernel `k`
are those of the last entry whose number begins with the decimal digits of `k`.  A kernel without parameters fails an
assertion. -/
theorem C85_value {k : Nat} {sched : List Char} {es1 es2 : List Entry} {e : Entry} (hs : Plain sched)
    (hok : ∀ x ∈ es1 ++ e :: es2, x.Ok) (he : dec k <+: dec e.id) (h2 : ∀ x ∈ es2, ¬ dec k <+: dec x.id) :
    device (command sched (es1 ++ e :: es2)) k = some e.dev ∧
    extractFlags (command sched (es1 ++ e :: es2)) k = if e.params = [] then none else some (e.params.map flagsOf) := by
  have hf := rfind_last hs hok he h2
  have heo := hok e (by simp)
  have ha : after ';' (['k', 'e', 'r', 'n', 'e', 'l', '_'] ++ (dec e.id ++ ';' :: (e.rest ++ ((es2.map Entry.text).flatten ++ ['$']))))
      = some (e.rest ++ ((es2.map Entry.text).flatten ++ ['$'])) := by
    rw [← List.append_assoc]; exact after_app (name_sep e.id)
  refine ⟨?_, ?_⟩
  · unfold device
    rw [hf]
    simp only [Option.bind_eq_bind, Option.bind_some]
    rw [ha]
    simp only [Option.bind_some, Entry.rest, List.append_assoc, List.cons_append]
    exact upto_app heo.1.1
  · obtain ⟨s, hd⟩ := next_dollar es2
    have hne : command sched (es1 ++ e :: es2) ≠ [] := by simp [command]
    unfold extractFlags
    rw [if_neg hne, hf]
    simp only [Option.bind_eq_bind, Option.bind_some]
    rw [ha, hd]
    simp only [Option.bind_some, Entry.rest, List.append_assoc, List.cons_append]
    rw [after_app heo.1.1]
    simp only [Option.bind_some]
    rw [upto_app (params_dollar fun t ht => (heo.2 t ht).2.1)]
    simp only [Option.bind_some]
    rw [items_params fun t ht => (heo.2 t ht).1]

/-- **C85** (partial: if the number of no later kernel of the command begins with the digits of that of this one).  The
device is the one written for the kernel, and the flags are those written for its parameters, in order. -/
theorem C85_kernel_partial {sched : List Char} {es1 es2 : List Entry} {e : Entry} (hs : Plain sched)
    (hok : ∀ x ∈ es1 ++ e :: es2, x.Ok) (hp : e.params ≠ []) (h2 : ∀ x ∈ es2, ¬ dec e.id <+: dec x.id) :
    device (command sched (es1 ++ e :: es2)) e.id = some e.dev ∧
    ∃ fs, extractFlags (command sched (es1 ++ e :: es2)) e.id = some fs ∧ fs.length = e.params.length ∧
      ∀ (i : Nat) t f, e.params[i]? = some t → fs[i]? = some f → Meaning t f := by
  obtain ⟨h1, h3⟩ := C85_value hs hok (List.prefix_refl (dec e.id)) h2
  rw [if_neg hp] at h3
  refine ⟨h1, _, h3, by simp, fun i t f ht hf => ?_⟩
  rw [List.getElem?_map, ht] at hf
  simp only [Option.map_some, Option.some.injEq] at hf
  subst hf; exact meaning t

theorem digit_inj {m n : Nat} (hm : m < 10) (hn : n < 10) (h : digit m = digit n) : m = n := by
  have key : ∀ m, m < 10 → (digit m).toNat = 48 + m := by
    intro m hm
    have : m = 0 ∨ m = 1 ∨ m = 2 ∨ m = 3 ∨ m = 4 ∨ m = 5 ∨ m = 6 ∨ m = 7 ∨ m = 8 ∨ m = 9 := by omega
    rcases this with rfl | rfl | rfl | rfl | rfl | rfl | rfl | rfl | rfl | rfl <;> rfl
  have h1 := key m hm
  have h2 := key n hn
  rw [h] at h1; omega

/-- a number whose digits begin with those of `m` is `m` or at least `10 * m` -/
theorem prefix_num {m n : Nat} (h : dec m <+: dec n) : n = m ∨ (10 ≤ n ∧ 10 * m ≤ n) := by
  induction n using Nat.strongRecOn generalizing m with
  | ind n ih =>
    have inj : ∀ a b : Nat, dec a = dec b → a = b := by
      intro a
      induction a using Nat.strongRecOn with
      | ind a iha =>
        intro b hab
        have pos : ∀ x, dec x ≠ [] := by intro x; rw [dec]; split <;> simp
        rw [dec, dec.eq_1 b] at hab
        split at hab <;> split at hab
        · rename_i h1 h2
          simp only [List.cons.injEq, and_true] at hab
          exact digit_inj h1 h2 hab
        · exfalso
          have := congrArg List.length hab
          have hp := List.length_pos_iff.2 (pos (b / 10))
          simp at this; exact pos _ this
        · exfalso
          have := congrArg List.length hab
          simp at this; exact pos _ this
        · have hl := List.append_inj' hab rfl
          have h1 := iha (a / 10) (by omega) _ hl.1
          have h2 := digit_inj (Nat.mod_lt a (by decide)) (Nat.mod_lt b (by decide)) (by simpa using hl.2)
          omega
    rw [dec.eq_1 n] at h
    split at h
    · rename_i hn
      left
      have hpos : dec m ≠ [] := by rw [dec]; split <;> simp
      have hl := h.length_le
      have hlp := List.length_pos_iff.2 hpos
      have he : dec m = [digit n] := h.eq_of_length (by simp at hl ⊢; omega)
      exact (inj m n (by rw [he, dec.eq_1 n, if_pos hn])).symm
    · rename_i hn
      rcases List.prefix_concat_iff.1 h with he | hp
      · left
        exact (inj m n (by rw [he, dec.eq_1 n, if_neg hn])).symm
      · right
        rcases ih (n / 10) (by omega) hp with h1 | h1 <;> omega

/-- **C85** (partial: if the numbers of the kernels of the command are distinct and less than ten times that of this
one, or all less than 10).  Device and flags are those written. -/
theorem C85_close_partial {sched : List Char} {es1 es2 : List Entry} {e : Entry} (hs : Plain sched)
    (hok : ∀ x ∈ es1 ++ e :: es2, x.Ok) (hp : e.params ≠ []) (hd : ∀ x ∈ es2, x.id ≠ e.id)
    (h2 : ∀ x ∈ es2, x.id < 10 ∨ x.id < 10 * e.id) :
    device (command sched (es1 ++ e :: es2)) e.id = some e.dev ∧
    ∃ fs, extractFlags (command sched (es1 ++ e :: es2)) e.id = some fs ∧ fs.length = e.params.length ∧
      ∀ (i : Nat) t f, e.params[i]? = some t → fs[i]? = some f → Meaning t f :=
  C85_kernel_partial hs hok hp fun x hx hpre => by
    have := hd x hx
    have := h2 x hx
    rcases prefix_num hpre with h | h <;> omega

/-- **C85** (the wrong kernel).  For every kernel number `k` from 1 on and every digit `d`: if a command contains kernel
`k` and after it kernel `10 * k + d`, and no further kernel, then the device and the flags used for kernel `k` are those
written for the other one. -/
theorem C85_prefix_counterexample {k d : Nat} (hk : 1 ≤ k) (hd : d < 10) {sched dev dev' : List Char}
    {ps ps' : List (List Char)} (hs : Plain sched) (h1 : Entry.Ok ⟨k, dev, ps⟩) (h2 : Entry.Ok ⟨10 * k + d, dev', ps'⟩)
    (hp : ps' ≠ []) :
    device (command sched [⟨k, dev, ps⟩, ⟨10 * k + d, dev', ps'⟩]) k = some dev' ∧
    extractFlags (command sched [⟨k, dev, ps⟩, ⟨10 * k + d, dev', ps'⟩]) k = some (ps'.map flagsOf) := by
  have hpre : dec k <+: dec (10 * k + d) := by
    rw [dec.eq_1 (10 * k + d), if_neg (by omega)]
    have : (10 * k + d) / 10 = k := by omega
    rw [this]; exact List.prefix_append _ _
  have := C85_value (k := k) (sched := sched) (es1 := [⟨k, dev, ps⟩]) (es2 := []) (e := ⟨10 * k + d, dev', ps'⟩) hs
    (by intro x hx; simp at hx; rcases hx with rfl | rfl <;> assumption) hpre (by simp)
  rw [if_neg hp] at this
  exact this

/-- **C85** (a kernel that is not in the command, and is not the beginning of another one, fails an assertion) -/
theorem C85_absent {k : Nat} {sched : List Char} {es : List Entry} (hs : Plain sched) (hok : ∀ x ∈ es, x.Ok)
    (h : ∀ x ∈ es, ¬ dec k <+: dec x.id) :
    device (command sched es) k = none ∧ extractFlags (command sched es) k = none := by
  have hf : rfind (kid k) (command sched es) = none := by
    unfold command; rw [rfind_skip hs.2.2, rfind_none hok h]
  have hne : command sched es ≠ [] := by simp [command]
  constructor
  · unfold device; rw [hf]; rfl
  · unfold extractFlags; rw [if_neg hne, hf]; rfl

/-- a command of the documented format, and the two kernels of it -/
example : command "7".toList [⟨1, "GPU:0".toList, ["URF".toList, "SF".toList]⟩, ⟨2, "CPU:0".toList, ["R".toList]⟩] =
    "7;$kernel_1;GPU:0;URF;SF;$kernel_2;CPU:0;R;$".toList := by decide +kernel

example : device "7;$kernel_1;GPU:0;URF;SF;$kernel_2;CPU:0;R;$".toList 1 = some "GPU:0".toList ∧
    extractFlags "7;$kernel_1;GPU:0;URF;SF;$kernel_2;CPU:0;R;$".toList 1 = some [⟨true, true, true⟩, ⟨true, false, true⟩] := by
  decide +kernel

/-- they meet the hypotheses of `C85_close_partial` -/
example : Plain "7".toList ∧ Entry.Ok ⟨1, "GPU:0".toList, ["URF".toList, "SF".toList]⟩ ∧
    Entry.Ok ⟨2, "CPU:0".toList, ["R".toList]⟩ := by
  refine ⟨by unfold Plain; decide, ⟨by unfold Plain; decide, ?_⟩, by unfold Plain; decide, ?_⟩ <;>
    · unfold Plain; decide

/-- kernel 1 is given the device and the flags of kernel 12 -/
example : device "7;$kernel_1;GPU:0;URF;SF;$kernel_12;CPU:0;R;$".toList 1 = some "CPU:0".toList ∧
    extractFlags "7;$kernel_1;GPU:0;URF;SF;$kernel_12;CPU:0;R;$".toList 1 = some [⟨true, false, false⟩] := by
  decide +kernel

end FF.Repara.Command
