import Verif.Dist.Bytes
/-!
# The endpoint of a group in the configuration (C84)

Models `dGroups::split` (ff/distributed/ff_dgroups.hpp 301-310) and the reading of the option `endpoint` of a group
(271-275).  `std::stoi` is modelled for the "C" locale: white space, a sign, digits; the rest is ignored.
-/
namespace FF.Dist.Endpoint
open FF.Dist.Bytes

/-- the loop over `getline(ss, item, delim)` (306-307); `item` are the characters of the current item already read.
At the end of the string an item without characters is not delivered. -/
def splitGo (delim : Char) (item : List Char) : List Char → List (List Char)
  | [] => if item = [] then [] else [item]
  | c :: s => if c = delim then item :: splitGo delim [] s else splitGo delim (item ++ [c]) s

/-- `split(s, delim)` (301-310) -/
def split (s : List Char) (delim : Char) : List (List Char) := splitGo delim [] s

def isSpace (c : Char) : Bool := c.toNat == 32 || (9 ≤ c.toNat && c.toNat ≤ 13)

/-- `std::stoi`: `none` is one of its exceptions (`invalid_argument`, `out_of_range`) -/
def stoi (s : List Char) : Option Int :=
  let s := s.dropWhile isSpace
  let (neg, s) := match s with
    | '-' :: r => (true, r)
    | '+' :: r => (false, r)
    | r => (false, r)
  let digits := s.takeWhile isDigit
  if digits = [] then none
  else
    let v : Nat := digits.foldl (fun v c => 10 * v + (c.toNat - '0'.toNat)) 0
    if neg then (if v ≤ 2147483648 then some (-(v : Int)) else none)
    else (if v < 2147483648 then some (v : Int) else none)

/-- what happens to a group with the given endpoint -/
inductive Res where
  /-- `address` and `port` are set -/
  | ok (address : List Char) (port : Int)
  /-- an exception that is not a `cereal::Exception` leaves `load` (275) -/
  | throws
  /-- `endp[0]` or `endp[1]` is outside the vector -/
  | outside
  deriving DecidableEq, Repr

/-- lines 273-274 -/
def readEndpoint (endpoint : List Char) : Res :=
  match split endpoint ':' with
  | a :: p :: _ =>
    match stoi p with
    | some n => .ok a n
    | none => .throws
  | _ => .outside

/-! ## Proofs -/

theorem splitGo_item {d : Char} {a : List Char} (ha : d ∉ a) (item s : List Char) :
    splitGo d item (a ++ s) = splitGo d (item ++ a) s := by
  induction a generalizing item with
  | nil => simp
  | cons c a ih =>
    have hc : ¬ c = d := fun hh => ha (by simp [hh])
    simp only [List.cons_append, splitGo, hc, if_false]
    rw [ih (fun hh => ha (by simp [hh]))]
    simp

theorem split_first {d : Char} {a : List Char} (ha : d ∉ a) (s : List Char) : split (a ++ d :: s) d = a :: split s d := by
  unfold split
  rw [splitGo_item ha]
  simp [splitGo]

theorem split_last {d : Char} {a : List Char} (ha : d ∉ a) : split a d = if a = [] then [] else [a] := by
  have := splitGo_item ha [] []
  simp only [List.append_nil, List.nil_append] at this
  unfold split
  rw [this]; rfl

/-- a string with the delimiter has a first one -/
theorem first_delim {d : Char} {s : List Char} (h : d ∈ s) : ∃ a b, s = a ++ d :: b ∧ d ∉ a := by
  induction s with
  | nil => simp at h
  | cons c s ih =>
    by_cases hc : c = d
    · exact ⟨[], s, by simp [hc], by simp⟩
    · have : d ∈ s := by
        rcases List.mem_cons.1 h with h1 | h1
        · exact absurd h1.symm hc
        · exact h1
      obtain ⟨a, b, rfl, ha⟩ := ih this
      refine ⟨c :: a, b, by simp, ?_⟩
      intro hh
      rcases List.mem_cons.1 hh with h1 | h1
      · exact hc h1.symm
      · exact ha h1

theorem split_ne_nil {d : Char} {s : List Char} (h : s ≠ []) : split s d ≠ [] := by
  by_cases hd : d ∈ s
  · obtain ⟨a, b, rfl, ha⟩ := first_delim hd
    rw [split_first ha]; simp
  · rw [split_last hd, if_neg h]; simp

theorem digit_not {c : Char} (h : isDigit c = true) : isSpace c = false ∧ c ≠ '-' ∧ c ≠ '+' ∧ c ≠ ':' := by
  have e1 : '0'.toNat = 48 := rfl
  have e2 : '9'.toNat = 57 := rfl
  simp only [isDigit, Bool.and_eq_true, decide_eq_true_eq] at h
  refine ⟨?_, ?_, ?_, ?_⟩
  · simp only [isSpace, Bool.or_eq_false_iff, beq_eq_false_iff_ne, Bool.and_eq_false_iff, decide_eq_false_iff_not]
    omega
  · intro hh; rw [hh] at h; have : '-'.toNat = 45 := rfl; omega
  · intro hh; rw [hh] at h; have : '+'.toNat = 43 := rfl; omega
  · intro hh; rw [hh] at h; have : ':'.toNat = 58 := rfl; omega

/-- `stoi` of a decimal numeral -/
theorem stoi_decimal {ds : List Char} {n : Nat} (h : Decimal ds n) :
    stoi ds = if n < 2147483648 then some (n : Int) else none := by
  obtain ⟨h1, h2, h3⟩ := h.facts
  have ht : ds.takeWhile isDigit = ds := by
    have := (take_digits (u := []) h2).1
    simpa using this
  cases ds with
  | nil => exact absurd rfl h1
  | cons c cs =>
    obtain ⟨n1, n2, n3, _⟩ := digit_not (h2 c (by simp))
    have hsp : (c :: cs).dropWhile isSpace = c :: cs := by simp [n1]
    unfold stoi
    simp only [hsp]
    split
    · rename_i he; simp only [List.cons.injEq] at he; exact absurd he.1 n2
    · rename_i he; simp only [List.cons.injEq] at he; exact absurd he.1 n3
    · simp only [ht, h1, if_false, h3, Bool.false_eq_true]

/-- **C84** (well-formed endpoints).  For a host without colon and a port written as a decimal number below `2^31`, the
group gets that address and that port. -/
theorem C84_endpoint_partial {host ds : List Char} {n : Nat} (hh : ':' ∉ host) (hd : Decimal ds n) (hn : n < 2147483648) :
    readEndpoint (host ++ ':' :: ds) = .ok host n := by
  obtain ⟨h1, h2, _⟩ := hd.facts
  have hc : ':' ∉ ds := fun hm => (digit_not (h2 _ hm)).2.2.2 rfl
  unfold readEndpoint
  rw [split_first hh, split_last hc, if_neg h1]
  simp only [stoi_decimal hd, if_pos hn]

/-- **C84** (ports that do not fit in an int): an exception leaves the reading of the configuration. -/
theorem C84_large_port {host ds : List Char} {n : Nat} (hh : ':' ∉ host) (hd : Decimal ds n) (hn : 2147483648 ≤ n) :
    readEndpoint (host ++ ':' :: ds) = .throws := by
  obtain ⟨h1, h2, _⟩ := hd.facts
  have hc : ':' ∉ ds := fun hm => (digit_not (h2 _ hm)).2.2.2 rfl
  unfold readEndpoint
  rw [split_first hh, split_last hc, if_neg h1]
  simp only [stoi_decimal hd, if_neg (Nat.not_lt.2 hn)]

/-- the first item of a string that starts with another character than the delimiter starts with it -/
theorem split_head {d c : Char} (hc : c ≠ d) (cs : List Char) : ∃ x r, split (c :: cs) d = (c :: x) :: r := by
  by_cases hd : d ∈ c :: cs
  · obtain ⟨a, b, he, ha⟩ := first_delim hd
    cases a with
    | nil => simp only [List.nil_append, List.cons.injEq] at he; exact absurd he.1 hc
    | cons x a =>
      rw [he, split_first ha]
      simp only [List.cons_append, List.cons.injEq] at he
      rw [he.1]
      exact ⟨_, _, rfl⟩
  · rw [split_last hd, if_neg (by simp)]
    exact ⟨_, _, rfl⟩

/-- **C84** (ports that are no number).  If what follows the first colon starts with a character that is no digit, no
sign and no white space, an exception leaves the reading of the configuration: no port is made up. -/
theorem C84_no_number {a cs : List Char} {c : Char} (ha : ':' ∉ a) (hd : isDigit c = false) (hs : isSpace c = false)
    (hm : c ≠ '-') (hp : c ≠ '+') : readEndpoint (a ++ ':' :: c :: cs) = .throws := by
  unfold readEndpoint
  rw [split_first ha]
  by_cases hc : c = ':'
  · subst hc
    have : split (':' :: cs) ':' = [] :: split cs ':' := split_first (a := []) (by simp) cs
    rw [this]
    rfl
  · obtain ⟨x, r, hx⟩ := split_head hc cs
    rw [hx]
    have : stoi (c :: x) = none := by
      unfold stoi
      have hsp : (c :: x).dropWhile isSpace = c :: x := by simp [hs]
      simp only [hsp]
      split
      · rename_i he; simp only [List.cons.injEq] at he; exact absurd he.1 hm
      · rename_i he; simp only [List.cons.injEq] at he; exact absurd he.1 hp
      · simp [hd]
    simp only [this]

/-- **C84** (malformed endpoints).  An endpoint is neither accepted nor refused, but read outside the vector of its
parts, exactly if nothing follows its first colon, in particular if it has none. -/
theorem C84_outside_counterexample (e : List Char) :
    readEndpoint e = .outside ↔ ¬ ∃ a b, e = a ++ ':' :: b ∧ ':' ∉ a ∧ b ≠ [] := by
  constructor
  · rintro h ⟨a, b, rfl, ha, hb⟩
    unfold readEndpoint at h
    rw [split_first ha] at h
    cases hs : split b ':' with
    | nil => exact split_ne_nil hb hs
    | cons p r =>
      rw [hs] at h
      simp only at h
      split at h <;> simp at h
  · intro h
    unfold readEndpoint
    by_cases hd : ':' ∈ e
    · obtain ⟨a, b, rfl, ha⟩ := first_delim hd
      have hb : b = [] := Classical.byContradiction fun hb => h ⟨a, b, rfl, ha, hb⟩
      subst hb
      rw [split_first ha]
      rfl
    · rw [split_last hd]
      by_cases he : e = []
      · rw [if_pos he]
      · rw [if_neg he]

/-- **C84** (addresses that contain colons).  Only the part of the endpoint before its first colon is taken as address,
and only the part up to the second one is read as port; what follows has no effect.  So no address with a colon (IPv6)
can be given: whatever the port, the address that is set is not the one written. -/
theorem C84_colon_counterexample {a p r : List Char} (ha : ':' ∉ a) (hp : ':' ∉ p) (hne : p ≠ []) :
    readEndpoint (a ++ ':' :: (p ++ ':' :: r)) = readEndpoint (a ++ ':' :: p) ∧
    ∀ port, readEndpoint (a ++ ':' :: (p ++ ':' :: r)) ≠ .ok (a ++ ':' :: p) port := by
  have key : ∀ tail, readEndpoint (a ++ ':' :: (p ++ tail)) = (match stoi p with | some n => Res.ok a n | none => .throws) ∨
      ¬ (tail = [] ∨ ∃ t, tail = ':' :: t) := by
    intro tail
    by_cases ht : tail = [] ∨ ∃ t, tail = ':' :: t
    · left
      unfold readEndpoint
      rw [split_first ha]
      rcases ht with rfl | ⟨t, rfl⟩
      · rw [List.append_nil, split_last hp, if_neg hne]
      · rw [split_first hp]
    · exact Or.inr ht
  have k1 := (key (':' :: r)).resolve_right (by simp)
  have k2 := (key []).resolve_right (by simp)
  rw [List.append_nil] at k2
  refine ⟨by rw [k1, k2], fun port h => ?_⟩
  rw [k1] at h
  split at h
  · simp at h
  · simp at h

/-! ## Non-vacuity -/

/-- "h:80" -/
example : readEndpoint ['h', ':', '8', '0'] = .ok ['h'] 80 :=
  C84_endpoint_partial (host := ['h']) (ds := ['8', '0']) (by decide)
    (.snoc ['8'] 8 0 (by decide) (.digit 8 (by decide))) (by decide)

/-- "h" and "h:" -/
example : readEndpoint ['h'] = .outside ∧ readEndpoint ['h', ':'] = .outside := by decide

/-- "::1:80" -/
example : readEndpoint [':', ':', '1', ':', '8', '0'] = .throws := by decide

/-- "h:x" -/
example : readEndpoint ['h', ':', 'x'] = .throws :=
  C84_no_number (a := ['h']) (by decide) (by decide) (by decide) (by decide) (by decide)

/-- "f:1:80": the port is 1 -/
example : readEndpoint ['f', ':', '1', ':', '8', '0'] = .ok ['f'] 1 := by decide

end FF.Dist.Endpoint
