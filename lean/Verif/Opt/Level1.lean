/-
Fuel does not matter once it suffices; `OptLevel1` always returns (C60).
-/
import Verif.Opt.PureOpt

namespace FF.Opt

variable {α : Type}

/-! ### More fuel, same outcome -/

/-- `r` ran out of fuel, or `r'` is the same outcome. -/
def Res.le {β : Type} (r r' : Res β) : Prop := r = .loop ∨ r = r'

theorem Res.le.refl {β : Type} (r : Res β) : r.le r := Or.inr rfl

theorem Res.le_loop {β : Type} (r : Res β) : Res.le .loop r := Or.inl rfl

theorem Res.le.bind {β γ : Type} {r r' : Res β} {f f' : β → Res γ} (h : r.le r')
    (hf : ∀ b, (f b).le (f' b)) : (r.bind f).le (r'.bind f') := by
  rcases h with h | h
  · rw [h]; exact Or.inl rfl
  · rw [h]
    cases r' with
    | ok b => exact hf b
    | ub => exact Or.inr rfl
    | abort => exact Or.inr rfl
    | loop => exact Or.inr rfl

theorem mapR_le {β γ : Type} {f f' : β → Res γ} (hf : ∀ b, (f b).le (f' b)) (xs : List β) :
    (mapR f xs).le (mapR f' xs) := by
  induction xs with
  | nil => exact Res.le.refl _
  | cons x xs ih => exact (hf x).bind fun y => ih.bind fun ys => Res.le.refl _

theorem farmSeq_le (ofarm : Bool) (nw : Nat) (ss : List (Sk α)) {n m : Nat} (h : n ≤ m) (sp : Nat)
    (last : Option Nat) : (farmSeq ofarm nw ss n sp last).le (farmSeq ofarm nw ss m sp last) := by
  induction n generalizing m sp last with
  | zero => exact Res.le_loop _
  | succ n ih =>
    cases m with
    | zero => omega
    | succ m =>
      unfold farmSeq
      split
      · cases findFrom Sk.nullEmit ss sp with
        | none => exact Res.le.refl _
        | some next =>
          refine (Res.le.refl _).bind fun b => ?_
          cases b with
          | true => exact ih (by omega) _ _
          | false => exact Res.le.refl _
      · exact Res.le.refl _

theorem mergeRound_le {n m : Nat} (h : n ≤ m) (ss : List (Sk α)) (f : Nat) :
    (mergeRound n ss f).le (mergeRound m ss f) := by
  unfold mergeRound
  cases ss[f]? with
  | none => exact Res.le.refl _
  | some s =>
    cases s with
    | farm hd ws => exact (farmSeq_le _ _ _ h _ _).bind fun b => Res.le.refl _
    | leaf _ => exact Res.le.refl _
    | pipe _ => exact Res.le.refl _
    | a2a _ _ => exact Res.le.refl _

theorem mergeLoop_le {n m : Nat} (h : n ≤ m) (ss : List (Sk α)) (f : Nat) :
    (mergeLoop n ss f).le (mergeLoop m ss f) := by
  induction n generalizing m ss f with
  | zero => exact Res.le_loop _
  | succ n ih =>
    cases m with
    | zero => omega
    | succ m =>
      refine (mergeRound_le (by omega) ss f).bind fun s => ?_
      cases findFrom Sk.nullColl s (f + 1) with
      | none => exact Res.le.refl _
      | some f' => exact ih (by omega) _ _

theorem mergeFarms_le {n m : Nat} (h : n ≤ m) (ss : List (Sk α)) :
    (mergeFarms n ss).le (mergeFarms m ss) := by
  unfold mergeFarms
  cases findFrom Sk.nullColl ss 0 with
  | none => exact Res.le.refl _
  | some f => exact mergeLoop_le h ss f

theorem a2aLoop_le {n m : Nat} (h : n ≤ m) (ss : List (Sk α)) (f : Option Nat) :
    (a2aLoop n ss f).le (a2aLoop m ss f) := by
  induction n generalizing m ss f with
  | zero => exact Res.le_loop _
  | succ n ih =>
    cases m with
    | zero => omega
    | succ m =>
      cases f with
      | none => exact Res.le.refl _
      | some i =>
        simp only [a2aLoop]
        split
        · split
          · split
            · exact ih (by omega) _ _
            · split
              · split
                · exact ih (by omega) _ _
                · split
                  · exact (Res.le.refl _).bind fun b => ih (by omega) _ _
                  · exact ih (by omega) _ _
              · exact ih (by omega) _ _
          · exact Res.le.refl _
        · exact Res.le.refl _

theorem rmLoop_le {n m : Nat} (h : n ≤ m) (ss : List (Sk α)) (f : Nat) :
    (rmLoop n ss f).le (rmLoop m ss f) := by
  induction n generalizing m ss f with
  | zero => exact Res.le_loop _
  | succ n ih =>
    cases m with
    | zero => omega
    | succ m =>
      unfold rmLoop
      cases findFrom Sk.nullColl ss f with
      | none => exact Res.le.refl _
      | some i => exact (Res.le.refl _).bind fun b => ih (by omega) _ _

theorem onPipe_le {f f' : List (Sk α) → Res (List (Sk α))} (hf : ∀ b, (f b).le (f' b)) (s : Sk α) :
    (onPipe f s).le (onPipe f' s) := by
  cases s with
  | pipe ss => exact (hf ss).bind fun _ => Res.le.refl _
  | leaf _ => exact Res.le.refl _
  | farm _ _ => exact Res.le.refl _
  | a2a _ _ => exact Res.le.refl _

theorem onInner_le {f f' : List (Sk α) → Res (List (Sk α))} (hf : ∀ b, (f b).le (f' b)) (s : Sk α) :
    (onInner f s).le (onInner f' s) := by
  cases s with
  | pipe ss => exact Res.le.refl _
  | leaf _ => exact Res.le.refl _
  | farm hd ws => exact (mapR_le (onPipe_le hf) ws).bind fun _ => Res.le.refl _
  | a2a l r =>
    exact (mapR_le (onPipe_le hf) l).bind fun _ => (mapR_le (onPipe_le hf) r).bind fun _ =>
      Res.le.refl _

theorem onFarm_le {g g' : List (Sk α) → Res (List (Sk α))} (hg : ∀ b, (g b).le (g' b)) (s : Sk α) :
    (onFarm g s).le (onFarm g' s) := by
  cases s with
  | pipe ss => exact Res.le.refl _
  | leaf _ => exact Res.le.refl _
  | farm hd ws => exact (hg ws).bind fun _ => Res.le.refl _
  | a2a l r => exact Res.le.refl _

theorem onWorker_le {f f' g g' : List (Sk α) → Res (List (Sk α))} (hf : ∀ b, (f b).le (f' b))
    (hg : ∀ b, (g b).le (g' b)) (s : Sk α) : (onWorker f g s).le (onWorker f' g' s) := by
  cases s with
  | pipe ss => exact (hf ss).bind fun _ => Res.le.refl _
  | leaf _ => exact Res.le.refl _
  | farm hd ws =>
    simp only [onWorker]
    split
    · exact Res.le.refl _
    · exact (hg ws).bind fun _ => Res.le.refl _
  | a2a l r =>
    exact (mapR_le (onPipe_le hf) l).bind fun _ => (mapR_le (onPipe_le hf) r).bind fun _ =>
      Res.le.refl _

theorem opt_le {n m : Nat} (h : n ≤ m) :
    (∀ (o : Opts) (ss : List (Sk α)), (optPipe n o ss).le (optPipe m o ss)) ∧
    (∀ (o : Opts) (ws : List (Sk α)), (optFarm n o ws).le (optFarm m o ws)) := by
  induction n generalizing m with
  | zero =>
    constructor
    · intro o ss; simp only [optPipe]; exact Res.le_loop _
    · intro o ss; simp only [optFarm]; exact Res.le_loop _
  | succ n ih =>
    cases m with
    | zero => omega
    | succ m =>
      have hnm : n ≤ m := by omega
      obtain ⟨iP, iF⟩ := ih hnm
      constructor
      · intro o ss
        simp only [optPipe]
        refine (mapR_le (onInner_le (iP o)) _).bind fun s1 => ?_
        refine Res.le.bind ?_ fun s2 => ?_
        · split
          · exact mergeFarms_le hnm s1
          · exact Res.le.refl _
        refine Res.le.bind ?_ fun s3 => ?_
        · split
          · exact a2aLoop_le hnm s2 _
          · exact Res.le.refl _
        refine Res.le.bind ?_ fun s4 => Res.le.refl _
        split
        · exact (mapR_le (onFarm_le (iF level1)) _).bind fun s4 => rmLoop_le hnm _ _
        · exact Res.le.refl _
      · intro o ws
        simp only [optFarm]
        refine (mapR_le (onPipe_le (iP o)) _).bind fun s1 => ?_
        split
        · exact mapR_le (onWorker_le (iP level1) (iF level1)) _
        · exact Res.le.refl _

/-- The outcome, once there is one, does not depend on the fuel: `optimize_static` is a function. -/
theorem optPipe_fuel {n m : Nat} (h : n ≤ m) {o : Opts} {ss : List (Sk α)}
    (hn : optPipe n o ss ≠ .loop) : optPipe m o ss = optPipe n o ss := by
  rcases (opt_le h).1 o ss with e | e
  · exact absurd e hn
  · exact e.symm

/-! ### Size -/

mutual
/-- Number of building blocks. -/
def size : Sk α → Nat
  | .leaf _ => 1
  | .pipe ss => 1 + sizes ss
  | .farm _ ws => 1 + sizes ws
  | .a2a l r => 1 + sizes l + sizes r
/-- Of a list. -/
def sizes : List (Sk α) → Nat
  | [] => 0
  | s :: ss => size s + sizes ss
end

theorem sizes_append (a b : List (Sk α)) : sizes (a ++ b) = sizes a + sizes b := by
  induction a with
  | nil => simp [sizes]
  | cons s a ih => simp only [List.cons_append, sizes, ih]; omega

theorem size_pos (s : Sk α) : 1 ≤ size s := by
  cases s <;> simp only [size] <;> omega

theorem length_le_sizes (ss : List (Sk α)) : ss.length ≤ sizes ss := by
  induction ss with
  | nil => simp [sizes]
  | cons s ss ih => have := size_pos s; simp only [List.length_cons, sizes]; omega

theorem size_mem {s : Sk α} {ss : List (Sk α)} (h : s ∈ ss) : size s ≤ sizes ss := by
  induction ss with
  | nil => cases h
  | cons a ss ih =>
    simp only [sizes]
    rcases List.mem_cons.1 h with e | e
    · rw [e]; omega
    · have := ih e; omega

mutual
theorem flat_sizes : ∀ (ss : List (Sk α)), sizes (flat ss) ≤ sizes ss
  | [] => by simp [flat]
  | s :: ss => by
    simp only [flat, sizes_append, sizes]
    have := flat1_sizes s
    have := flat_sizes ss
    omega
theorem flat1_sizes : ∀ (s : Sk α), sizes (flat1 s) ≤ size s
  | .pipe ss => by
    simp only [flat1, size]
    have := flat_sizes ss
    omega
  | .leaf n => by simp [flat1, sizes]
  | .farm h ws => by simp [flat1, sizes]
  | .a2a l r => by simp [flat1, sizes]
end

mutual
theorem flat_noPipe : ∀ (ss : List (Sk α)), ∀ s ∈ flat ss, s.isPipe = false
  | [], s, h => by simp [flat] at h
  | t :: ss, s, h => by
    simp only [flat, List.mem_append] at h
    rcases h with h | h
    · exact flat1_noPipe t s h
    · exact flat_noPipe ss s h
theorem flat1_noPipe : ∀ (t : Sk α), ∀ s ∈ flat1 t, s.isPipe = false
  | .pipe ss, s, h => by
    simp only [flat1] at h
    exact flat_noPipe ss s h
  | .leaf n, s, h => by simp only [flat1, List.mem_singleton] at h; rw [h]; rfl
  | .farm hd ws, s, h => by simp only [flat1, List.mem_singleton] at h; rw [h]; rfl
  | .a2a l r, s, h => by simp only [flat1, List.mem_singleton] at h; rw [h]; rfl
end

/-! ### `OptLevel1` returns -/

/-- A call that returns and does not make the block bigger. -/
def Ret (f : Sk α → Res (Sk α)) (s : Sk α) : Prop :=
  ∃ s', f s = .ok s' ∧ size s' ≤ size s ∧ s'.isPipe = s.isPipe

theorem mapR_ret {f : Sk α → Res (Sk α)} {ss : List (Sk α)} (h : ∀ s ∈ ss, Ret f s) :
    ∃ ss', mapR f ss = .ok ss' ∧ sizes ss' ≤ sizes ss ∧
      ((∀ s ∈ ss, s.isPipe = false) → ∀ s ∈ ss', s.isPipe = false) := by
  induction ss with
  | nil => exact ⟨[], rfl, by simp [sizes], fun _ s hs => by cases hs⟩
  | cons s ss ih =>
    obtain ⟨s', h1, h2, h3⟩ := h s (by simp)
    obtain ⟨ss', h4, h5, h6⟩ := ih fun t ht => h t (by simp [ht])
    refine ⟨s' :: ss', ?_, ?_, ?_⟩
    · simp only [mapR, h1, h4, Res.bind]
    · simp only [sizes]; omega
    · intro hp t ht
      rcases List.mem_cons.1 ht with e | e
      · rw [e, h3]; exact hp s (by simp)
      · exact h6 (fun u hu => hp u (by simp [hu])) t e

/-- The recursive call on smaller lists. -/
def RetL (f : List (Sk α) → Res (List (Sk α))) (ss : List (Sk α)) : Prop :=
  ∃ ss', f ss = .ok ss' ∧ sizes ss' ≤ sizes ss

theorem onPipe_ret {f : List (Sk α) → Res (List (Sk α))} {n : Nat}
    (hf : ∀ ss, sizes ss < n → RetL f ss) {s : Sk α} (h : size s ≤ n) : Ret (onPipe f) s := by
  cases s with
  | pipe ss =>
    simp only [size] at h
    obtain ⟨ss', h1, h2⟩ := hf ss (by omega)
    refine ⟨.pipe ss', by simp only [onPipe, h1, Res.bind], ?_, rfl⟩
    simp only [size]; omega
  | leaf n => exact ⟨_, rfl, Nat.le_refl _, rfl⟩
  | farm _ _ => exact ⟨_, rfl, Nat.le_refl _, rfl⟩
  | a2a _ _ => exact ⟨_, rfl, Nat.le_refl _, rfl⟩

theorem mapR_onPipe_ret {f : List (Sk α) → Res (List (Sk α))} {n : Nat}
    (hf : ∀ ss, sizes ss < n → RetL f ss) {l : List (Sk α)} (h : sizes l ≤ n) :
    ∃ l', mapR (onPipe f) l = .ok l' ∧ sizes l' ≤ sizes l := by
  obtain ⟨l', h1, h2, _⟩ := mapR_ret (f := onPipe f) (ss := l) fun s hs =>
    onPipe_ret hf (Nat.le_trans (size_mem hs) h)
  exact ⟨l', h1, h2⟩

theorem onInner_ret {f : List (Sk α) → Res (List (Sk α))} {n : Nat}
    (hf : ∀ ss, sizes ss < n → RetL f ss) {s : Sk α} (h : size s ≤ n) : Ret (onInner f) s := by
  cases s with
  | pipe ss => exact ⟨_, rfl, Nat.le_refl _, rfl⟩
  | leaf n => exact ⟨_, rfl, Nat.le_refl _, rfl⟩
  | farm hd ws =>
    simp only [size] at h
    obtain ⟨w', h1, h2⟩ := mapR_onPipe_ret hf (l := ws) (by omega)
    refine ⟨.farm hd w', by simp only [onInner, h1, Res.bind], ?_, rfl⟩
    simp only [size]; omega
  | a2a l r =>
    simp only [size] at h
    obtain ⟨l', h1, h2⟩ := mapR_onPipe_ret hf (l := l) (by omega)
    obtain ⟨r', h3, h4⟩ := mapR_onPipe_ret hf (l := r) (by omega)
    refine ⟨.a2a l' r', by simp only [onInner, h1, h3, Res.bind], ?_, rfl⟩
    simp only [size]; omega

theorem onFarm_ret {g : List (Sk α) → Res (List (Sk α))} {n : Nat}
    (hg : ∀ ss, sizes ss < n → RetL g ss) {s : Sk α} (h : size s ≤ n) : Ret (onFarm g) s := by
  cases s with
  | pipe ss => exact ⟨_, rfl, Nat.le_refl _, rfl⟩
  | leaf n => exact ⟨_, rfl, Nat.le_refl _, rfl⟩
  | farm hd ws =>
    simp only [size] at h
    obtain ⟨w', h1, h2⟩ := hg ws (by omega)
    refine ⟨.farm hd w', by simp only [onFarm, h1, Res.bind], ?_, rfl⟩
    simp only [size]; omega
  | a2a l r => exact ⟨_, rfl, Nat.le_refl _, rfl⟩

theorem onWorker_ret {f g : List (Sk α) → Res (List (Sk α))} {n : Nat}
    (hf : ∀ ss, sizes ss < n → RetL f ss) (hg : ∀ ss, sizes ss < n → RetL g ss)
    {s : Sk α} (h : size s ≤ n) : Ret (onWorker f g) s := by
  cases s with
  | pipe ss => exact onPipe_ret hf h
  | leaf n => exact ⟨_, rfl, Nat.le_refl _, rfl⟩
  | a2a l r => exact onInner_ret (s := .a2a l r) hf h
  | farm hd ws =>
    cases ho : hd.ordered with
    | true => exact ⟨.farm hd ws, by simp [onWorker, ho], Nat.le_refl _, rfl⟩
    | false =>
      simp only [size] at h
      obtain ⟨w', h1, h2⟩ := hg ws (by omega)
      refine ⟨.farm (if hd.getColl.isNone then hd.removeColl else hd) w',
        by simp [onWorker, ho, h1, Res.bind], ?_, rfl⟩
      simp only [size]; omega

theorem rmRound_ret {ss : List (Sk α)} {f : Nat} (hp : ∀ s ∈ ss, s.isPipe = false)
    (hn : ∃ s, ss[f]? = some s ∧ s.nullColl = true) :
    ∃ ss', rmRound ss f = .ok ss' ∧ sizes ss' ≤ sizes ss ∧ ss'.length ≤ ss.length ∧
      (∀ s ∈ ss', s.isPipe = false) := by
  obtain ⟨s, hf, hn⟩ := hn
  cases s with
  | leaf n => cases hn
  | pipe _ => cases hn
  | a2a _ _ => cases hn
  | farm hd ws =>
    have stay : ∃ ss', (Res.ok ss : Res (List (Sk α))) = .ok ss' ∧ sizes ss' ≤ sizes ss ∧
        ss'.length ≤ ss.length ∧ (∀ s ∈ ss', s.isPipe = false) :=
      ⟨ss, rfl, Nat.le_refl _, Nat.le_refl _, hp⟩
    have at1 : ∀ h' : Hdr α, ∃ ss', (Res.ok (ss.take f ++ .farm h' ws :: ss.drop (f + 1)) :
        Res (List (Sk α))) = .ok ss' ∧ sizes ss' ≤ sizes ss ∧
        ss'.length ≤ ss.length ∧ (∀ s ∈ ss', s.isPipe = false) := by
      intro h'
      refine ⟨_, rfl, ?_, ?_, ?_⟩
      · conv => rhs; rw [split1 hf]
        simp only [sizes_append, sizes, size]; omega
      · conv => rhs; rw [split1 hf]
        simp
      · intro t ht
        simp only [List.mem_append, List.mem_cons] at ht
        rcases ht with ht | ht | ht
        · exact hp t (List.mem_of_mem_take ht)
        · rw [ht]; rfl
        · exact hp t (List.mem_of_mem_drop ht)
    unfold rmRound
    rw [hf]
    simp only
    cases hx : ss[f + 1]? with
    | none =>
      simp only
      split
      · exact at1 _
      · exact stay
    | some nx =>
      have hnp := hp nx (List.mem_of_getElem? hx)
      simp only
      split
      · split
        · cases nx with
          | leaf m =>
            refine ⟨_, rfl, ?_, ?_, ?_⟩
            · conv => rhs; rw [split2 hf hx]
              simp only [sizes_append, sizes, size]; omega
            · conv => rhs; rw [split2 hf hx]
              simp
            · intro t ht
              simp only [List.mem_append, List.mem_cons] at ht
              rcases ht with ht | ht | ht
              · exact hp t (List.mem_of_mem_take ht)
              · rw [ht]; rfl
              · exact hp t (List.mem_of_mem_drop ht)
          | pipe _ => cases hnp
          | farm _ _ => exact stay
          | a2a _ _ => exact stay
        · cases nx with
          | leaf m =>
            refine ⟨_, rfl, ?_, ?_, ?_⟩
            · conv => rhs; rw [split2 hf hx]
              simp only [sizes_append, sizes, size]; omega
            · conv => rhs; rw [split2 hf hx]
              simp
            · intro t ht
              simp only [List.mem_append, List.mem_cons] at ht
              rcases ht with ht | ht | ht | ht
              · exact hp t (List.mem_of_mem_take ht)
              · rw [ht]; rfl
              · rw [ht]; rfl
              · exact hp t (List.mem_of_mem_drop ht)
          | pipe _ => cases hnp
          | farm _ _ => exact at1 _
          | a2a _ _ => exact stay
      · exact stay

theorem rmLoop_ret {n : Nat} {ss : List (Sk α)} {next : Nat} (hp : ∀ s ∈ ss, s.isPipe = false)
    (hn : ss.length < n + next) (hn0 : 0 < n) :
    ∃ ss', rmLoop n ss next = .ok ss' ∧ sizes ss' ≤ sizes ss := by
  induction n generalizing ss next with
  | zero => omega
  | succ n ih =>
    unfold rmLoop
    cases hx : findFrom Sk.nullColl ss next with
    | none => exact ⟨ss, rfl, Nat.le_refl _⟩
    | some f =>
      obtain ⟨h1, h2⟩ := findFrom_some hx
      obtain ⟨s1, e1, e2, e3, e4⟩ := rmRound_ret hp h2
      have hlt : f < ss.length := by
        obtain ⟨s, hs, _⟩ := h2
        exact get_lt hs
      obtain ⟨s2, e5, e6⟩ := ih (ss := s1) (next := f + 1) e4 (by omega) (by omega)
      exact ⟨s2, by simp only [e1, Res.bind, e5], by omega⟩

theorem opt1_ret (n : Nat) :
    (∀ ss : List (Sk α), sizes ss + 1 < n → RetL (optPipe n level1) ss) ∧
    (∀ ws : List (Sk α), sizes ws + 1 < n → RetL (optFarm n level1) ws) := by
  induction n with
  | zero => exact ⟨fun _ h => by omega, fun _ h => by omega⟩
  | succ n ih =>
    have iP : ∀ ss : List (Sk α), sizes ss < n - 1 → RetL (optPipe n level1) ss :=
      fun ss h => ih.1 ss (by omega)
    have iF : ∀ ss : List (Sk α), sizes ss < n - 1 → RetL (optFarm n level1) ss :=
      fun ss h => ih.2 ss (by omega)
    constructor
    · intro ss hs
      have hfl := flat_sizes ss
      obtain ⟨s1, h1, h2, h3⟩ := mapR_ret (f := onInner (optPipe n level1)) (ss := flat ss)
        fun s hs' => onInner_ret iP (by have := size_mem hs'; omega)
      have h3 := h3 (flat_noPipe ss)
      obtain ⟨s4, h4, h5, h6⟩ := mapR_ret (f := onFarm (optFarm n level1)) (ss := s1)
        fun s hs' => onFarm_ret iF (by have := size_mem hs'; omega)
      have h6 := h6 h3
      have := length_le_sizes s4
      obtain ⟨s5, h7, h8⟩ := rmLoop_ret (n := n) (ss := s4) (next := 0) h6 (by omega) (by omega)
      refine ⟨s5, ?_, by omega⟩
      simp only [optPipe, level1, Bool.false_eq_true, if_false, if_true, Res.bind]
      simp only [level1] at h1 h4
      simp only [h1, h4, h7]
    · intro ws hs
      obtain ⟨w1, h1, h2⟩ := mapR_onPipe_ret iP (l := ws) (by omega)
      obtain ⟨w2, h3, h4, _⟩ := mapR_ret (f := onWorker (optPipe n level1) (optFarm n level1))
        (ss := w1) fun s hs' => onWorker_ret iP iF (by have := size_mem hs'; omega)
      refine ⟨w2, ?_, by omega⟩
      simp only [optFarm, level1, if_true, Res.bind]
      simp only [level1] at h1 h3
      simp only [h1, h3]

/-- **C60, the default level.**  `optimize_static` with `OptLevel1` returns on every pipeline: no endless loop, no abort,
no undefined behaviour, and no more building blocks than before. -/
theorem C60_level1_returns (ss : List (Sk α)) :
    ∃ ss', (∀ n, sizes ss + 2 ≤ n → optPipe n level1 ss = .ok ss') ∧ sizes ss' ≤ sizes ss := by
  obtain ⟨ss', h1, h2⟩ := (opt1_ret (sizes ss + 2)).1 ss (by omega)
  refine ⟨ss', fun n hn => ?_, h2⟩
  rw [optPipe_fuel hn (by rw [h1]; simp), h1]

/-- The same for farms. -/
theorem C60_level1_farm_returns (ws : List (Sk α)) :
    ∃ ws', (∀ n, sizes ws + 2 ≤ n → optFarm n level1 ws = .ok ws') ∧ sizes ws' ≤ sizes ws := by
  obtain ⟨ws', h1, h2⟩ := (opt1_ret (sizes ws + 2)).2 ws (by omega)
  refine ⟨ws', fun n hn => ?_, h2⟩
  rcases (opt_le hn).2 level1 ws with e | e
  · rw [h1] at e; cases e
  · rw [← e, h1]

end FF.Opt
