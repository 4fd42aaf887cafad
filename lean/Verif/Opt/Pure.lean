/-
Networks of stateless nodes (C60): whatever the schedule, the output is a permutation of what a sequential
loop over the items computes, and `optimize_static`, with any options, keeps that loop.
-/
import Verif.Opt.Merge
import Mathlib.Data.List.Perm.Basic

namespace FF.Opt

variable {α : Type}

/-! ### Specification -/

/-- First `f`, then `g` on everything `f` returned. -/
def kc (f g : α → List α) : α → List α := fun x => (f x).flatMap g

/-- Nothing happens to an item. -/
def ret : α → List α := fun x => [x]

/-- The node sends `F x` for `x`, whatever it received before. -/
def Node.Pure (n : Node α) (F : α → List α) : Prop := ∀ h x, vals (n.out h x) = F x

/-- Emitters. -/
def emitPure : Option (Node α) → (α → List α) → Prop
  | none, F => F = ret
  | some n, F => n.Pure F

/-- Collectors. -/
def collPure : Coll α → (α → List α) → Prop
  | .none, F => F = ret
  | .dflt, F => F = ret
  | .node n, F => n.Pure F

mutual
/-- `Pure s F`: the nodes of `s` keep no state, the workers of each farm (of each set of an all-to-all) all do the
same, and `F` is what the network does to one item. -/
def Pure : Sk α → (α → List α) → Prop
  | .leaf n, F => n.Pure F
  | .pipe ss, F => PurePipe ss F
  | .farm h ws, F => ∃ e f c, emitPure h.emitter e ∧ PureAll ws f ∧ collPure h.coll c ∧
      F = kc e (kc f c)
  | .a2a l r, F => ∃ f g, PureAll l f ∧ PureAll r g ∧ F = kc f g
/-- The stages of a pipeline. -/
def PurePipe : List (Sk α) → (α → List α) → Prop
  | [], F => F = ret
  | s :: ss, F => ∃ f g, Pure s f ∧ PurePipe ss g ∧ F = kc f g
/-- Workers. -/
def PureAll : List (Sk α) → (α → List α) → Prop
  | [], _ => True
  | s :: ss, F => Pure s F ∧ PureAll ss F
end

/-! ### Kleisli composition -/

@[simp] theorem flatMap_ret (xs : List α) : xs.flatMap ret = xs := by
  induction xs with
  | nil => rfl
  | cons x xs ih => simp [ret, ih]

theorem kc_ret (f : α → List α) : kc f ret = f := by
  funext x; simp [kc]

theorem ret_kc (f : α → List α) : kc ret f = f := by
  funext x; simp [kc, ret]

theorem kc_assoc (f g h : α → List α) : kc (kc f g) h = kc f (kc g h) := by
  funext x
  simp only [kc, List.flatMap_assoc]
  rfl

theorem flatMap_kc (xs : List α) (f g : α → List α) :
    xs.flatMap (kc f g) = (xs.flatMap f).flatMap g := by
  rw [List.flatMap_assoc]; rfl

theorem run_pure {n : Node α} {F : α → List α} (h : n.Pure F) (hs xs : List α) :
    vals (n.run hs xs) = xs.flatMap F := by
  induction xs generalizing hs with
  | nil => rfl
  | cons x xs ih => simp [Node.run, vals_append, h hs x, ih]

theorem beh_pure {n : Node α} {F : α → List α} (h : n.Pure F) (xs : List α) :
    vals (n.beh xs) = xs.flatMap F := run_pure h [] xs

theorem emitOut_pure {e : Option (Node α)} {F : α → List α} (h : emitPure e F) (xs : List α) :
    vals (emitOut e xs) = xs.flatMap F := by
  cases e with
  | none => cases h; simp [emitOut]
  | some n => simp only [emitOut, vals_emits]; exact beh_pure h xs

theorem collOut_pure {c : Coll α} {F : α → List α} (h : collPure c F) (xs : List α) :
    collOut c xs = xs.flatMap F := by
  cases c with
  | none => cases h; simp [collOut]
  | dflt => cases h; simp [collOut]
  | node n => exact beh_pure h xs

/-! ### Dealing and merging permute -/

theorem flatten_set_perm {β : Type} {zss : List (List β)} {i : Nat} {l : List β} {x : β}
    (h : zss[i]? = some l) : ((zss.set i (x :: l)).flatten).Perm (x :: zss.flatten) := by
  induction zss generalizing i with
  | nil => simp at h
  | cons a zss ih =>
    cases i with
    | zero =>
      simp only [List.getElem?_cons_zero, Option.some.injEq] at h
      subst h
      simp
    | succ i =>
      simp only [List.getElem?_cons_succ] at h
      simp only [List.set_cons_succ, List.flatten_cons]
      exact ((ih h).append_left a).trans List.perm_middle

theorem Split.perm {β : Type} {zs : List (Option Nat × β)} {zss : List (List β)}
    (h : Split zs zss) : zss.flatten.Perm (zs.map Prod.snd) := by
  induction h with
  | nil k => simp
  | cons _ hi _ ih => exact (flatten_set_perm hi).trans (by simpa using ih)

theorem Shuffle.perm {wss : List (List α)} {vs : List α} (h : Shuffle wss vs) :
    vs.Perm wss.flatten := by
  have := Split.perm h
  simpa [free, Function.comp_def] using this.symm

theorem OrdRun.pure {ns : List (Node α)} {F : α → List α} (hp : ∀ n ∈ ns, n.Pure F)
    {hs : List (List α)} {zs : List (Option Nat × α)} {ys : List α} (h : OrdRun ns hs zs ys) :
    ys = (vals zs).flatMap F := by
  induction h with
  | nil => rfl
  | cons h1 _ _ _ ih =>
    rw [ih]
    simp only [vals, List.map_cons, List.flatMap_cons]
    congr 1
    exact hp _ (List.mem_of_getElem? h1) _ _

theorem pureAll_mem {ws : List (Sk α)} {F : α → List α} (h : PureAll ws F) :
    ∀ s ∈ ws, Pure s F := by
  induction ws with
  | nil => intro s hs; cases hs
  | cons w ws ih =>
    simp only [PureAll] at h
    intro s hs
    rcases List.mem_cons.1 hs with e | e
    · rw [e]; exact h.1
    · exact ih h.2 s e

theorem pureAll_of_mem {ws : List (Sk α)} {F : α → List α} (h : ∀ s ∈ ws, Pure s F) :
    PureAll ws F := by
  induction ws with
  | nil => simp [PureAll]
  | cons w ws ih =>
    simp only [PureAll]
    exact ⟨h w (by simp), ih fun s hs => h s (by simp [hs])⟩

theorem stdNodes_pure {ws : List (Sk α)} {ns : List (Node α)} {F : α → List α}
    (h : PureAll ws F) (hn : stdNodes ws = some ns) : ∀ n ∈ ns, n.Pure F := by
  rw [stdNodes_leaf hn] at h
  intro n hn
  have := pureAll_mem h (.leaf n) (by simpa using hn)
  simpa [Pure] using this

theorem heads_tails {β : Type} {k : Nat} {rows : List (List (List β))}
    (h : ∀ row ∈ rows, row.length = k + 1) :
    rows.flatten.flatten.Perm ((rows.map fun row => row.getD 0 []).flatten ++
      (rows.map List.tail).flatten.flatten) := by
  induction rows with
  | nil => simp
  | cons row rows ih =>
    have h1 := h row (by simp)
    have h2 := ih fun r hr => h r (by simp [hr])
    cases row with
    | nil => simp at h1
    | cons c row =>
      simp only [List.flatten_cons, List.cons_append, List.flatten_append, List.map_cons,
        List.getD_cons_zero, List.tail_cons, List.append_assoc]
      refine List.Perm.append_left c ?_
      have h3 := h2.append_left row.flatten
      refine h3.trans ?_
      rw [← List.append_assoc, ← List.append_assoc]
      exact List.perm_append_comm.append_right _

theorem cols_perm {β : Type} {cs : List (List β)} {rows : List (List (List β))}
    (hl : ∀ row ∈ rows, row.length = cs.length)
    (h : ∀ (j : Nat) (c : List β), cs[j]? = some c → c.Perm (rows.map fun row => row.getD j []).flatten) :
    cs.flatten.Perm rows.flatten.flatten := by
  induction cs generalizing rows with
  | nil =>
    have : ∀ row ∈ rows, row = [] := fun row hr => List.length_eq_zero_iff.1 (hl row hr)
    have e : rows.flatten = [] := List.flatten_eq_nil_iff.2 this
    simp [e]
  | cons c cs ih =>
    have h1 := h 0 c (by simp)
    have h2 := ih (rows := rows.map List.tail) (by
      intro row hr
      obtain ⟨r, hr, e⟩ := List.mem_map.1 hr
      have := hl r hr
      rw [← e]; simp at this ⊢; omega) (by
      intro j d hd
      have := h (j + 1) d (by simpa using hd)
      have e : (rows.map List.tail).map (fun row => row.getD j []) =
          rows.map fun row => row.getD (j + 1) [] := by
        rw [List.map_map]
        apply List.map_congr_left
        intro r _
        cases r <;> simp
      rw [e]; exact this)
    simp only [List.flatten_cons]
    exact (h1.append h2).trans (heads_tails hl).symm

theorem splitEach_perm {k : Nat} {os : List (List (Option Nat × α))} {rows : List (List (List α))}
    (h : SplitEach k os rows) :
    (∀ row ∈ rows, row.length = k) ∧ rows.flatten.flatten.Perm (vals os.flatten) := by
  induction os generalizing rows with
  | nil => cases rows <;> simp [SplitEach, vals] at h ⊢
  | cons o os ih =>
    cases rows with
    | nil => simp [SplitEach] at h
    | cons row rows =>
      simp only [SplitEach] at h
      obtain ⟨h1, h2⟩ := ih h.2
      refine ⟨?_, ?_⟩
      · intro r hr
        rcases List.mem_cons.1 hr with e | e
        · rw [e]; exact h.1.2
        · exact h1 r e
      · simp only [List.flatten_cons, List.flatten_append, vals_append]
        exact (Split.perm h.1.1).append h2

/-! ### Every behaviour of a stateless network -/

mutual
/-- Whatever the schedule, the output of a stateless network is a permutation of what a loop over the items would
compute. -/
theorem sem_pure : ∀ (s : Sk α) (F : α → List α) (xs ys : List α), Pure s F → sem s xs ys →
    ys.Perm (xs.flatMap F)
  | .leaf n, F, xs, ys, hp, h => by
    simp only [sem] at h
    simp only [Pure] at hp
    rw [h, beh_pure hp]
  | .pipe ss, F, xs, ys, hp, h => by
    simp only [sem] at h
    simp only [Pure] at hp
    exact semPipe_pure ss F xs ys hp h
  | .farm hd ws, F, xs, ys, hp, h => by
    simp only [sem] at h
    simp only [Pure] at hp
    obtain ⟨e, f, c, h1, h2, h3, rfl⟩ := hp
    obtain ⟨_, vs, g1, g2⟩ := h
    rw [g1, collOut_pure h3, flatMap_kc, flatMap_kc]
    refine List.Perm.flatMap_right c ?_
    rw [← emitOut_pure h1]
    rcases g2 with ⟨ns, _, _, g3, g4⟩ | ⟨_, g3⟩
    · rw [OrdRun.pure (stdNodes_pure h2 g3) g4]
    · exact semWorkers_pure ws f _ vs h2 g3
  | .a2a l r, F, xs, ys, hp, h => by
    simp only [sem] at h
    simp only [Pure] at hp
    obtain ⟨f, g, h1, h2, rfl⟩ := hp
    obtain ⟨zss, os, rows, cs, wss, a1, a2, a3, a4, a5, a6, a7⟩ := h
    have b1 := a7.perm
    have b2 := semEach_pure r g cs wss h2 a6
    obtain ⟨b3, b4⟩ := splitEach_perm a3
    have b5 := cols_perm (fun row hr => (b3 row hr).trans a4.symm) fun j c hc => (a5 j c hc).perm
    have b6 := semRouted_pure l f zss os h1 a2
    have b7 := Split.perm a1
    rw [flatMap_kc]
    refine b1.trans (b2.trans (List.Perm.flatMap_right g ?_))
    refine b5.trans (b4.trans (b6.trans (List.Perm.flatMap_right f ?_)))
    simpa [free, Function.comp_def] using b7
theorem semWorkers_pure : ∀ (ws : List (Sk α)) (F : α → List α) (zs : List (Option Nat × α))
    (ys : List α), PureAll ws F → semWorkers ws zs ys → ys.Perm ((vals zs).flatMap F)
  | [.a2a l r], F, zs, ys, hp, h => by
    simp only [semWorkers] at h
    simp only [PureAll, Pure] at hp
    obtain ⟨⟨f, g, h1, h2, rfl⟩, _⟩ := hp
    obtain ⟨zss, os, rows, cs, wss, a1, a2, a3, a4, a5, a6, a7⟩ := h
    have b1 := a7.perm
    have b2 := semEach_pure r g cs wss h2 a6
    obtain ⟨b3, b4⟩ := splitEach_perm a3
    have b5 := cols_perm (fun row hr => (b3 row hr).trans a4.symm) fun j c hc => (a5 j c hc).perm
    have b6 := semRouted_pure l f zss os h1 a2
    have b7 := Split.perm a1
    rw [flatMap_kc]
    refine b1.trans (b2.trans (List.Perm.flatMap_right g ?_))
    refine b5.trans (b4.trans (b6.trans (List.Perm.flatMap_right f ?_)))
    exact b7
  | [], F, zs, ys, hp, h => by
    simp only [semWorkers] at h
    obtain ⟨zss, wss, a1, a2, a3⟩ := h
    exact (a3.perm.trans (semEach_pure [] F zss wss hp a2)).trans
      (List.Perm.flatMap_right F (Split.perm a1))
  | [.leaf n], F, zs, ys, hp, h => by
    simp only [semWorkers] at h
    obtain ⟨zss, wss, a1, a2, a3⟩ := h
    exact (a3.perm.trans (semEach_pure [.leaf n] F zss wss hp a2)).trans
      (List.Perm.flatMap_right F (Split.perm a1))
  | [.pipe ss], F, zs, ys, hp, h => by
    simp only [semWorkers] at h
    obtain ⟨zss, wss, a1, a2, a3⟩ := h
    exact (a3.perm.trans (semEach_pure [.pipe ss] F zss wss hp a2)).trans
      (List.Perm.flatMap_right F (Split.perm a1))
  | [.farm hd ws], F, zs, ys, hp, h => by
    simp only [semWorkers] at h
    obtain ⟨zss, wss, a1, a2, a3⟩ := h
    exact (a3.perm.trans (semEach_pure [.farm hd ws] F zss wss hp a2)).trans
      (List.Perm.flatMap_right F (Split.perm a1))
  | a :: b :: ws, F, zs, ys, hp, h => by
    simp only [semWorkers] at h
    obtain ⟨zss, wss, a1, a2, a3⟩ := h
    exact (a3.perm.trans (semEach_pure (a :: b :: ws) F zss wss hp a2)).trans
      (List.Perm.flatMap_right F (Split.perm a1))
theorem semPipe_pure : ∀ (ss : List (Sk α)) (F : α → List α) (xs ys : List α), PurePipe ss F →
    semPipe ss xs ys → ys.Perm (xs.flatMap F)
  | [], F, xs, ys, hp, h => by
    simp only [semPipe] at h
    simp only [PurePipe] at hp
    rw [h, hp]; simp
  | s :: ss, F, xs, ys, hp, h => by
    simp only [semPipe] at h
    simp only [PurePipe] at hp
    obtain ⟨f, g, h1, h2, rfl⟩ := hp
    obtain ⟨zs, g1, g2⟩ := h
    rw [flatMap_kc]
    exact (semPipe_pure ss g zs ys h2 g2).trans
      (List.Perm.flatMap_right g (sem_pure s f xs zs h1 g1))
theorem semEach_pure : ∀ (ws : List (Sk α)) (F : α → List α) (a b : List (List α)), PureAll ws F →
    semEach ws a b → b.flatten.Perm (a.flatten.flatMap F)
  | [], F, a, b, hp, h => by
    cases a <;> cases b <;> simp [semEach] at h ⊢
  | s :: ss, F, a, b, hp, h => by
    cases a with
    | nil => cases b <;> simp [semEach] at h
    | cons u a =>
      cases b with
      | nil => simp [semEach] at h
      | cons v b =>
        simp only [semEach] at h
        simp only [PureAll] at hp
        simp only [List.flatten_cons, List.flatMap_append]
        exact (sem_pure s F u v hp.1 h.1).append (semEach_pure ss F a b hp.2 h.2)
theorem semRouted_pure : ∀ (ws : List (Sk α)) (F : α → List α) (a : List (List α))
    (b : List (List (Option Nat × α))), PureAll ws F → semRouted ws a b →
    (vals b.flatten).Perm (a.flatten.flatMap F)
  | [], F, a, b, hp, h => by
    cases a <;> cases b <;> simp [semRouted, vals] at h ⊢
  | .leaf n :: ss, F, a, b, hp, h => by
    cases a with
    | nil => cases b <;> simp [semRouted] at h
    | cons u a =>
      cases b with
      | nil => simp [semRouted] at h
      | cons v b =>
        simp only [semRouted] at h
        simp only [PureAll, Pure] at hp
        simp only [List.flatten_cons, List.flatMap_append, vals_append]
        refine List.Perm.append ?_ (semRouted_pure ss F a b hp.2 h.2)
        rw [h.1, vals_emits, beh_pure hp.1]
  | .pipe s :: ss, F, a, b, hp, h => by
    cases a with
    | nil => cases b <;> simp [semRouted] at h
    | cons u a =>
      cases b with
      | nil => simp [semRouted] at h
      | cons v b =>
        simp only [semRouted] at h
        simp only [PureAll] at hp
        obtain ⟨⟨y, h1, h2⟩, h3⟩ := h
        simp only [List.flatten_cons, List.flatMap_append, vals_append]
        refine List.Perm.append ?_ (semRouted_pure ss F a b hp.2 h3)
        rw [h2, vals_free]
        exact sem_pure (.pipe s) F u y hp.1 h1
  | .farm hd s :: ss, F, a, b, hp, h => by
    cases a with
    | nil => cases b <;> simp [semRouted] at h
    | cons u a =>
      cases b with
      | nil => simp [semRouted] at h
      | cons v b =>
        simp only [semRouted] at h
        simp only [PureAll] at hp
        obtain ⟨⟨y, h1, h2⟩, h3⟩ := h
        simp only [List.flatten_cons, List.flatMap_append, vals_append]
        refine List.Perm.append ?_ (semRouted_pure ss F a b hp.2 h3)
        rw [h2, vals_free]
        exact sem_pure (.farm hd s) F u y hp.1 h1
  | .a2a l r :: ss, F, a, b, hp, h => by
    cases a with
    | nil => cases b <;> simp [semRouted] at h
    | cons u a =>
      cases b with
      | nil => simp [semRouted] at h
      | cons v b =>
        simp only [semRouted] at h
        simp only [PureAll] at hp
        obtain ⟨⟨y, h1, h2⟩, h3⟩ := h
        simp only [List.flatten_cons, List.flatMap_append, vals_append]
        refine List.Perm.append ?_ (semRouted_pure ss F a b hp.2 h3)
        rw [h2, vals_free]
        exact sem_pure (.a2a l r) F u y hp.1 h1
end

end FF.Opt
