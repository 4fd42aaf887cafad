import Verif.Grp.Prog
import Mathlib.Data.Multiset.DershowitzManna
import Mathlib.Algebra.BigOperators.Group.Finset.Basic
import Mathlib.Data.Finset.Prod
import Mathlib.Tactic.Abel
/-!
# C67: no run goes on for ever
-/
namespace FF.Grp
variable {D : Type} {N : Net D}
open Finset

/-- One token is replaced by smaller ones. -/
theorem dm_of {M M' Y : Multiset ℕ} {z : ℕ} (h : M' + {z} = M + Y) (hy : ∀ y ∈ Y, y < z) :
    Multiset.IsDershowitzMannaLT M' M := by
  have hz : z ∈ M := by
    have : z ∈ M + Y := by rw [← h]; simp
    rcases Multiset.mem_add.1 this with h | h
    · exact h
    · exact absurd (hy z h) (lt_irrefl z)
  obtain ⟨X, rfl⟩ := Multiset.exists_cons_of_mem hz
  refine ⟨X, Y, {z}, by simp, ?_, by rw [add_comm]; rfl, fun y hm => ⟨z, by simp, hy y hm⟩⟩
  have : M' + {z} = (X + Y) + {z} := by
    rw [h, ← Multiset.singleton_add]; abel
  exact add_right_cancel this

theorem sum_upd {β : Type} {n i : ℕ} (h : i < n) (F : ℕ → β → Multiset ℕ) (f : ℕ → β) (b : β) :
    ∑ x ∈ range n, F x (upd f i b x) + F i (f i) = ∑ x ∈ range n, F x (f x) + F i b := by
  have hm := Finset.mem_range.2 h
  rw [← Finset.add_sum_erase _ _ hm, ← Finset.add_sum_erase (range n) (fun x => F x (f x)) hm]
  have : ∑ x ∈ (range n).erase i, F x (upd f i b x) = ∑ x ∈ (range n).erase i, F x (f x) :=
    Finset.sum_congr rfl fun x hx => by rw [upd_ne _ _ (Finset.ne_of_mem_erase hx)]
  rw [this, upd_self]
  abel

theorem sum_upd2 {β : Type} {n i j : ℕ} (h : i < n) (h' : j < n) (F : β → Multiset ℕ)
    (f : ℕ → ℕ → β) (b : β) :
    ∑ p ∈ range n ×ˢ range n, F (upd2 f i j b p.1 p.2) + F (f i j) =
      ∑ p ∈ range n ×ˢ range n, F (f p.1 p.2) + F b := by
  have hm : (i, j) ∈ range n ×ˢ range n :=
    Finset.mem_product.2 ⟨Finset.mem_range.2 h, Finset.mem_range.2 h'⟩
  rw [← Finset.add_sum_erase _ _ hm, ← Finset.add_sum_erase _ (fun p => F (f p.1 p.2)) hm]
  have : ∑ p ∈ (range n ×ˢ range n).erase (i, j), F (upd2 f i j b p.1 p.2) =
      ∑ p ∈ (range n ×ˢ range n).erase (i, j), F (f p.1 p.2) :=
    Finset.sum_congr rfl fun p hp => by
      rw [upd2_ne _ _ (fun h => Finset.ne_of_mem_erase hp (Prod.ext h.1 h.2))]
  rw [this, upd2_self]
  abel

section
variable (d : ℕ → ℕ)

/-- tokens: of a source that has not started, of what waits in a node, in its queue, in the sender, on
a connection, in the receiver, and in front of a node -/
def tS (N : Net D) (s : S N) (x : ℕ) : Multiset ℕ :=
  if N.ing x = [] ∧ (s.w x).exited = false then {8 * d x + 8} else 0
def tP (x : ℕ) (l : List (O D)) : Multiset ℕ := (l.map fun _ => 8 * d x + 7 : List ℕ)
def tQ (x : ℕ) (l : List (O D)) : Multiset ℕ := (l.map fun _ => 8 * d x + 6 : List ℕ)
def tT (_ : ℕ) (l : List (ℕ × M D)) : Multiset ℕ := (l.map fun p => 8 * d p.2.src + 5 : List ℕ)
def tV (l : List (M D)) : Multiset ℕ := (l.map fun m => 8 * d m.src + 4 : List ℕ)
def tU (_ : ℕ) (l : List (ℕ × M D)) : Multiset ℕ := (l.map fun p => 8 * d p.2.src + 3 : List ℕ)
def tI (_ : ℕ) (l : List (M D)) : Multiset ℕ := (l.map fun m => 8 * d m.src + 2 : List ℕ)

def work (N : Net D) (s : S N) : Multiset ℕ :=
  ∑ x ∈ range N.n, tS d N s x + ∑ x ∈ range N.n, tP d x (s.pend x) + ∑ x ∈ range N.n, tQ d x (s.outq x) +
  ∑ g ∈ range N.k, tT d g (s.stodo g) + ∑ p ∈ range N.k ×ˢ range N.k, tV d (s.wire p.1 p.2) +
  ∑ g ∈ range N.k, tU d g (s.rtodo g) + ∑ x ∈ range N.n, tI d x (s.inq x)

theorem step_work {s s' : S N} {a : Act} (hg : Good N) (hi : Inv N s) (h2 : Inv2 N s)
    (hd : ∀ x, x < N.n → ∀ y ∈ N.ing x, d x < d y) (h : step N s a = some s') :
    Multiset.IsDershowitzMannaLT (work d N s') (work d N s) := by
  cases a with
  | first x =>
    simp only [step] at h
    split at h
    · rename_i hc
      obtain ⟨h1, h3, h4⟩ := hc
      simp only [Option.some.injEq] at h
      subst h
      have hp : s.pend x = [] := by
        have h0 := hi.srcs x h1 h3
        rw [h4] at h0
        simp only [Bool.false_eq_true, if_false, S.X, List.append_eq_nil_iff] at h0
        exact h0.2
      refine dm_of (z := 8 * d x + 8) (Y := tP d x (srcOut N x)) ?_ ?_
      · have e1 := sum_upd h1 (tP d) s.pend (srcOut N x)
        have e2 : ∑ z ∈ range N.n, tS d N { s with
            w := updW N s.w x { st := ((N.node x).first (N.node x).init).1, seen := [], exited := true }
            pend := upd s.pend x (srcOut N x) } z + {8 * d x + 8} = ∑ z ∈ range N.n, tS d N s z := by
          have hm := Finset.mem_range.2 h1
          rw [← Finset.add_sum_erase _ _ hm, ← Finset.add_sum_erase (range N.n) (tS d N s) hm]
          have : ∑ z ∈ (range N.n).erase x, tS d N { s with
              w := updW N s.w x { st := ((N.node x).first (N.node x).init).1, seen := [], exited := true }
              pend := upd s.pend x (srcOut N x) } z = ∑ z ∈ (range N.n).erase x, tS d N s z :=
            Finset.sum_congr rfl fun z hz => by
              simp only [tS, updW_ne _ _ (Finset.ne_of_mem_erase hz)]
          rw [this]
          simp only [tS, updW_self, h3, h4]
          simp [add_comm]
        simp only [work] at e1 ⊢
        rw [hp] at e1
        simp only [tP, List.map_nil, Multiset.coe_nil, add_zero] at e1 ⊢
        rw [e1, ← e2]
        abel
      · intro y hy
        simp only [tP, Multiset.mem_coe, List.mem_map] at hy
        obtain ⟨_, _, rfl⟩ := hy
        omega
    · exact absurd h (by simp)
  | pop x =>
    simp only [step] at h
    split at h
    · exact absurd h (by simp)
    · rename_i m ms hq
      split at h
      · rename_i hc
        obtain ⟨h1, h3, h4, h5⟩ := hc
        simp only [Option.some.injEq] at h
        subst h
        obtain ⟨-, hy⟩ := hi.recv x m (by simp [S.R, hq])
        have hlt := hd x h1 _ hy
        refine dm_of (z := 8 * d m.src + 2) (Y := tP d x (wstep N x (s.w x) m).2) ?_ ?_
        · have e1 := sum_upd h1 (tP d) s.pend (wstep N x (s.w x) m).2
          have e2 := sum_upd h1 (tI d) s.inq ms
          have e3 : ∑ z ∈ range N.n, tS d N { s with
              inq := upd s.inq x ms
              cons := upd s.cons x (s.cons x ++ [m])
              w := updW N s.w x (wstep N x (s.w x) m).1
              pend := upd s.pend x (wstep N x (s.w x) m).2 } z = ∑ z ∈ range N.n, tS d N s z :=
            Finset.sum_congr rfl fun z _ => by
              by_cases e : z = x
              · subst e; simp [tS, h3]
              · simp only [tS, updW_ne _ _ e]
          simp only [work] at e1 e2 ⊢
          rw [e3]
          rw [h5] at e1
          rw [hq] at e2
          have e4 : tI d x (m :: ms) = {8 * d m.src + 2} + tI d x ms := rfl
          have e5 : tP d x ([] : List (O D)) = 0 := rfl
          rw [e5, add_zero] at e1
          rw [e4, ← add_assoc] at e2
          have e2 := add_right_cancel e2
          rw [e1, ← e2]
          abel
        · intro y hy
          simp only [tP, Multiset.mem_coe, List.mem_map] at hy
          obtain ⟨_, _, rfl⟩ := hy
          omega
      · exact absurd h (by simp)
  | push x =>
    simp only [step] at h
    split at h
    · exact absurd h (by simp)
    · rename_i o os hq
      have hx : x < N.n := by
        by_contra hn
        have := h2.none x (by omega)
        simp [S.X, hq] at this
      split at h
      · simp only [Option.some.injEq] at h
        subst h
        refine dm_of (z := 8 * d x + 7) (Y := {8 * d x + 6}) ?_ (by simp)
        have e1 := sum_upd hx (tP d) s.pend os
        have e2 := sum_upd hx (tQ d) s.outq (s.outq x ++ [o])
        rw [hq] at e1
        have e3 : tP d x (o :: os) = {8 * d x + 7} + tP d x os := rfl
        have e4 : tQ d x (s.outq x ++ [o]) = {8 * d x + 6} + tQ d x (s.outq x) := by
          simp only [tQ, List.map_append, ← Multiset.coe_add]
          rw [add_comm]; rfl
        rw [e3, ← add_assoc] at e1
        rw [e4, ← add_assoc] at e2
        have e1 := add_right_cancel e1
        have e2 := add_right_cancel e2
        have e5 : ∑ z ∈ range N.n, tS d N { s with
            pend := upd s.pend x os, outq := upd s.outq x (s.outq x ++ [o]) } z =
            ∑ z ∈ range N.n, tS d N s z := rfl
        simp only [work] at e1 e2 ⊢
        rw [e5, ← e1, e2]
        abel
      · exact absurd h (by simp)
  | gather x c =>
    simp only [step] at h
    split at h
    · exact absurd h (by simp)
    · rename_i o os hq
      split at h
      · rename_i hc
        obtain ⟨hx, hoff, hst⟩ := hc
        have e1 := sum_upd hx (tQ d) s.outq os
        rw [hq] at e1
        have e3 : tQ d x (o :: os) = {8 * d x + 6} + tQ d x os := rfl
        rw [e3, ← add_assoc] at e1
        have e1 := add_right_cancel e1
        cases o with
        | fin =>
          simp only [Option.some.injEq] at h
          subst h
          refine dm_of (z := 8 * d x + 6) (Y := 0) ?_ (by simp)
          have e5 : ∑ z ∈ range N.n, tS d N { s with
              outq := upd s.outq x os
              oproc := upd s.oproc x (s.oproc x ++ [.fin])
              off := upd s.off x true } z =
              ∑ z ∈ range N.n, tS d N s z := rfl
          simp only [work] at e1 ⊢
          rw [e5, ← e1]
          abel
        | msg m =>
          simp only [Option.map_eq_some_iff] at h
          obtain ⟨l, hl, rfl⟩ := h
          have hom : OutOk N x m := hi.out x hx m (by simp [S.X, hq])
          have hsr := senderRoute_ok hg hx hom hl
          refine dm_of (z := 8 * d x + 6) (Y := tT d (N.grp x) l) ?_ ?_
          · have e2 := sum_upd (hg.grp_lt x hx) (tT d) s.stodo l
            rw [hst] at e2
            have e4 : tT d (N.grp x) ([] : List (ℕ × M D)) = 0 := rfl
            rw [e4, add_zero] at e2
            have e5 : ∑ z ∈ range N.n, tS d N { s with
                outq := upd s.outq x os
                oproc := upd s.oproc x (s.oproc x ++ [.msg m])
                stodo := upd s.stodo (N.grp x) l } z =
                ∑ z ∈ range N.n, tS d N s z := rfl
            simp only [work] at e1 e2 ⊢
            rw [e5, ← e1, e2]
            abel
          · intro y hy
            simp only [tT, Multiset.mem_coe, List.mem_map] at hy
            obtain ⟨p, hp, rfl⟩ := hy
            cases hsr with
            | data d' g' hb hs ho hc =>
              rw [List.mem_singleton] at hp
              rw [hp]
              simp only [hs]
              omega
            | eos e =>
              rw [List.mem_map] at hp
              obtain ⟨c, _, rfl⟩ := hp
              simp only
              omega
      · exact absurd h (by simp)
  | send g =>
    simp only [step] at h
    split at h
    · exact absurd h (by simp)
    · rename_i c m l hq
      have hcon : ConnOk N g c m := hi.conn g c m (by simp [S.C, hq, toG])
      have hgk : g < N.k := hcon.grp ▸ hg.grp_lt _ hcon.lt
      have hck : c < N.k := by
        cases hdm : m.dest with
        | some t =>
          obtain ⟨h1, h3⟩ := hcon.dest t hdm
          exact h3 ▸ hg.grp_lt _ (hg.eg_lt _ hcon.lt _ h1)
        | none =>
          obtain ⟨z, h1, h3⟩ := (mem_conns hg hcon.lt).1 (hcon.anon hdm)
          exact h3 ▸ hg.grp_lt _ (hg.eg_lt _ hcon.lt _ h1)
      split at h
      · simp only [Option.some.injEq] at h
        subst h
        refine dm_of (z := 8 * d m.src + 5) (Y := {8 * d m.src + 4}) ?_ (by simp)
        have e1 := sum_upd hgk (tT d) s.stodo l
        have e2 := sum_upd2 hgk hck (tV d) s.wire (s.wire g c ++ [m])
        rw [hq] at e1
        have e3 : tT d g ((c, m) :: l) = {8 * d m.src + 5} + tT d g l := rfl
        have e4 : tV d (s.wire g c ++ [m]) = {8 * d m.src + 4} + tV d (s.wire g c) := by
          simp only [tV, List.map_append, ← Multiset.coe_add]
          rw [add_comm]; rfl
        rw [e3, ← add_assoc] at e1
        rw [e4, ← add_assoc] at e2
        have e1 := add_right_cancel e1
        have e2 := add_right_cancel e2
        have e5 : ∑ z ∈ range N.n, tS d N { s with
            stodo := upd s.stodo g l, wire := upd2 s.wire g c (s.wire g c ++ [m]) } z =
            ∑ z ∈ range N.n, tS d N s z := rfl
        simp only [work] at e1 e2 ⊢
        rw [e5, ← e1, e2]
        abel
      · exact absurd h (by simp)
  | recv a g x =>
    simp only [step] at h
    split at h
    · exact absurd h (by simp)
    · rename_i m ms hq
      split at h
      · rename_i hc
        obtain ⟨hrt, hen⟩ := hc
        simp only [Option.map_eq_some_iff] at h
        obtain ⟨l, hl, rfl⟩ := h
        have hcon : ConnOk N a g m := hi.conn a g m (by simp [S.C, hq])
        have hbr := boxRoute_ok hg hcon hl
        obtain ⟨-, -, z, hz, hgz, -⟩ := wire_consumer hg hi (m := m) (a := a) (g := g)
          (by rw [hq]; exact List.mem_cons_self)
        have hak : a < N.k := hcon.grp ▸ hg.grp_lt _ hcon.lt
        have hgk : g < N.k := hgz ▸ hg.grp_lt _ hz
        refine dm_of (z := 8 * d m.src + 4) (Y := tU d g l) ?_ ?_
        · have e1 := sum_upd2 hak hgk (tV d) s.wire ms
          have e2 := sum_upd hgk (tU d) s.rtodo l
          rw [hq] at e1
          have e3 : tV d (m :: ms) = {8 * d m.src + 4} + tV d ms := rfl
          rw [e3, ← add_assoc] at e1
          have e1 := add_right_cancel e1
          rw [hrt] at e2
          have e4 : tU d g ([] : List (ℕ × M D)) = 0 := rfl
          rw [e4, add_zero] at e2
          have e5 : ∑ z ∈ range N.n, tS d N { s with
              wire := upd2 s.wire a g ms
              cproc := upd2 s.cproc a g (s.cproc a g ++ [m])
              rtodo := upd s.rtodo g l } z =
              ∑ z ∈ range N.n, tS d N s z := rfl
          simp only [work] at e1 e2 ⊢
          rw [e5, ← e1, e2]
          abel
        · intro y hy
          simp only [tU, Multiset.mem_coe, List.mem_map] at hy
          obtain ⟨p, hp, rfl⟩ := hy
          cases hbr with
          | data d' x' hb ho h1 h3 h4 =>
            rw [List.mem_singleton] at hp
            rw [hp]
            simp only
            omega
          | eos e =>
            rw [List.mem_map] at hp
            obtain ⟨c, _, rfl⟩ := hp
            simp only
            omega
      · exact absurd h (by simp)
  | deliver g =>
    simp only [step] at h
    split at h
    · exact absurd h (by simp)
    · rename_i x m l hq
      have hgx : N.grp x = g := hi.rt g (x, m) (by rw [hq]; exact List.mem_cons_self)
      have hx := (hi.recv x m (by simp [S.R, hgx, hq, toG])).1
      have hgk : g < N.k := hgx ▸ hg.grp_lt _ hx
      split at h
      · simp only [Option.some.injEq] at h
        subst h
        refine dm_of (z := 8 * d m.src + 3) (Y := {8 * d m.src + 2}) ?_ (by simp)
        have e1 := sum_upd hgk (tU d) s.rtodo l
        have e2 := sum_upd hx (tI d) s.inq (s.inq x ++ [m])
        rw [hq] at e1
        have e3 : tU d g ((x, m) :: l) = {8 * d m.src + 3} + tU d g l := rfl
        have e4 : tI d x (s.inq x ++ [m]) = {8 * d m.src + 2} + tI d x (s.inq x) := by
          simp only [tI, List.map_append, ← Multiset.coe_add]
          rw [add_comm]; rfl
        rw [e3, ← add_assoc] at e1
        rw [e4, ← add_assoc] at e2
        have e1 := add_right_cancel e1
        have e2 := add_right_cancel e2
        have e5 : ∑ z ∈ range N.n, tS d N { s with
            rtodo := upd s.rtodo g l, inq := upd s.inq x (s.inq x ++ [m]) } z =
            ∑ z ∈ range N.n, tS d N s z := rfl
        simp only [work] at e1 e2 ⊢
        rw [e5, ← e1, e2]
        abel
      · exact absurd h (by simp)

end

theorem no_inf (hg : Good N) (f : ℕ → S N) (h0 : f 0 = S.start N)
    (h : ∀ i, ∃ a, step N (f i) a = some (f (i + 1))) : False := by
  obtain ⟨hh, hlt⟩ := hg.acyclic
  obtain ⟨B, hB⟩ := bounded hh N.n
  have hd : ∀ x, x < N.n → ∀ y ∈ N.ing x, B - hh x < B - hh y := by
    intro x hx y hy
    have := hlt x hx y hy
    have := hB x hx
    omega
  have hinv : ∀ i, Inv N (f i) ∧ Inv2 N (f i) := by
    intro i
    induction i with
    | zero => rw [h0]; exact ⟨Inv.start, Inv2.start⟩
    | succ i ih =>
      obtain ⟨a, ha⟩ := h i
      exact ⟨ih.1.step hg ha, ih.2.step hg ih.1 ha⟩
  have hwf := Multiset.wellFounded_isDershowitzMannaLT (α := ℕ)
  have key : ∀ M : Multiset ℕ, ∀ i, work (fun x => B - hh x) N (f i) = M → False := by
    intro M
    induction M using hwf.induction with
    | _ M ih =>
      intro i hM
      obtain ⟨a, ha⟩ := h i
      have := step_work _ hg (hinv i).1 (hinv i).2 hd ha
      rw [hM] at this
      exact ih _ this (i + 1) rfl
  exact key _ 0 rfl

end FF.Grp
