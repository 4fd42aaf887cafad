import Verif.Dc.Start
/-! # Divide and conquer: the length of a run -/
namespace FF.Mdf
open FF.Node (upd)

theorem search_c {G : Cfg} {o : List Nat → Nat} {i : Nat} : ∀ (j : Nat) (s : S), (S.search G o s i j).c = s.c := by
  intro j
  induction j with
  | zero => intro s; rfl
  | succ j ih =>
    intro s
    unfold S.search
    split
    · rfl
    · rw [ih]

theorem sched1_c {G : Cfg} {o : List Nat → Nat} {th i : Nat} {s : S} : (S.sched1 G o th s i).c = s.c := by
  unfold S.sched1
  split
  · split
    · rfl
    · exact search_c _ _
  · rfl

theorem schedule_c {G : Cfg} {o : List Nat → Nat} {th : Nat} {s : S} : (s.schedule G o th).c = s.c := by
  unfold S.schedule
  have : ∀ (l : List Nat) (s : S), (l.foldl (S.sched1 G o th) s).c = s.c := by
    intro l
    induction l with
    | nil => intro s; rfl
    | cons a l ih => intro s; rw [List.foldl_cons, ih, sched1_c]
  exact this _ _

theorem pushes_c {w : Nat} : ∀ (l : List Nat) (s : S), (l.foldl (S.push w) s).c = s.c := by
  intro l
  induction l with
  | nil => intro s; rfl
  | cons a l ih => intro s; rw [List.foldl_cons, ih]; rfl

end FF.Mdf

namespace FF.Dc
open FF.Mdf (Core Rec Cfg St decRow Qi Moved Pushed Rdy)
open FF.Farm (sumN)
open FF.Node (upd)

variable {Op R : Type} {P : Prob Op R} {D : Op → Prop} {sol : Op → R} {G : Cfg} {op : Op} {x y : S Op R}

/-- `T` bounds the number of calls of the recursion on the operands in `D` -/
structure Size (P : Prob Op R) (D : Op → Prop) (T : Op → Nat) : Prop where
  base : ∀ o, D o → P.cond o = true → 1 ≤ T o
  split : ∀ o, D o → P.cond o = false → 1 + ((P.divide o).map T).sum ≤ T o

theorem Size.pos {T : Op → Nat} (h : Size P D T) {o : Op} (ho : D o) : 1 ≤ T o := by
  cases hc : P.cond o with
  | true => exact h.base o ho hc
  | false => have := h.split o ho hc; omega

/-! ## Weights -/

def body (T : Op → Nat) (g : Nat → Op) (a : Nat) : Kind R → Nat
  | .dac _ _ => 8 * T (g a) - 5
  | .comb _ _ => 2
  | .put _ _ => 1

def wp (T : Op → Nat) (g : Nat → Op) : Tok R → Nat
  | .new k a => 5 + body T g a k
  | .act k a => body T g a k
  | .done _ => 2

def wc (T : Op → Nat) (g : Nat → Op) : Tok R → Nat
  | .new k a => 4 + body T g a k
  | .act k a => body T g a k
  | .done _ => 1

def wsum (f : Tok R → Nat) (l : List (Tok R)) : Nat := (l.map f).sum

theorem wsum_nil (f : Tok R → Nat) : wsum f [] = 0 := rfl
theorem wsum_cons (f : Tok R → Nat) (u : Tok R) (l : List (Tok R)) : wsum f (u :: l) = f u + wsum f l := by simp [wsum]
theorem wsum_append (f : Tok R → Nat) (l m : List (Tok R)) : wsum f (l ++ m) = wsum f l + wsum f m := by simp [wsum]
theorem wsum_congr {f g : Tok R → Nat} {l : List (Tok R)} (h : ∀ u ∈ l, f u = g u) : wsum f l = wsum g l := by
  unfold wsum
  rw [List.map_congr_left h]

open Classical in
/-- a task in the table that has not been started -/
noncomputable def row (T : Op → Nat) (x : S Op R) (i : Nat) : Nat :=
  if (x.s.c.tk i).isSome ∧ ∀ w, Tok.done i ∉ x.stream w then (x.task i).elim 0 fun p => 3 + body T x.goal p.2 p.1 else 0

def strm (T : Op → Nat) (x : S Op R) (w : Nat) : Nat := wsum (wc T x.goal) (x.chan w) + wsum (wp T x.goal) (x.prog w)

noncomputable def load (T : Op → Nat) (G : Cfg) (x : S Op R) : Nat :=
  sumN (strm T x) (G.n + 1) + sumN (row T x) x.s.c.next

theorem row_congr {T : Op → Nat} {i : Nat} (h1 : (y.s.c.tk i).isSome = (x.s.c.tk i).isSome)
    (h2 : ∀ w, Tok.done i ∈ y.stream w ↔ Tok.done i ∈ x.stream w) (h3 : y.task i = x.task i)
    (h4 : ∀ k a, x.task i = some (k, a) → (x.s.c.tk i).isSome → (∀ w, Tok.done i ∉ x.stream w) → y.goal a = x.goal a) :
    row T y i = row T x i := by
  have e : ((y.s.c.tk i).isSome ∧ ∀ w, Tok.done i ∉ y.stream w) ↔ ((x.s.c.tk i).isSome ∧ ∀ w, Tok.done i ∉ x.stream w) := by
    rw [h1]; simp only [h2]
  unfold row
  by_cases hq : (x.s.c.tk i).isSome ∧ ∀ w, Tok.done i ∉ x.stream w
  · rw [if_pos hq, if_pos (e.2 hq), h3]
    cases ht : x.task i with
    | none => rfl
    | some p =>
      obtain ⟨k, a⟩ := p
      simp only [Option.elim_some]
      have := h4 k a ht hq.1 hq.2
      cases k with
      | dac b j => simp only [body, this]
      | comb b cs => rfl
      | put b v => rfl
  · rw [if_neg hq, if_neg fun z => hq (e.1 z)]

theorem row_run {T : Op → Nat} {i w : Nat} (h : Tok.done i ∈ x.stream w) : row T x i = 0 := by
  unfold row
  rw [if_neg]
  rintro ⟨_, q⟩; exact q w h

theorem row_idle {T : Op → Nat} {i a : Nat} {k : Kind R} {r : Rec} (h1 : x.s.c.tk i = some r)
    (h2 : ∀ w, Tok.done i ∉ x.stream w) (h3 : x.task i = some (k, a)) : row T x i = 3 + body T x.goal a k := by
  unfold row
  rw [if_pos ⟨by rw [h1]; rfl, h2⟩, h3]; rfl

/-- the weight of one stream changes -/
theorem strm_one {T : Op → Nat} {n w : Nat} (hw : w < n) (h : ∀ v, v ≠ w → strm T y v = strm T x v) :
    sumN (strm T y) n + strm T x w = sumN (strm T x) n + strm T y w :=
  Parfor.sumN_change hw fun v _ hv => h v hv

theorem load_send {T : Op → Nat} {w : Nat} (hs : step P G x (.send w) = some y) :
    load T G y + 1 ≤ load T G x := by
  have key : ∀ u rest, w < G.n → x.prog w = u :: rest → y.prog = upd x.prog w rest → y.chan = upd x.chan w (x.chan w ++ [u]) →
      y.s.c = x.s.c → y.task = x.task → y.goal = x.goal → wc T x.goal u + 1 = wp T x.goal u → load T G y + 1 ≤ load T G x := by
    intro u rest hw hp e1 e2 e3 e4 e5 e6
    have hst := send_stream hp e1 e2
    have hr : sumN (row T y) y.s.c.next = sumN (row T x) x.s.c.next := by
      rw [e3]
      apply Farm.sumN_congr
      intro i _
      exact row_congr (by rw [e3]) (fun v => by rw [hst]) (by rw [e4]) (fun _ _ _ _ _ => by rw [e5])
    have h1 := strm_one (T := T) (x := x) (y := y) (n := G.n + 1) (w := w) (by omega) (by
      intro v hv
      unfold strm
      rw [e1, e2, e5, upd_ne _ hv, upd_ne _ hv])
    have h2 : strm T y w + 1 = strm T x w := by
      unfold strm
      rw [e1, e2, e5, upd_self, upd_self, hp, wsum_append, wsum_cons, wsum_nil, wsum_cons]
      omega
    unfold load
    omega
  simp only [step] at hs
  split at hs
  · rename_i hw
    split at hs
    · rename_i k a rest hp
      cases hs
      exact key _ _ hw.1 hp rfl rfl rfl rfl rfl (by simp only [wc, wp]; omega)
    · rename_i t rest hp
      cases hs
      exact key _ _ hw.1 hp rfl rfl rfl rfl rfl rfl
    · cases hs
  · cases hs

theorem load_start (h : I P D sol G op x) {T : Op → Nat} {w : Nat} (hs : step P G x (.start w) = some y) :
    load T G y + 1 ≤ load T G x := by
  simp only [step] at hs
  split at hs
  · rename_i hw
    split at hs
    · rename_i t rest hcur hq
      have hloc : x.s.loc t = .q w := (h.a.qi.lq w t).1 (by rw [hq]; simp)
      obtain ⟨r, hr, hst⟩ : Rdy x.s.c t := (h.a.qi.rdy t).2 (by rw [hloc]; simp)
      obtain ⟨k, a, hk, hkk⟩ := h.l.tsk t r hr
      rw [hk] at hs
      dsimp only at hs
      cases hs
      have hprog : x.prog w = [] := by
        rcases h.a.cur w with q | ⟨_, _, q, _⟩
        · exact q.2
        · rw [hcur] at q; cases q
      have hidle : ∀ v, Tok.done t ∉ x.stream v := by
        intro v hv
        unfold S.stream at hv
        rw [List.mem_append] at hv
        rcases hv with q | q
        · have : t ∈ x.s.back v := by rw [h.a.back]; exact List.mem_filterMap.2 ⟨_, q, rfl⟩
          rw [h.a.qi.lback, hloc] at this; cases this
        · rcases h.a.cur v with ⟨_, z⟩ | ⟨t', l, z1, z2, z3⟩
          · rw [z] at q; cases q
          · rw [z2, List.mem_append, List.mem_singleton] at q
            rcases q with q | q
            · exact z3 t q
            · cases q
              rw [h.a.qi.lcur, hloc] at z1; cases z1
      obtain ⟨z, hz⟩ : ∃ z : S Op R, z = { x with
            s := { x.s with cur := upd x.s.cur w (some t), q := upd x.s.q w rest, loc := upd x.s.loc t (.cur w) }
            prog := upd x.prog w [.act k a, .done t]
            place := upd x.place a (.st w) } := ⟨_, rfl⟩
      rw [← hz]
      have e1 : z.prog = upd x.prog w [.act k a, .done t] := by rw [hz]
      have e2 : z.chan = x.chan := by rw [hz]
      have e3 : z.s.c = x.s.c := by rw [hz]
      have e4 : z.task = x.task := by rw [hz]
      have e5 : z.goal = x.goal := by rw [hz]
      have h1 := strm_one (T := T) (x := x) (y := z) (n := G.n + 1) (w := w) (by omega) (by
        intro v hv
        unfold strm
        rw [e1, e2, e5, upd_ne _ hv])
      have h2 : strm T z w = strm T x w + body T x.goal a k + 2 := by
        unfold strm
        rw [e1, e2, e5, upd_self, hprog, wsum_cons, wsum_cons, wsum_nil]
        simp only [wp]; omega
      have hz1 : ∀ v, v ≠ w → z.stream v = x.stream v := by
        intro v hv; unfold S.stream; rw [e1, e2, upd_ne _ hv]
      have hz2 : z.stream w = x.stream w ++ [.act k a, .done t] := by
        unfold S.stream; rw [e1, e2, upd_self, hprog]; simp
      have h3 := Parfor.sumN_change (f := row T z) (g := row T x) (h.t.idt t r hr).2 (by
        intro j _ hj
        refine row_congr (by rw [e3]) ?_ (by rw [e4]) (fun _ _ _ _ _ => by rw [e5])
        intro v
        by_cases e : v = w
        · subst e; rw [hz2]; simp [hj]
        · rw [hz1 v e])
      have h4 : row T z t = 0 := row_run (w := w) (by rw [hz2]; simp)
      have h5 := row_idle (T := T) hr hidle hk
      have h6 : z.s.c.next = x.s.c.next := by rw [e3]
      unfold load
      rw [h6]
      omega
    · cases hs
  · cases hs

theorem load_recv (h : I P D sol G op x) {T : Op → Nat} {w junk : Nat} {o : List Nat → Nat}
    (hs : step P G x (.recv w o junk) = some y) : load T G y + 1 ≤ load T G x := by
  simp only [step] at hs
  split at hs
  · rename_i hg
    obtain ⟨hov, hwn, hfirst⟩ := hg
    split at hs
    · rename_i k a rest hc
      cases hs
      obtain ⟨s1, s2, s3⟩ := recv_stream (y := S.insert G o junk { x with chan := upd x.chan w rest } k a) hc rfl rfl
      have H := h.l.head h.t h.m s1
      have hI := insert_desc h.t k H.a0 junk H.nodup H.empty H.out
      have e3 : (S.insert G o junk { x with chan := upd x.chan w rest } k a).s.c = insertTask junk x.s.c k a := by
        unfold S.insert
        dsimp only
        rw [Mdf.schedule_c]
        split <;> rfl
      obtain ⟨z, hz⟩ : ∃ z, z = S.insert G o junk { x with chan := upd x.chan w rest } k a := ⟨_, rfl⟩
      have e1 : z.prog = x.prog := by rw [hz]; rfl
      have e2 : z.chan = upd x.chan w rest := by rw [hz]; rfl
      have e4 : z.task = upd x.task x.s.c.next (some (k, a)) := by rw [hz]; rfl
      have e5 : z.goal = x.goal := by rw [hz]; rfl
      rw [← hz] at s2 s3 e3 ⊢
      have hnx := h.t.nextNone
      have h1 := strm_one (T := T) (x := x) (y := z) (n := G.n + 1) (w := w) (by omega) (by
        intro v hv
        unfold strm
        rw [e1, e2, e5, upd_ne _ hv])
      have h2 : strm T x w = strm T z w + 4 + body T x.goal a k := by
        unfold strm
        rw [e1, e2, e5, upd_self, hc, wsum_cons]
        simp only [wc]; omega
      have hd : ∀ i v, Tok.done i ∈ z.stream v ↔ Tok.done i ∈ x.stream v := by
        intro i v
        by_cases e : v = w
        · subst e; rw [s3, s1]; simp
        · rw [s2 v e]
      have h3 : sumN (row T z) z.s.c.next = sumN (row T x) x.s.c.next + row T z x.s.c.next := by
        rw [e3, hI.next]
        show sumN (row T z) x.s.c.next + _ = _
        congr 1
        apply Farm.sumN_congr
        intro i hi
        have hne : i ≠ x.s.c.next := by omega
        refine row_congr ?_ (hd i) (by rw [e4, upd_ne _ hne]) (fun _ _ _ _ _ => by rw [e5])
        rw [e3, hI.old i hne]; simp
      have h4 : row T z x.s.c.next = 3 + body T x.goal a k := by
        rw [← e5]
        refine row_idle (r := newRow x.s.c (links x.s.c (ins k)) a) (by rw [e3]; exact hI.new) ?_ (by rw [e4, upd_self])
        intro v hv
        obtain ⟨r, hr, _⟩ := h.l.run v _ ((hd _ v).1 hv)
        rw [hnx] at hr; cases hr
      unfold load
      omega
    · rename_i t rest hc
      cases hs
      obtain ⟨s1, s2, s3⟩ := recv_stream (y := S.complete G o { x with chan := upd x.chan w rest } w t) hc rfl rfl
      obtain ⟨rt, hrt, hst⟩ := h.l.run w t (by rw [s1]; simp)
      obtain ⟨c', rd, hh, g1, g2, g3, g4, g5, g6⟩ := tb_handle h.t hrt hst
      have e3 : (S.complete G o { x with chan := upd x.chan w rest } w t).s.c = c' := by
        unfold S.complete Mdf.S.done
        dsimp only
        rw [hh]
        dsimp only
        have : ∀ (b : Prop) [Decidable b] (f : Mdf.S), (if b then { f with over := true } else f).c = f.c := by
          intro b _ f; split <;> rfl
        rw [this, Mdf.schedule_c, Mdf.schedule_c, Mdf.pushes_c]
      obtain ⟨z, hz⟩ : ∃ z, z = S.complete G o { x with chan := upd x.chan w rest } w t := ⟨_, rfl⟩
      have e1 : z.prog = x.prog := by rw [hz]; rfl
      have e2 : z.chan = upd x.chan w rest := by rw [hz]; rfl
      have e4 : z.task = x.task := by rw [hz]; rfl
      have e5 : z.goal = x.goal := by rw [hz]; rfl
      rw [← hz] at s2 s3 e3 ⊢
      have h1 := strm_one (T := T) (x := x) (y := z) (n := G.n + 1) (w := w) (by omega) (by
        intro v hv
        unfold strm
        rw [e1, e2, e5, upd_ne _ hv])
      have h2 : strm T x w = strm T z w + 1 := by
        unfold strm
        rw [e1, e2, e5, upd_self, hc, wsum_cons]
        simp only [wc]; omega
      have h3 := Parfor.sumN_change (f := row T z) (g := row T x) (h.t.idt t rt hrt).2 (by
        intro j _ hj
        refine row_congr (by rw [e3, g1, if_neg hj]; simp) ?_ (by rw [e4]) (fun _ _ _ _ _ => by rw [e5])
        intro v
        by_cases e : v = w
        · subst e; rw [s3, s1]; simp [hj]
        · rw [s2 v e])
      have h4 : row T z t = 0 := by
        unfold row
        rw [if_neg]
        rw [e3, g1, if_pos rfl]; simp
      have h5 : row T x t = 0 := row_run (w := w) (by rw [s1]; simp)
      have h6 : z.s.c.next = x.s.c.next := by rw [e3, g3]
      unfold load
      rw [h6]
      omega
    · cases hs
  · cases hs

/-- one worker replaces the first part of its program -/
theorem load_rep (h : I P D sol G op x) {T : Op → Nat} {w : Nat} (hw : w < G.n) {k : Kind R} {a : Nat} {rest N : List (Tok R)}
    (hp : x.prog w = .act k a :: rest) (e1 : y.prog = upd x.prog w (N ++ rest)) (e2 : y.chan = x.chan)
    (e3 : y.s.c = x.s.c) (e4 : y.task = x.task) (e5 : ∀ c, x.live c = true → y.goal c = x.goal c)
    (hN : ∀ t, Tok.done t ∉ N) (hle : wsum (wp T y.goal) N + 1 ≤ body T x.goal a k) : load T G y + 1 ≤ load T G x := by
  have hg : ∀ v u, u ∈ x.stream v → wp T y.goal u = wp T x.goal u ∧ wc T y.goal u = wc T x.goal u := by
    intro v u hu
    have hb : ∀ k a, u.job = some (k, a) → body T y.goal a k = body T x.goal a k := by
      intro k a hj
      obtain ⟨q, _⟩ := h.l.tok v u k a hu hj
      cases k with
      | dac b i => simp only [body]; rw [e5 a (h.m.liv a _ q)]
      | comb b cs => rfl
      | put b v => rfl
    cases u with
    | new k a => simp only [wp, wc]; rw [hb k a rfl]; exact ⟨rfl, rfl⟩
    | act k a => simp only [wp, wc]; rw [hb k a rfl]; exact ⟨rfl, rfl⟩
    | done t => exact ⟨rfl, rfl⟩
  have hch : ∀ v, wsum (wc T y.goal) (x.chan v) = wsum (wc T x.goal) (x.chan v) := by
    intro v
    refine wsum_congr fun u hu => (hg v u ?_).2
    unfold S.stream; simp [hu]
  have h1 := strm_one (T := T) (x := x) (y := y) (n := G.n + 1) (w := w) (by omega) (by
    intro v hv
    unfold strm
    rw [e1, e2, upd_ne _ hv, hch]
    congr 1
    refine wsum_congr fun u hu => (hg v u ?_).1
    unfold S.stream; simp [hu])
  have h2 : strm T y w + 1 ≤ strm T x w := by
    unfold strm
    rw [e1, e2, upd_self, hp, hch, wsum_append, wsum_cons]
    have : wsum (wp T y.goal) rest = wsum (wp T x.goal) rest := by
      refine wsum_congr fun u hu => (hg w u ?_).1
      unfold S.stream; rw [hp]; simp [hu]
    rw [this]
    show _ ≤ _ + (body T x.goal a k + _)
    omega
  have h3 : sumN (row T y) y.s.c.next = sumN (row T x) x.s.c.next := by
    rw [e3]
    apply Farm.sumN_congr
    intro i _
    refine row_congr (by rw [e3]) ?_ (by rw [e4]) ?_
    · intro v
      unfold S.stream
      rw [e1, e2]
      by_cases e : v = w
      · subst e; rw [upd_self, hp]; simp [hN i]
      · rw [upd_ne _ e]
    · intro k' a' ht hk hd
      obtain ⟨r, hr⟩ := Option.isSome_iff_exists.1 hk
      obtain ⟨q, _⟩ := h.l.idl i r k' a' hr ht hd
      exact e5 a' (h.m.liv a' _ q)
  unfold load
  omega

theorem spawn_wsum (T : Op → Nat) (g : Nat → Op) (b : Nat) : ∀ (cs : List Nat) (i : Nat), cs ≠ [] → (∀ c ∈ cs, 1 ≤ T (g c)) →
    wsum (wp T g) (spawn (R := R) b i cs) + 5 = (cs.map fun c => 8 * T (g c)).sum := by
  intro cs
  induction cs with
  | nil => intro i h; exact absurd rfl h
  | cons c cs ih =>
    intro i _ hT
    have hc := hT c (by simp)
    cases cs with
    | nil =>
      unfold spawn
      rw [wsum_cons, wsum_nil]
      simp only [wp, body, List.map_cons, List.map_nil, List.sum_cons, List.sum_nil]
      omega
    | cons d cs =>
      unfold spawn
      rw [wsum_cons, List.map_cons, List.sum_cons, ← ih (i + 1) (by simp) fun e he => hT e (by simp [he])]
      simp only [wp, body]
      omega

theorem sum_eight (l : List Nat) : (l.map fun n => 8 * n).sum = 8 * l.sum := by
  induction l with
  | nil => rfl
  | cons a l ih => simp only [List.map_cons, List.sum_cons, ih]; omega

theorem load_work (hS : Solves P D sol) {T : Op → Nat} (hT : Size P D T) (h : I P D sol G op x) {w : Nat} (hw : w < G.n)
    {cells : List Nat} (hs : x.work P w cells = some y) : load T G y + 1 ≤ load T G x := by
  have tok : ∀ k a rest, x.prog w = .act k a :: rest → x.duty a = some k ∧ x.place a = .st w := by
    intro k a rest hp
    exact h.l.tok w (.act k a) k a (by unfold S.stream; rw [hp]; simp) rfl
  unfold S.work at hs
  split at hs
  · rename_i b i a rest hp
    obtain ⟨hd, _⟩ := tok _ _ _ hp
    obtain ⟨hD, blk, q1, q2, q3⟩ := h.m.dac a b i hd
    have hb : ((x.heap b).bind fun blk => blk.ops[i]?) = some (x.goal a) := by rw [q1]; exact q3
    rw [hb] at hs
    dsimp only at hs
    have hpos := hT.pos hD
    split at hs
    · cases hs
      refine load_rep h hw hp (N := [.act (.put none (P.seq (x.goal a))) a]) rfl rfl rfl rfl (fun _ _ => rfl) (by simp) ?_
      rw [wsum_cons, wsum_nil]
      show 1 + 0 + 1 ≤ 8 * T (x.goal a) - 5
      omega
    · rename_i hc
      have hc' : P.cond (x.goal a) = false := by simpa using hc
      rw [if_neg (hS.parts _ hD hc').1] at hs
      split at hs
      · rename_i hf
        cases hs
        obtain ⟨f1, f2, f3⟩ := fresh_iff hf
        have hne : cells ≠ [] := by
          intro e
          have := (hS.parts _ hD hc').1
          rw [e] at f1
          exact this (List.length_eq_zero_iff.1 f1.symm)
        refine load_rep h hw hp (N := spawn x.nb 0 cells ++ [.new (.comb x.nb cells) a]) (by unfold S.split; simp) rfl rfl rfl ?_ ?_ ?_
        · intro c hl
          show aim x.goal cells (P.divide (x.goal a)) c = x.goal c
          rw [aim_other]
          intro hm
          rw [(f3 c hm).2] at hl; cases hl
        · intro t ht
          rw [List.mem_append, List.mem_singleton] at ht
          rcases ht with ht | ht
          · obtain ⟨_, _, _, q | q⟩ := spawn_mem _ _ _ _ ht <;> cases q
          · cases ht
        · have hmap : cells.map (aim x.goal cells (P.divide (x.goal a))) = P.divide (x.goal a) := aim_map f2 f1
          have hD' := (hS.parts _ hD hc').2
          have hsp := spawn_wsum (R := R) T (aim x.goal cells (P.divide (x.goal a))) x.nb cells 0 hne (by
            intro c hcm
            refine hT.pos (hD' _ ?_)
            have := List.mem_map_of_mem (f := aim x.goal cells (P.divide (x.goal a))) hcm
            rw [hmap] at this
            exact this)
          have hsum : (cells.map fun c => 8 * T (aim x.goal cells (P.divide (x.goal a)) c)).sum
              = 8 * ((P.divide (x.goal a)).map T).sum := by
            rw [← sum_eight, List.map_map]
            conv_rhs => rw [← hmap]
            rw [List.map_map]
            rfl
          rw [hsum] at hsp
          have := hT.split _ hD hc'
          rw [wsum_append, wsum_cons, wsum_nil]
          show wsum (wp T (aim x.goal cells (P.divide (x.goal a)))) (spawn x.nb 0 cells) + (5 + 2 + 0) + 1 ≤ 8 * T (x.goal a) - 5
          omega
      · cases hs
  · rename_i b cs a rest hp
    obtain ⟨hd, _⟩ := tok _ _ _ hp
    obtain ⟨_, _, blk, q1, q2⟩ := h.m.comb a b cs hd
    rw [q1] at hs
    dsimp only at hs
    cases hs
    exact load_rep h hw hp (N := [.act (.put (some b) (P.comb (blk.cells.map x.mem))) a]) rfl rfl rfl rfl (fun _ _ => rfl) (by simp)
      (Nat.le_refl _)
  · rename_i v a rest hp
    obtain ⟨hd, _⟩ := tok _ _ _ hp
    rw [if_pos (h.m.liv a _ hd)] at hs
    cases hs
    exact load_rep h hw hp (N := []) rfl rfl rfl rfl (fun _ _ => rfl) (by simp) (Nat.le_refl _)
  · rename_i b v a rest hp
    obtain ⟨hd, _⟩ := tok _ _ _ hp
    obtain ⟨_, hq⟩ := h.m.put a _ v hd
    obtain ⟨_, blk, q1, q2⟩ := hq b rfl
    rw [if_pos ⟨h.m.liv a _ hd, by rw [q1]; rfl⟩] at hs
    cases hs
    exact load_rep h hw hp (N := []) rfl rfl rfl rfl (fun _ _ => rfl) (by simp) (Nat.le_refl _)
  · cases hs

theorem load_step (hS : Solves P D sol) {T : Op → Nat} (hT : Size P D T) (h : I P D sol G op x) {act : Act}
    (hs : step P G x act = some y) : load T G y + 1 ≤ load T G x := by
  cases act with
  | recv w o junk => exact load_recv h hs
  | start w => exact load_start h hs
  | work w cells =>
    simp only [step] at hs
    split at hs
    · rename_i hw; exact load_work hS hT h hw hs
    · cases hs
  | send w => exact load_send hs

theorem seeds_wsum (T : Op → Nat) (g : Nat → Op) (b : Nat) : ∀ (cs : List Nat) (i : Nat), (∀ c ∈ cs, 1 ≤ T (g c)) →
    wsum (wc T g) (seeds (R := R) b i cs) ≤ (cs.map fun c => 8 * T (g c)).sum := by
  intro cs
  induction cs with
  | nil => intro i _; exact Nat.le_refl _
  | cons c cs ih =>
    intro i hT
    have hc := hT c (by simp)
    have := ih (i + 1) fun e he => hT e (by simp [he])
    unfold seeds
    rw [wsum_cons, List.map_cons, List.sum_cons]
    simp only [wc, body]
    omega

theorem load_init (hS : Top P D sol op) {T : Op → Nat} (hT : Size P D T)
    (hT' : P.cond op = false → 1 + ((P.divide op).map T).sum ≤ T op) {root : Nat} {mem : Nat → R} {cells : List Nat}
    (hs : Start P op root cells) : load T G (init P G op root mem cells) ≤ 8 * T op := by
  have hcore : (init P G op root mem cells).s.c = Core.init := by
    unfold init; split <;> rfl
  have h1 : sumN (row T (init P G op root mem cells)) (init P G op root mem cells).s.c.next = 0 := by
    apply Parfor.sumN_zero
    intro i _
    unfold row
    rw [if_neg]
    rw [hcore]
    rintro ⟨q, _⟩; cases q
  unfold load
  rw [h1]
  unfold init
  split
  · rw [Parfor.sumN_zero]
    · omega
    · intro w _; rfl
  · rename_i hc
    have hc' : P.cond op = false := by simpa using hc
    obtain ⟨z, hz⟩ : ∃ z : S Op R, z =
      { s := sched0, task := fun _ => none
        chan := upd (fun _ => []) G.n (seeds 0 0 cells ++ [.new (.comb 0 cells) root]), prog := fun _ => []
        mem := mem, heap := upd (fun _ => none) 0 (some ⟨P.divide op, cells⟩), nb := 1, root := root, bad := false
        duty := upd (owe 0 (fun _ => none) 0 cells) root (some (.comb 0 cells))
        place := fun _ => .st G.n, goal := aim (fun _ => op) cells (P.divide op), up := fun _ => root } := ⟨_, rfl⟩
    rw [← hz]
    have e : ∀ w, strm T z w = if w = G.n then strm T z w else 0 := by
      intro w
      split
      · rfl
      · rename_i hw
        rw [hz]; unfold strm; dsimp only; rw [upd_ne _ hw]; rfl
    show sumN (strm T z) G.n + strm T z G.n + 0 ≤ _
    rw [Parfor.sumN_zero (n := G.n) (f := strm T z) (fun i hi => by rw [e, if_neg (by omega)])]
    have hmap : cells.map (aim (fun _ => op) cells (P.divide op)) = P.divide op := aim_map hs.nodup hs.len
    have hD' := hS.parts hc'
    have h2 : strm T z G.n = wsum (wc T (aim (fun _ => op) cells (P.divide op))) (seeds (R := R) 0 0 cells) + 6 := by
      rw [hz]; unfold strm; dsimp only
      rw [upd_self, wsum_append, wsum_cons, wsum_nil, wsum_nil]; rfl
    have h3 := seeds_wsum (R := R) T (aim (fun _ => op) cells (P.divide op)) 0 cells 0 (by
      intro c hcm
      refine hT.pos (hD' _ ?_)
      have := List.mem_map_of_mem (f := aim (fun _ => op) cells (P.divide op)) hcm
      rw [hmap] at this
      exact this)
    have hsum : (cells.map fun c => 8 * T (aim (fun _ => op) cells (P.divide op) c)).sum = 8 * ((P.divide op).map T).sum := by
      rw [← sum_eight, List.map_map]
      have : (P.divide op).map ((fun n => 8 * n) ∘ T) = (cells.map (aim (fun _ => op) cells (P.divide op))).map ((fun n => 8 * n) ∘ T) := by
        rw [hmap]
      rw [this, List.map_map]; rfl
    have := hT' hc'
    omega

end FF.Dc
