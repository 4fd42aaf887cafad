import Verif.Dc.Sched
/-! # Divide and conquer: the invariant of a run -/
namespace FF.Dc
open FF.Mdf (Core Rec Cfg St decRow Qi Moved Pushed Rdy)
open FF.Farm (sumN)
open FF.Node (upd)

variable {Op R : Type}

/-- number of tasks in the table -/
def size (c : Core) : Nat := sumN (fun i => if (c.tk i).isSome then 1 else 0) c.next

theorem size_zero {c : Core} (h : Tb c) (h0 : size c = 0) (i : Nat) : c.tk i = none := by
  cases hx : c.tk i with
  | none => rfl
  | some r =>
    have := Parfor.sumN_ge (f := fun i => if (c.tk i).isSome then 1 else 0) (h.idt i r hx).2
    simp only [hx, Option.isSome_some, if_true] at this
    unfold size at h0
    omega

theorem size_insert {c c' : Core} {L : List Nat} {a : Nat} (h : Ins c c' L a) : size c' = size c + 1 := by
  unfold size
  rw [h.next]
  show sumN _ c.next + (if (c'.tk c.next).isSome = true then 1 else 0) = _
  rw [h.new]
  have : sumN (fun i => if (c'.tk i).isSome then 1 else 0) c.next = sumN (fun i => if (c.tk i).isSome then 1 else 0) c.next := by
    apply FF.Farm.sumN_congr
    intro i hi
    have hne : i ≠ c.next := by omega
    rw [h.old i hne]
    simp
  rw [this]
  simp

theorem size_handle {c c' : Core} (h : Tb c) {t : Nat} {r : Rec} (ht : c.tk t = some r) {l : List Nat}
    (h1 : ∀ k, c'.tk k = if k = t then none else (c.tk k).map (decRow l k)) (h2 : c'.next = c.next) : size c = size c' + 1 := by
  unfold size
  rw [h2]
  have := Parfor.sumN_change (f := fun i => if (c.tk i).isSome then 1 else 0) (g := fun i => if (c'.tk i).isSome then 1 else 0)
    (h.idt t r ht).2 (fun j _ hj => by simp only [h1, if_neg hj]; simp)
  simp only [h1 t, if_true, ht, Option.isSome_some, Option.isSome_none] at this
  simp at this
  omega

/-- queues, channels and programs -/
structure A (G : Cfg) (op : Op) (x : S Op R) : Prop where
  qi : Qi G x.s (Rdy x.s.c)
  sat : x.s.nrd = 0 ∨ ∀ w, w < G.n → 1 ≤ x.s.nsch w
  mlt : x.s.m < G.n
  back : ∀ w, x.s.back w = (x.chan w).filterMap Tok.fin
  cur : ∀ w, (x.s.cur w = none ∧ x.prog w = []) ∨
    ∃ t l, x.s.cur w = some t ∧ x.prog w = l ++ [.done t] ∧ ∀ t', Tok.done t' ∉ l
  noact : ∀ w k a, Tok.act k a ∉ x.chan w
  far : ∀ w, G.n < w → x.chan w = []
  lst : ∀ w, w < G.n → x.prog w = [] → x.chan w = [] ∨ ∃ l t, x.chan w = l ++ [.done t]
  num : x.s.numb = x.s.compl + size x.s.c
  over : x.s.over = true → x.s.numb = x.s.compl ∧ x.chan G.n = []
  more : x.s.over = false → x.chan G.n ≠ [] ∨ x.s.numb ≠ x.s.compl
  ended : x.s.ended = true
  ok : x.s.bad = false ∧ x.bad = false
  goal : x.goal x.root = op

structure I (P : Prob Op R) (D : Op → Prop) (sol : Op → R) (G : Cfg) (op : Op) (x : S Op R) : Prop where
  m : M P D sol x
  t : Tb x.s.c
  l : L x
  a : A G op x

/-- no message that a task is complete comes from row `n` -/
theorem A.rown {G : Cfg} {op : Op} {x : S Op R} (h : A G op x) (t : Nat) : Tok.done t ∉ x.chan G.n := by
  intro hm
  have hb := h.back G.n
  have := (h.qi.far G.n (Nat.le_refl _)).2.2.2
  rw [this] at hb
  have : t ∈ (x.chan G.n).filterMap Tok.fin := List.mem_filterMap.2 ⟨.done t, hm, rfl⟩
  rw [← hb] at this
  cases this

theorem A.progFar {G : Cfg} {op : Op} {x : S Op R} (h : A G op x) {w : Nat} (hw : G.n ≤ w) : x.prog w = [] := by
  rcases h.cur w with q | ⟨t, l, q, _⟩
  · exact q.2
  · rw [(h.qi.far w hw).2.2.1] at q; cases q

/-- a worker replaces the head of its program -/
theorem A.rep {G : Cfg} {op : Op} {x y : S Op R} (h : A G op x) {w : Nat} {k : Kind R} {a : Nat} {rest N : List (Tok R)}
    (hp : x.prog w = .act k a :: rest) (nf : ∀ t, Tok.done t ∉ N) (e1 : y.s = x.s) (e2 : y.chan = x.chan)
    (e3 : y.prog = upd x.prog w (N ++ rest)) (e4 : y.bad = false) (e5 : y.goal y.root = op) : A G op y := by
  refine ⟨by rw [e1]; exact h.qi, by rw [e1]; exact h.sat, by rw [e1]; exact h.mlt, by rw [e1, e2]; exact h.back, ?_,
    by rw [e2]; exact h.noact, by rw [e2]; exact h.far, ?_, by rw [e1]; exact h.num, by rw [e1, e2]; exact h.over,
    by rw [e1, e2]; exact h.more, by rw [e1]; exact h.ended, by rw [e1]; exact ⟨h.ok.1, e4⟩, e5⟩
  · intro v
    rw [e1, e3]
    by_cases e : v = w
    · subst e
      rw [upd_self]
      rcases h.cur v with ⟨_, q⟩ | ⟨t, l, q1, q2, q3⟩
      · rw [hp] at q; cases q
      · right
        rw [hp] at q2
        cases l with
        | nil => simp only [List.nil_append, List.cons.injEq] at q2; cases q2.1
        | cons z l =>
          simp only [List.cons_append, List.cons.injEq] at q2
          refine ⟨t, N ++ l, q1, by rw [q2.2]; simp, ?_⟩
          intro t' ht'
          rw [List.mem_append] at ht'
          rcases ht' with z | z
          · exact nf t' z
          · exact q3 t' (by simp [z])
    · rw [upd_ne _ e]; exact h.cur v
  · intro v hv hnil
    rw [e2]
    rw [e3] at hnil
    by_cases e : v = w
    · subst e
      rw [upd_self] at hnil
      rcases h.cur v with ⟨_, q⟩ | ⟨t, l, q1, q2, q3⟩
      · rw [hp] at q; cases q
      · rw [hp] at q2
        cases l with
        | nil => simp only [List.nil_append, List.cons.injEq] at q2; cases q2.1
        | cons z l =>
          simp only [List.cons_append, List.cons.injEq] at q2
          rw [q2.2] at hnil; simp at hnil
    · rw [upd_ne _ e] at hnil; exact h.lst v hv hnil

theorem stream_rep {x y : S Op R} {w : Nat} {l l' : List (Tok R)} (hp : x.prog w = l) (e2 : y.chan = x.chan)
    (e3 : y.prog = upd x.prog w l') : (∀ v, v ≠ w → y.stream v = x.stream v) ∧ y.stream w = x.chan w ++ l' ∧
    x.stream w = x.chan w ++ l := by
  refine ⟨?_, ?_, ?_⟩
  · intro v hv; unfold S.stream; rw [e2, e3, upd_ne _ hv]
  · unfold S.stream; rw [e2, e3, upd_self]
  · unfold S.stream; rw [hp]

theorem M.combLive {P : Prob Op R} {D : Op → Prop} {sol : Op → R} {x : S Op R} (h : M P D sol x) (c b : Nat) (cs : List Nat)
    (hd : x.duty c = some (.comb b cs)) (d : Nat) (hm : d ∈ cs) : x.live d = true := by
  obtain ⟨_, _, blk, h1, h2⟩ := h.comb c b cs hd
  exact (h.live d).2 (Or.inr ⟨b, blk, h1, by rw [h2]; exact hm⟩)

/-- one action replaced by another one for the same cell, in the same memory -/
theorem L.swap {P : Prob Op R} {D : Op → Prop} {sol : Op → R} {x : S Op R} (h : L x) (hM : M P D sol x) {w a : Nat}
    {k k' : Kind R} {rest : List (Tok R)} (hp : x.prog w = .act k a :: rest)
    (hk : ¬ isDac k' ∧ ¬ isComb k') (hput : ∀ b v blk, k' = .put (some b) v → x.heap b = some blk → ∀ d ∈ blk.cells, ¬ lk x.s.c d) :
    L { x with prog := upd x.prog w (.act k' a :: rest), duty := upd x.duty a (some k') } := by
  obtain ⟨s1, s2, s3⟩ := stream_rep (y := { x with prog := upd x.prog w (.act k' a :: rest), duty := upd x.duty a (some k') })
    hp rfl rfl
  have hu : Tok.act k a ∈ x.stream w := by rw [s3]; simp
  obtain ⟨hd, hpl⟩ := h.tok w _ k a hu rfl
  have hla := hM.liv a k hd
  refine h.rep (N := [.act k' a]) hM.liv hM.combLive s3 rfl rfl s1 s2 (by simp) (by simp [Tok.tgt, List.filterMap]) ?_ ?_ ?_ ?_
    (by simp) ?_ ?_ ?_ (fun b blk hb => Or.inl hb) ?_ (by simp)
  · intro u k2 c hm hj
    rw [List.mem_singleton] at hm
    subst hm
    cases hj
    exact ⟨upd_self _ _ _, hpl, Or.inl rfl⟩
  · intro c hne _
    exact ⟨upd_ne _ hne _, rfl⟩
  · intro c k2 h1 h2
    rcases h2 with rfl | h2
    · dsimp only at h1
      rw [upd_self] at h1
      cases h1
      exact ⟨.act k' c, by simp, rfl⟩
    · have hne : c ≠ a := by rintro rfl; rw [hla] at h2; cases h2
      dsimp only at h1
      rw [upd_ne _ hne] at h1
      rw [hM.liv c k2 h1] at h2; cases h2
  · intro c hc; exact (h.l0 c hc).2
  · intro u hm ht
    rw [List.mem_singleton] at hm
    subst hm
    refine ⟨fun k2 e => (by cases e), fun b i e => ?_⟩
    cases e; exact absurd ⟨b, i, rfl⟩ hk.1
  · intro b cs c hm
    rw [List.mem_singleton] at hm
    cases hm; exact hk.2 ⟨b, cs, rfl⟩
  · intro b v c blk hm hb
    rw [List.mem_singleton] at hm
    cases hm
    exact hput b v blk rfl hb
  · intro N1 b cs c N2 hN
    have : Tok.new (.comb b cs) c ∈ [Tok.act k' a] := by rw [hN]; simp
    simp at this

/-- a result is written -/
theorem L.drop {P : Prob Op R} {D : Op → Prop} {sol : Op → R} {x y : S Op R} (h : L x) (hM : M P D sol x) {w a : Nat}
    {k : Kind R} {rest : List (Tok R)} (hp : x.prog w = .act k a :: rest)
    (e1 : y.s.c = x.s.c) (e2 : y.task = x.task) (e3 : y.chan = x.chan) (e4 : y.prog = upd x.prog w rest)
    (e5 : y.duty = upd x.duty a none) (e6 : y.place = x.place) (e7 : ∀ c, lk x.s.c c → y.live c = true)
    (e8 : ∀ b blk, y.heap b = some blk → x.heap b = some blk) : L y := by
  obtain ⟨s1, s2, s3⟩ := stream_rep (y := y) hp e3 e4
  have hu : Tok.act k a ∈ x.stream w := by rw [s3]; simp
  obtain ⟨hd, hpl⟩ := h.tok w _ k a hu rfl
  have hla := hM.liv a k hd
  refine h.rep (N := []) hM.liv hM.combLive s3 e1 e2 s1 s2 (by simp) (by simp) (by simp) ?_ ?_ e7
    (by simp) (by simp) (by simp) (by simp) (fun b blk hb => Or.inl (e8 b blk hb)) ?_ (by simp)
  · intro c hne _
    rw [e5, e6]
    exact ⟨upd_ne _ hne _, rfl⟩
  · intro c k2 h1 h2
    rw [e5] at h1
    by_cases hne : c = a
    · subst hne; rw [upd_self] at h1; cases h1
    · rw [upd_ne _ hne] at h1
      rcases h2 with h2 | h2
      · exact absurd h2 hne
      · rw [hM.liv c k2 h1] at h2; cases h2
  · intro N1 b cs c N2 hN
    simp at hN

/-! ## Division -/

theorem spawn_mem (b : Nat) : ∀ (cs : List Nat) (i : Nat) (u : Tok R), u ∈ spawn b i cs →
    ∃ j c, cs[j]? = some c ∧ (u = .new (.dac b (i + j)) c ∨ u = .act (.dac b (i + j)) c) := by
  intro cs
  induction cs with
  | nil => intro i u hu; cases hu
  | cons c cs ih =>
    intro i u hu
    cases cs with
    | nil =>
      unfold spawn at hu
      rw [List.mem_singleton] at hu
      exact ⟨0, c, rfl, Or.inr hu⟩
    | cons d cs =>
      unfold spawn at hu
      rw [List.mem_cons] at hu
      rcases hu with hu | hu
      · exact ⟨0, c, rfl, Or.inl hu⟩
      · obtain ⟨j, e, h1, h2⟩ := ih (i + 1) u hu
        refine ⟨j + 1, e, h1, ?_⟩
        rw [show i + (j + 1) = i + 1 + j by omega]; exact h2

theorem spawn_tgt (b : Nat) : ∀ (cs : List Nat) (i : Nat), (spawn (R := R) b i cs).filterMap Tok.tgt = cs := by
  intro cs
  induction cs with
  | nil => intro i; rfl
  | cons c cs ih =>
    intro i
    cases cs with
    | nil => rfl
    | cons d cs =>
      unfold spawn
      rw [new_cons, ih]

theorem spawn_get (b : Nat) : ∀ (cs : List Nat) (i j c : Nat), cs[j]? = some c →
    ∃ u ∈ spawn (R := R) b i cs, u.job = some (.dac b (i + j), c) := by
  intro cs
  induction cs with
  | nil => intro i j c h; simp at h
  | cons d cs ih =>
    intro i j c h
    cases cs with
    | nil =>
      cases j with
      | zero =>
        simp only [List.getElem?_cons_zero, Option.some.injEq] at h
        subst h
        exact ⟨.act (.dac b i) d, by simp [spawn], rfl⟩
      | succ j => simp at h
    | cons e cs =>
      unfold spawn
      cases j with
      | zero =>
        simp only [List.getElem?_cons_zero, Option.some.injEq] at h
        subst h
        exact ⟨.new (.dac b i) d, by simp, rfl⟩
      | succ j =>
        obtain ⟨u, h1, h2⟩ := ih (i + 1) j c (by simpa using h)
        exact ⟨u, by simp [h1], by rw [h2, show i + 1 + j = i + (j + 1) by omega]⟩

theorem L.split {P : Prob Op R} {D : Op → Prop} {sol : Op → R} {x : S Op R} (h : L x) (hM : M P D sol x) {w a b i : Nat}
    {rest : List (Tok R)} (hp : x.prog w = .act (.dac b i) a :: rest) {subs : List Op} {cells : List Nat}
    (hf : x.fresh subs.length cells = true) (hM' : M P D sol (x.split w a subs cells rest)) :
    L (x.split w a subs cells rest) := by
  obtain ⟨hlen, hnd, hnew⟩ := fresh_iff hf
  obtain ⟨s1, s2, s3⟩ := stream_rep (y := x.split w a subs cells rest)
    (l' := (spawn x.nb 0 cells ++ [.new (.comb x.nb cells) a]) ++ rest) hp rfl (by unfold S.split; simp)
  have hu : Tok.act (.dac b i) a ∈ x.stream w := by rw [s3]; simp
  obtain ⟨hd, hpl⟩ := h.tok w _ _ a hu rfl
  have hla := hM.liv a _ hd
  have hnl : ∀ c, x.live c = true → c ∉ cells := fun c hl hm => by rw [(hnew c hm).2] at hl; cases hl
  have hac := hnl a hla
  have hsd : ∀ c k, (x.split w a subs cells rest).duty c = some k ↔ _ :=
    fun c k => split_duty (x := x) (b := x.nb) hnd hac c k
  have hpc : ∀ c, (x.split w a subs cells rest).place c = if c ∈ cells then .st w else x.place c := fun c => rfl
  have memN : ∀ u : Tok R, u ∈ spawn x.nb 0 cells ++ [.new (.comb x.nb cells) a] → (∃ j c, cells[j]? = some c ∧
      (u = .new (.dac x.nb j) c ∨ u = .act (.dac x.nb j) c)) ∨ u = .new (.comb x.nb cells) a := by
    intro u hm
    rw [List.mem_append, List.mem_singleton] at hm
    rcases hm with q | q
    · obtain ⟨j, c, q1, q2⟩ := spawn_mem _ _ _ u q
      rw [Nat.zero_add] at q2
      exact Or.inl ⟨j, c, q1, q2⟩
    · exact Or.inr q
  refine h.rep (N := spawn x.nb 0 cells ++ [.new (.comb x.nb cells) a]) hM.liv hM.combLive s3 rfl rfl s1 s2 ?_ ?_ ?_ ?_ ?_ ?_
    ?_ ?_ ?_ ?_ ?_ ?_ ?_
  · intro t hm
    rcases memN _ hm with ⟨_, _, _, q | q⟩ | q <;> cases q
  · rw [List.filterMap_append, spawn_tgt, List.nodup_append]
    refine ⟨hnd, by simp [List.filterMap, Tok.tgt], ?_⟩
    rintro p hp' q hq rfl
    have : p = a := by simpa [List.filterMap, Tok.tgt] using hq
    rw [this] at hp'; exact hac hp'
  · intro u k c hm hj
    rcases memN u hm with ⟨j, d, q1, q2⟩ | rfl
    · have hmem := List.mem_of_getElem? q1
      have : k = .dac x.nb j ∧ c = d := by rcases q2 with rfl | rfl <;> · cases hj; exact ⟨rfl, rfl⟩
      obtain ⟨rfl, rfl⟩ := this
      exact ⟨(hsd c _).2 (Or.inr (Or.inl ⟨j, q1, rfl⟩)), by rw [hpc, if_pos hmem], Or.inr (hnew c hmem).2⟩
    · cases hj
      exact ⟨(hsd a _).2 (Or.inl ⟨rfl, rfl⟩), by rw [hpc, if_neg hac]; exact hpl, Or.inl rfl⟩
  · intro c hne hl
    refine ⟨?_, by rw [hpc, if_neg (hnl c hl)]⟩
    show upd _ a _ c = _
    rw [upd_ne _ hne, owe_other (hnl c hl)]
  · intro c k h1 h2
    rcases (hsd c k).1 h1 with ⟨rfl, rfl⟩ | ⟨j, q1, rfl⟩ | ⟨q1, q2, q3⟩
    · exact ⟨.new (.comb x.nb cells) c, by simp, rfl⟩
    · obtain ⟨u, z1, z2⟩ := spawn_get (R := R) x.nb cells 0 j c q1
      rw [Nat.zero_add] at z2
      exact ⟨u, by simp [z1], z2⟩
    · rcases h2 with h2 | h2
      · exact absurd h2 q1
      · rw [hM.liv c k q3] at h2; cases h2
  · intro c hc
    have hl := (h.l0 c hc).2
    rcases (hM.live c).1 hl with q | ⟨b', blk', q1, q2⟩
    · exact (hM'.live c).2 (Or.inl q)
    · refine (hM'.live c).2 (Or.inr ⟨b', blk', ?_, q2⟩)
      show upd x.heap x.nb _ b' = _
      have hne : b' ≠ x.nb := by have := (hM.blk b' blk' q1).1; omega
      rw [upd_ne _ hne]; exact q1
  · intro k c hm
    rcases memN _ hm with ⟨j, d, _, q | q⟩ | q
    · cases q; exact Or.inl ⟨_, _, rfl⟩
    · cases q
    · cases q; exact Or.inr ⟨_, _, rfl⟩
  · intro u hm ht
    refine ⟨fun k e => ?_, fun b' i' e => ⟨b, i, rfl⟩⟩
    refine ⟨⟨b, i, rfl⟩, ?_⟩
    subst e
    rcases memN _ hm with ⟨j, d, q0, q | q⟩ | q
    · cases q; exact absurd (List.mem_of_getElem? q0) hac
    · cases q
    · cases q; exact ⟨_, _, rfl⟩
  · intro b' cs c hm
    rcases memN _ hm with ⟨_, _, _, q | q⟩ | q <;> cases q
  · intro b' v c blk hm
    rcases memN _ hm with ⟨_, _, _, q | q⟩ | q <;> cases q
  · intro b' blk hb
    have hb' : upd x.heap x.nb (some ⟨subs, cells⟩) b' = some blk := hb
    by_cases e : b' = x.nb
    · subst e; rw [upd_self] at hb'; cases hb'
      exact Or.inr fun c hc => (hnew c hc).2
    · rw [upd_ne _ e] at hb'; exact Or.inl hb'
  · intro N1 b' cs c N2 hN d hd'
    right
    have hmem : (Tok.new (.comb b' cs) c : Tok R) ∈ spawn x.nb 0 cells ++ [.new (.comb x.nb cells) a] := by rw [hN]; simp
    have hcs : cs = cells := by
      rcases memN _ hmem with ⟨_, _, _, q | q⟩ | q
      · cases q
      · cases q
      · cases q; rfl
    have : N1 = spawn x.nb 0 cells := by
      rcases split_mid hN with ⟨m, _, m2⟩ | ⟨m1, _, _⟩ | ⟨m, m1, _⟩
      · simp at m2
      · exact m1
      · exfalso
        obtain ⟨j, e, _, q | q⟩ := spawn_mem x.nb cells 0 (.new (.comb b' cs) c : Tok R) (by rw [m1]; simp)
        · cases q
        · cases q
    rw [this, spawn_tgt, ← hcs]; exact hd'
  · intro b' i' c hm
    rcases memN _ hm with ⟨j, d, q0, q | q⟩ | q
    · cases q; exact (hnew _ (List.mem_of_getElem? q0)).2
    · cases q
    · cases q

end FF.Dc
