import Verif.Evolution.Spec
import Verif.Parfor.Empty
/-!
# The pool evolution pattern (C72): theorems
-/
namespace FF.Evolution
open FF.Parfor

variable {T E : Type} {f : Fns T E} {env : E}

/-! ## The evolution phase -/

/-- State of the evolution phase that started with the buffer `b`; `who` is the worker of each index. -/
structure Inv (f : Fns T E) (env : E) (b : List T) (who : Nat → Nat) (s : Ev T) : Prop where
  len : s.buf.length = b.length
  todo : ∀ w i, (w, i) ∈ s.todo → 0 ≤ i ∧ i < b.length ∧ w = who i.toNat
  busy : ∀ w i v, (w, i, v) ∈ s.busy → 0 ≤ i ∧ i < b.length ∧ w = who i.toNat ∧
    ∃ x, b[i.toNat]? = some x ∧ v = f.evolution x env w
  nodup : (s.todo.map Prod.snd ++ s.busy.map fun c => c.2.1).Nodup
  cell : ∀ k, k < b.length → s.buf[k]? =
    if (k : Int) ∈ s.todo.map Prod.snd ++ s.busy.map (fun c => c.2.1) then b[k]?
    else (b[k]?).map fun x => f.evolution x env (who k)

theorem Inv.step {b : List T} {who : Nat → Nat} {s s' : Ev T} (h : Inv f env b who s) (hs : EvStep f env s s') :
    Inv f env b who s' := by
  cases hs with
  | @read pre post busy buf w i x h0 hx =>
    obtain ⟨hl, ht, hb, hn, hc⟩ := h
    simp only at hl ht hb hn hc
    obtain ⟨_, hi, hw⟩ := ht w i (by simp)
    have hp : ((pre ++ (w, i) :: post).map Prod.snd ++ busy.map fun c => c.2.1).Perm
        ((pre ++ post).map Prod.snd ++ ((w, i, f.evolution x env w) :: busy).map fun c => c.2.1) := by
      simp only [List.map_append, List.map_cons, List.append_assoc, List.cons_append]
      refine List.Perm.append_left _ ?_
      rw [← List.cons_append]
      exact (List.perm_append_comm_assoc [i] _ _)
    refine ⟨hl, ?_, ?_, hp.nodup_iff.1 hn, ?_⟩
    · intro v j hj
      refine ht v j ?_
      simp only [List.mem_append, List.mem_cons] at hj ⊢
      tauto
    · intro v j y hj
      rcases List.mem_cons.1 hj with hj | hj
      · simp only [Prod.mk.injEq] at hj
        obtain ⟨rfl, rfl, rfl⟩ := hj
        refine ⟨h0, hi, hw, x, ?_, rfl⟩
        have := hc j.toNat (by omega)
        rw [if_pos, hx] at this
        · exact this.symm
        · rw [Int.toNat_of_nonneg h0]; simp
      · exact hb v j y hj
    · intro k hk
      simp only
      rw [hc k hk]
      simp only [hp.mem_iff]
  | @write todo pre post buf w i v =>
    obtain ⟨hl, ht, hb, hn, hc⟩ := h
    simp only at hl ht hb hn hc
    obtain ⟨h0, hi, hw, x, hx, hv⟩ := hb w i v (by simp)
    have hp : (todo.map Prod.snd ++ (pre ++ (w, i, v) :: post).map fun c => c.2.1).Perm
        (i :: (todo.map Prod.snd ++ (pre ++ post).map fun c => c.2.1)) := by
      simp only [List.map_append, List.map_cons]
      rw [← List.append_assoc, ← List.append_assoc]
      exact List.perm_middle
    have hn' := hp.nodup_iff.1 hn
    rw [List.nodup_cons] at hn'
    refine ⟨by simp only [List.length_set]; exact hl, ht, ?_, hn'.2, ?_⟩
    · intro u j y hj
      refine hb u j y ?_
      simp only [List.mem_append, List.mem_cons] at hj ⊢
      tauto
    · intro k hk
      simp only
      by_cases hki : k = i.toNat
      · subst hki
        rw [if_neg (by rw [Int.toNat_of_nonneg h0]; exact hn'.1), hx]
        rw [List.getElem?_set_self (by omega), hv, hw]
        rfl
      · rw [List.getElem?_set_ne (by omega), hc k hk]
        simp only [hp.mem_iff, List.mem_cons]
        have : (k : Int) ≠ i := by omega
        simp only [this, false_or]

theorem Inv.steps {b : List T} {who : Nat → Nat} {s s' : Ev T} (h : Inv f env b who s) (hs : EvSteps f env s s') :
    Inv f env b who s' := by
  induction hs with
  | refl => exact h
  | tail _ h2 ih => exact ih.step h2

/-- what a run of the parallel loop asks for -/
structure Calls (b : List T) (who : Nat → Nat) (log : List (Nat × Int)) : Prop where
  perm : (log.map Prod.snd).Perm (indices 0 b.length 1)
  who : ∀ w i, (w, i) ∈ log → w = who i.toNat

theorem Calls.range {b : List T} {who : Nat → Nat} {log : List (Nat × Int)} (h : Calls b who log) (i : Int) :
    i ∈ log.map Prod.snd ↔ 0 ≤ i ∧ i < b.length := by
  rw [h.perm.mem_iff, mem_indices (by omega)]
  simp

theorem Calls.inv {b : List T} {who : Nat → Nat} {log : List (Nat × Int)} (h : Calls b who log) :
    Inv f env b who ⟨log, [], b⟩ := by
  refine ⟨rfl, ?_, by simp, ?_, ?_⟩
  · intro w i hi
    have := (h.range i).1 (List.mem_map.2 ⟨_, hi, rfl⟩)
    exact ⟨this.1, this.2, h.who w i hi⟩
  · simp only [List.map_nil, List.append_nil]
    exact h.perm.nodup_iff.2 (nodup_indices (by omega))
  · intro k hk
    rw [if_pos]
    simp only [List.map_nil, List.append_nil]
    exact (h.range k).2 ⟨by omega, by omega⟩

theorem evolved {b b' : List T} {who : Nat → Nat} {log : List (Nat × Int)} (h : Calls b who log)
    (hs : EvSteps f env ⟨log, [], b⟩ ⟨[], [], b'⟩) : b' = b.mapIdx fun i x => f.evolution x env (who i) := by
  have hi := (h.inv (f := f) (env := env)).steps hs
  apply List.ext_getElem?
  intro k
  rw [List.getElem?_mapIdx]
  by_cases hk : k < b.length
  · rw [hi.cell k hk]
    simp
  · have h1 := hi.len
    simp only at h1
    rw [List.getElem?_eq_none (by omega), List.getElem?_eq_none (by omega)]
    rfl

theorem owner_eq {n nw w j : Nat}
    (hj : j < n / nw + if w < n % nw then 1 else 0) :
    owner n nw (w * (n / nw) + min w (n % nw) + j) = w := by
  unfold owner
  generalize n / nw = q at *
  generalize n % nw = r at *
  by_cases hwr : w < r
  · rw [if_pos hwr] at hj
    rw [Nat.min_eq_left (by omega)]
    have e : w * q + w + j = j + (q + 1) * w := by ring
    have hlt : (w + 1) * (q + 1) ≤ r * (q + 1) := Nat.mul_le_mul_right _ (by omega)
    have e2 : (w + 1) * (q + 1) = (q + 1) * w + (q + 1) := by ring
    rw [e, if_pos (by omega), Nat.add_mul_div_left _ _ (by omega), Nat.div_eq_of_lt hj]
    omega
  · rw [if_neg hwr, Nat.add_zero] at hj
    rw [Nat.min_eq_right (by omega)]
    obtain ⟨u, rfl⟩ : ∃ u, w = r + u := ⟨w - r, by omega⟩
    have e : (r + u) * q + r + j = r * (q + 1) + (j + q * u) := by ring
    rw [e, if_neg (by omega), Nat.add_sub_cancel_left, Nat.add_mul_div_left _ _ (by omega), Nat.div_eq_of_lt hj]
    omega

theorem calls_of {old d : Nat → Range} {b : List T} {nw : Nat} {L : Loop} {log : List (Nat × Int)} (hT : Table old)
    (hn : 1 ≤ nw) (hb : (b.length : Int) < 2 ^ 63) (hL : setloopStatic old 0 b.length 1 nw = some L)
    (hrun : RunFor 0 b.length 1 nw L log d) : Calls b (owner b.length nw) log := by
  have hN : b.length = (indices 0 b.length 1).length := by simp [indices]
  refine ⟨(C30_exactly_once hT (by omega) hn (by omega) hL hrun).1, ?_⟩
  intro w i hi
  have hw : w < nw := (C30_blocks hT (by omega) hn (by omega) hL hrun).2 _ hi
  have hm : i ∈ (log.filter fun e => e.1 = w).map Prod.snd :=
    List.mem_map.2 ⟨(w, i), List.mem_filter.2 ⟨hi, by simp⟩, rfl⟩
  rw [C30_owner hT (by omega) hn (by omega) hL hrun hw hN] at hm
  obtain ⟨j, hj, rfl⟩ := List.getElem_of_mem hm
  rw [List.length_take] at hj
  simp only [indices, List.getElem_take, List.getElem_drop, List.getElem_map, List.getElem_range]
  rw [show ((0 : Int) + ((w * (b.length / nw) + min w (b.length % nw) + j : Nat) : Int) * 1).toNat =
    w * (b.length / nw) + min w (b.length % nw) + j by omega]
  exact (owner_eq (by omega)).symm

/-- **C72.** The evolution phase, with any number of workers and every schedule: each individual of the
buffer is evolved exactly once, from the value it had before, and the result is where the individual was. -/
theorem C72_evolution {old d : Nat → Range} {nw : Nat} {b b' : List T} (hT : Table old) (hn : 1 ≤ nw)
    (h : Evolve f nw env old b d b') :
    b' = (b.mapIdx fun i x => f.evolution x env (owner b.length nw i)) ∧ Table d := by
  cases h with
  | mk hb hL hrun hs =>
    exact ⟨evolved (calls_of hT hn hb hL hrun) hs, .static hT (by omega) hn (by omega) hL hrun⟩

theorem readAll {who : Nat → Nat} {b : List T} :
    ∀ (todo : List (Nat × Int)) (busy : List (Nat × Int × T)) (buf : List T), Inv f env b who ⟨todo, busy, buf⟩ →
    ∃ buf', EvSteps f env ⟨todo, busy, buf⟩ ⟨[], [], buf'⟩ := by
  have trans1 : ∀ {s t u : Ev T}, EvStep f env s t → EvSteps f env t u → EvSteps f env s u := by
    intro s t u h1 h2
    induction h2 with
    | refl => exact .tail (.refl _) h1
    | tail _ h3 ih => exact .tail ih h3
  intro todo
  induction todo with
  | nil =>
    intro busy
    induction busy with
    | nil => intro buf _; exact ⟨buf, .refl _⟩
    | cons c busy ih =>
      intro buf h
      obtain ⟨w, i, v⟩ := c
      have hs : EvStep f env ⟨[], (w, i, v) :: busy, buf⟩ ⟨[], busy, buf.set i.toNat v⟩ := EvStep.write (pre := [])
      obtain ⟨buf', h'⟩ := ih _ (h.step hs)
      exact ⟨buf', trans1 hs h'⟩
  | cons e todo ih =>
    intro busy buf h
    obtain ⟨w, i⟩ := e
    obtain ⟨h0, hi, _⟩ := h.todo w i (by simp)
    have hlen := h.len
    simp only at hlen
    have hs : EvStep f env ⟨(w, i) :: todo, busy, buf⟩ ⟨todo, (w, i, f.evolution (buf[i.toNat]'(by omega)) env w) :: busy, buf⟩ :=
      EvStep.read (pre := []) h0 (List.getElem?_eq_getElem _)
    obtain ⟨buf', h'⟩ := ih _ _ (h.step hs)
    exact ⟨buf', trans1 hs h'⟩

/-- **C72.** The evolution phase completes: at every moment some call of the body can go on (no index is
outside of the buffer), each call takes two steps, and there is a complete execution for every number of
workers.  (That the parallel loop ends is C30.) -/
theorem C72_evolution_completes {old : Nat → Range} {nw : Nat} {b : List T} (hT : Table old) (hn : 1 ≤ nw)
    (hb : (b.length : Int) < 2 ^ 63) :
    (∃ d b', Evolve f nw env old b d b') ∧
    (∀ L log d s, setloopStatic old 0 b.length 1 nw = some L → RunFor 0 b.length 1 nw L log d →
      EvSteps f env ⟨log, [], b⟩ s → (s.todo = [] ∧ s.busy = [] ∨ ∃ s', EvStep f env s s')) ∧
    (∀ s s', EvStep f env s s' → 2 * s'.todo.length + s'.busy.length + 1 = 2 * s.todo.length + s.busy.length) := by
  refine ⟨?_, ?_, ?_⟩
  · obtain ⟨L, log, d, hL, hrun⟩ := static_run (first := 0) (last := b.length) (st := 1) hT (by omega) hn (by omega)
    obtain ⟨b', hs⟩ := readAll (f := f) (env := env) log [] b (calls_of hT hn hb hL hrun).inv
    exact ⟨d, b', .mk hb hL hrun hs⟩
  · intro L log d s hL hrun hs
    have hi := ((calls_of hT hn hb hL hrun).inv (f := f) (env := env)).steps hs
    obtain ⟨todo, busy, buf⟩ := s
    cases todo with
    | nil =>
      cases busy with
      | nil => exact .inl ⟨rfl, rfl⟩
      | cons c busy => exact .inr ⟨_, EvStep.write (pre := [])⟩
    | cons e todo =>
      obtain ⟨h0, hl, _⟩ := hi.todo e.1 e.2 (by simp)
      have hlen := hi.len
      simp only at hlen
      exact .inr ⟨_, EvStep.read (pre := []) h0 (List.getElem?_eq_getElem (i := e.2.toNat) (by omega))⟩
  · intro s s' h
    cases h <;> simp <;> omega

/-! ## The whole pattern -/

theorem setPar_le {maxp pE n : Nat} (h : pE ≤ maxp) : setParEvolution maxp pE n ≤ maxp := by
  unfold setParEvolution; split <;> omega

/-- **C72.** Whatever `setParEvolution` is called with, a loop runs with at least one worker and no more
than there are. -/
theorem C72_degree {maxp cores : Nat} (hc : 1 ≤ cores) (calls : List Nat) :
    let pE := calls.foldl (setParEvolution maxp) maxp
    pE ≤ maxp ∧ 1 ≤ degree maxp cores pE ∧ degree maxp cores pE ≤ nworkers maxp cores ∧
      (1 ≤ pE → degree maxp cores pE = pE) := by
  intro pE
  have h1 : pE ≤ maxp := by
    have : ∀ (l : List Nat) p, p ≤ maxp → l.foldl (setParEvolution maxp) p ≤ maxp := by
      intro l
      induction l with
      | nil => intro p h; exact h
      | cons a l ih => intro p h; exact ih _ (setPar_le h)
    exact this calls maxp (Nat.le_refl _)
  refine ⟨h1, ?_⟩
  unfold degree nworkers
  repeat' split
  all_goals omega

/-- **C72.** `setParEvolution` takes a value up to the maximum and ignores a larger one; whatever the value, a loop runs with
no more workers than there are, and with exactly that many if the value is between 1 and their number. -/
theorem C72_setPar (maxp cores pE n : Nat) :
    (n ≤ maxp → setParEvolution maxp pE n = n) ∧ (maxp < n → setParEvolution maxp pE n = pE) ∧
      degree maxp cores n ≤ nworkers maxp cores ∧ (1 ≤ n → n ≤ nworkers maxp cores → degree maxp cores n = n) := by
  unfold setParEvolution degree
  refine ⟨fun h => if_neg (by omega), fun h => if_pos h, ?_, fun h1 h2 => ?_⟩
  · repeat' split
    all_goals omega
  · rw [if_neg (by omega), if_neg (by omega)]

example : setParEvolution 4 2 4 = 4 ∧ setParEvolution 4 2 5 = 2 ∧ degree 4 8 5 = 4 := by decide

/-- **C72.** What the pattern computes: whatever the schedule, `svc` computes the sequential algorithm, in
which individual `i` is evolved with the worker id `owner n nw i`. -/
theorem C72_result {nw : Nat} (hn : 1 ≤ nw) {o o' : Obj T E} {P R : List T} (h : Svc f (· = nw) o P o' R) :
    Algo f (fun b e => b.mapIdx fun i x => f.evolution x e (owner b.length nw i)) P o.env R o'.env := by
  induction h with
  | stop h => exact .stop h
  | round h1 h2 hT1 hp h3 h4 hT3 _ ih =>
    subst hp
    rw [(C72_evolution hT1 hn h3).1] at h4
    exact .round h1 h2 h4 ih

/-- **C72.** If the evolution function does not depend on the worker id, the pattern computes the
sequential algorithm for every parallelism degree, changed at any time, and every schedule. -/
theorem C72_parallel {par : Nat → Prop} (hpar : ∀ nw, par nw → 1 ≤ nw) {g : T → E → T}
    (hg : ∀ x e w, f.evolution x e w = g x e) {o o' : Obj T E} {P R : List T} (h : Svc f par o P o' R) :
    Algo f (fun b e => b.map (g · e)) P o.env R o'.env := by
  induction h with
  | stop h => exact .stop h
  | round h1 h2 hT1 hp h3 h4 hT3 _ ih =>
    have e := (C72_evolution hT1 (hpar _ hp) h3).1
    have e2 : ∀ (b : List T) (x : E) (w : Nat → Nat), (b.mapIdx fun i y => f.evolution y x (w i)) = b.map (g · x) := by
      intro b x w
      apply List.ext_getElem? fun k => ?_
      simp [hg]
    rw [e, e2] at h4
    exact .round h1 h2 h4 ih

theorem Algo.det {ev : List T → E → List T} {P R R' : List T} {e e' e'' : E} (h : Algo f ev P e R e')
    (h' : Algo f ev P e R' e'') : R = R' ∧ e' = e'' := by
  induction h generalizing R' e'' with
  | stop h1 =>
    cases h' with
    | stop h2 => rw [h1] at h2; simp at h2; exact ⟨rfl, h2⟩
    | round h2 => rw [h1] at h2; simp at h2
  | round h1 h2 h3 _ ih =>
    cases h' with
    | stop h4 => rw [h1] at h4; simp at h4
    | round h4 h5 h6 h7 =>
      rw [h1] at h4; simp only [Prod.mk.injEq, true_and] at h4; subst h4
      rw [h2] at h5; simp only [Prod.mk.injEq] at h5
      obtain ⟨rfl, rfl, rfl⟩ := h5
      rw [h3] at h6; simp only [Prod.mk.injEq] at h6
      obtain ⟨rfl, rfl, rfl⟩ := h6
      exact ih h7

/-- **C72.** Two executions on the same population agree: same number of workers and any evolution
function, or any numbers of workers and an evolution function that does not depend on the worker id. -/
theorem C72_deterministic {par par' : Nat → Prop} (hpar : ∀ nw, par nw → 1 ≤ nw) (hpar' : ∀ nw, par' nw → 1 ≤ nw)
    (hc : (∃ nw, par = (· = nw) ∧ par' = (· = nw)) ∨ ∃ g : T → E → T, ∀ x e w, f.evolution x e w = g x e)
    {o o' q q' : Obj T E} {P R R' : List T} (he : o.env = q.env)
    (h : Svc f par o P o' R) (h' : Svc f par' q P q' R') : R = R' ∧ o'.env = q'.env := by
  rcases hc with ⟨nw, rfl, rfl⟩ | ⟨g, hg⟩
  · have h1 := C72_result (hpar nw rfl) h
    have h2 := C72_result (hpar nw rfl) h'
    rw [he] at h1
    exact h1.det h2
  · have h1 := C72_parallel hpar hg h
    have h2 := C72_parallel hpar' hg h'
    rw [he] at h1
    exact h1.det h2

/-- **C72.** If the sequential algorithm ends, so can the pattern, for every number of workers, with its
result.  (`hlen`: no vector of 2^63 elements or more.) -/
theorem C72_complete {nw : Nat} (hn : 1 ≤ nw)
    (hlen : ∀ P b e, ((f.selection P b e).2.1.length : Int) < 2 ^ 63) {P R : List T} {e e' : E}
    (h : Algo f (fun b e => b.mapIdx fun i x => f.evolution x e (owner b.length nw i)) P e R e')
    (o : Obj T E) (he : o.env = e) :
    ∃ o', Svc f (· = nw) o P o' R ∧ o'.env = e' := by
  induction h generalizing o with
  | stop h1 => subst he; exact ⟨_, .stop h1, rfl⟩
  | @round P P1 P2 N R Q e e1 e2 e3 e4 h1 h2 h3 _ ih =>
    subst he
    have hl : (N.length : Int) < 2 ^ 63 := by
      have := hlen P [] e1
      rw [h2] at this
      exact this
    obtain ⟨⟨d, b', hE⟩, _⟩ := C72_evolution_completes (f := f) (env := e2) Table.new hn hl
    obtain ⟨o', h4, h5⟩ := ih ⟨fun _ => ⟨0, 0, 0⟩, P2, e3⟩ rfl
    refine ⟨o', .round h1 h2 .new rfl hE ?_ .new h4, h5⟩
    rw [(C72_evolution .new hn hE).1]
    exact h3

/-- **C72.** The stream version: one result for each population, in the order in which they came, each that
of the sequential algorithm; the environment goes from one to the next. -/
theorem C72_stream {par : Nat → Prop} (hpar : ∀ nw, par nw → 1 ≤ nw) {g : T → E → T}
    (hg : ∀ x e w, f.evolution x e w = g x e) {o o' : Obj T E} {ts outs : List (List T)}
    (h : Stream f par o ts o' outs) :
    AlgoStream f (fun b e => b.map (g · e)) ts o.env outs o'.env ∧ outs.length = ts.length := by
  induction h with
  | nil => exact ⟨.nil _, rfl⟩
  | cons h1 _ ih => exact ⟨.cons (C72_parallel hpar hg h1) ih.1, by simp [ih.2]⟩

/-- **C72.** The documented algorithm `P += f(N, P)` is what is computed, if the filter puts the population
itself in front of what it adds. -/
theorem C72_documented_partial {ev : List T → E → List T} {keep : List T → List T → E → List T × List T × E}
    (hf : ∀ P N e, f.filter P N e = ((keep P N e).1, P ++ (keep P N e).2.1, (keep P N e).2.2))
    {P R : List T} {e e' : E} (h : Algo f ev P e R e') :
    DocAlgo { f with filter := keep } ev P e R e' := by
  induction h with
  | stop h1 => exact .stop h1
  | round h1 h2 h3 _ ih =>
    rw [hf] at h3
    simp only [Prod.mk.injEq] at h3
    obtain ⟨rfl, rfl, rfl⟩ := h3
    exact .round h1 h2 rfl ih

/-! ## Examples -/

/-- Numbers are selected when even, evolved by adding 3, and all are kept.  It ends when all are odd. -/
def demo : Fns Nat Nat where
  selection P b e := (P, b ++ P.filter (· % 2 = 0), e + 1)
  evolution x _ _ := x + 3
  filter P N e := (P, N, e)
  termination P e := (P.all (· % 2 = 1), e)

/-- the same, and the filter keeps the odd ones of the population -/
def demo2 : Fns Nat Nat := { demo with filter := fun P N e => ([], P.filter (· % 2 = 1) ++ N, e) }

theorem demo2_algo : Algo demo2 (fun b e => b.map fun x => demo2.evolution x e 0) [1, 2, 4] 0 [1, 5, 7] 1 :=
  .round (P1 := [1, 2, 4]) (N := [2, 4]) (Q := [1, 5, 7]) (P2 := []) (e1 := 0) (e2 := 1) (e3 := 1)
    (by decide +kernel) (by decide +kernel) (by decide +kernel) (.stop (by decide +kernel))

/-- Non-vacuity: with two workers the pattern ends and computes this. -/
example : ∃ o', Svc demo2 (· = 2) ⟨fun _ => ⟨0, 0, 0⟩, [], 0⟩ [1, 2, 4] o' [1, 5, 7] ∧ o'.env = 1 := by
  refine ⟨⟨fun _ => ⟨0, 0, 0⟩, [], 1⟩, ?_, rfl⟩
  obtain ⟨⟨d, b', hE⟩, _⟩ := C72_evolution_completes (f := demo2) (env := 1) (b := [2, 4]) (nw := 2) Table.new
    (by decide) (by decide)
  have hb := (C72_evolution .new (by decide) hE).1
  exact .round (P1 := [1, 2, 4]) (e1 := 0) (e3 := 1) (b2 := [1, 5, 7]) (P2 := []) (by decide +kernel) (by decide +kernel) .new rfl hE
    (by rw [hb]; decide +kernel) .new (.stop (by decide +kernel))

/-- the blocks of seven individuals and three workers -/
example : (List.range 7).map (owner 7 3) = [0, 0, 0, 1, 1, 2, 2] := by decide

/-- **C72, counterexample.** The documentation says that the filtered individuals are added to the
population.  They replace it: here the population `[1, 2]` becomes `[5]`, the documented algorithm gives
`[1, 2, 5]` in the first round. -/
theorem C72_documented_counterexample :
    ∃ (f : Fns Nat Nat) (P R R' : List Nat) (o' : Obj Nat Nat),
      Svc f (· = 1) ⟨fun _ => ⟨0, 0, 0⟩, [], 0⟩ P o' R ∧
      DocAlgo f (fun b e => b.map fun x => f.evolution x e 0) P 0 R' 1 ∧ R = [5] ∧ R' = [1, 2, 5] := by
  refine ⟨{ demo with termination := fun P e => (P.contains 5, e) }, [1, 2], [5], [1, 2, 5],
    ⟨fun _ => ⟨0, 0, 0⟩, [1, 2], 1⟩, ?_, ?_, rfl, rfl⟩
  · obtain ⟨⟨d, b', hE⟩, _⟩ := C72_evolution_completes (f := { demo with termination := fun P e => (P.contains 5, e) })
      (env := 1) (b := [2]) (nw := 1) Table.new (by decide) (by decide)
    have hb := (C72_evolution .new (by decide) hE).1
    exact .round (P1 := [1, 2]) (e1 := 0) (e3 := 1) (b2 := [5]) (P2 := [1, 2]) (by decide +kernel) (by decide +kernel) .new rfl hE
      (by rw [hb]; decide +kernel) .new (.stop (by decide +kernel))
  · exact .round (P1 := [1, 2]) (N := [2]) (Q := [5]) (P2 := [1, 2]) (e1 := 0) (e2 := 1) (e3 := 1)
      (by decide +kernel) (by decide +kernel) (by decide +kernel) (.stop (by decide +kernel))

end FF.Evolution
