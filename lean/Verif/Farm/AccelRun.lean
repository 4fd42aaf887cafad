import Verif.Farm.AccelInv
/-!
# C66: inside a round
-/
namespace FF.Farm
open FF.Node
variable {D : Type} {w : Nat → RNode D} {c : RNode D}

/-- the messages of a round -/
def msgs (ts : List D) : List (Msg D) := ts.map .data ++ [.eos]

/-- A round is under way with `k` workers: it was entered with the workers in the states `st0`, the
collector in `cst`, after the emitter had received `h0`; its tasks are `ts`; the emitter has still to
take `rest`. -/
structure Run (N k : Nat) (em : List (Msg D) → Msg D → List (Cmd D)) (st0 : (i : Nat) → (w i).σ)
    (cst : c.σ) (h0 : List (Msg D)) (ts : List D) (s : FA w c) (rest : List (Msg D)) : Prop where
  rl : s.rl = k
  rg : s.rg = k
  taken : ∃ t, t ++ rest = msgs ts ∧ s.hist = h0 ++ t
  eos : s.eEos = true ↔ rest = []
  inv : FInv k s.nodes (emAll em h0 (msgs ts)) (hat k (emAll em s.hist rest) s.f)
  gend : GEnd k s.f.g
  gout : GOutAt cst s.f.g
  up : ∀ i, i < k → (s.up i = true ↔ (after (s.nodes i) (s.f.consumed i)).exited = false)
  off : ∀ i, k ≤ i → s.up i = false ∧ s.f.pending i = []
  st : ∀ i, i < k → s.st i = st0 i
  slept : ∀ i, k ≤ i → i < N → s.next i = st0 i

theorem next_congr {s s' : FA w c} {i : Nat} (h1 : s'.first = s.first) (h2 : s'.st i = s.st i)
    (h3 : s'.f.consumed i = s.f.consumed i) : s'.next i = s.next i := by
  unfold FA.next FA.nodes
  rw [h1, h3, h2]

section
variable {N k : Nat} {em : List (Msg D) → Msg D → List (Cmd D)} {st0 : (i : Nat) → (w i).σ}
  {cst : c.σ} {h0 : List (Msg D)} {ts : List D} {s s' : FA w c} {rest : List (Msg D)}
  {ci co : Nat → Nat} {cap : Nat}

/-- the steps of the threads of the farm, as steps of C21 -/
theorem Run.farm_eq (h : Run N k em st0 cst h0 ts s rest) (hkN : k ≤ N) (a : FAct) (s' : FA w c)
    (hs : fastep N ci co cap em s (.farm a) = some s') :
    ∃ f', fstep k s.nodes ci co s.f a = some f' ∧ s'.f = f' ∧ s'.st = s.st ∧ s'.eEos = s.eEos ∧
      s'.hist = s.hist ∧ s'.rl = s.rl ∧ s'.rg = s.rg ∧ s'.inp = s.inp ∧ s'.first = s.first ∧
      s'.todo = s.todo ∧ s'.mpc = s.mpc ∧ s'.cur = s.cur ∧ s'.got = s.got ∧
      s'.res = s.res ++ f'.g.out.drop s.f.g.out.length ∧
      s'.up = (match a with
        | .pop i => upd s.up i (!(after (s.nodes i) (f'.consumed i)).exited)
        | _ => s.up) := by
  have hgo : ∀ {a : FAct} {n : Nat} {f' : F D c.toNode}, a ≠ .gather →
      fstep n s.nodes ci co s.f a = some f' → f'.g.out.drop s.f.g.out.length = [] := by
    intro a n f' ha hf
    cases a with
    | gather => exact absurd rfl ha
    | emit =>
      simp only [fstep] at hf
      split at hf <;> simp only [Option.some.injEq, reduceCtorEq] at hf <;> subst hf <;> simp
    | pop i =>
      simp only [fstep] at hf
      split at hf
      · split at hf <;> simp only [Option.some.injEq, reduceCtorEq] at hf; subst hf; simp
      · simp at hf
    | push i =>
      simp only [fstep] at hf
      split at hf
      · split at hf <;> simp only [Option.some.injEq, reduceCtorEq] at hf; subst hf; simp
      · simp at hf
  cases a with
  | emit =>
    simp only [fastep, Option.map_eq_some_iff] at hs
    obtain ⟨f', hf, rfl⟩ := hs
    rw [h.rl] at hf
    refine ⟨f', hf, rfl, rfl, rfl, rfl, rfl, rfl, rfl, rfl, rfl, rfl, rfl, rfl, ?_, rfl⟩
    rw [hgo (by simp) hf]; simp
  | pop i =>
    simp only [fastep] at hs
    split at hs
    · rename_i hu
      simp only [Option.map_eq_some_iff] at hs
      obtain ⟨f', hf, rfl⟩ := hs
      have hik : i < k := by
        apply Classical.byContradiction
        intro hh
        have := (h.off i (by omega)).1
        rw [hu] at this; simp at this
      have hf' : fstep k s.nodes ci co s.f (.pop i) = some f' := by
        have e : ∀ n, i < n → fstep n s.nodes ci co s.f (.pop i) =
            fstep (i + 1) s.nodes ci co s.f (.pop i) := by
          intro n hn; simp only [fstep, hn, true_and, Nat.lt_succ_self]
        rw [e k hik, ← e N (by omega)]; exact hf
      refine ⟨f', hf', rfl, rfl, rfl, rfl, rfl, rfl, rfl, rfl, rfl, rfl, rfl, rfl, ?_, rfl⟩
      rw [hgo (by simp) hf]; simp
    · simp at hs
  | push i =>
    simp only [fastep, Option.map_eq_some_iff] at hs
    obtain ⟨f', hf, rfl⟩ := hs
    have hik : i < k := by
      apply Classical.byContradiction
      intro hh
      have hp := (h.off i (by omega)).2
      simp only [fstep, hp] at hf
      split at hf <;> simp at hf
    have hf' : fstep k s.nodes ci co s.f (.push i) = some f' := by
      have e : ∀ n, i < n → fstep n s.nodes ci co s.f (.push i) =
          fstep (i + 1) s.nodes ci co s.f (.push i) := by
        intro n hn; simp only [fstep, hn, true_and, Nat.lt_succ_self]
      rw [e k hik, ← e N (by omega)]; exact hf
    refine ⟨f', hf', rfl, rfl, rfl, rfl, rfl, rfl, rfl, rfl, rfl, rfl, rfl, rfl, ?_, rfl⟩
    rw [hgo (by simp) hf]; simp
  | gather =>
    simp only [fastep, Option.map_eq_some_iff] at hs
    obtain ⟨f', hf, rfl⟩ := hs
    rw [h.rg] at hf
    exact ⟨f', hf, rfl, rfl, rfl, rfl, rfl, rfl, rfl, rfl, rfl, rfl, rfl, rfl, rfl, rfl⟩

/-- an idle emitter makes no step of its own -/
theorem emit_busy {n : Nat} {f f' : F D c.toNode} {nodes : Nat → Node D}
    (hf : fstep n nodes ci co f .emit = some f') : ¬ (f.e.pc = .idle ∧ f.e.cmds = []) := by
  rintro ⟨h1, h2⟩
  simp [fstep, E.attempt, h1, h2] at hf

theorem Run.farm (h : Run N k em st0 cst h0 ts s rest) (hk : 0 < k) (hkN : k ≤ N)
    (hc : StaysOn c.toNode) {a : FAct} (hs : fastep N ci co cap em s (.farm a) = some s') :
    Run N k em st0 cst h0 ts s' rest ∧ s'.inp = s.inp ∧ s'.first = s.first ∧ s'.todo = s.todo ∧
      s'.mpc = s.mpc ∧ s'.cur = s.cur ∧ s'.got = s.got ∧
      (∃ x, s'.f.g.out = s.f.g.out ++ x ∧ s'.res = s.res ++ x) ∧
      (s.f.g.exited = true → s'.f.g = s.f.g) ∧
      (s.f.e.pc = .idle → s.f.e.cmds = [] → s'.f.e = s.f.e) := by
  obtain ⟨f', hf, e1, e2, e3, e4, e5, e6, e7, e8, e9, e10, e11, e12, e13, e14⟩ := h.farm_eq hkN a s' hs
  have hn : s'.nodes = s.nodes := by unfold FA.nodes; rw [e2]
  have hhat := fstep_hat (k := k) (w := s.nodes) (ci := ci) (co := co) (f := s.f)
    (rest := emAll em s.hist rest) (a := a) (fun ha => by subst ha; exact emit_busy hf)
  rw [hf] at hhat
  have hinv := h.inv.step hk hhat
  -- the collector
  have hg : GEnd k f'.g ∧ GOutAt cst f'.g ∧ (∃ x, f'.g.out = s.f.g.out ++ x) ∧
      (s.f.g.exited = true → f'.g = s.f.g) := by
    have same : f'.g = s.f.g → GEnd k f'.g ∧ GOutAt cst f'.g ∧ (∃ x, f'.g.out = s.f.g.out ++ x) ∧
        (s.f.g.exited = true → f'.g = s.f.g) := by
      intro e; rw [e]; exact ⟨h.gend, h.gout, ⟨[], by simp⟩, fun _ => rfl⟩
    cases a with
    | emit =>
      apply same
      simp only [fstep] at hf
      split at hf <;> simp only [Option.some.injEq, reduceCtorEq] at hf <;> subst hf <;> rfl
    | pop i =>
      apply same
      simp only [fstep] at hf
      split at hf
      · split at hf <;> simp only [Option.some.injEq, reduceCtorEq] at hf; subst hf; rfl
      · simp at hf
    | push i =>
      apply same
      simp only [fstep] at hf
      split at hf
      · split at hf <;> simp only [Option.some.injEq, reduceCtorEq] at hf; subst hf; rfl
      · simp at hf
    | gather =>
      simp only [fstep] at hf
      split at hf
      · simp at hf
      all_goals
        rename_i hat'
        simp only [Option.some.injEq] at hf
        subst hf
        refine ⟨h.gend.attempt hc hat', h.gout.attempt hc hat', ?_, ?_⟩
        · obtain ⟨x, hx⟩ := attempt_out hat'; exact ⟨x, hx.symm⟩
        · intro hx; simp [G.attempt, hx] at hat'
  obtain ⟨g1, g2, ⟨x, g3⟩, g4⟩ := hg
  have hcons : ∀ i, f'.consumed i ≠ s.f.consumed i → a = .pop i ∧ i < k := by
    intro i hi
    cases a with
    | emit =>
      exfalso; apply hi
      simp only [fstep] at hf
      split at hf <;> simp only [Option.some.injEq, reduceCtorEq] at hf <;> subst hf <;> rfl
    | gather =>
      exfalso; apply hi
      simp only [fstep] at hf
      split at hf <;> simp only [Option.some.injEq, reduceCtorEq] at hf <;> subst hf <;> rfl
    | push j =>
      exfalso; apply hi
      simp only [fstep] at hf
      split at hf
      · split at hf <;> simp only [Option.some.injEq, reduceCtorEq] at hf; subst hf; rfl
      · simp at hf
    | pop j =>
      simp only [fstep] at hf
      split at hf
      · rename_i hj
        split at hf <;> simp only [Option.some.injEq, reduceCtorEq] at hf
        subst hf
        by_cases hij : i = j
        · subst hij; exact ⟨rfl, hj.1⟩
        · exfalso; apply hi; simp [upd, hij]
      · simp at hf
  have hpend : ∀ i, k ≤ i → f'.pending i = s.f.pending i := by
    intro i hi
    cases a with
    | emit =>
      simp only [fstep] at hf
      split at hf <;> simp only [Option.some.injEq, reduceCtorEq] at hf <;> subst hf <;> rfl
    | gather =>
      simp only [fstep] at hf
      split at hf <;> simp only [Option.some.injEq, reduceCtorEq] at hf <;> subst hf <;> rfl
    | push j =>
      simp only [fstep] at hf
      split at hf
      · rename_i hj
        split at hf <;> simp only [Option.some.injEq, reduceCtorEq] at hf
        subst hf
        have : i ≠ j := by omega
        simp [upd, this]
      · simp at hf
    | pop j =>
      simp only [fstep] at hf
      split at hf
      · rename_i hj
        split at hf <;> simp only [Option.some.injEq, reduceCtorEq] at hf
        subst hf
        have : i ≠ j := by omega
        simp [upd, this]
      · simp at hf
  have hpop : ∀ i, a = .pop i → i < k := by
    rintro i rfl
    simp only [fstep] at hf
    split at hf
    · rename_i hj; exact hj.1
    · simp at hf
  refine ⟨⟨by rw [e5, h.rl], by rw [e6, h.rg], by rw [e4]; exact h.taken, by rw [e3]; exact h.eos,
    by rw [hn, e4, e1]; exact hinv, by rw [e1]; exact g1, by rw [e1]; exact g2, ?_, ?_,
    by rw [e2]; exact h.st, ?_⟩, e7, e8, e9, e10, e11, e12, ⟨x, by rw [e1]; exact g3, ?_⟩,
    by rw [e1]; exact g4, ?_⟩
  · intro i hi
    rw [hn, e1, e14]
    by_cases hp : ∃ j, a = .pop j
    · obtain ⟨j, rfl⟩ := hp
      simp only
      by_cases hij : i = j
      · subst hij; simp [upd]
      · have : f'.consumed i = s.f.consumed i := Classical.byContradiction fun hh => by
          have := (hcons i hh).1
          simp only [FAct.pop.injEq] at this
          exact hij this.symm
        rw [this]; simp only [upd, hij, if_false]; exact h.up i hi
    · have : f'.consumed i = s.f.consumed i := Classical.byContradiction fun hh => hp ⟨i, (hcons i hh).1⟩
      rw [this]
      cases a with
      | pop j => exact absurd ⟨j, rfl⟩ hp
      | emit => exact h.up i hi
      | push j => exact h.up i hi
      | gather => exact h.up i hi
  · intro i hi
    obtain ⟨o1, o2⟩ := h.off i hi
    refine ⟨?_, by rw [e1, hpend i hi]; exact o2⟩
    rw [e14]
    cases a with
    | pop j =>
      have := hpop j rfl
      have : i ≠ j := by omega
      simp only [upd, this, if_false]; exact o1
    | emit => exact o1
    | push j => exact o1
    | gather => exact o1
  · intro i hi hiN
    rw [← h.slept i hi hiN]
    have : f'.consumed i = s.f.consumed i := Classical.byContradiction fun hh => by
      have := (hcons i hh).2; omega
    exact next_congr e8 (by rw [e2]) (by rw [e1, this])
  · rw [e13, g3]; simp
  · intro hp hcm
    rw [e1]
    cases a with
    | emit => exact absurd ⟨hp, hcm⟩ (emit_busy hf)
    | gather =>
      simp only [fstep] at hf
      split at hf <;> simp only [Option.some.injEq, reduceCtorEq] at hf <;> subst hf <;> rfl
    | pop i =>
      simp only [fstep] at hf
      split at hf
      · split at hf <;> simp only [Option.some.injEq, reduceCtorEq] at hf; subst hf; rfl
      · simp at hf
    | push i =>
      simp only [fstep] at hf
      split at hf
      · split at hf <;> simp only [Option.some.injEq, reduceCtorEq] at hf; subst hf; rfl
      · simp at hf

theorem msgs_end {t : List (Msg D)} {m : Msg D} {rest : List (Msg D)} {ts : List D}
    (h : t ++ m :: rest = msgs ts) :
    (m = .eos ∧ rest = []) ∨ (∃ d, m = .data d ∧ rest ≠ []) := by
  rcases List.eq_nil_or_concat rest with rfl | ⟨r, x, rfl⟩
  · left
    have := List.append_inj_right' h (by simp)
    simp at this
    exact ⟨this, rfl⟩
  · right
    rw [List.concat_eq_append, ← List.cons_append, ← List.append_assoc] at h
    have := List.append_inj_left' h (by simp)
    have hm : m ∈ ts.map Msg.data := by rw [← this]; simp
    simp only [List.mem_map] at hm
    obtain ⟨d, -, rfl⟩ := hm
    exact ⟨d, rfl, by simp⟩

/-- the emitter takes a message: it now has the commands it was going to have -/
theorem Run.take {m : Msg D} {ms : List (Msg D)} (h : Run N k em st0 cst h0 ts s (m :: ms))
    {s' : FA w c} (hs : fastep N ci co cap em s .take = some s') {inp' : List (Msg D)}
    (hinp : s.inp = m :: inp') :
    Run N k em st0 cst h0 ts s' ms ∧ s'.inp = inp' ∧ s'.first = s.first ∧ s'.todo = s.todo ∧
      s'.mpc = s.mpc ∧ s'.cur = s.cur ∧ s'.got = s.got ∧ s'.f.g = s.f.g ∧ s'.res = s.res ∧
      hat k (emAll em s'.hist ms) s'.f = hat k (emAll em s.hist (m :: ms)) s.f := by
  simp only [fastep] at hs
  split at hs
  · rename_i m' ms' h1 h2 h3 h4
    simp only [Option.some.injEq] at hs
    rw [hinp] at h4
    simp only [List.cons.injEq] at h4
    obtain ⟨rfl, rfl⟩ := h4
    have hh : hat k (emAll em (s.hist ++ [m]) ms)
        { s.f with e := { s.f.e with cmds := emOne em s.hist m } } =
        hat k (emAll em s.hist (m :: ms)) s.f := by
      simp only [hat, emAll, h3, List.nil_append]
    obtain ⟨t, ht1, ht2⟩ := h.taken
    subst hs
    refine ⟨⟨h.rl, h.rg, ⟨t ++ [m], by simpa using ht1, by simp [ht2]⟩, ?_, ?_, h.gend, h.gout, h.up,
      h.off, h.st, h.slept⟩, rfl, rfl, rfl, rfl, rfl, rfl, rfl, rfl, hh⟩
    · rcases msgs_end ht1 with ⟨rfl, rfl⟩ | ⟨d, rfl, hr⟩
      · simp
      · simp [hr]
    · show FInv k s.nodes _ (hat k (emAll em (s.hist ++ [m]) ms) _)
      rw [hh]; exact h.inv
  · simp at hs

end
end FF.Farm
