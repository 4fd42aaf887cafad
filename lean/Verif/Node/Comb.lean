import Verif.Node.Pipe
/-!
# C47: combining nodes is composing them
-/
namespace FF.Node
variable {D : Type}

/-! ## Specification -/

/-- The part of a stream that a receiver expecting one end mark can see: up to and including the
first end mark. -/
def upTo : List (Msg D) → List (Msg D)
  | [] => []
  | m :: ms => if m.isMark then [m] else m :: upTo ms

/-- a task or an `EOS` -/
def dataOrEos : Msg D → Bool
  | .data _ | .eos => true
  | _ => false

/-- A well-behaved node.  A standard node sends tasks (or `EOS`) and returns a task, `GO_ON`, `FLUSH`
or `EOS`.  A combined node returns `GO_ON`, or `GO_OUT` after having sent `EOS`. -/
structure Ok (n : Node D) : Prop where
  sends : ∀ s t, t.isData = true ∨ t = .nul → ∀ m ∈ (n.svc s t).2.1, dataOrEos m = true
  eosn : ∀ s, ∀ m ∈ (n.eosn s).2, dataOrEos m = true
  leaf : n.comp = false → ∀ s t, t.isData = true ∨ t = .nul →
    (∃ d, (n.svc s t).2.2 = .data d) ∨ (n.svc s t).2.2 = .goon ∨ (n.svc s t).2.2 = .flush ∨
      (n.svc s t).2.2 = .eos
  comp : n.comp = true → ∀ s t, t.isData = true ∨ t = .nul →
    (n.svc s t).2.2 = .goon ∨ ((n.svc s t).2.2 = .goout ∧ Msg.eos ∈ (n.svc s t).2.1)

/-- What may arrive at a node: tasks, `EOS`, `EOSW`; a source is called on `NULL`. -/
def fits (n : Node D) (m : Msg D) : Prop :=
  m.isData = true ∨ m = .eos ∨ m = .eosw ∨ (m = .nul ∧ n.src = true)

/-! ## Proof -/

theorem upTo_mark {xs : List (Msg D)} (h : ∃ m ∈ xs, m.isMark = true) (ys : List (Msg D)) :
    upTo (xs ++ ys) = upTo xs := by
  induction xs with
  | nil => simp at h
  | cons x xs ih =>
    simp only [List.cons_append, upTo]
    split
    · rfl
    · rename_i hx
      rw [ih]
      obtain ⟨m, hm, hmm⟩ := h
      rcases List.mem_cons.1 hm with rfl | hm
      · exact absurd hmm hx
      · exact ⟨m, hm, hmm⟩

theorem upTo_congr (xs : List (Msg D)) {ys zs : List (Msg D)} (h : upTo ys = upTo zs) :
    upTo (xs ++ ys) = upTo (xs ++ zs) := by
  induction xs with
  | nil => exact h
  | cons x xs ih => simp only [List.cons_append, upTo, ih]

theorem upTo_prefix (xs : List (Msg D)) : upTo xs <+: xs := by
  induction xs with
  | nil => exact List.prefix_rfl
  | cons x xs ih =>
    simp only [upTo]
    split
    · exact ⟨xs, rfl⟩
    · exact (List.prefix_cons_inj x).2 ih

/-- A node that expects one end mark reads nothing after it. -/
theorem run_upTo (n : Node D) (l : L n) (hn : l.neos ≤ 1) (xs : List (Msg D)) :
    run n l (upTo xs) = run n l xs := by
  induction xs generalizing l with
  | nil => rfl
  | cons x xs ih =>
    cases hl : l.exited with
    | true => rw [run_exited n l hl, run_exited n l hl]
    | false =>
      simp only [upTo]
      split
      · rename_i hx
        rw [run_cons n l hl, run_cons n l hl]
        obtain ⟨fwd, hb⟩ := body_mark n l hx
        rw [hb, markBody, if_neg (by omega)]
        rw [run_exited n _ rfl, run_exited n _ rfl]
      · rename_i hx
        rw [run_cons n l hl, run_cons n l hl, ih]
        cases x <;> simp [Msg.isMark] at hx <;> simp [body, svcBody, hn]

theorem stream_upTo (n : Node D) (xs : List (Msg D)) : stream n (upTo xs) = stream n xs := by
  unfold stream
  rw [run_upTo n _ (by simp [L.start])]

/-- what a well-behaved node returns, seen by the loop and by `push_comp_local` -/
theorem Ok.ret {n : Node D} (h : Ok n) (s : n.σ) {t : Msg D} (ht : t.isData = true ∨ t = .nul) :
    (if dropped (n.svc s t).2.2 then [] else [(n.svc s t).2.2]) = visible (n.svc s t).2.2 ∧
    (∀ m ∈ visible (n.svc s t).2.2, dataOrEos m = true) ∧
    (continues (n.svc s t).2.2 = false →
      ∃ m ∈ (n.svc s t).2.1 ++ visible (n.svc s t).2.2, m.isMark = true) := by
  cases hc : n.comp with
  | false =>
    rcases h.leaf hc s t ht with ⟨d, hr⟩ | hr | hr | hr <;>
      simp [hr, dropped, visible, dataOrEos, continues, Msg.isMark]
  | true =>
    rcases h.comp hc s t ht with hr | ⟨hr, hm⟩
    · simp [hr, dropped, visible, continues]
    · simp only [hr, dropped, visible, if_true, List.append_nil]
      refine ⟨trivial, by simp, fun _ => ⟨_, hm, rfl⟩⟩

theorem feedAll_run {b : Node D} (hb : Ok b) (lb : L b) (he : lb.exited = false) (hn : lb.neos = 1)
    (outs : List (Msg D)) (ho : ∀ m ∈ outs, dataOrEos m = true) :
    (∀ m ∈ (feedAll b lb.st outs).2, dataOrEos m = true) ∧
    ((run b lb outs).1.exited = false →
      (feedAll b lb.st outs).2 = (run b lb outs).2 ∧
      (feedAll b lb.st outs).1 = (run b lb outs).1.st ∧ (run b lb outs).1.neos = 1) ∧
    ((run b lb outs).1.exited = true →
      (∃ m ∈ (run b lb outs).2, m.isMark = true) ∧
      (∃ m ∈ (feedAll b lb.st outs).2, m.isMark = true) ∧
      upTo (feedAll b lb.st outs).2 = upTo (run b lb outs).2) := by
  induction outs generalizing lb with
  | nil => simp [feedAll, run, he, hn]
  | cons m ms ih =>
    have hms : ∀ x ∈ ms, dataOrEos x = true := fun x hx => ho x (by simp [hx])
    -- what the second node emits from any state is tasks and `EOS`
    have hall : ∀ (s : b.σ) (l : List (Msg D)), (∀ x ∈ l, dataOrEos x = true) →
        ∀ x ∈ (feedAll b s l).2, dataOrEos x = true := by
      intro s l
      induction l generalizing s with
      | nil => intro _ x hx; simp [feedAll] at hx
      | cons y l ihl =>
        intro hl x hx
        simp only [feedAll, List.mem_append] at hx
        rcases hx with hx | hx
        · have hy := hl y (by simp)
          cases y with
          | eos =>
            simp only [feed, List.mem_append, List.mem_singleton] at hx
            rcases hx with hx | rfl
            · exact hb.eosn s x hx
            · rfl
          | data d =>
            have ht : (Msg.data d : Msg D).isData = true ∨ (Msg.data d : Msg D) = .nul := Or.inl rfl
            obtain ⟨h1, h2, _⟩ := hb.ret s ht
            simp only [feed, h1, List.mem_append] at hx
            rcases hx with hx | hx
            · exact hb.sends s _ ht x hx
            · exact h2 x hx
          | _ => simp [dataOrEos] at hy
        · exact ihl _ (fun x hx => hl x (by simp [hx])) x hx
    refine ⟨hall _ _ ho, ?_⟩
    rw [run_cons b lb he]
    have hm := ho m (by simp)
    cases m with
    | eos =>
      have hbody : body b lb .eos = (L.mk (b.eosn lb.st).1 0 true lb.calls,
          (b.eosn lb.st).2 ++ [.eos]) := by
        simp [body, markBody, hn]
      rw [hbody, run_exited b _ rfl]
      refine ⟨by simp, fun _ => ⟨⟨.eos, by simp, rfl⟩, ⟨.eos, by simp [feedAll, feed], rfl⟩, ?_⟩⟩
      simp only [feedAll, feed, List.append_nil]
      exact upTo_mark ⟨.eos, by simp, rfl⟩ _
    | data d =>
      have ht : (Msg.data d : Msg D).isData = true ∨ (Msg.data d : Msg D) = .nul := Or.inl rfl
      obtain ⟨h1, h2, h3⟩ := hb.ret lb.st ht
      rw [body_task b lb (t := .data d) rfl]
      simp only [feedAll, feed, h1]
      cases hcont : continues (b.svc lb.st (.data d)).2.2 with
      | true =>
        obtain ⟨_, i2, i3⟩ := ih (svcBody b lb (.data d)).1 (by simp [svcBody, hcont]) hn hms
        refine ⟨fun hx => ?_, fun hx => ?_⟩
        · obtain ⟨j1, j2, j3⟩ := i2 hx
          refine ⟨?_, j2, j3⟩
          rw [← j1]; rfl
        · obtain ⟨⟨x, hx1, hx2⟩, ⟨y, hy1, hy2⟩, j3⟩ := i3 hx
          refine ⟨⟨x, List.mem_append_right _ hx1, hx2⟩, ⟨y, List.mem_append_right _ hy1, hy2⟩, ?_⟩
          exact upTo_congr _ j3
      | false =>
        have hex : (svcBody b lb (.data d)).1.exited = true := by simp [svcBody, hcont]
        rw [run_exited b _ hex]
        have hmk := h3 hcont
        refine ⟨fun hx => by simp [hex] at hx, fun _ => ⟨?_, ?_, ?_⟩⟩
        · simpa [svcBody] using hmk
        · obtain ⟨x, hx1, hx2⟩ := hmk
          exact ⟨x, List.mem_append_left _ hx1, hx2⟩
        · simp only [List.append_nil]
          exact upTo_mark hmk _
    | _ => simp [dataOrEos] at hm

theorem callFirst_eq {a : Node D} {m : Msg D} (hm : m.isData = true ∨ (m = .nul ∧ a.src = true))
    (s : a.σ) : callFirst a s m = a.svc s m := by
  unfold callFirst
  split
  · rfl
  · rename_i h
    simp only [Bool.or_eq_true, not_or] at h
    rcases hm with hm | hm
    · cases m <;> simp [Msg.isData] at hm
      rfl
    · exact absurd hm.2 h.2

theorem firstOut_eq {a : Node D} (ha : Ok a) (s : a.σ) {t : Msg D}
    (ht : t.isData = true ∨ t = .nul) :
    firstOut a (a.svc s t).2.1 (a.svc s t).2.2 = (a.svc s t).2.1 ++ visible (a.svc s t).2.2 ∧
    continues (combRet a (a.svc s t).2.2) = continues (a.svc s t).2.2 ∧
    visible (combRet a (a.svc s t).2.2) = [] ∧
    (combRet a (a.svc s t).2.2 = .goon ∨
      (combRet a (a.svc s t).2.2 = .goout ∧
        Msg.eos ∈ (a.svc s t).2.1 ++ visible (a.svc s t).2.2)) := by
  unfold firstOut combRet
  cases hc : a.comp with
  | false =>
    rcases ha.leaf hc s t ht with ⟨d, hr⟩ | hr | hr | hr <;>
      simp [hr, dropped, visible, continues]
  | true =>
    rcases ha.comp hc s t ht with hr | ⟨hr, hm⟩
    · simp [hr, visible, continues]
    · simp [hr, visible, continues, hm]

/-- the general simulation between the combined node and the two stages -/
theorem comb_run {a b : Node D} (ha : Ok a) (hb : Ok b) (l : L (comb a b)) (la : L a) (lb : L b)
    (hl : l.exited = false) (hla : la.exited = false) (hlb : lb.exited = false)
    (hn : l.neos = 1) (hna : la.neos = 1) (hnb : lb.neos = 1) (hst : l.st = (la.st, lb.st))
    (inp : List (Msg D)) (hinp : ∀ m ∈ inp, fits a m) :
    upTo (run (comb a b) l inp).2 = upTo (run b lb (run a la inp).2).2 := by
  induction inp generalizing l la lb with
  | nil => simp [run]
  | cons m ms ih =>
    have hms : ∀ x ∈ ms, fits a x := fun x hx => hinp x (by simp [hx])
    rw [run_cons _ l hl, run_cons a la hla]
    -- the two kinds of messages
    have mark : ∀ m : Msg D, (m = .eos ∨ m = .eosw) →
        upTo ((body (comb a b) l m).2 ++ (run (comb a b) (body (comb a b) l m).1 ms).2) =
        upTo (run b lb ((body a la m).2 ++ (run a (body a la m).1 ms).2)).2 := by
      intro m hm
      have hmk : m.isMark = true := by rcases hm with rfl | rfl <;> rfl
      have h1 : ∀ (n : Node D) (l : L n), l.neos = 1 →
          body n l m = (L.mk (n.eosn l.st).1 0 true l.calls, (n.eosn l.st).2 ++ [m]) := by
        intro n l h
        rcases hm with rfl | rfl <;> simp [body, markBody, h]
      have hr : ∀ (n : Node D) (st : n.σ) (c : List (Msg D)),
          (run n (L.mk st 0 true c) ms).2 = [] := fun n st c => by rw [run_exited n _ rfl]
      rw [h1 _ l hn, h1 _ la hna]
      simp only [hr]
      simp only [List.append_nil]
      rw [run_append]
      obtain ⟨_, f1, f2⟩ := feedAll_run hb lb hlb hnb (a.eosn la.st).2 (ha.eosn _)
      have hev : ((comb a b).eosn l.st).2 =
          (feedAll b lb.st (a.eosn la.st).2).2 ++ (b.eosn (feedAll b lb.st (a.eosn la.st).2).1).2 := by
        rw [hst]; rfl
      rw [hev]
      cases hx : (run b lb (a.eosn la.st).2).1.exited with
      | false =>
        obtain ⟨g1, g2, g3⟩ := f1 hx
        rw [run_cons b _ hx, h1 _ _ g3]
        simp only [run, List.append_nil]
        rw [g1, g2, List.append_assoc]
      | true =>
        obtain ⟨g1, g2, g3⟩ := f2 hx
        rw [run_exited b _ hx]
        simp only [List.append_nil]
        rw [List.append_assoc, upTo_mark g2, g3]
    have task : ∀ m : Msg D, (m.isData = true ∨ (m = .nul ∧ a.src = true)) →
        upTo ((body (comb a b) l m).2 ++ (run (comb a b) (body (comb a b) l m).1 ms).2) =
        upTo (run b lb ((body a la m).2 ++ (run a (body a la m).1 ms).2)).2 := by
      intro m hm
      have ht : m.isData = true ∨ m = .nul := hm.imp id And.left
      have hit : isTask m = true := by
        rcases ht with h | rfl
        · cases m <;> simp [Msg.isData] at h; rfl
        · rfl
      rw [body_task _ l hit, body_task a la hit]
      obtain ⟨e1, e2, e3, _⟩ := firstOut_eq ha la.st ht
      have hsvc : (comb a b).svc l.st m =
          (((a.svc la.st m).1,
            (feedAll b lb.st ((a.svc la.st m).2.1 ++ visible (a.svc la.st m).2.2)).1),
           (feedAll b lb.st ((a.svc la.st m).2.1 ++ visible (a.svc la.st m).2.2)).2,
           combRet a (a.svc la.st m).2.2) := by
        rw [hst]
        simp only [comb, callFirst_eq hm]
        rw [e1]
      have ho : ∀ x ∈ (a.svc la.st m).2.1 ++ visible (a.svc la.st m).2.2, dataOrEos x = true := by
        intro x hx
        rcases List.mem_append.1 hx with hx | hx
        · exact ha.sends _ _ ht x hx
        · exact (ha.ret la.st ht).2.1 x hx
      obtain ⟨_, f1, f2⟩ := feedAll_run hb lb hlb hnb _ ho
      have hout : (svcBody (comb a b) l m).2 =
          (feedAll b lb.st ((a.svc la.st m).2.1 ++ visible (a.svc la.st m).2.2)).2 := by
        simp only [svcBody, hsvc, e3, List.append_nil]
      have houta : (svcBody a la m).2 = (a.svc la.st m).2.1 ++ visible (a.svc la.st m).2.2 := rfl
      rw [hout, houta, run_append]
      simp only
      cases hx : (run b lb ((a.svc la.st m).2.1 ++ visible (a.svc la.st m).2.2)).1.exited with
      | true =>
        obtain ⟨g1, g2, g3⟩ := f2 hx
        rw [run_exited b _ hx]
        simp only [List.append_nil]
        rw [upTo_mark g2, g3]
      | false =>
        obtain ⟨g1, g2, g3⟩ := f1 hx
        rw [g1]
        apply upTo_congr
        cases hcont : continues (a.svc la.st m).2.2 with
        | true =>
          apply ih
          · simp [svcBody, hsvc, e2, hcont]
          · simp [svcBody, hcont]
          · exact hx
          · exact hn
          · exact hna
          · exact g3
          · show ((comb a b).svc l.st m).1 = _
            rw [hsvc, g2]
            rfl
          · exact hms
        | false =>
          rw [run_exited (comb a b) (svcBody (comb a b) l m).1 (by simp [svcBody, hsvc, e2, hcont]),
            run_exited a (svcBody a la m).1 (by simp [svcBody, hcont])]
          simp [run]
    rcases hinp m (by simp) with h | h | h | h
    · exact task m (Or.inl h)
    · exact mark m (Or.inl h)
    · exact mark m (Or.inr h)
    · exact task m (Or.inr h)

/-- **C47**: for every pair of well-behaved nodes and every input stream, the stream that leaves
`combine_nodes(a, b)`, up to its end mark, is the stream that leaves the pipeline of `a` and `b`, up
to its end mark — also when either of them ends the stream early. -/
theorem C47_comb_partial {a b : Node D} (ha : Ok a) (hb : Ok b) (inp : List (Msg D))
    (hinp : ∀ m ∈ inp, fits a m) :
    upTo (stream (comb a b) inp) = upTo (stream b (stream a inp)) :=
  comb_run ha hb _ _ _ rfl rfl rfl rfl rfl rfl rfl inp hinp

theorem Ok.feedAll {b : Node D} (hb : Ok b) (s : b.σ) (outs : List (Msg D))
    (ho : ∀ m ∈ outs, dataOrEos m = true) :
    (∀ m ∈ (feedAll b s outs).2, dataOrEos m = true) ∧
    (Msg.eos ∈ outs → Msg.eos ∈ (FF.Node.feedAll b s outs).2) := by
  refine ⟨(feedAll_run hb { st := s, neos := 1, exited := false, calls := [] } rfl rfl outs ho).1, ?_⟩
  induction outs generalizing s with
  | nil => intro h; simp at h
  | cons m ms ih =>
    intro h
    simp only [FF.Node.feedAll, List.mem_append]
    rcases List.mem_cons.1 h with rfl | h
    · left; simp [feed]
    · right; exact ih _ (fun x hx => ho x (by simp [hx])) h

/-- Combining well-behaved nodes gives a well-behaved node. -/
theorem Ok.comb {a b : Node D} (ha : Ok a) (hb : Ok b) : Ok (comb a b) := by
  have hcall : ∀ (s : a.σ) (t : Msg D), callFirst a s t = a.svc s t ∨
      callFirst a s t = (s, [], .goon) := by
    intro s t
    unfold callFirst
    split
    · exact Or.inl rfl
    · cases t <;> simp
  have hfo : ∀ (s : a.σ) (t : Msg D), t.isData = true ∨ t = .nul →
      (∀ m ∈ firstOut a (callFirst a s t).2.1 (callFirst a s t).2.2, dataOrEos m = true) ∧
      (combRet a (callFirst a s t).2.2 = .goon ∨
        (combRet a (callFirst a s t).2.2 = .goout ∧
          Msg.eos ∈ firstOut a (callFirst a s t).2.1 (callFirst a s t).2.2)) := by
    intro s t ht
    rcases hcall s t with h | h
    · rw [h]
      obtain ⟨e1, _, _, e4⟩ := firstOut_eq ha s ht
      rw [e1]
      refine ⟨?_, e4⟩
      intro m hm
      rcases List.mem_append.1 hm with hm | hm
      · exact ha.sends s t ht m hm
      · exact (ha.ret s ht).2.1 m hm
    · rw [h]
      refine ⟨?_, Or.inl ?_⟩
      · intro m hm; simp [firstOut, dropped] at hm
      · unfold combRet; split <;> rfl
  refine ⟨?_, ?_, ?_, ?_⟩
  · intro s t ht m hm
    exact (hb.feedAll s.2 _ (hfo s.1 t ht).1).1 m hm
  · intro s m hm
    simp only [FF.Node.comb, List.mem_append] at hm
    rcases hm with hm | hm
    · exact (hb.feedAll s.2 _ (ha.eosn s.1)).1 m hm
    · exact hb.eosn _ m hm
  · intro h; simp [FF.Node.comb] at h
  · intro _ s t ht
    rcases (hfo s.1 t ht).2 with h | ⟨h, hm⟩
    · exact Or.inl h
    · exact Or.inr ⟨h, (hb.feedAll s.2 _ (hfo s.1 t ht).1).2 hm⟩

/-- An expression `combine_nodes(combine_nodes(…), …)`. -/
inductive Tree (D : Type) where
  | leaf (n : Node D)
  | comb (a b : Tree D)

def Tree.node : Tree D → Node D
  | .leaf n => n
  | .comb a b => FF.Node.comb a.node b.node

/-- the nodes of the expression, from left to right -/
def Tree.stages : Tree D → List (Node D)
  | .leaf n => [n]
  | .comb a b => a.stages ++ b.stages

/-- the stream function of a pipeline with these stages -/
def pipeline : List (Node D) → List (Msg D) → List (Msg D)
  | [], inp => inp
  | n :: ns, inp => pipeline ns (stream n inp)

theorem pipeline_append (xs ys : List (Node D)) (inp : List (Msg D)) :
    pipeline (xs ++ ys) inp = pipeline ys (pipeline xs inp) := by
  induction xs generalizing inp with
  | nil => rfl
  | cons x xs ih => exact ih _

theorem Tree.ok {t : Tree D} (h : ∀ n ∈ t.stages, Ok n) : Ok t.node := by
  induction t with
  | leaf n => exact h n (by simp [stages])
  | comb a b iha ihb =>
    exact Ok.comb (iha fun n hn => h n (by simp [stages, hn]))
      (ihb fun n hn => h n (by simp [stages, hn]))

/-- what leaves a well-behaved node is tasks, `EOS` and `EOSW` -/
theorem stream_fits {n : Node D} (hn : Ok n) (inp : List (Msg D)) (hinp : ∀ m ∈ inp, fits n m) :
    ∀ m ∈ stream n inp, m.isData = true ∨ m = .eos ∨ m = .eosw := by
  have hde : ∀ m : Msg D, dataOrEos m = true → m.isData = true ∨ m = .eos ∨ m = .eosw := by
    intro m hm; cases m <;> simp [dataOrEos] at hm <;> simp [Msg.isData]
  have key : ∀ (inp : List (Msg D)) (l : L n), (∀ m ∈ inp, fits n m) → ∀ m ∈ (run n l inp).2,
      m.isData = true ∨ m = .eos ∨ m = .eosw := by
    intro inp
    induction inp with
    | nil => intro l _ m hm; simp [run] at hm
    | cons x xs ih =>
      intro l hx m hm
      cases hl : l.exited with
      | true => rw [run_exited n l hl] at hm; simp at hm
      | false =>
        rw [run_cons n l hl] at hm
        rcases List.mem_append.1 hm with hm | hm
        · have mk : ∀ fwd : Msg D, (fwd = .eos ∨ fwd = .eosw) → m ∈ (markBody n l [fwd]).2 →
              m.isData = true ∨ m = .eos ∨ m = .eosw := by
            intro fwd hf hm
            simp only [markBody] at hm
            split at hm
            · simp at hm
            · simp only [List.mem_append, List.mem_singleton] at hm
              rcases hm with hm | rfl
              · exact hde m (hn.eosn _ m hm)
              · exact Or.inr hf
          have tk : x.isData = true ∨ x = .nul → m ∈ (svcBody n l x).2 →
              m.isData = true ∨ m = .eos ∨ m = .eosw := by
            intro ht hm
            rcases List.mem_append.1 hm with hm | hm
            · exact hde m (hn.sends _ _ ht m hm)
            · exact hde m ((hn.ret _ ht).2.1 m hm)
          rcases hx x (by simp) with h | rfl | rfl | ⟨rfl, _⟩
          · rw [body_task n l (by cases x <;> simp [Msg.isData] at h; rfl)] at hm
            exact tk (Or.inl h) hm
          · exact mk .eos (Or.inl rfl) hm
          · exact mk .eosw (Or.inr rfl) hm
          · exact tk (Or.inr rfl) hm
        · exact ih _ (fun y hy => hx y (by simp [hy])) m hm
  exact key inp _ hinp

theorem upTo_mem {xs : List (Msg D)} {m : Msg D} (h : m ∈ upTo xs) : m ∈ xs :=
  (upTo_prefix xs).subset h

/-- **C47, any nesting**: for every expression built with `combine_nodes` from well-behaved nodes, the
combined node produces, up to its end mark, what the pipeline of its nodes produces. -/
theorem C47_nested_partial (t : Tree D) (h : ∀ n ∈ t.stages, Ok n) (inp : List (Msg D))
    (hinp : ∀ m ∈ inp, m.isData = true ∨ m = .eos ∨ m = .eosw) :
    upTo (stream t.node inp) = upTo (pipeline t.stages inp) := by
  induction t generalizing inp with
  | leaf n => rfl
  | comb a b iha ihb =>
    have ha : ∀ n ∈ a.stages, Ok n := fun n hn => h n (by simp [Tree.stages, hn])
    have hb : ∀ n ∈ b.stages, Ok n := fun n hn => h n (by simp [Tree.stages, hn])
    have hf : ∀ n : Node D, ∀ m ∈ inp, fits n m := fun n m hm => by
      rcases hinp m hm with h | h | h
      · exact Or.inl h
      · exact Or.inr (Or.inl h)
      · exact Or.inr (Or.inr (Or.inl h))
    have h1 : upTo (stream (Tree.comb a b).node inp) =
        upTo (stream b.node (stream a.node inp)) := C47_comb_partial (Tree.ok ha) (Tree.ok hb) inp (hf _)
    rw [h1]
    simp only [Tree.stages, pipeline_append]
    -- the pipeline of `b` reads only up to the first mark as well
    have hcut : ∀ (ns : List (Node D)) (xs : List (Msg D)), ns ≠ [] →
        pipeline ns (upTo xs) = pipeline ns xs := by
      intro ns xs hne
      cases ns with
      | nil => exact absurd rfl hne
      | cons n ns => simp only [pipeline, stream_upTo]
    have hne : b.stages ≠ [] := by
      clear ihb h1 h hb
      induction b with
      | leaf n => simp [Tree.stages]
      | comb c d ihc _ => simp [Tree.stages, ihc]
    rw [← hcut b.stages _ hne, ← iha ha inp hinp, ← stream_upTo b.node (stream a.node inp)]
    apply ihb hb
    intro m hm
    exact stream_fits (Tree.ok ha) inp (hf _) m (upTo_mem hm)

/-! ## Exactly one end mark -/

/-- only tasks -/
def AllData (xs : List (Msg D)) : Prop := ∀ m ∈ xs, m.isData = true

theorem AllData.append {xs ys : List (Msg D)} (h : AllData xs) (h' : AllData ys) :
    AllData (xs ++ ys) := fun m hm => (List.mem_append.1 hm).elim (h m) (h' m)

/-- A node that sends only tasks and never ends the stream by itself. -/
structure Steady (n : Node D) : Prop where
  sends : ∀ s t, t.isData = true ∨ t = .nul → AllData (n.svc s t).2.1
  eosn : ∀ s, AllData (n.eosn s).2
  leaf : n.comp = false → ∀ s t, t.isData = true ∨ t = .nul →
    (∃ d, (n.svc s t).2.2 = .data d) ∨ (n.svc s t).2.2 = .goon ∨ (n.svc s t).2.2 = .flush
  comp : n.comp = true → ∀ s t, t.isData = true ∨ t = .nul → (n.svc s t).2.2 = .goon

/-- A node that sends only tasks and may end the stream by itself: a standard node by returning
`EOS`, a combined node by sending `EOS` last and returning `GO_OUT`. -/
structure Ending (n : Node D) : Prop where
  eosn : ∀ s, AllData (n.eosn s).2
  leaf : n.comp = false → ∀ s t, t.isData = true ∨ t = .nul → AllData (n.svc s t).2.1 ∧
    ((∃ d, (n.svc s t).2.2 = .data d) ∨ (n.svc s t).2.2 = .goon ∨ (n.svc s t).2.2 = .flush ∨
      (n.svc s t).2.2 = .eos)
  comp : n.comp = true → ∀ s t, t.isData = true ∨ t = .nul →
    (AllData (n.svc s t).2.1 ∧ (n.svc s t).2.2 = .goon) ∨
    (∃ ds, AllData ds ∧ (n.svc s t).2.1 = ds ++ [.eos] ∧ (n.svc s t).2.2 = .goout)

theorem Steady.ending {n : Node D} (h : Steady n) : Ending n where
  eosn := h.eosn
  leaf hc s t ht := ⟨h.sends s t ht, by rcases h.leaf hc s t ht with h | h | h <;> simp [h]⟩
  comp hc s t ht := Or.inl ⟨h.sends s t ht, h.comp hc s t ht⟩

theorem dataOrEos_of_data {m : Msg D} (h : m.isData = true) : dataOrEos m = true := by
  cases m <;> simp [Msg.isData] at h; rfl

theorem Ending.ok {n : Node D} (h : Ending n) : Ok n where
  sends s t ht m hm := by
    cases hc : n.comp with
    | false => exact dataOrEos_of_data ((h.leaf hc s t ht).1 m hm)
    | true =>
      rcases h.comp hc s t ht with ⟨h1, _⟩ | ⟨ds, h1, h2, _⟩
      · exact dataOrEos_of_data (h1 m hm)
      · rw [h2] at hm
        rcases List.mem_append.1 hm with hm | hm
        · exact dataOrEos_of_data (h1 m hm)
        · simp only [List.mem_singleton] at hm; subst hm; rfl
  eosn s m hm := dataOrEos_of_data (h.eosn s m hm)
  leaf hc s t ht := (h.leaf hc s t ht).2
  comp hc s t ht := by
    rcases h.comp hc s t ht with ⟨_, h2⟩ | ⟨ds, _, h2, h3⟩
    · exact Or.inl h2
    · exact Or.inr ⟨h3, by rw [h2]; simp⟩

theorem upTo_data {xs : List (Msg D)} (h : AllData xs) (ys : List (Msg D)) :
    upTo (xs ++ ys) = xs ++ upTo ys := by
  induction xs with
  | nil => rfl
  | cons x xs ih =>
    have hx := h x (by simp)
    have : x.isMark = false := by cases x <;> simp [Msg.isData] at hx; rfl
    simp only [List.cons_append, upTo, this]
    rw [ih fun m hm => h m (by simp [hm])]
    simp

/-- the stream of such a node has nothing after its end mark -/
theorem Ending.upTo_stream {n : Node D} (h : Ending n) (inp : List (Msg D))
    (hinp : ∀ m ∈ inp, fits n m) : upTo (stream n inp) = stream n inp := by
  have key : ∀ (inp : List (Msg D)) (l : L n), l.exited = false → l.neos = 1 →
      (∀ m ∈ inp, fits n m) → upTo (run n l inp).2 = (run n l inp).2 := by
    intro inp
    induction inp with
    | nil => intro l _ _ _; rfl
    | cons x xs ih =>
      intro l hl hn hx
      have hxs : ∀ m ∈ xs, fits n m := fun y hy => hx y (by simp [hy])
      rw [run_cons n l hl]
      have mk : ∀ fwd : Msg D, fwd.isMark = true →
          upTo ((markBody n l [fwd]).2 ++ (run n (markBody n l [fwd]).1 xs).2) =
            (markBody n l [fwd]).2 ++ (run n (markBody n l [fwd]).1 xs).2 := by
        intro fwd hf
        rw [markBody, if_neg (by omega), run_exited n _ rfl]
        simp only [List.append_nil]
        rw [upTo_data (h.eosn _)]
        simp [upTo, hf]
      have tk : x.isData = true ∨ x = .nul →
          upTo ((svcBody n l x).2 ++ (run n (svcBody n l x).1 xs).2) =
            (svcBody n l x).2 ++ (run n (svcBody n l x).1 xs).2 := by
        intro ht
        have go : AllData (svcBody n l x).2 → continues (n.svc l.st x).2.2 = true →
            upTo ((svcBody n l x).2 ++ (run n (svcBody n l x).1 xs).2) =
              (svcBody n l x).2 ++ (run n (svcBody n l x).1 xs).2 := by
          intro h1 h2
          rw [upTo_data h1, ih (svcBody n l x).1 (by simp [svcBody, h2]) hn hxs]
        have stop : ∀ ds, AllData ds → (svcBody n l x).2 = ds ++ [.eos] →
            continues (n.svc l.st x).2.2 = false →
            upTo ((svcBody n l x).2 ++ (run n (svcBody n l x).1 xs).2) =
              (svcBody n l x).2 ++ (run n (svcBody n l x).1 xs).2 := by
          intro ds h1 h2 h3
          rw [run_exited n (svcBody n l x).1 (by simp [svcBody, h3]), h2]
          simp only [List.append_nil]
          rw [upTo_data h1]; rfl
        cases hc : n.comp with
        | false =>
          obtain ⟨h1, h2⟩ := h.leaf hc l.st x ht
          rcases h2 with ⟨d, h2⟩ | h2 | h2 | h2
          · apply go _ (by simp [h2, continues])
            simp only [svcBody, h2, visible]
            exact h1.append (by intro m hm; simp only [List.mem_singleton] at hm; subst hm; rfl)
          · apply go _ (by simp [h2, continues])
            simpa [svcBody, h2, visible] using h1
          · apply go _ (by simp [h2, continues])
            simpa [svcBody, h2, visible] using h1
          · exact stop _ h1 (by simp [svcBody, h2, visible]) (by simp [h2, continues])
        | true =>
          rcases h.comp hc l.st x ht with ⟨h1, h2⟩ | ⟨ds, h1, h2, h3⟩
          · apply go _ (by simp [h2, continues])
            simpa [svcBody, h2, visible] using h1
          · exact stop ds h1 (by simp [svcBody, h2, h3, visible]) (by simp [h3, continues])
      rcases hx x (by simp) with h | rfl | rfl | ⟨rfl, _⟩
      · rw [body_task n l (by cases x <;> simp [Msg.isData] at h; rfl)]
        exact tk (Or.inl h)
      · exact mk .eos rfl
      · exact mk .eosw rfl
      · exact tk (Or.inr rfl)
  exact key inp _ rfl rfl hinp

theorem Steady.feedAll {b : Node D} (hb : Steady b) (s : b.σ) {outs : List (Msg D)}
    (ho : AllData outs) : AllData (FF.Node.feedAll b s outs).2 := by
  induction outs generalizing s with
  | nil => intro m hm; simp [FF.Node.feedAll] at hm
  | cons x xs ih =>
    have hx := ho x (by simp)
    simp only [FF.Node.feedAll]
    refine AllData.append ?_ (ih _ fun m hm => ho m (by simp [hm]))
    cases x with
    | data d =>
      have ht : (Msg.data d : Msg D).isData = true ∨ (Msg.data d : Msg D) = .nul := Or.inl rfl
      simp only [feed]
      refine AllData.append (hb.sends s _ ht) ?_
      cases hc : b.comp with
      | false =>
        rcases hb.leaf hc s _ ht with ⟨d', h⟩ | h | h
        · intro m hm; simp [h, dropped] at hm; subst hm; rfl
        · intro m hm; simp [h, dropped] at hm
        · intro m hm; simp [h, dropped] at hm
      | true => intro m hm; simp [hb.comp hc s _ ht, dropped] at hm
    | _ => simp [Msg.isData] at hx

theorem feedAll_append (b : Node D) (s : b.σ) (xs ys : List (Msg D)) :
    (feedAll b s (xs ++ ys)).2 = (feedAll b s xs).2 ++ (feedAll b (feedAll b s xs).1 ys).2 := by
  induction xs generalizing s with
  | nil => rfl
  | cons x xs ih => simp only [List.cons_append, feedAll, ih, List.append_assoc]

/-- Combining with a steady second node keeps "ends by itself at most once, last". -/
theorem Ending.comb {a b : Node D} (ha : Ending a) (hb : Steady b) : Ending (comb a b) := by
  refine ⟨?_, ?_, ?_⟩
  · intro s
    exact (hb.feedAll s.2 (ha.eosn s.1)).append (hb.eosn _)
  · intro h; simp [FF.Node.comb] at h
  · intro _ s t ht
    have hcall : callFirst a s.1 t = a.svc s.1 t ∨ callFirst a s.1 t = (s.1, [], .goon) := by
      unfold callFirst
      split
      · exact Or.inl rfl
      · cases t <;> simp
    -- what the first node emits
    have key : (AllData (firstOut a (callFirst a s.1 t).2.1 (callFirst a s.1 t).2.2) ∧
          combRet a (callFirst a s.1 t).2.2 = .goon) ∨
        (∃ ds, AllData ds ∧ firstOut a (callFirst a s.1 t).2.1 (callFirst a s.1 t).2.2 = ds ++ [.eos] ∧
          combRet a (callFirst a s.1 t).2.2 = .goout) := by
      rcases hcall with h | h
      · rw [h]
        cases hc : a.comp with
        | false =>
          obtain ⟨h1, h2⟩ := ha.leaf hc s.1 t ht
          rcases h2 with ⟨d, h2⟩ | h2 | h2 | h2
          · left
            simp only [firstOut, combRet, hc, h2, dropped, Bool.or_self, Bool.false_eq_true, if_false,
              and_true]
            exact h1.append (by intro m hm; simp only [List.mem_singleton] at hm; subst hm; rfl)
          · left; simpa [firstOut, combRet, hc, h2, dropped] using h1
          · left; simpa [firstOut, combRet, hc, h2, dropped] using h1
          · right; exact ⟨_, h1, by simp [firstOut, hc, h2, dropped], by simp [combRet, hc, h2]⟩
        | true =>
          rcases ha.comp hc s.1 t ht with ⟨h1, h2⟩ | ⟨ds, h1, h2, h3⟩
          · left; simpa [firstOut, combRet, hc, h2] using h1
          · right; exact ⟨ds, h1, by simp [firstOut, hc, h2], by simp [combRet, hc, h3]⟩
      · rw [h]
        left
        refine ⟨?_, ?_⟩
        · intro m hm; simp [firstOut, dropped] at hm
        · unfold combRet; split <;> rfl
    rcases key with ⟨h1, h2⟩ | ⟨ds, h1, h2, h3⟩
    · left; exact ⟨hb.feedAll s.2 h1, h2⟩
    · right
      refine ⟨(FF.Node.feedAll b s.2 ds).2 ++ (b.eosn (FF.Node.feedAll b s.2 ds).1).2, ?_, ?_, h3⟩
      · exact (hb.feedAll s.2 h1).append (hb.eosn _)
      · show (FF.Node.feedAll b s.2 _).2 = _
        rw [h2, feedAll_append]
        simp [FF.Node.feedAll, feed]

/-- **C47, exactly one end mark**: if the second node never ends the stream by itself, the stream
leaving the combined node is exactly the stream leaving the pipeline, so it has exactly one end mark
and nothing after it. -/
theorem C47_exact_partial {a b : Node D} (ha : Ending a) (hb : Steady b) (inp : List (Msg D))
    (hinp : ∀ m ∈ inp, fits a m) :
    stream (comb a b) inp = stream b (stream a inp) := by
  have h1 := C47_comb_partial ha.ok hb.ending.ok inp hinp
  rwa [(ha.comb hb).upTo_stream inp hinp, hb.ending.upTo_stream] at h1
  intro m hm
  rcases stream_fits ha.ok inp hinp m hm with h | h | h
  · exact Or.inl h
  · exact Or.inr (Or.inl h)
  · exact Or.inr (Or.inr (Or.inl h))

/-! ## Cases outside the hypotheses -/

/-- returns `EOS` on 0 and passes everything else on -/
def stopNode : Node Nat where
  σ := Unit
  init := ()
  comp := false
  src := false
  svc := fun s t => match t with
    | .data 0 => (s, [], .eos)
    | .data d => (s, [], .data d)
    | .nul => (s, [], .data 99)
    | _ => (s, [], .goon)
  eosn := fun s => (s, [])

/-- returns `NULL` on 0 and passes everything else on -/
def nullNode : Node Nat where
  σ := Unit
  init := ()
  comp := false
  src := false
  svc := fun s t => match t with
    | .data 0 => (s, [], .nul)
    | .data d => (s, [], .data d)
    | _ => (s, [], .goon)
  eosn := fun s => (s, [])

/-- **C47 fails past the end mark when the second node ends the stream**: the combined node goes on,
and sends further results and a second `EOS` after the first. -/
theorem C47_second_eos_counterexample :
    stream (comb dblNode stopNode) [.data 1, .data 0, .data 2, .eos] =
      [.data 2, .eos, .data 4, .eos] ∧
    stream stopNode (stream dblNode [.data 1, .data 0, .data 2, .eos]) = [.data 2, .eos] := by
  decide

/-- **C47 fails when the first node ends the stream by returning `NULL`**: in a pipeline this is
`EOS`; in a combined node the second node's `svc` is called on `NULL` and the stream goes on. -/
theorem C47_null_counterexample :
    upTo (stream (comb nullNode stopNode) [.data 1, .data 0, .data 2, .eos]) =
      [.data 1, .data 99, .data 2, .eos] ∧
    upTo (stream stopNode (stream nullNode [.data 1, .data 0, .data 2, .eos])) = [.data 1, .eos] := by
  decide

/-! The hypotheses are met: a summing node (which ends after 100) combined with a doubling one. -/

theorem sumNode_ending : Ending sumNode := by
  refine ⟨?_, ?_, ?_⟩
  · intro s m hm; exact sumNode_plain.eosn s m hm
  · intro _ s t ht
    refine ⟨fun m hm => sumNode_plain.sends s t m hm, ?_⟩
    cases t with
    | data d =>
      simp only [sumNode]
      split <;> simp
    | _ => simp [sumNode]
  · intro h; simp [sumNode] at h

theorem dblNode_steady : Steady dblNode := by
  refine ⟨?_, ?_, ?_, ?_⟩
  · intro s t _ m hm; cases t <;> simp [dblNode] at hm
  · intro s m hm; simp [dblNode] at hm
  · intro _ s t _; cases t <;> simp [dblNode]
  · intro h; simp [dblNode] at h

example : stream (comb sumNode dblNode) [.data 3, .data 100, .data 7, .eos] =
    [.data 6, .data 6, .data 200, .eos] := by decide
example : stream (comb sumNode dblNode) [.data 3, .data 7, .eosw] =
    [.data 6, .data 6, .data 14, .data 20, .data 20, .eosw] := by decide
example : ∀ n ∈ (Tree.comb (.comb (.leaf sumNode) (.leaf dblNode)) (.leaf dblNode)).stages, Ok n := by
  intro n hn
  simp only [Tree.stages, List.cons_append, List.nil_append, List.mem_cons, List.not_mem_nil,
    or_false] at hn
  rcases hn with rfl | rfl | rfl
  · exact sumNode_ending.ok
  · exact dblNode_steady.ending.ok
  · exact dblNode_steady.ending.ok

end FF.Node
