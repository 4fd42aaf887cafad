import Verif.Dc.Model
/-! # The dependency table of divide and conquer -/
namespace FF.Dc
open FF.Mdf
open FF.Farm (sumN)
open FF.Node (upd)

/-- how often task `j` is in the list of task `i` -/
def cnt (c : Core) (j i : Nat) : Nat :=
  match c.tk i with
  | some r => r.ubl.count j
  | none => 0

/-- number of entries of task `j` in all lists -/
def dep (c : Core) (j : Nat) : Nat := sumN (cnt c j) c.next

/-- the current writers of the addresses -/
def links (c : Core) (l : List Nat) : List Nat := l.filterMap fun d => if (c.look d).isSome then some (c.ad d) else none

/-- the list of the current writer -/
def wl (c : Core) (a : Nat) : List Nat :=
  match c.look a with
  | none => []
  | some r => r.ubl

/-- invariant of the table -/
structure Tb (c : Core) : Prop where
  pos : 1 ≤ c.next
  idt : ∀ i r, c.tk i = some r → 1 ≤ i ∧ i < c.next
  ads : ∀ d, c.ad d < c.next
  row : ∀ i r, c.tk i = some r → r.nout = 0 ∧ r.st ≠ .done ∧ r.ubl.length ≤ 1 ∧ (r.st = .ready ↔ r.rdep = 0)
  dep : ∀ i r, c.tk i = some r → r.rdep = dep c i
  edg : ∀ i r j, c.tk i = some r → j ∈ r.ubl → ∃ r', c.tk j = some r' ∧ r'.st = .notReady

theorem links_congr {c c1 : Core} (h1 : c1.ad = c.ad) (h2 : ∀ k, (c1.tk k).isSome = (c.tk k).isSome) (l : List Nat) :
    links c1 l = links c l := by
  unfold links Core.look
  rw [h1]
  congr 1
  funext d
  split
  · rfl
  · rw [h2]

theorem mem_links {c : Core} {l : List Nat} {i : Nat} : i ∈ links c l ↔ ∃ d ∈ l, c.ad d = i ∧ (c.look d).isSome = true := by
  unfold links
  rw [List.mem_filterMap]
  constructor
  · rintro ⟨d, h1, h2⟩
    split at h2
    · rename_i h; cases h2; exact ⟨d, h1, rfl, h⟩
    · cases h2
  · rintro ⟨d, h1, h2, h3⟩
    exact ⟨d, h1, by rw [if_pos h3, h2]⟩

theorem md_some (c : Core) (i : Nat) (f : Rec → Rec) (k : Nat) : ((c.md i f).tk k).isSome = (c.tk k).isSome := by
  rw [md_tk]; split
  · rename_i e; rw [e]; simp
  · rfl

theorem inFold (act : Nat) (l : List Nat) : ∀ c : Core, (∀ i r, c.tk i = some r → r.st ≠ .done) → (∀ d ∈ l, c.ad d ≠ act) →
    (l.foldl (inPar act) c).ad = c.ad ∧ (l.foldl (inPar act) c).next = c.next ∧
    (∀ k, k ≠ act → (l.foldl (inPar act) c).tk k =
      (c.tk k).map fun r => { r with ubl := r.ubl ++ List.replicate ((links c l).count k) act }) ∧
    (l.foldl (inPar act) c).tk act = (c.tk act).map fun r => { r with rdep := r.rdep + (links c l).length } := by
  induction l with
  | nil =>
    intro c _ _
    refine ⟨rfl, rfl, fun k _ => ?_, ?_⟩
    · simp [links]
    · simp [links]
  | cons d l ih =>
    intro c hd ha
    simp only [List.foldl_cons]
    cases hl : c.look d with
    | none =>
      have e1 : inPar act c d = c := by unfold inPar; rw [hl]
      have e2 : links c (d :: l) = links c l := by
        unfold links
        rw [List.filterMap_cons_none]
        rw [hl]; rfl
      rw [e1, e2]
      exact ih c hd fun x hx => ha x (by simp [hx])
    | some r =>
      have hne := ha d (by simp)
      have hr : c.tk (c.ad d) = some r := by
        unfold Core.look at hl; split at hl
        · cases hl
        · exact hl
      have e1 : inPar act c d = c.link act (c.ad d) := by
        unfold inPar; rw [hl]; dsimp only; rw [if_pos (hd _ r hr)]
      have e2 : links c (d :: l) = c.ad d :: links c l := by
        unfold links
        rw [List.filterMap_cons_some]
        rw [hl]; rfl
      have e3 : links (c.link act (c.ad d)) l = links c l :=
        links_congr (c := c) (c1 := c.link act (c.ad d)) rfl (fun k => by unfold Core.link; rw [md_some, md_some]) l
      have htk : ∀ k, (c.link act (c.ad d)).tk k = if k = act then (c.tk act).map fun r => { r with rdep := r.rdep + 1 } else
          if k = c.ad d then (c.tk k).map fun r => { r with ubl := r.ubl ++ [act] } else c.tk k := by
        intro k
        unfold Core.link
        rw [md_tk, md_tk, md_tk, if_neg (Ne.symm hne)]
        by_cases e : k = act
        · rw [if_pos e, if_pos e]
        · rw [if_neg e, if_neg e]
          by_cases e' : k = c.ad d
          · rw [if_pos e', if_pos e', e']
          · rw [if_neg e', if_neg e']
      rw [e1, e2]
      obtain ⟨g1, g2, g3, g4⟩ := ih (c.link act (c.ad d)) (by
          intro i r' hi
          rw [htk] at hi
          split at hi
          · cases hx : c.tk act with
            | none => rw [hx] at hi; cases hi
            | some q => rw [hx] at hi; cases hi; exact hd _ q hx
          · split at hi
            · cases hx : c.tk i with
              | none => rw [hx] at hi; cases hi
              | some q => rw [hx] at hi; cases hi; exact hd _ q hx
            · exact hd i r' hi) (fun x hx => ha x (by simp [hx]))
      rw [e3] at g3 g4
      refine ⟨g1, g2, ?_, ?_⟩
      · intro k hk
        rw [g3 k hk, htk, if_neg hk]
        by_cases e : k = c.ad d
        · subst e
          rw [if_pos rfl, hr]
          simp only [Option.map_some, Option.some.injEq, List.count_cons_self, List.append_assoc]
          rw [List.replicate_succ]; rfl
        · rw [if_neg e, List.count_cons, if_neg (by simpa using Ne.symm e), Nat.add_zero]
      · rw [g4, htk, if_pos rfl]
        cases c.tk act with
        | none => rfl
        | some q =>
          simp only [Option.map_some, Option.some.injEq, List.length_cons]
          congr 1
          push_cast; omega

theorem setAd_tk (c : Core) (act d : Nat) : (setAd c act d).tk = c.tk ∧ (setAd c act d).next = c.next := by
  unfold setAd Core.insAd
  dsimp only
  split <;> split <;> exact ⟨rfl, rfl⟩

theorem setAd_ad {c : Core} {act d : Nat} (hd : d ≠ 0) (k : Nat) : (setAd c act d).ad k = if k = d then act else c.ad k := by
  unfold setAd Core.insAd
  dsimp only
  by_cases h : c.ad d ≠ 0
  · rw [if_pos h]
    rw [if_neg (by simp [hd])]
    dsimp only
    by_cases e : k = d
    · rw [if_pos e, if_pos e]
    · rw [if_neg e, if_neg e, if_neg e]
  · rw [if_neg h, if_neg (by simpa [hd] using h)]

/-- the row of a task after the insertion of a task with OUTPUT address `a` -/
def rowUpd (c : Core) (L : List Nat) (a i : Nat) (r : Rec) : Rec :=
  { r with ubl := if i ∈ L then [c.next] else if (c.look a).isSome = true ∧ i = c.ad a then (if r.ubl = [] then [c.next] else [])
      else r.ubl }

/-- 1 if the new task has to wait for the current writer -/
def waits (c : Core) (a : Nat) : Nat := if (c.look a).isSome = true ∧ wl c a = [] then 1 else 0

theorem look_some' {c : Core} {d : Nat} {r : Rec} (h : c.look d = some r) : c.ad d ≠ 0 ∧ c.tk (c.ad d) = some r := by
  unfold Core.look at h
  split at h
  · cases h
  · rename_i h0; exact ⟨h0, h⟩

/-- the new row -/
def newRow (c : Core) (L : List Nat) (a : Nat) : Rec :=
  ⟨if ((L.length + waits c a : Nat) : Int) = 0 then .ready else .notReady, (L.length + waits c a : Nat), wl c a, 0, false, 0⟩

/-- what an insertion does to the table -/
structure Ins (c c' : Core) (L : List Nat) (a : Nat) : Prop where
  new : c'.tk c.next = some (newRow c L a)
  old : ∀ i, i ≠ c.next → c'.tk i = (c.tk i).map (rowUpd c L a i)
  ad : ∀ d, c'.ad d = if d = a then c.next else c.ad d
  next : c'.next = c.next + 1

theorem insert_desc {R : Type} {c : Core} (h : Tb c) (k : Kind R) {a : Nat} (ha : a ≠ 0) (junk : Nat)
    (nd : (links c (ins k)).Nodup) (hin : ∀ i ∈ links c (ins k), ∀ r, c.tk i = some r → r.ubl = [])
    (hout : c.look a = none ∨ c.ad a ∉ links c (ins k)) : Ins c (insertTask junk c k a) (links c (ins k)) a := by
  have hnone : c.tk c.next = none := by
    cases hx : c.tk c.next with
    | none => rfl
    | some r => have := (h.idt _ r hx).2; omega
  have hcr : ∀ k, c.create.tk k = if k = c.next then some ⟨.notReady, 0, [], 0, false, 0⟩ else c.tk k := fun _ => rfl
  have hlook : ∀ d, c.create.look d = c.look d := by
    intro d
    unfold Core.look
    show (if c.ad d = 0 then none else c.create.tk (c.ad d)) = _
    have hne : c.ad d ≠ c.next := by have := h.ads d; omega
    rw [hcr, if_neg hne]
  have hlk : links c.create (ins k) = links c (ins k) := by
    unfold links; simp only [hlook]; rfl
  obtain ⟨g1, g2, g3, g4⟩ := inFold c.next (ins k) c.create (by
      intro i r hi
      rw [hcr] at hi
      split at hi
      · cases hi; decide
      · exact (h.row i r hi).2.1) (fun d _ => by have := h.ads d; show c.ad d ≠ _; omega)
  rw [hlk] at g3 g4
  obtain ⟨L, hL⟩ : ∃ L, links c (ins k) = L := ⟨_, rfl⟩
  rw [hL] at nd hin hout g3 g4
  rw [hL]
  unfold insertTask
  obtain ⟨c1, hc1⟩ : ∃ c1, (ins k).foldl (inPar c.next) c.create = c1 := ⟨_, rfl⟩
  rw [hc1] at g1 g2 g3 g4
  rw [hc1]
  have hnew : c1.tk c.next = some ⟨.notReady, L.length, [], 0, false, 0⟩ := by
    rw [g4, hcr, if_pos rfl]; simp
  have hold : ∀ i, i ≠ c.next → c1.tk i = (c.tk i).map fun r => { r with ubl := if i ∈ L then [c.next] else r.ubl } := by
    intro i hi
    rw [g3 i hi, hcr, if_neg hi]
    cases hx : c.tk i with
    | none => rfl
    | some r =>
      simp only [Option.map_some, Option.some.injEq]
      by_cases hm : i ∈ L
      · rw [if_pos hm, hin i hm r hx, List.count_eq_one_of_mem nd hm]; rfl
      · rw [if_neg hm, List.count_eq_zero_of_not_mem hm]; simp
  have had : c1.ad = c.ad := g1
  have hnx : c1.next = c.next + 1 := g2
  have hmark : ∀ (c2 : Core) r, c2.tk c.next = some r → (∀ i, i ≠ c.next → (c2.mark c.next).tk i = c2.tk i) ∧
      (c2.mark c.next).tk c.next = some (if r.rdep = 0 then { r with st := .ready } else r) := by
    intro c2 r hr
    unfold Core.mark
    refine ⟨fun i hi => by rw [md_tk, if_neg hi], by rw [md_tk, if_pos rfl, hr]; rfl⟩
  cases hlo : c.look a with
  | none =>
    have hl1 : c1.look a = none := by
      unfold Core.look at hlo ⊢
      rw [had]
      split at hlo
      · rename_i h0; rw [if_pos h0]
      · rename_i h0; rw [if_neg h0, hold _ (by have := h.ads a; omega), hlo]; rfl
    have ho : outPar c.next junk c1 a = setAd c1 c.next a := by unfold outPar; rw [hl1]
    rw [ho]
    obtain ⟨s1, s2⟩ := setAd_tk c1 c.next a
    obtain ⟨m1, m2⟩ := hmark (setAd c1 c.next a) _ (by rw [s1]; exact hnew)
    have hw : waits c a = 0 := by unfold waits; rw [hlo]; simp
    have hwl : wl c a = [] := by unfold wl; rw [hlo]
    refine ⟨?_, ?_, fun d => ?_, ?_⟩
    · rw [m2]
      unfold newRow
      rw [hw, hwl, Nat.add_zero]
      split <;> rfl
    · intro i hi
      rw [m1 i hi, s1, hold i hi]
      congr 1
      funext r
      unfold rowUpd
      rw [hlo]
      simp
    · show (setAd c1 c.next a).ad d = _
      rw [setAd_ad ha, had]
    · show (setAd c1 c.next a).next = _
      rw [s2, hnx]
  | some r =>
    obtain ⟨h0, hr⟩ := look_some' hlo
    have hat : c.ad a ≠ c.next := by have := h.ads a; omega
    have hnl : c.ad a ∉ L := by
      rcases hout with e | e
      · rw [hlo] at e; cases e
      · exact e
    have hr1 : c1.tk (c.ad a) = some r := by
      rw [hold _ hat, hr]
      simp only [Option.map_some, if_neg hnl]
    have hl1 : c1.look a = some r := by
      unfold Core.look
      rw [had, if_neg h0, hr1]
    have ho : outPar c.next junk c1 a = setAd (writer c.next (c.ad a) junk r c1) c.next a := by
      unfold outPar; rw [hl1]; dsimp only; rw [had]
    rw [ho]
    have hwl : wl c a = r.ubl := by unfold wl; rw [hlo]
    -- the effect of `writer`
    have hwr : (writer c.next (c.ad a) junk r c1).ad = c1.ad ∧ (writer c.next (c.ad a) junk r c1).next = c1.next ∧
        (writer c.next (c.ad a) junk r c1).tk c.next =
          some ⟨.notReady, ((L.length + waits c a : Nat) : Int), wl c a, 0, false, 0⟩ ∧
        ∀ i, i ≠ c.next → (writer c.next (c.ad a) junk r c1).tk i = (c.tk i).map (rowUpd c L a i) := by
      by_cases hu : r.ubl = []
      · have hw : waits c a = 1 := by unfold waits; rw [hwl, hlo]; simp [hu]
        unfold writer
        rw [if_neg (by simpa using hu), if_pos ((h.row _ r hr).2.1)]
        refine ⟨rfl, rfl, ?_, ?_⟩
        · unfold Core.link
          rw [md_tk, if_pos rfl, md_tk, if_neg (Ne.symm hat), hnew, hw, hwl, hu]
          simp
        · intro i hi
          unfold Core.link
          rw [md_tk, if_neg hi, md_tk]
          by_cases e : i = c.ad a
          · subst e
            rw [if_pos rfl, hr1, hr]
            simp only [Option.map_some, rowUpd, if_neg hnl, hlo, Option.isSome_some, hu, List.nil_append, and_self, if_true]
          · rw [if_neg e, hold i hi]
            congr 1
            funext q
            simp only [rowUpd, e, and_false, if_false]
      · have hw : waits c a = 0 := by unfold waits; rw [hwl]; simp [hu]
        obtain ⟨y, hy⟩ : ∃ y, r.ubl = [y] := by
          have := (h.row _ r hr).2.2.1
          match hx : r.ubl, hu, this with
          | [y], _, _ => exact ⟨y, rfl⟩
        obtain ⟨ry, hry, hrs⟩ := h.edg _ r y hr (by rw [hy]; simp)
        have hyn : y ≠ c.next := by have := (h.idt y ry hry).2; omega
        obtain ⟨ry1, hry1, hrs1⟩ : ∃ ry1, c1.tk y = some ry1 ∧ ry1.st = .notReady := by
          rw [hold y hyn, hry]; exact ⟨_, rfl, hrs⟩
        have hwe : writer c.next (c.ad a) junk r c1 = cutOne (c.ad a) junk
            ((c1.md c.next fun r => { r with ubl := r.ubl ++ [y] }).md (c.ad a) fun r => { r with ubl := r.ubl.set 0 0 }) 0 := by
          unfold writer
          rw [if_pos hu, hy]
          have : List.range [y].length = [0] := rfl
          rw [this]
          have hm : moveOne c.next (c.ad a) (c1, []) 0 =
              ((c1.md c.next fun r => { r with ubl := r.ubl ++ [y] }).md (c.ad a) fun r => { r with ubl := r.ubl.set 0 0 }, [0]) := by
            unfold moveOne
            dsimp only
            rw [hr1]
            dsimp only
            rw [hy]
            dsimp only [List.getElem?_cons_zero]
            rw [hry1]
            dsimp only
            rw [if_pos ⟨hyn, by rw [hrs1]; decide, by rw [hrs1]; decide⟩]
            rfl
          simp only [List.foldl_cons, List.foldl_nil, hm]
        rw [hwe]
        refine ⟨rfl, rfl, ?_, ?_⟩
        · unfold cutOne
          rw [md_tk, if_neg (Ne.symm hat), md_tk, if_neg (Ne.symm hat), md_tk, if_pos rfl, hnew, hw, hwl, hy]
          simp
        · intro i hi
          unfold cutOne
          rw [md_tk, md_tk, md_tk, md_tk]
          by_cases e : i = c.ad a
          · subst e
            rw [if_pos rfl, if_pos rfl, if_neg hat, hr1, hr]
            simp [rowUpd, hnl, hlo, hy]
          · rw [if_neg e, if_neg e, md_tk, if_neg hi, hold i hi]
            congr 1
            funext q
            simp only [rowUpd, e, and_false, if_false]
    obtain ⟨w1, w2, w3, w4⟩ := hwr
    obtain ⟨s1, s2⟩ := setAd_tk (writer c.next (c.ad a) junk r c1) c.next a
    obtain ⟨m1, m2⟩ := hmark (setAd (writer c.next (c.ad a) junk r c1) c.next a) _ (by rw [s1]; exact w3)
    refine ⟨?_, ?_, fun d => ?_, ?_⟩
    · rw [m2]
      unfold newRow
      split <;> rfl
    · intro i hi
      rw [m1 i hi, s1]
      exact w4 i hi
    · show (setAd _ c.next a).ad d = _
      rw [setAd_ad ha, w1, had]
    · show (setAd _ c.next a).next = _
      rw [s2, w2, hnx]

theorem sumN_one {n x : Nat} (h : x < n) : sumN (fun i => if x = i then 1 else 0) n = 1 := by
  have := Parfor.sumN_change (f := fun i => if x = i then 1 else 0) (g := fun _ => 0) h (fun j _ hj => if_neg (Ne.symm hj))
  rw [Parfor.sumN_zero (f := fun _ => 0) (fun _ _ => rfl)] at this
  simpa using this

theorem sum_count {n : Nat} (L : List Nat) (h : ∀ x ∈ L, x < n) : sumN (fun i => L.count i) n = L.length := by
  induction L with
  | nil => exact Parfor.sumN_zero fun _ _ => rfl
  | cons x L ih =>
    have e : (fun i => (x :: L).count i) = fun i => L.count i + if x = i then 1 else 0 := by
      funext i
      rw [List.count_cons]
      simp
    rw [e, Parfor.sumN_add, ih fun y hy => h y (by simp [hy]), sumN_one (h x (by simp)), List.length_cons]

theorem cnt_some {c : Core} {i : Nat} {r : Rec} (h : c.tk i = some r) (j : Nat) : cnt c j i = r.ubl.count j := by
  unfold cnt; rw [h]

theorem cnt_none {c : Core} {i : Nat} (h : c.tk i = none) (j : Nat) : cnt c j i = 0 := by
  unfold cnt; rw [h]

theorem Tb.nextNone {c : Core} (h : Tb c) : c.tk c.next = none := by
  cases hx : c.tk c.next with
  | none => rfl
  | some r => have := (h.idt _ r hx).2; omega

theorem wl_mem {c : Core} (h : Tb c) {a y : Nat} (hy : y ∈ wl c a) : ∃ r, c.tk y = some r ∧ r.st = .notReady := by
  unfold wl at hy
  cases hlo : c.look a with
  | none => rw [hlo] at hy; cases hy
  | some r => rw [hlo] at hy; exact h.edg _ r y (look_some' hlo).2 hy

theorem wl_len {c : Core} (h : Tb c) (a : Nat) : (wl c a).length ≤ 1 := by
  unfold wl
  cases hlo : c.look a with
  | none => simp
  | some r => exact (h.row _ r (look_some' hlo).2).2.2.1

/-- the table stays in order when a task is inserted -/
theorem tb_insert {c c' : Core} (h : Tb c) {L : List Nat} {a : Nat} (hd : Ins c c' L a)
    (nd : L.Nodup) (hL : ∀ i ∈ L, ∃ r, c.tk i = some r ∧ r.ubl = []) (hout : c.look a = none ∨ c.ad a ∉ L) : Tb c' := by
  have hltL : ∀ i ∈ L, i < c.next := fun i hi => by obtain ⟨r, h1, _⟩ := hL i hi; exact (h.idt i r h1).2
  have hcn : ∀ i, i < c.next → cnt c c.next i = 0 := by
    intro i _
    cases hx : c.tk i with
    | none => exact cnt_none hx _
    | some r =>
      rw [cnt_some hx, List.count_eq_zero]
      intro hm
      obtain ⟨r', h1, _⟩ := h.edg i r _ hx hm
      have := (h.idt _ r' h1).2
      omega
  have hdNew : dep c' c.next = L.length + waits c a := by
    unfold dep
    rw [hd.next, sumN]
    have e0 : cnt c' c.next c.next = 0 := by
      rw [cnt_some hd.new, List.count_eq_zero]
      intro hm
      obtain ⟨r', h1, _⟩ := wl_mem h (show c.next ∈ wl c a from hm)
      rw [h.nextNone] at h1; cases h1
    rw [e0, Nat.add_zero]
    have e1 : sumN (cnt c' c.next) c.next = sumN (fun i => L.count i + if c.ad a = i then waits c a else 0) c.next := by
      apply Farm.sumN_congr
      intro i hi
      have hne : i ≠ c.next := by omega
      have ho := hd.old i hne
      cases hx : c.tk i with
      | none =>
        rw [hx] at ho
        rw [cnt_none ho]
        have : i ∉ L := fun hm => by obtain ⟨r, h1, _⟩ := hL i hm; rw [hx] at h1; cases h1
        rw [List.count_eq_zero_of_not_mem this]
        by_cases e : c.ad a = i
        · have hw : waits c a = 0 := by
            unfold waits Core.look
            rw [e, hx]; simp
          rw [hw]; simp
        · simp [e]
      | some r =>
        rw [hx] at ho
        rw [cnt_some ho]
        have hc0 : r.ubl.count c.next = 0 := by have := hcn i hi; rwa [cnt_some hx] at this
        unfold rowUpd
        dsimp only
        by_cases hm : i ∈ L
        · rw [if_pos hm, List.count_eq_one_of_mem nd hm]
          have : ¬ (c.ad a = i ∧ (c.look a).isSome = true) := by
            rintro ⟨e, e'⟩
            rcases hout with q | q
            · rw [q] at e'; cases e'
            · exact q (e ▸ hm)
          by_cases e : c.ad a = i
          · have hw : waits c a = 0 := by
              unfold waits; rw [if_neg (fun q => this ⟨e, q.1⟩)]
            rw [hw]; simp
          · simp [e]
        · rw [if_neg hm, List.count_eq_zero_of_not_mem hm]
          by_cases e : c.ad a = i
          · rw [if_pos e]
            unfold waits
            cases hlo : c.look a with
            | none => simp [hc0]
            | some q =>
              have hq := (look_some' hlo).2
              rw [e, hx] at hq
              cases hq
              have hwl : wl c a = r.ubl := by unfold wl; rw [hlo]
              rw [hwl, if_pos ⟨rfl, e.symm⟩]
              by_cases hu : r.ubl = []
              · rw [if_pos hu, if_pos ⟨rfl, hu⟩]; simp
              · rw [if_neg hu, if_neg (fun q => hu q.2)]; simp
          · rw [if_neg (fun q => e q.2.symm), if_neg e, hc0]
    rw [e1, Parfor.sumN_add, sum_count L hltL]
    congr 1
    by_cases hw : waits c a = 0
    · rw [hw]; exact Parfor.sumN_zero fun i _ => by simp
    · have hw1 : waits c a = 1 := by unfold waits at hw ⊢; split at hw <;> simp_all
      rw [hw1]; exact sumN_one (h.ads a)
  have hdOld : ∀ j, j ≠ c.next → dep c' j = dep c j := by
    intro j hj
    unfold dep
    rw [hd.next, sumN, cnt_some hd.new]
    show sumN (cnt c' j) c.next + (wl c a).count j = _
    have hrow : ∀ i, i < c.next → ¬ ((c.look a).isSome = true ∧ i = c.ad a) → cnt c' j i = cnt c j i := by
      intro i hi hne
      have ho := hd.old i (by omega)
      cases hx : c.tk i with
      | none => rw [hx] at ho; rw [cnt_none ho, cnt_none hx]
      | some r =>
        rw [hx] at ho
        rw [cnt_some ho, cnt_some hx]
        unfold rowUpd
        dsimp only
        by_cases hm : i ∈ L
        · rw [if_pos hm]
          obtain ⟨r', h1, h2⟩ := hL i hm
          rw [hx] at h1; cases h1
          rw [h2, List.count_cons, if_neg (by simpa using Ne.symm hj)]; rfl
        · rw [if_neg hm, if_neg hne]
    cases hlo : c.look a with
    | none =>
      rw [Farm.sumN_congr fun i hi => hrow i hi (by rw [hlo]; simp)]
      unfold wl; rw [hlo]; simp
    | some r =>
      have hr := (look_some' hlo).2
      have hch := Parfor.sumN_change (f := cnt c' j) (g := cnt c j) (h.ads a)
        (fun i hi hne => hrow i hi (fun q => hne q.2))
      have ho := hd.old (c.ad a) (by have := h.ads a; omega)
      rw [hr] at ho
      have hnl : c.ad a ∉ L := by
        rcases hout with q | q
        · rw [hlo] at q; cases q
        · exact q
      have hz : cnt c' j (c.ad a) = 0 := by
        rw [cnt_some ho]
        unfold rowUpd
        dsimp only
        rw [if_neg hnl, hlo]
        simp only [Option.isSome_some, and_self, if_true]
        split
        · rw [List.count_cons, if_neg (by simpa using Ne.symm hj)]; rfl
        · rfl
      rw [hz, cnt_some hr] at hch
      have hwl : wl c a = r.ubl := by unfold wl; rw [hlo]
      rw [hwl]
      exact hch
  refine ⟨by rw [hd.next]; omega, ?_, ?_, ?_, ?_, ?_⟩
  · intro i r hi
    rw [hd.next]
    by_cases e : i = c.next
    · have := h.pos; omega
    · rw [hd.old i e] at hi
      cases hx : c.tk i with
      | none => rw [hx] at hi; cases hi
      | some q => have := h.idt i q hx; omega
  · intro d
    rw [hd.next, hd.ad]
    split
    · omega
    · have := h.ads d; omega
  · intro i r hi
    by_cases e : i = c.next
    · subst e
      rw [hd.new] at hi
      cases hi
      unfold newRow
      refine ⟨rfl, ?_, wl_len h a, ?_⟩
      · dsimp only; split <;> decide
      · dsimp only
        split
        · rename_i hz; simpa using hz
        · rename_i hz; simp only [reduceCtorEq, false_iff]; exact hz
    · rw [hd.old i e] at hi
      cases hx : c.tk i with
      | none => rw [hx] at hi; cases hi
      | some q =>
        rw [hx] at hi
        cases hi
        obtain ⟨q1, q2, q3, q4⟩ := h.row i q hx
        refine ⟨q1, q2, ?_, q4⟩
        unfold rowUpd
        dsimp only
        split
        · simp
        · split
          · split <;> simp
          · exact q3
  · intro i r hi
    by_cases e : i = c.next
    · subst e
      rw [hd.new] at hi
      cases hi
      rw [hdNew]; rfl
    · rw [hdOld i e]
      rw [hd.old i e] at hi
      cases hx : c.tk i with
      | none => rw [hx] at hi; cases hi
      | some q =>
        rw [hx] at hi
        cases hi
        exact h.dep i q hx
  · intro i r j hi hj
    have hold : ∀ y, (∃ r, c.tk y = some r ∧ r.st = .notReady) → ∃ r', c'.tk y = some r' ∧ r'.st = .notReady := by
      rintro y ⟨ry, h1, h2⟩
      have hne : y ≠ c.next := by have := (h.idt y ry h1).2; omega
      exact ⟨rowUpd c L a y ry, by rw [hd.old y hne, h1]; rfl, h2⟩
    by_cases e : i = c.next
    · subst e
      rw [hd.new] at hi
      cases hi
      exact hold j (wl_mem h hj)
    · rw [hd.old i e] at hi
      cases hx : c.tk i with
      | none => rw [hx] at hi; cases hi
      | some q =>
        rw [hx] at hi
        cases hi
        have hnew : L ≠ [] ∨ waits c a = 1 → ∃ r', c'.tk c.next = some r' ∧ r'.st = .notReady := by
          intro hor
          refine ⟨_, hd.new, ?_⟩
          unfold newRow
          dsimp only
          rw [if_neg]
          rcases hor with q | q
          · have := List.length_pos_iff.2 q; omega
          · omega
        unfold rowUpd at hj
        dsimp only at hj
        split at hj
        · rename_i hm
          rw [List.mem_singleton] at hj
          subst hj
          exact hnew (Or.inl (List.ne_nil_of_mem hm))
        · split at hj
          · rename_i hm
            split at hj
            · rename_i hu
              rw [List.mem_singleton] at hj
              subst hj
              refine hnew (Or.inr ?_)
              unfold waits
              rw [if_pos]
              refine ⟨hm.1, ?_⟩
              unfold wl
              cases hlo : c.look a with
              | none => rfl
              | some q' =>
                have := (look_some' hlo).2
                rw [← hm.2, hx] at this
                cases this
                exact hu
            · cases hj
          · exact hold j (h.edg i q j hx hj)

/-- the completion of a ready task -/
theorem tb_handle {c : Core} (h : Tb c) {t : Nat} {rt : Rec} (ht : c.tk t = some rt) (hs : rt.st = .ready) :
    ∃ c' rd, c.handle t = some (c', rd) ∧ (∀ k, c'.tk k = if k = t then none else (c.tk k).map (decRow rt.ubl k)) ∧
      c'.ad = c.ad ∧ c'.next = c.next ∧ rd.Nodup ∧
      (∀ k, k ∈ rd ↔ k ∈ rt.ubl ∧ ∃ r, c.tk k = some r ∧ r.rdep = rt.ubl.count k) ∧ Tb c' := by
  have hcle : ∀ j, rt.ubl.count j ≤ dep c j := by
    intro j
    have := Parfor.sumN_ge (f := cnt c j) (h.idt t rt ht).2
    rwa [cnt_some ht] at this
  obtain ⟨c1, rd, e1, e2, e3, e4, e5, e6, e7, e8⟩ := dec_fold rt.ubl c [] (by
    intro j hj
    obtain ⟨r, h1, h2⟩ := h.edg t rt j ht hj
    refine ⟨r, h1, h2, ?_⟩
    rw [h.dep j r h1]
    have := hcle j
    omega)
  have hself : t ∉ rt.ubl := fun hm => by
    obtain ⟨r, h1, h2⟩ := h.edg t rt t ht hm
    rw [ht] at h1; cases h1; rw [hs] at h2; cases h2
  have h1t : c1.tk t = some rt := by rw [e2, ht]; simp [decRow, hself]
  obtain ⟨f1, f2, f3, f4, f5⟩ := retire_desc c1 t rt h1t
  have htk : ∀ k, (c1.retire t).tk k = if k = t then none else (c.tk k).map (decRow rt.ubl k) := by
    intro k; rw [f1, e2, if_pos (h.row t rt ht).1]
  refine ⟨c1.retire t, rd, ?_, htk, by rw [f2, e3], by rw [f4, e6], e7, e8, ?_⟩
  · unfold Core.handle
    rw [ht]
    dsimp only
    rw [e1]; rfl
  · have hubl : ∀ k r, (decRow rt.ubl k r).ubl = r.ubl := by intro k r; unfold decRow; split <;> rfl
    have hdep : ∀ j, dep (c1.retire t) j + rt.ubl.count j = dep c j := by
      intro j
      unfold dep
      rw [f4, e6]
      have := Parfor.sumN_change (f := cnt (c1.retire t) j) (g := cnt c j) (h.idt t rt ht).2 (by
        intro i _ hne
        cases hx : c.tk i with
        | none => rw [cnt_none hx, cnt_none (by rw [htk, if_neg hne, hx]; rfl)]
        | some r =>
          rw [cnt_some hx, cnt_some (r := decRow rt.ubl i r) (by rw [htk, if_neg hne, hx]; rfl), hubl])
      rw [cnt_some ht, cnt_none (i := t) (by rw [htk, if_pos rfl])] at this
      exact this
    have hrow : ∀ i r', (c1.retire t).tk i = some r' → i ≠ t ∧ ∃ r, c.tk i = some r ∧ r' = decRow rt.ubl i r := by
      intro i r' hi
      rw [htk] at hi
      split at hi
      · cases hi
      · rename_i hne
        cases hx : c.tk i with
        | none => rw [hx] at hi; cases hi
        | some r => rw [hx] at hi; cases hi; exact ⟨hne, r, rfl, rfl⟩
    have hrd : ∀ i r, c.tk i = some r → (decRow rt.ubl i r).rdep = dep (c1.retire t) i := by
      intro i r hx
      have h1 := hdep i
      have h2 := h.dep i r hx
      unfold decRow
      by_cases hm : i ∈ rt.ubl
      · rw [if_pos hm]; dsimp only; omega
      · rw [if_neg hm, h2]
        rw [List.count_eq_zero_of_not_mem hm] at h1
        rw [← h1]; rfl
    have hst : ∀ i r, c.tk i = some r → ((decRow rt.ubl i r).st = .ready ↔ (decRow rt.ubl i r).rdep = 0) := by
      intro i r hx
      by_cases hm : i ∈ rt.ubl
      · obtain ⟨r', h1, h2⟩ := h.edg t rt i ht hm
        rw [hx] at h1; cases h1
        unfold decRow
        rw [if_pos hm]
        dsimp only
        split
        · rename_i hz; simpa using hz
        · rename_i hz; rw [h2]; simpa using hz
      · unfold decRow
        rw [if_neg hm]
        exact (h.row i r hx).2.2.2
    refine ⟨by rw [f4, e6]; exact h.pos, ?_, by rw [f2, f4, e3, e6]; exact h.ads, ?_, ?_, ?_⟩
    · intro i r' hi
      obtain ⟨_, r, hx, _⟩ := hrow i r' hi
      rw [f4, e6]; exact h.idt i r hx
    · intro i r' hi
      obtain ⟨_, r, hx, rfl⟩ := hrow i r' hi
      obtain ⟨q1, q2, q3, q4⟩ := h.row i r hx
      refine ⟨?_, ?_, by rw [hubl]; exact q3, hst i r hx⟩
      · unfold decRow; split <;> exact q1
      · unfold decRow
        split
        · dsimp only
          split
          · decide
          · exact q2
        · exact q2
    · intro i r' hi
      obtain ⟨_, r, hx, rfl⟩ := hrow i r' hi
      exact hrd i r hx
    · intro i r' j hi hj
      obtain ⟨hne, r, hx, rfl⟩ := hrow i r' hi
      rw [hubl] at hj
      obtain ⟨rj, hj1, hj2⟩ := h.edg i r j hx hj
      have hjt : j ≠ t := by rintro rfl; rw [ht] at hj1; cases hj1; rw [hs] at hj2; cases hj2
      refine ⟨decRow rt.ubl j rj, by rw [htk, if_neg hjt, hj1]; rfl, ?_⟩
      have hge : 1 ≤ dep (c1.retire t) j := by
        have hi2 : i < (c1.retire t).next := by rw [f4, e6]; exact (h.idt i r hx).2
        have := Parfor.sumN_ge (f := cnt (c1.retire t) j) hi2
        rw [cnt_some hi, hubl] at this
        have := List.count_pos_iff.2 hj
        unfold dep
        omega
      have h0 : (decRow rt.ubl j rj).rdep ≠ 0 := by rw [hrd j rj hj1]; omega
      have h1 : (decRow rt.ubl j rj).st ≠ .ready := fun q => h0 ((hst j rj hj1).1 q)
      cases hq : (decRow rt.ubl j rj).st with
      | notReady => rfl
      | ready => exact absurd hq h1
      | done =>
        unfold decRow at hq
        split at hq
        · dsimp only at hq
          split at hq
          · cases hq
          · rw [hj2] at hq; cases hq
        · rw [hj2] at hq; cases hq

end FF.Dc
