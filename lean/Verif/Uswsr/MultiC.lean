import Verif.Uswsr.Multi
/-!
# C80: the unbounded queue with two locks is linearizable, safe, and every call ends
-/
namespace FF.Uswsr.Multi
open FF FF.Uswsr
open FF.Msq (Ev Doing doing replay Linearizable doing_cons_same doing_cons_other)

@[simp] theorem upd_same {α : Type} (f : Nat → α) (i : Nat) (v : α) : upd f i v i = v := by simp [upd]
theorem upd_other {α : Type} (f : Nat → α) {i j : Nat} (v : α) (h : j ≠ i) : upd f i v j = f j := by simp [upd, h]

/-- what the events of the thread tell -/
def Pc.doing : Pc → Doing
  | .idle => .nothing
  | .pLock v | .pStart v | .pRun v => .pushing v
  | .pDone | .pRet => .pushed
  | .cLock | .cStart | .cRun => .popping
  | .cDone r | .cRet r => .popped r

def Pc.inP : Pc → Bool
  | .pStart _ | .pRun _ | .pDone => true
  | _ => false

def Pc.inC : Pc → Bool
  | .cStart | .cRun | .cDone _ => true
  | _ => false

/-- a history that explains what was seen -/
structure Hist (full vis : List Ev) (d : Nat → Doing) (c : List Nat) : Prop where
  vis : full.filter Ev.visible = vis
  doing : ∀ u, doing u full = some (d u)
  rep : replay full = some c

theorem Hist.add {full vis : List Ev} {d d1 : Nat → Doing} {c c' : List Nat} (h : Hist full vis d c) (e : Ev) {d' : Doing}
    (hd : (d e.thread).next e = some d') (hc : e.apply c = some c') (h1 : ∀ u, d1 u = if u = e.thread then d' else d u) :
    Hist (e :: full) (if e.visible then e :: vis else vis) d1 c' where
  vis := by
    rw [List.filter_cons]
    split <;> rw [h.vis]
  doing := by
    intro u
    rw [h1 u]
    by_cases hu : u = e.thread
    · subst hu
      rw [doing_cons_same rfl (h.doing _), hd, if_pos rfl]
    · rw [doing_cons_other (fun x => hu x.symm), h.doing, if_neg hu]
  rep := by
    show (replay full).bind _ = _
    rw [h.rep]; exact hc

theorem Hist.congr {full vis : List Ev} {d d1 : Nat → Doing} {c : List Nat} (h : Hist full vis d c) (h1 : ∀ u, d1 u = d u) : Hist full vis d1 c :=
  ⟨h.vis, fun u => by rw [h1 u]; exact h.doing u, h.rep⟩

structure Inv (n cap : Nat) (s : S) : Prop where
  q : Reach step (Uswsr.init n cap false) s.q
  P : ∀ u, (s.pc u).inP = true ↔ s.P = some u
  C : ∀ u, (s.pc u).inC = true ↔ s.C = some u
  prun : ∀ u v, s.pc u = .pRun v → pushing s.q.ppc = some v
  pidle : (∀ u v, s.pc u ≠ .pRun v) → s.q.ppc = .idle
  crun : ∀ u, s.pc u = .cRun → s.q.cpc ≠ .idle
  cidle : (∀ u, s.pc u ≠ .cRun) → s.q.cpc = .idle
  hist : ∃ c full, s.q.pushed.map some = s.q.popped ++ c.map some ∧ Hist full s.vis (fun u => (s.pc u).doing) c ∧
    (∀ t, s.pc t = .cRun → s.q.saw = true →
      ∃ full', Hist full' s.vis (fun u => if u = t then .popped none else (s.pc u).doing) c)

theorem Inv.init (n cap : Nat) : Inv n cap (S.init n cap) where
  q := .refl _ _
  P := by simp [S.init, Pc.inP]
  C := by simp [S.init, Pc.inC]
  prun := by simp [S.init]
  pidle := fun _ => rfl
  crun := by simp [S.init]
  cidle := fun _ => rfl
  hist := ⟨[], [], by simp [S.init, Uswsr.init], ⟨rfl, fun u => rfl, rfl⟩, by simp [S.init]⟩

/-- an event of a thread that neither is inside `push` or `pop` nor gets there -/
theorem Inv.outer {n cap : Nat} {s : S} (h : Inv n cap s) {t : Nat} {d : Pc} {P' C' : Option Nat} {vis' : List Ev}
    (h0 : (∀ v, s.pc t ≠ .pRun v) ∧ s.pc t ≠ .cRun) (h0' : (∀ v, d ≠ .pRun v) ∧ d ≠ .cRun)
    (hP : (P' = s.P ∧ d.inP = (s.pc t).inP) ∨ (s.P = none ∧ P' = some t ∧ d.inP = true) ∨ ((s.pc t).inP = true ∧ P' = none ∧ d.inP = false))
    (hC : (C' = s.C ∧ d.inC = (s.pc t).inC) ∨ (s.C = none ∧ C' = some t ∧ d.inC = true) ∨ ((s.pc t).inC = true ∧ C' = none ∧ d.inC = false))
    (hv : (vis' = s.vis ∧ d.doing = (s.pc t).doing) ∨
      ∃ e : Ev, e.thread = t ∧ e.visible = true ∧ vis' = e :: s.vis ∧ (s.pc t).doing.next e = some d.doing ∧ ∀ c, e.apply c = some c) :
    Inv n cap { s with P := P', C := C', pc := upd s.pc t d, vis := vis' } where
  q := h.q
  P := by
    intro u
    have hu := h.P u
    have ht := h.P t
    by_cases e : u = t
    · subst e
      rcases hP with ⟨e1, e2⟩ | ⟨e1, e2, e3⟩ | ⟨e1, e2, e3⟩
      · simp [e1, e2, hu]
      · simp [e2, e3]
      · simp [e2, e3]
    · simp only [upd_other _ _ e]
      rcases hP with ⟨e1, e2⟩ | ⟨e1, e2, e3⟩ | ⟨e1, e2, e3⟩
      · simp [e1, hu]
      · rw [e1] at hu; simp [e2, Ne.symm e]; simpa using hu
      · rw [ht.1 e1] at hu; simp [e2]; simpa [Ne.symm e] using hu
  C := by
    intro u
    have hu := h.C u
    have ht := h.C t
    by_cases e : u = t
    · subst e
      rcases hC with ⟨e1, e2⟩ | ⟨e1, e2, e3⟩ | ⟨e1, e2, e3⟩
      · simp [e1, e2, hu]
      · simp [e2, e3]
      · simp [e2, e3]
    · simp only [upd_other _ _ e]
      rcases hC with ⟨e1, e2⟩ | ⟨e1, e2, e3⟩ | ⟨e1, e2, e3⟩
      · simp [e1, hu]
      · rw [e1] at hu; simp [e2, Ne.symm e]; simpa using hu
      · rw [ht.1 e1] at hu; simp [e2]; simpa [Ne.symm e] using hu
  prun := by
    intro u v hu
    by_cases e : u = t
    · subst e; simp only [upd_same] at hu; exact absurd hu (h0'.1 v)
    · simp only [upd_other _ _ e] at hu; exact h.prun u v hu
  pidle := by
    intro hu
    refine h.pidle fun u v hp => ?_
    by_cases e : u = t
    · subst e; exact h0.1 v hp
    · exact hu u v (by simp only [upd_other _ _ e]; exact hp)
  crun := by
    intro u hu
    by_cases e : u = t
    · subst e; simp only [upd_same] at hu; exact absurd hu h0'.2
    · simp only [upd_other _ _ e] at hu; exact h.crun u hu
  cidle := by
    intro hu
    refine h.cidle fun u hp => ?_
    by_cases e : u = t
    · subst e; exact h0.2 hp
    · exact hu u (by simp only [upd_other _ _ e]; exact hp)
  hist := by
    obtain ⟨c, full, h1, h2, h3⟩ := h.hist
    rcases hv with ⟨rfl, e2⟩ | ⟨e, rfl, e2, rfl, e4, e5⟩
    · have hd : ∀ u, (upd s.pc t d u).doing = (s.pc u).doing := by
        intro u
        by_cases e : u = t
        · subst e; simp [e2]
        · rw [upd_other _ _ e]
      refine ⟨c, full, h1, h2.congr hd, fun u hu hs => ?_⟩
      have hut : u ≠ t := by rintro rfl; simp only [upd_same] at hu; exact h0'.2 hu
      simp only [upd_other _ _ hut] at hu
      obtain ⟨full', h4⟩ := h3 u hu hs
      exact ⟨full', h4.congr fun w => by simp only [hd]⟩
    · have hd : ∀ u, (upd s.pc e.thread d u).doing = if u = e.thread then d.doing else (s.pc u).doing := by
        intro u
        by_cases e' : u = e.thread
        · subst e'; simp
        · rw [upd_other _ _ e', if_neg e']
      refine ⟨c, e :: full, h1, ?_, fun u hu hs => ?_⟩
      · have := h2.add e e4 (e5 c) hd
        rwa [if_pos e2] at this
      have hut : u ≠ e.thread := by rintro rfl; simp only [upd_same] at hu; exact h0'.2 hu
      simp only [upd_other _ _ hut] at hu
      obtain ⟨full', h4⟩ := h3 u hu hs
      refine ⟨e :: full', ?_⟩
      have := h4.add e (d' := d.doing) (by rw [if_neg (Ne.symm hut)]; exact e4) (e5 c)
        (d1 := fun w => if w = u then .popped none else (upd s.pc e.thread d w).doing) (by
          intro w
          by_cases hw : w = u
          · subst hw; simp [hut]
          · simp only [if_neg hw, hd])
      rwa [if_pos e2] at this

theorem Inv.step {n cap : Nat} (hn : 0 < n) {s s' : S} {a : Act} (h : Inv n cap s) (hs : mstep s a = some s') : Inv n cap s' := by
  -- at most one thread is inside each operation
  have onlyP : ∀ {u w}, (s.pc u).inP = true → (s.pc w).inP = true → u = w := fun h1 h2 =>
    Option.some.inj (((h.P _).1 h1).symm.trans ((h.P _).1 h2))
  have onlyC : ∀ {u w}, (s.pc u).inC = true → (s.pc w).inC = true → u = w := fun h1 h2 =>
    Option.some.inj (((h.C _).1 h1).symm.trans ((h.C _).1 h2))
  cases a with
  | callPush t v =>
    simp only [mstep] at hs
    split at hs <;> simp only [Option.some.injEq, reduceCtorEq] at hs
    rename_i hp; subst hs
    exact h.outer (by simp [hp]) (by simp) (.inl ⟨rfl, by rw [hp]; rfl⟩) (.inl ⟨rfl, by rw [hp]; rfl⟩)
      (.inr ⟨.callPush t v, rfl, rfl, rfl, by rw [hp]; rfl, fun _ => rfl⟩)
  | lockP t =>
    simp only [mstep] at hs
    split at hs
    · rename_i v hp
      split at hs <;> simp only [Option.some.injEq, reduceCtorEq] at hs
      rename_i hl; subst hs
      exact h.outer (by simp [hp]) (by simp) (.inr (.inl ⟨hl, rfl, rfl⟩)) (.inl ⟨rfl, by rw [hp]; rfl⟩) (.inl ⟨rfl, by rw [hp]; rfl⟩)
    · simp at hs
  | unlockP t =>
    simp only [mstep] at hs
    split at hs <;> simp only [Option.some.injEq, reduceCtorEq] at hs
    rename_i hp; subst hs
    exact h.outer (by simp [hp]) (by simp) (.inr (.inr ⟨by rw [hp]; rfl, rfl, rfl⟩)) (.inl ⟨rfl, by rw [hp]; rfl⟩) (.inl ⟨rfl, by rw [hp]; rfl⟩)
  | retP t =>
    simp only [mstep] at hs
    split at hs <;> simp only [Option.some.injEq, reduceCtorEq] at hs
    rename_i hp; subst hs
    exact h.outer (by simp [hp]) (by simp) (.inl ⟨rfl, by rw [hp]; rfl⟩) (.inl ⟨rfl, by rw [hp]; rfl⟩)
      (.inr ⟨.retPush t, rfl, rfl, rfl, by rw [hp]; rfl, fun _ => rfl⟩)
  | callPop t =>
    simp only [mstep] at hs
    split at hs <;> simp only [Option.some.injEq, reduceCtorEq] at hs
    rename_i hp; subst hs
    exact h.outer (by simp [hp]) (by simp) (.inl ⟨rfl, by rw [hp]; rfl⟩) (.inl ⟨rfl, by rw [hp]; rfl⟩)
      (.inr ⟨.callPop t, rfl, rfl, rfl, by rw [hp]; rfl, fun _ => rfl⟩)
  | lockC t =>
    simp only [mstep] at hs
    split at hs <;> simp only [Option.some.injEq, reduceCtorEq] at hs
    rename_i hp; subst hs
    exact h.outer (by simp [hp.1]) (by simp) (.inl ⟨rfl, by rw [hp.1]; rfl⟩) (.inr (.inl ⟨hp.2, rfl, rfl⟩)) (.inl ⟨rfl, by rw [hp.1]; rfl⟩)
  | unlockC t =>
    simp only [mstep] at hs
    split at hs
    · rename_i r hp
      simp only [Option.some.injEq] at hs; subst hs
      exact h.outer (by simp [hp]) (by simp) (.inl ⟨rfl, by rw [hp]; rfl⟩) (.inr (.inr ⟨by rw [hp]; rfl, rfl, rfl⟩)) (.inl ⟨rfl, by rw [hp]; rfl⟩)
    · simp at hs
  | retC t =>
    simp only [mstep] at hs
    split at hs
    · rename_i r hp
      simp only [Option.some.injEq] at hs; subst hs
      exact h.outer (by simp [hp]) (by simp) (.inl ⟨rfl, by rw [hp]; rfl⟩) (.inl ⟨rfl, by rw [hp]; rfl⟩)
        (.inr ⟨.retPop t r, rfl, rfl, rfl, by rw [hp]; simp [Pc.doing, Doing.next], fun _ => rfl⟩)
    · simp at hs
  | beginP t =>
    simp only [mstep] at hs
    split at hs
    · rename_i v hp
      obtain ⟨q', hq, rfl⟩ := Option.map_eq_some_iff.1 hs
      have hno : ∀ u w, s.pc u ≠ .pRun w := by
        intro u w hu
        have := onlyP (u := u) (w := t) (by rw [hu]; rfl) (by rw [hp]; rfl)
        subst this; rw [hp] at hu; simp at hu
      have hi := h.pidle hno
      obtain ⟨q1, e1, e2⟩ := C08_push_starts hn h.q hi v
      rw [hq] at e1
      cases e1
      obtain ⟨f1, f2, f3⟩ := prod_frame hq rfl
      have f4 := begin_frame hq
      have hdo : ∀ u, (upd s.pc t (.pRun v) u).doing = (s.pc u).doing := by
        intro u
        by_cases e : u = t
        · subst e; rw [upd_same, hp]; rfl
        · rw [upd_other _ _ e]
      have hcr : ∀ u, upd s.pc t (.pRun v) u = .cRun ↔ s.pc u = .cRun := by
        intro u
        by_cases e : u = t
        · subst e; rw [upd_same, hp]; simp
        · rw [upd_other _ _ e]
      refine ⟨h.q.tail hq, ?_, ?_, ?_, ?_, ?_, ?_, ?_⟩
      · intro u
        by_cases e : u = t
        · subst e; have := h.P u; rw [hp] at this; simpa [Pc.inP] using this
        · simp only [upd_other _ _ e]; exact h.P u
      · intro u
        by_cases e : u = t
        · subst e; have := h.C u; rw [hp] at this; simpa [Pc.inC] using this
        · simp only [upd_other _ _ e]; exact h.C u
      · intro u w hu
        by_cases e : u = t
        · subst e; simp only [upd_same, Pc.pRun.injEq] at hu; rw [← hu]; exact e2
        · simp only [upd_other _ _ e] at hu; exact absurd hu (hno u w)
      · intro hu; exact absurd (upd_same _ _ _) (hu t v)
      · intro u hu; simp only [f1]; exact h.crun u ((hcr u).1 hu)
      · intro hu; simp only [f1]; exact h.cidle fun u hc => hu u ((hcr u).2 hc)
      · obtain ⟨c, full, h1, h2, h3⟩ := h.hist
        refine ⟨c, full, by simp only [f4, f2]; exact h1, h2.congr hdo, fun u hu hsaw => ?_⟩
        obtain ⟨full', h4⟩ := h3 u ((hcr u).1 hu) (by rw [← f3]; exact hsaw)
        exact ⟨full', h4.congr fun w => by simp only [hdo]⟩
    · simp at hs
  | prod t a =>
    simp only [mstep] at hs
    split at hs
    · rename_i v hp
      split at hs
      · rename_i ha
        obtain ⟨q', hq, rfl⟩ := Option.map_eq_some_iff.1 hs
        obtain ⟨f1, f2, f3⟩ := prod_frame hq ha
        have hin : (s.pc t).inP = true := by rw [hp]; rfl
        have hone : ∀ u w, s.pc u = .pRun w → u = t := fun u w hu => onlyP (by rw [hu]; rfl) hin
        obtain ⟨-, hall⟩ := C08_push_completes hn h.q (h.prun t v hp)
        obtain ⟨-, -, hres⟩ := hall a q' hq
        have hx : ∀ d : Pc, d = .pDone ∨ d = .pRun v → d.inP = true ∧ d.inC = false ∧ d ≠ .cRun := by
          rintro d (rfl | rfl) <;> simp [Pc.inP, Pc.inC]
        have key : ∀ d : Pc, (d = .pDone ∧ q'.ppc = .idle ∧ q'.pushed = s.q.pushed ++ [v]) ∨
            (d = .pRun v ∧ pushing q'.ppc = some v ∧ q'.pushed = s.q.pushed) → Inv n cap { s with q := q', pc := upd s.pc t d } := by
          intro d hd
          obtain ⟨x1, x2, x3⟩ := hx d (by rcases hd with ⟨e, _⟩ | ⟨e, _⟩ <;> simp [e])
          have hcr : ∀ u, upd s.pc t d u = .cRun ↔ s.pc u = .cRun := by
            intro u
            by_cases e : u = t
            · subst e; rw [upd_same, hp]; simp [x3]
            · rw [upd_other _ _ e]
          refine ⟨h.q.tail hq, ?_, ?_, ?_, ?_, ?_, ?_, ?_⟩
          · intro u
            by_cases e : u = t
            · subst e; have := h.P u; rw [hp] at this; show (upd s.pc u d u).inP = true ↔ _; rw [upd_same, x1]; exact this
            · simp only [upd_other _ _ e]; exact h.P u
          · intro u
            by_cases e : u = t
            · subst e; have := h.C u; rw [hp] at this; show (upd s.pc u d u).inC = true ↔ _; rw [upd_same, x2]; exact this
            · simp only [upd_other _ _ e]; exact h.C u
          · intro u w hu
            by_cases e : u = t
            · subst e
              simp only [upd_same] at hu
              rcases hd with ⟨rfl, _⟩ | ⟨rfl, h5, _⟩
              · simp at hu
              · simp only [Pc.pRun.injEq] at hu; rw [← hu]; exact h5
            · simp only [upd_other _ _ e] at hu; exact absurd (hone u w hu) e
          · intro hu
            rcases hd with ⟨rfl, h5, _⟩ | ⟨rfl, _⟩
            · exact h5
            · exact absurd (upd_same _ _ _) (hu t v)
          · intro u hu; simp only [f1]; exact h.crun u ((hcr u).1 hu)
          · intro hu; simp only [f1]; exact h.cidle fun u hc => hu u ((hcr u).2 hc)
          · obtain ⟨c, full, h1, h2, h3⟩ := h.hist
            rcases hd with ⟨rfl, _, h6⟩ | ⟨rfl, _, h6⟩
            · have hdo : ∀ u, (upd s.pc t .pDone u).doing = if u = t then .pushed else (s.pc u).doing := by
                intro u
                by_cases e : u = t
                · subst e; simp [Pc.doing]
                · rw [upd_other _ _ e, if_neg e]
              refine ⟨c ++ [v], .effPush t v :: full, by simp only [h6, f2, List.map_append, h1]; simp, ?_, fun u hu hsaw => ?_⟩
              · exact h2.add (.effPush t v) (by simp [Ev.thread, hp, Pc.doing, Doing.next]) rfl hdo
              · have hu' := (hcr u).1 hu
                have hut : u ≠ t := by rintro rfl; rw [hp] at hu'; simp at hu'
                obtain ⟨full', h4⟩ := h3 u hu' (by rw [← f3]; exact hsaw)
                refine ⟨.effPush t v :: full', h4.add (.effPush t v) (d' := .pushed)
                  (by simp [Ev.thread, hp, Pc.doing, Doing.next, Ne.symm hut]) rfl ?_⟩
                intro w
                by_cases hw : w = u
                · subst hw; simp [Ev.thread, hut]
                · simp only [if_neg hw, hdo, Ev.thread]
            · have hdo : ∀ u, (upd s.pc t (.pRun v) u).doing = (s.pc u).doing := by
                intro u
                by_cases e : u = t
                · subst e; rw [upd_same, hp]
                · rw [upd_other _ _ e]
              refine ⟨c, full, by simp only [h6, f2]; exact h1, h2.congr hdo, fun u hu hsaw => ?_⟩
              obtain ⟨full', h4⟩ := h3 u ((hcr u).1 hu) (by rw [← f3]; exact hsaw)
              exact ⟨full', h4.congr fun w => by simp only [hdo]⟩
        apply key
        rcases hres with ⟨r1, r2⟩ | ⟨r1, r2⟩
        · right
          have : q'.ppc ≠ .idle := by intro e; rw [e] at r1; simp [pushing] at r1
          exact ⟨by rw [if_neg this], r1, r2⟩
        · left; exact ⟨by rw [if_pos r1], r1, r2⟩
      · simp at hs
    · simp at hs
  | beginC t =>
    simp only [mstep] at hs
    split at hs
    · rename_i hp
      obtain ⟨q', hq, rfl⟩ := Option.map_eq_some_iff.1 hs
      have hno : ∀ u, s.pc u ≠ .cRun := by
        intro u hu
        have := onlyC (u := u) (w := t) (by rw [hu]; rfl) (by rw [hp]; rfl)
        subst this; rw [hp] at hu; simp at hu
      have hi := h.cidle hno
      obtain ⟨f1, f2, hc⟩ := cons_step hq rfl
      have hb := (C08_prefix hn (h.q.tail hq)).2
      rcases hc with e | ⟨-, g1, g2, g3⟩ | ⟨e, _⟩ | ⟨e, _⟩ | ⟨e, _⟩
      · rw [hb] at e; simp at e
      · have hdo : ∀ u, (upd s.pc t .cRun u).doing = (s.pc u).doing := by
          intro u
          by_cases e : u = t
          · subst e; rw [upd_same, hp]; rfl
          · rw [upd_other _ _ e]
        have hpr : ∀ u w, upd s.pc t .cRun u = .pRun w ↔ s.pc u = .pRun w := by
          intro u w
          by_cases e : u = t
          · subst e; rw [upd_same, hp]; simp
          · rw [upd_other _ _ e]
        refine ⟨h.q.tail hq, ?_, ?_, ?_, ?_, ?_, ?_, ?_⟩
        · intro u
          by_cases e : u = t
          · subst e; have := h.P u; rw [hp] at this; simpa [Pc.inP] using this
          · simp only [upd_other _ _ e]; exact h.P u
        · intro u
          by_cases e : u = t
          · subst e; have := h.C u; rw [hp] at this; simpa [Pc.inC] using this
          · simp only [upd_other _ _ e]; exact h.C u
        · intro u w hu; simp only [f1]; exact h.prun u w ((hpr u w).1 hu)
        · intro hu; simp only [f1]; exact h.pidle fun u w hc => hu u w ((hpr u w).2 hc)
        · intro u _; exact g1
        · intro hu; exact absurd (upd_same _ _ _) (hu t)
        · obtain ⟨c, full, h1, h2, -⟩ := h.hist
          refine ⟨c, full, by simp only [f2, g2]; exact h1, h2.congr hdo, fun u hu hsaw => ?_⟩
          have hut : u = t := by
            by_cases e : u = t
            · exact e
            · simp only [upd_other _ _ e] at hu; exact absurd hu (hno u)
          subst hut
          have hc0 : c = [] := by
            have e1 : s.q.allPopped = true := by rw [← g3]; exact hsaw
            have e2 := congrArg List.length h1
            simp only [St.allPopped, beq_iff_eq] at e1
            simp only [List.length_map, List.length_append] at e2
            exact List.eq_nil_of_length_eq_zero (by omega)
          subst hc0
          refine ⟨.effPop u none :: full, h2.add (.effPop u none) (d' := .popped none) (by simp [Ev.thread, hp, Pc.doing, Doing.next]) rfl ?_⟩
          intro w
          by_cases hw : w = u
          · subst hw; simp [Ev.thread]
          · rw [if_neg (show ¬ w = (Ev.effPop u none).thread from hw), if_neg hw]; exact hdo w
      · exact absurd hi e
      · exact absurd hi e
      · exact absurd hi e
    · simp at hs
  | cons t a =>
    simp only [mstep] at hs
    split at hs
    · rename_i hpa
      obtain ⟨hp, ha⟩ := hpa
      obtain ⟨q', hq, rfl⟩ := Option.map_eq_some_iff.1 hs
      have hin : (s.pc t).inC = true := by rw [hp]; rfl
      have hone : ∀ u, s.pc u = .cRun → u = t := fun u hu => onlyC (by rw [hu]; rfl) hin
      have hni := h.crun t hp
      obtain ⟨f1, f2, hc⟩ := cons_step hq ha
      obtain ⟨hpre, hb⟩ := C08_prefix hn (h.q.tail hq)
      obtain ⟨c, full, h1, h2, h3⟩ := h.hist
      have hempty : s.q.allPopped = true → c = [] := by
        intro e1
        have e2 := congrArg List.length h1
        simp only [St.allPopped, beq_iff_eq] at e1
        simp only [List.length_map, List.length_append] at e2
        exact List.eq_nil_of_length_eq_zero (by omega)
      have hpr : ∀ d : Pc, (∀ w, d ≠ .pRun w) → ∀ u w, upd s.pc t d u = .pRun w ↔ s.pc u = .pRun w := by
        intro d hd u w
        by_cases e : u = t
        · subst e; rw [upd_same, hp]; simp [hd w]
        · rw [upd_other _ _ e]
      -- what remains to be shown of the new state
      have key : ∀ d : Pc, d.inP = false → d.inC = true → (∀ w, d ≠ .pRun w) → (d = .cRun → q'.cpc ≠ .idle) → (d ≠ .cRun → q'.cpc = .idle) →
          (∃ c full, q'.pushed.map some = q'.popped ++ c.map some ∧ Hist full s.vis (fun u => (upd s.pc t d u).doing) c ∧
            (∀ u, upd s.pc t d u = .cRun → q'.saw = true →
              ∃ full', Hist full' s.vis (fun w => if w = u then .popped none else (upd s.pc t d w).doing) c)) →
          Inv n cap { s with q := q', pc := upd s.pc t d } := by
        intro d x1 x2 x3 x4 x5 x6
        refine ⟨h.q.tail hq, ?_, ?_, ?_, ?_, ?_, ?_, x6⟩
        · intro u
          by_cases e : u = t
          · subst e; have := h.P u; rw [hp] at this; show (upd s.pc u d u).inP = true ↔ _; rw [upd_same, x1]; exact this
          · simp only [upd_other _ _ e]; exact h.P u
        · intro u
          by_cases e : u = t
          · subst e; have := h.C u; rw [hp] at this; show (upd s.pc u d u).inC = true ↔ _; rw [upd_same, x2]; exact this
          · simp only [upd_other _ _ e]; exact h.C u
        · intro u w hu; simp only [f1]; exact h.prun u w ((hpr d x3 u w).1 hu)
        · intro hu; simp only [f1]; exact h.pidle fun u w hc => hu u w ((hpr d x3 u w).2 hc)
        · intro u hu
          by_cases e : u = t
          · subst e; simp only [upd_same] at hu; exact x4 hu
          · simp only [upd_other _ _ e] at hu; exact absurd (hone u hu) e
        · intro hu
          exact x5 fun e => hu t (by rw [e]; exact upd_same _ _ _)
      have hdone : ∀ (r : Option Nat) u, (upd s.pc t (.cDone r) u).doing = if u = t then .popped r else (s.pc u).doing := by
        intro r u
        by_cases e : u = t
        · subst e; simp [Pc.doing]
        · rw [upd_other _ _ e, if_neg e]
      have hnorun : ∀ (r : Option Nat) u, upd s.pc t (.cDone r) u ≠ .cRun := by
        intro r u hu
        by_cases e : u = t
        · subst e; simp at hu
        · rw [upd_other _ _ e] at hu; exact e (hone u hu)
      rcases hc with e | ⟨e, _⟩ | ⟨-, g1, -, g2, g3⟩ | ⟨-, g1, g2, g3⟩ | ⟨-, g1, v, g2⟩
      · rw [hb] at e; simp at e
      · exact absurd e hni
      · -- still inside
        rw [if_neg g1]
        have hdo : ∀ u, (upd s.pc t .cRun u).doing = (s.pc u).doing := by
          intro u
          by_cases e : u = t
          · subst e; rw [upd_same, hp]
          · rw [upd_other _ _ e]
        refine key _ rfl rfl (by simp) (fun _ => g1) (by simp) ⟨c, full, by rw [f2, g2]; exact h1, h2.congr hdo, fun u hu hsaw => ?_⟩
        have hut : u = t := by
          by_cases e : u = t
          · exact e
          · rw [upd_other _ _ e] at hu; exact hone u hu
        subst hut
        have hor : s.q.saw = true ∨ s.q.allPopped = true := by
          rcases g3 with g3 | g3
          · left; rw [← g3]; exact hsaw
          · rw [hsaw] at g3; simpa using g3.symm
        rcases hor with e1 | e1
        · obtain ⟨full', h4⟩ := h3 u hp e1
          exact ⟨full', h4.congr fun w => by simp only [hdo]⟩
        · have hc0 := hempty e1
          subst hc0
          refine ⟨.effPop u none :: full, h2.add (.effPop u none) (d' := .popped none) (by simp [Ev.thread, hp, Pc.doing, Doing.next]) rfl ?_⟩
          intro w
          by_cases hw : w = u
          · subst hw; simp [Ev.thread]
          · rw [if_neg (show ¬ w = (Ev.effPop u none).thread from hw), if_neg hw]; exact hdo w
      · -- nothing found
        rw [if_pos g1]
        have hr : answer s.q q' = none := by simp [answer, g2]
        rw [hr]
        have hsaw := C08_pop_false hn (h.q.tail hq) (s.q.saw || s.q.allPopped) (by rw [g3]; simp)
        refine key _ rfl rfl (by simp) (by simp) (fun _ => g1) ?_
        rcases Bool.or_eq_true_iff.1 hsaw with e1 | e1
        · obtain ⟨full', h4⟩ := h3 t hp e1
          exact ⟨c, full', by rw [f2, g2]; exact h1, h4.congr (hdone none), fun u hu => absurd hu (hnorun _ u)⟩
        · have hc0 := hempty e1
          subst hc0
          exact ⟨[], .effPop t none :: full, by rw [f2, g2]; exact h1,
            h2.add (.effPop t none) (by simp [Ev.thread, hp, Pc.doing, Doing.next]) rfl (hdone none), fun u hu => absurd hu (hnorun _ u)⟩
      · -- an element
        rw [if_pos g1]
        have hv : ∃ x c', c = x :: c' ∧ v = some x := by
          rw [g2, f2, h1] at hpre
          have hpre2 := (List.prefix_append_right_inj s.q.popped).1 hpre
          cases c with
          | nil => simp at hpre2
          | cons x c' =>
            simp only [List.map_cons] at hpre2
            have := List.cons_prefix_cons.1 hpre2
            exact ⟨x, c', rfl, this.1⟩
        obtain ⟨x, c', rfl, rfl⟩ := hv
        have hr : answer s.q q' = some x := by simp [answer, g2]
        rw [hr]
        refine key _ rfl rfl (by simp) (by simp) (fun _ => g1) ⟨c', .effPop t (some x) :: full, by rw [f2, g2, h1]; simp,
          h2.add (.effPop t (some x)) (by simp [Ev.thread, hp, Pc.doing, Doing.next]) (by simp [Ev.apply]) (hdone _), fun u hu => absurd hu (hnorun _ u)⟩
    · simp at hs

theorem Inv.reach {n cap : Nat} (hn : 0 < n) {s : S} (hr : Reach mstep (S.init n cap) s) : Inv n cap s :=
  hr.inv (Inv.init n cap) fun _ _ _ h hs => h.step hn hs

/-- **C80, linearizability**: for any number of threads, size of the segments and of the pool, any calls and every interleaving, the calls and returns of `mp_push` and
`mc_pop` are those of a FIFO queue whose operations take effect one after the other between their calls and returns. -/
theorem C80_linearizable {n cap : Nat} (hn : 0 < n) {s : S} (hr : Reach mstep (S.init n cap) s) : Linearizable s.vis := by
  obtain ⟨c, full, h1, h2, h3⟩ := (Inv.reach hn hr).hist
  exact ⟨full, h2.vis, fun t => ⟨_, h2.doing t⟩, _, h2.rep⟩

/-- **C80, safety**: no thread accesses memory that is not allocated or outside a segment, and no element that was accepted is dropped. -/
theorem C80_safe {n cap : Nat} (hn : 0 < n) {s : S} (hr : Reach mstep (S.init n cap) s) : s.q.bad = false ∧ s.q.lost = false := by
  obtain ⟨cont, h⟩ := reach_inv hn (Inv.reach hn hr).q
  exact ⟨h.nbad, h.nlost⟩

/-- Number of actions left in the current call of a thread. -/
def left (s : S) (t : Nat) : Nat :=
  match s.pc t with
  | .idle => 0
  | .pLock _ => 10
  | .pStart _ => 9
  | .pRun _ => 2 + pLeft s.q.ppc
  | .pDone => 2
  | .pRet => 1
  | .cLock => 14
  | .cStart => 13
  | .cRun => 2 + cLeft s.q.cpc
  | .cDone _ => 2
  | .cRet _ => 1

/-- the thread that makes an action, and whether it is a new call -/
def Act.thread : Act → Nat
  | .callPush t _ | .lockP t | .beginP t | .prod t _ | .unlockP t | .retP t | .callPop t | .lockC t | .beginC t | .cons t _ | .unlockC t | .retC t => t

def Act.isCall : Act → Bool
  | .callPush _ _ | .callPop _ => true
  | _ => false

/-- **C80, every call ends (1)**: each action of a thread inside a call brings the end of the call nearer, and no action of another thread puts it off: a call has at most 14 actions. -/
theorem C80_ends {n cap : Nat} (hn : 0 < n) {s s' : S} (hr : Reach mstep (S.init n cap) s) {a : Act} (hs : mstep s a = some s') :
    (a.isCall = false → left s' a.thread < left s a.thread) ∧ (∀ u, u ≠ a.thread → left s' u = left s u) ∧ (∀ u, left s' u ≤ 14) := by
  have h := Inv.reach hn hr
  have h' := Inv.reach hn (hr.tail hs)
  have hle : ∀ u, left s' u ≤ 14 := by
    intro u
    unfold left
    have h1 : pLeft s'.q.ppc ≤ 5 := by cases s'.q.ppc <;> simp [pLeft]
    have h2 : cLeft s'.q.cpc ≤ 9 := by cases s'.q.cpc <;> simp [cLeft]
    split <;> omega
  have hsame : ∀ {t : Nat} (s1 : S), (∀ u, u ≠ t → s1.pc u = s.pc u) → s1.q = s.q → ∀ u, u ≠ t → left s1 u = left s u := by
    intro t s1 e1 e2 u hu
    simp only [left, e1 u hu, e2]
  have onlyP : ∀ {u w}, (s.pc u).inP = true → (s.pc w).inP = true → u = w := fun h1 h2 =>
    Option.some.inj (((h.P _).1 h1).symm.trans ((h.P _).1 h2))
  have onlyC : ∀ {u w}, (s.pc u).inC = true → (s.pc w).inC = true → u = w := fun h1 h2 =>
    Option.some.inj (((h.C _).1 h1).symm.trans ((h.C _).1 h2))
  have hprod : ∀ {d : Pc} {t : Nat} {s1 : S}, s1.pc = upd s.pc t d → (s.pc t).inP = true → s1.q.cpc = s.q.cpc → ∀ u, u ≠ t → left s1 u = left s u := by
    intro d t s1 e1 e2 e3 u hu
    have e : s1.pc u = s.pc u := by rw [e1, upd_other _ _ hu]
    unfold left
    rw [e]
    cases hv : s.pc u with
    | pRun v => exact absurd (onlyP (u := u) (w := t) (by rw [hv]; rfl) e2) hu
    | cRun => show 2 + cLeft s1.q.cpc = 2 + cLeft s.q.cpc; rw [e3]
    | _ => rfl
  have hcons : ∀ {d : Pc} {t : Nat} {s1 : S}, s1.pc = upd s.pc t d → (s.pc t).inC = true → s1.q.ppc = s.q.ppc → ∀ u, u ≠ t → left s1 u = left s u := by
    intro d t s1 e1 e2 e3 u hu
    have e : s1.pc u = s.pc u := by rw [e1, upd_other _ _ hu]
    unfold left
    rw [e]
    cases hv : s.pc u with
    | cRun => exact absurd (onlyC (u := u) (w := t) (by rw [hv]; rfl) e2) hu
    | pRun v => show 2 + pLeft s1.q.ppc = 2 + pLeft s.q.ppc; rw [e3]
    | _ => rfl
  refine ⟨?_, ?_, hle⟩
  · intro hcall
    cases a with
    | callPush t v => simp [Act.isCall] at hcall
    | callPop t => simp [Act.isCall] at hcall
    | lockP t =>
      simp only [mstep] at hs
      split at hs
      · rename_i v hp
        split at hs <;> simp only [Option.some.injEq, reduceCtorEq] at hs
        subst hs; simp [left, Act.thread, hp]
      · simp at hs
    | unlockP t =>
      simp only [mstep] at hs
      split at hs <;> simp only [Option.some.injEq, reduceCtorEq] at hs
      rename_i hp; subst hs; simp [left, Act.thread, hp]
    | retP t =>
      simp only [mstep] at hs
      split at hs <;> simp only [Option.some.injEq, reduceCtorEq] at hs
      rename_i hp; subst hs; simp [left, Act.thread, hp]
    | lockC t =>
      simp only [mstep] at hs
      split at hs <;> simp only [Option.some.injEq, reduceCtorEq] at hs
      rename_i hp; subst hs; simp [left, Act.thread, hp.1]
    | unlockC t =>
      simp only [mstep] at hs
      split at hs <;> simp only [Option.some.injEq, reduceCtorEq] at hs
      rename_i hp; subst hs; simp [left, Act.thread, hp]
    | retC t =>
      simp only [mstep] at hs
      split at hs <;> simp only [Option.some.injEq, reduceCtorEq] at hs
      rename_i hp; subst hs; simp [left, Act.thread, hp]
    | beginP t =>
      simp only [mstep] at hs
      split at hs
      · rename_i v hp
        obtain ⟨q', hq, rfl⟩ := Option.map_eq_some_iff.1 hs
        have : pLeft q'.ppc ≤ 5 := by cases q'.ppc <;> simp [pLeft]
        simp only [left, Act.thread, hp, upd_same]
        omega
      · simp at hs
    | beginC t =>
      simp only [mstep] at hs
      split at hs
      · rename_i hp
        obtain ⟨q', hq, rfl⟩ := Option.map_eq_some_iff.1 hs
        have : cLeft q'.cpc ≤ 9 := by cases q'.cpc <;> simp [cLeft]
        simp only [left, Act.thread, hp, upd_same]
        omega
      · simp at hs
    | prod t a =>
      simp only [mstep] at hs
      split at hs
      · rename_i v hp
        split at hs
        · rename_i ha
          obtain ⟨q', hq, rfl⟩ := Option.map_eq_some_iff.1 hs
          obtain ⟨-, hall⟩ := C08_push_completes hn h.q (h.prun t v hp)
          have := (hall a q' hq).1 ha
          simp only [left, Act.thread, hp, upd_same]
          by_cases hi : q'.ppc = .idle
          · rw [if_pos hi]; show 2 < 2 + pLeft s.q.ppc; have := Nat.lt_of_le_of_lt (Nat.zero_le _) this; omega
          · rw [if_neg hi]; show 2 + pLeft q'.ppc < 2 + pLeft s.q.ppc; omega
        · simp at hs
      · simp at hs
    | cons t a =>
      simp only [mstep] at hs
      split at hs
      · rename_i hpa
        obtain ⟨hp, ha⟩ := hpa
        obtain ⟨q', hq, rfl⟩ := Option.map_eq_some_iff.1 hs
        have hni := h.crun t hp
        have hpos : 0 < cLeft s.q.cpc := by revert hni; cases s.q.cpc <;> simp [cLeft]
        obtain ⟨-, -, hc⟩ := cons_step hq ha
        have hb := (C08_prefix hn (h.q.tail hq)).2
        simp only [left, Act.thread, hp, upd_same]
        rcases hc with e | ⟨e, _⟩ | ⟨-, g1, g2, _⟩ | ⟨-, g1, _⟩ | ⟨-, g1, _⟩
        · rw [hb] at e; simp at e
        · exact absurd e hni
        · simp only [if_neg g1]; omega
        · simp only [if_pos g1]; omega
        · simp only [if_pos g1]; omega
      · simp at hs
  · intro u hu
    cases a with
    | beginP t =>
      simp only [mstep] at hs
      split at hs
      · rename_i v hp
        obtain ⟨q', hq, rfl⟩ := Option.map_eq_some_iff.1 hs
        exact hprod (t := t) rfl (by rw [hp]; rfl) (prod_frame hq rfl).1 u hu
      · simp at hs
    | prod t a =>
      simp only [mstep] at hs
      split at hs
      · rename_i v hp
        split at hs
        · rename_i ha
          obtain ⟨q', hq, rfl⟩ := Option.map_eq_some_iff.1 hs
          exact hprod (t := t) rfl (by rw [hp]; rfl) (prod_frame hq ha).1 u hu
        · simp at hs
      · simp at hs
    | beginC t =>
      simp only [mstep] at hs
      split at hs
      · rename_i hp
        obtain ⟨q', hq, rfl⟩ := Option.map_eq_some_iff.1 hs
        exact hcons (t := t) rfl (by rw [hp]; rfl) (cons_step hq rfl).1 u hu
      · simp at hs
    | cons t a =>
      simp only [mstep] at hs
      split at hs
      · rename_i hpa
        obtain ⟨q', hq, rfl⟩ := Option.map_eq_some_iff.1 hs
        exact hcons (t := t) rfl (by rw [hpa.1]; rfl) (cons_step hq hpa.2).1 u hu
      · simp at hs
    | _ =>
      simp only [mstep] at hs
      (repeat' split at hs) <;>
        first
        | (simp at hs; done)
        | (simp only [Option.some.injEq] at hs; exact hsame s' (by subst hs; exact fun w hw => upd_other _ _ hw) (by subst hs; rfl) u hu)

/-- **C80, every call ends (2)**: as long as some thread is inside a call, some thread inside a call can make a step. -/
theorem C80_no_deadlock {n cap : Nat} (hn : 0 < n) {s : S} (hr : Reach mstep (S.init n cap) s) (hne : ∃ t, s.pc t ≠ .idle) :
    ∃ a s', a.isCall = false ∧ mstep s a = some s' := by
  have h := Inv.reach hn hr
  have hP : ∀ {u}, (s.pc u).inP = true → ∃ a s', a.isCall = false ∧ mstep s a = some s' := by
    intro u hu
    cases hp : s.pc u with
    | pStart v =>
      have hno : ∀ w x, s.pc w ≠ .pRun x := by
        intro w x hw
        have : w = u := Option.some.inj (((h.P _).1 (by rw [hw]; rfl)).symm.trans ((h.P _).1 hu))
        subst this; rw [hp] at hw; simp at hw
      obtain ⟨q1, e1, _⟩ := C08_push_starts hn h.q (h.pidle hno) v
      exact ⟨.beginP u, _, rfl, by simp only [mstep, hp, e1, Option.map_some]; rfl⟩
    | pRun v =>
      obtain ⟨⟨a, q1, e1, e2⟩, _⟩ := C08_push_completes hn h.q (h.prun u v hp)
      exact ⟨.prod u a, _, rfl, by simp only [mstep, hp, e1, if_true, e2, Option.map_some]; rfl⟩
    | pDone => exact ⟨.unlockP u, _, rfl, by simp only [mstep, hp, if_true]; rfl⟩
    | _ => rw [hp] at hu; simp [Pc.inP] at hu
  have hC : ∀ {u}, (s.pc u).inC = true → ∃ a s', a.isCall = false ∧ mstep s a = some s' := by
    intro u hu
    cases hp : s.pc u with
    | cStart =>
      have hno : ∀ w, s.pc w ≠ .cRun := by
        intro w hw
        have : w = u := Option.some.inj (((h.C _).1 (by rw [hw]; rfl)).symm.trans ((h.C _).1 hu))
        subst this; rw [hp] at hw; simp at hw
      obtain ⟨q1, e1⟩ := begin_enabled s.q (h.cidle hno)
      exact ⟨.beginC u, _, rfl, by simp only [mstep, hp, if_true, e1, Option.map_some]; rfl⟩
    | cRun =>
      obtain ⟨a, q1, e1, e2⟩ := cons_enabled s.q (h.crun u hp)
      exact ⟨.cons u a, _, rfl, by simp only [mstep, hp, e1, and_self, if_true, e2, Option.map_some]; rfl⟩
    | cDone r => exact ⟨.unlockC u, _, rfl, by simp only [mstep, hp]; rfl⟩
    | _ => rw [hp] at hu; simp [Pc.inC] at hu
  obtain ⟨t, ht⟩ := hne
  cases hp : s.pc t with
  | idle => exact absurd hp ht
  | pLock v =>
    cases hl : s.P with
    | none => exact ⟨.lockP t, _, rfl, by simp only [mstep, hp, hl, if_true]; rfl⟩
    | some u => exact hP ((h.P u).2 hl)
  | cLock =>
    cases hl : s.C with
    | none => exact ⟨.lockC t, _, rfl, by simp only [mstep, hp, hl, and_self, if_true]; rfl⟩
    | some u => exact hC ((h.C u).2 hl)
  | pRet => exact ⟨.retP t, _, rfl, by simp only [mstep, hp, if_true]; rfl⟩
  | cRet r => exact ⟨.retC t, _, rfl, by simp only [mstep, hp]; rfl⟩
  | pStart v => exact hP (u := t) (by rw [hp]; rfl)
  | pRun v => exact hP (u := t) (by rw [hp]; rfl)
  | pDone => exact hP (u := t) (by rw [hp]; rfl)
  | cStart => exact hC (u := t) (by rw [hp]; rfl)
  | cRun => exact hC (u := t) (by rw [hp]; rfl)
  | cDone r => exact hC (u := t) (by rw [hp]; rfl)

/-! Non-vacuity: two producers and two consumers on segments of one cell.  Thread 2 finds nothing although thread 0 stores its element during the call; thread 3 then gets it
while thread 1 is switching to a new segment. -/
def demo : List Act :=
  [.callPush 0 7, .callPush 1 8, .callPop 2, .callPop 3, .lockC 2, .lockP 0, .beginC 2, .beginP 0, .prod 0 .pCheck, .prod 0 .pStore, .unlockP 0, .cons 2 .cCmp,
   .lockP 1, .beginP 1, .unlockC 2, .prod 1 (.pNext true), .lockC 3, .beginC 3, .prod 1 .pQueue, .cons 3 .cPopCheck, .retC 2, .cons 3 .cPopLoad, .prod 1 .pSwitch,
   .cons 3 .cPopClear, .prod 1 .pCheck, .prod 1 .pStore, .unlockC 3, .unlockP 1, .retP 1, .retC 3, .retP 0]

example : (exec mstep (S.init 1 4) demo).map (fun s => s.vis) =
    some [.retPush 0, .retPop 3 (some 7), .retPush 1, .retPop 2 none, .callPop 3, .callPop 2, .callPush 1 8, .callPush 0 7] := by decide

end FF.Uswsr.Multi
