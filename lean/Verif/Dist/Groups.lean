/-
C64: the connections between groups (`dGroups::prepareIR2`, ff_dgroups.hpp 331-450).
-/
import Verif.Dist.Cut

namespace FF.Dist

/-- `annotated` (ff_dgroups.hpp 245): the nodes given to groups, in the order in which the map is walked.
`expandedAnnotated` (345-351): the group of a boundary node is that of the first entry that has it as an input or
output node. -/
def grpOf : List (Net × Nat) → Nat → Option Nat
  | [], _ => none
  | (t, g) :: r, n => if n ∈ ins t ++ outs t then some g else grpOf r n

/-- The groups, other than `a`, of a list of nodes.  Simplified: `getLocality` (312-322) aborts when a node is in
no group, here the node is skipped. -/
def remote (ann : List (Net × Nat)) (a : Nat) (l : List Nat) : List Nat :=
  l.filterMap fun n => (grpOf ann n).filter (· ≠ a)

/-- Forward and feedback neighbours. -/
def both (r : Option (List Nat × List Nat)) : List Nat := (r.map fun p => p.2 ++ p.1).getD []

/-- `egressRemoteGroups` (359-389): the groups that group `a` connects to.  Simplified: with repetitions. -/
def egress (k : Nat) (root : Net) (ann : List (Net × Nat)) (a : Nat) : List Nat :=
  (ann.filter (·.2 = a)).flatMap fun p => (outs p.1).flatMap fun x => remote ann a (both (getConsumers k root x))

/-- `ingressRemoteGroups` (391-420): the groups whose connections group `a` waits for. -/
def ingress (k : Nat) (root : Net) (ann : List (Net × Nat)) (a : Nat) : List Nat :=
  (ann.filter (·.2 = a)).flatMap fun p => (ins p.1).flatMap fun y => remote ann a (both (getFeeders k root y))

/-- The nodes given to groups are parts of the network that do not overlap. -/
def Parts (root : Net) (ann : List (Net × Nat)) : Prop :=
  (∀ p ∈ ann, ∃ fs, plug fs p.1 = root) ∧ ann.Pairwise fun p q => ∀ z ∈ ids p.1, z ∉ ids q.1

theorem mem_remote {ann : List (Net × Nat)} {a b : Nat} {l : List Nat} :
    b ∈ remote ann a l ↔ b ≠ a ∧ ∃ n ∈ l, grpOf ann n = some b := by
  simp only [remote, List.mem_filterMap, Option.filter_eq_some_iff, decide_eq_true_eq]
  constructor
  · rintro ⟨n, h1, h2, h3⟩; exact ⟨h3, n, h1, h2⟩
  · rintro ⟨h3, n, h1, h2⟩; exact ⟨n, h1, h2, h3⟩

theorem grpOf_mem : ∀ {ann : List (Net × Nat)} {n g : Nat}, grpOf ann n = some g →
    ∃ t, (t, g) ∈ ann ∧ n ∈ ins t ++ outs t
  | [], _, _, h => by simp [grpOf] at h
  | (t, a) :: r, n, g, h => by
    rw [grpOf] at h
    split at h
    · rename_i hm
      obtain rfl := Option.some.inj h
      exact ⟨t, by simp, hm⟩
    · obtain ⟨u, h1, h2⟩ := grpOf_mem h
      exact ⟨u, by simp [h1], h2⟩

theorem bound_ids {t : Net} {n : Nat} (h : n ∈ ins t ++ outs t) : n ∈ ids t := by
  rcases List.mem_append.1 h with h | h
  · exact ins_sub _ _ h
  · exact outs_sub _ _ h

theorem grpOf_of : ∀ {ann : List (Net × Nat)} {t : Net} {n g : Nat},
    (ann.Pairwise fun p q => ∀ z ∈ ids p.1, z ∉ ids q.1) → (t, g) ∈ ann → n ∈ ins t ++ outs t →
    grpOf ann n = some g
  | (u, a) :: r, t, n, g, hp, hm, hn => by
    rw [List.pairwise_cons] at hp
    rw [grpOf]
    rcases List.mem_cons.1 hm with h | h
    · obtain ⟨rfl, rfl⟩ := Prod.mk.inj h
      rw [if_pos hn]
    · rw [if_neg]
      · exact grpOf_of hp.2 h hn
      · exact fun h' => hp.1 _ h n (bound_ids h') (bound_ids hn)

theorem parts_pair : ∀ {l : List (Net × Nat)}, (l.Pairwise fun p q => ∀ z ∈ ids p.1, z ∉ ids q.1) →
    ∀ {p q : Net × Nat}, p ∈ l → q ∈ l → p ≠ q → ∀ z ∈ ids p.1, z ∉ ids q.1
  | r :: l, hp, p, q, h1, h2, hne => by
    rw [List.pairwise_cons] at hp
    rcases List.mem_cons.1 h1 with h1 | h1
    · rcases List.mem_cons.1 h2 with h2 | h2
      · exact absurd (h1.trans h2.symm) hne
      · rw [h1]; exact hp.1 _ h2
    · rcases List.mem_cons.1 h2 with h2 | h2
      · rw [h2]; exact fun z ha hb => hp.1 _ h1 z hb ha
      · exact parts_pair hp.2 h1 h2 hne

theorem parts_disj {ann : List (Net × Nat)} (hp : ann.Pairwise fun p q => ∀ z ∈ ids p.1, z ∉ ids q.1)
    {t u : Net} {a b : Nat} (ht : (t, a) ∈ ann) (hu : (u, b) ∈ ann) (hab : a ≠ b) : ∀ z ∈ ids t, z ∉ ids u :=
  parts_pair hp ht hu (fun e => hab (Prod.mk.inj e).2)

/-! ### Boundary nodes send and receive -/

mutual
theorem outs_senders : ∀ t, Good t → ∀ x ∈ outs t, x ∈ senders t
  | .seq i _ _, _, x, h => by simpa [outs, senders] using h
  | .comb i l r, _, x, h => by simpa [outs, senders] using h
  | .pipe i _ ss, hg, x, h => by
    simp only [Good] at hg
    simp only [outs] at h
    simpa [senders] using outsLast_senders ss hg.2 x h
  | .a2a i _ fs ss, hg, x, h => by
    simp only [Good] at hg
    simp only [outs] at h
    simp [senders, outsL_senders ss hg.2 x h]
  | .farm i em ws .none, hg, x, h => by
    simp only [Good] at hg
    simp only [outs] at h
    simp [senders, outsL_senders ws hg.2 x h]
  | .farm i em ws .dflt, hg, x, h => by simp [Good] at hg
  | .farm i em ws (.user c), hg, x, h => by
    have : x = c := by simpa [outs] using h
    simp [senders, Coll.node, this]
theorem outsLast_senders : ∀ ts, GoodL ts → ∀ x ∈ outsLast ts, x ∈ sendersL ts
  | [], _, x, h => by simp [outsLast] at h
  | [t], hg, x, h => by
    simp only [GoodL] at hg
    simp only [outsLast] at h
    simp [sendersL, outs_senders t hg.1 x h]
  | s :: t :: ts, hg, x, h => by
    rw [GoodL] at hg
    simp only [outsLast] at h
    have := outsLast_senders (t :: ts) hg.2 x h
    rw [sendersL]
    exact List.mem_append_right _ this
theorem outsL_senders : ∀ ts, GoodL ts → ∀ x ∈ outsL ts, x ∈ sendersL ts
  | [], _, x, h => by simp [outsL] at h
  | t :: ts, hg, x, h => by
    simp only [GoodL] at hg
    simp only [outsL, List.mem_append] at h
    simp only [sendersL, List.mem_append]
    exact h.imp (outs_senders t hg.1 x) (outsL_senders ts hg.2 x)
end

mutual
theorem ins_receivers : ∀ t, ∀ x ∈ ins t, x ∈ receivers t
  | .seq i _ _, x, h => by simpa [ins, receivers] using h
  | .comb i l r, x, h => by simpa [ins, receivers] using h
  | .pipe i _ ss, x, h => by
    simp only [ins] at h
    simpa [receivers] using insHd_receivers ss x h
  | .a2a i _ fs ss, x, h => by
    simp only [ins] at h
    simp [receivers, insL_receivers fs x h]
  | .farm i em ws co, x, h => by
    have : x = i := by simpa [ins] using h
    simp [receivers, this]
theorem insHd_receivers : ∀ ts, ∀ x ∈ insHd ts, x ∈ receiversL ts
  | [], x, h => by simp [insHd] at h
  | t :: ts, x, h => by
    simp only [insHd] at h
    simp [receiversL, ins_receivers t x h]
theorem insL_receivers : ∀ ts, ∀ x ∈ insL ts, x ∈ receiversL ts
  | [], x, h => by simp [insL] at h
  | t :: ts, x, h => by
    simp only [insL, List.mem_append] at h
    simp only [receiversL, List.mem_append]
    exact h.imp (ins_receivers t x) (insL_receivers ts x)
end

theorem sendersL_append (a b : List Net) : sendersL (a ++ b) = sendersL a ++ sendersL b := by
  induction a with
  | nil => simp [sendersL]
  | cons t ts ih => simp [sendersL, ih]

theorem receiversL_append (a b : List Net) : receiversL (a ++ b) = receiversL a ++ receiversL b := by
  induction a with
  | nil => simp [receiversL]
  | cons t ts ih => simp [receiversL, ih]

theorem senders_plug : ∀ (fs : List Frame) (t : Net) (x : Nat), x ∈ senders t → x ∈ senders (plug fs t)
  | [], _, _, h => h
  | f :: fs, t, x, h => senders_plug fs (f.fill t) x (by
      cases f <;> simp [Frame.fill, senders, sendersL_append, sendersL, h])

theorem receivers_plug : ∀ (fs : List Frame) (t : Net) (x : Nat), x ∈ receivers t → x ∈ receivers (plug fs t)
  | [], _, _, h => h
  | f :: fs, t, x, h => receivers_plug fs (f.fill t) x (by
      cases f <;> simp [Frame.fill, receivers, receiversL_append, receiversL, h])

/-! ### The theorem -/

/-- A channel of either kind. -/
def chan (root : Net) (x y : Nat) : Prop := (x, y) ∈ fwd root ∨ (x, y) ∈ fbk root

theorem both_cons {root : Net} (hn : (ids root).Nodup) (hg : Good root) {x y : Nat} (hx : x ∈ senders root)
    {k : Nat} (hk : (ids root).length + 1 < k) : y ∈ both (getConsumers k root x) ↔ chan root x y := by
  obtain ⟨a, b, h1, h2, h3⟩ := C64_consumers hn hg hx hk
  simp only [both, h1, Option.map_some, Option.getD_some, List.mem_append, h2, h3, chan]
  exact Or.comm

theorem both_feed {root : Net} (hn : (ids root).Nodup) (hg : Good root) {x y : Nat} (hy : y ∈ receivers root)
    {k : Nat} (hk : (ids root).length + 1 < k) : x ∈ both (getFeeders k root y) ↔ chan root x y := by
  obtain ⟨a, b, h1, h2, h3⟩ := C64_feeders hn hg hy hk
  simp only [both, h1, Option.map_some, Option.getD_some, List.mem_append, h2, h3, chan]
  exact Or.comm

/-- A channel that enters a part from outside ends at one of its input nodes. -/
theorem chan_in {root t : Net} {fs : List Frame} (hp : plug fs t = root) (hn : (ids root).Nodup) {x y : Nat}
    (hc : chan root x y) (hx : x ∉ ids t) (hy : y ∈ ids t) : y ∈ ins t := by
  subst hp
  by_contra h
  rcases hc with hc | hc
  · rw [fwd_inner' fs t hn hy h] at hc; exact hx (fwd_mem _ hc).1
  · rw [fbk_inner' fs t hn hy h] at hc; exact hx (fbk_mem _ hc).1

/-- A channel that leaves a part starts at one of its output nodes. -/
theorem chan_out {root t : Net} {fs : List Frame} (hp : plug fs t = root) (hn : (ids root).Nodup) {x y : Nat}
    (hc : chan root x y) (hx : x ∈ ids t) (hy : y ∉ ids t) : x ∈ outs t := by
  subst hp
  by_contra h
  rcases hc with hc | hc
  · rw [fwd_inner fs t hn hx h] at hc; exact hy (fwd_mem _ hc).2
  · rw [fbk_inner fs t hn hx h] at hc; exact hy (fbk_mem _ hc).2

/-- **C64.** Whatever parts of a `Good` network are given to whatever groups: group `a` connects to group `b` exactly
when `b` waits for a connection from `a`, and both hold exactly when some node of `a` has a channel to a node of `b`.
So no process waits for a connection that never comes, and none is contacted unexpectedly. -/
theorem C64_groups_partial {root : Net} (hn : (ids root).Nodup) (hg : Good root) {ann : List (Net × Nat)}
    (hp : Parts root ann) {a b : Nat} (hab : a ≠ b) {k : Nat} (hk : (ids root).length + 1 < k) :
    (b ∈ egress k root ann a ↔ ∃ t u, (t, a) ∈ ann ∧ (u, b) ∈ ann ∧ ∃ x ∈ ids t, ∃ y ∈ ids u, chan root x y) ∧
    (a ∈ ingress k root ann b ↔ ∃ t u, (t, a) ∈ ann ∧ (u, b) ∈ ann ∧ ∃ x ∈ ids t, ∃ y ∈ ids u, chan root x y) := by
  constructor
  · simp only [egress, List.mem_flatMap, List.mem_filter, decide_eq_true_eq, mem_remote]
    constructor
    · rintro ⟨⟨t, a'⟩, ⟨htm, rfl⟩, x, hx, _, y, hy, hgy⟩
      obtain ⟨fs, hfs⟩ := hp.1 _ htm
      have hgt : Good t := good_plug fs t (hfs ▸ hg)
      have hxs : x ∈ senders root := hfs ▸ senders_plug fs t x (outs_senders t hgt x hx)
      rw [both_cons hn hg hxs hk] at hy
      obtain ⟨u, hum, hyu⟩ := grpOf_mem hgy
      exact ⟨t, u, htm, hum, x, outs_sub _ _ hx, y, bound_ids hyu, hy⟩
    · rintro ⟨t, u, htm, hum, x, hx, y, hy, hc⟩
      have hd := parts_disj hp.2 htm hum hab
      obtain ⟨fs, hfs⟩ := hp.1 _ htm
      obtain ⟨gs, hgs⟩ := hp.1 _ hum
      have hxo := chan_out hfs hn hc hx (fun h => hd y h hy)
      have hyi := chan_in hgs hn hc (hd x hx) hy
      have hgt : Good t := good_plug fs t (hfs ▸ hg)
      have hxs : x ∈ senders root := hfs ▸ senders_plug fs t x (outs_senders t hgt x hxo)
      exact ⟨(t, a), ⟨htm, rfl⟩, x, hxo, hab.symm, y, (both_cons hn hg hxs hk).2 hc,
        grpOf_of hp.2 hum (List.mem_append_left _ hyi)⟩
  · simp only [ingress, List.mem_flatMap, List.mem_filter, decide_eq_true_eq, mem_remote]
    constructor
    · rintro ⟨⟨u, b'⟩, ⟨hum, rfl⟩, y, hy, _, x, hx, hgx⟩
      obtain ⟨gs, hgs⟩ := hp.1 _ hum
      have hyr : y ∈ receivers root := hgs ▸ receivers_plug gs u y (ins_receivers u y hy)
      rw [both_feed hn hg hyr hk] at hx
      obtain ⟨t, htm, hxt⟩ := grpOf_mem hgx
      exact ⟨t, u, htm, hum, x, bound_ids hxt, y, ins_sub _ _ hy, hx⟩
    · rintro ⟨t, u, htm, hum, x, hx, y, hy, hc⟩
      have hd := parts_disj hp.2 htm hum hab
      obtain ⟨fs, hfs⟩ := hp.1 _ htm
      obtain ⟨gs, hgs⟩ := hp.1 _ hum
      have hxo := chan_out hfs hn hc hx (fun h => hd y h hy)
      have hyi := chan_in hgs hn hc (hd x hx) hy
      have hyr : y ∈ receivers root := hgs ▸ receivers_plug gs u y (ins_receivers u y hyi)
      exact ⟨(u, b), ⟨hum, rfl⟩, y, hyi, hab, x, (both_feed hn hg hyr hk).2 hc,
        grpOf_of hp.2 htm (List.mem_append_right _ hxo)⟩

end FF.Dist
