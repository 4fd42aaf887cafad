/-
Lemmas for C64: addresses, boundaries and channels of networks.
-/
import Verif.Dist.Spec

namespace FF.Dist

@[simp] theorem mem_pairs {a b : List Nat} {x y : Nat} : (x, y) ∈ pairs a b ↔ x ∈ a ∧ y ∈ b := by
  simp [pairs]

@[simp] theorem idsL_append (a b : List Net) : idsL (a ++ b) = idsL a ++ idsL b := by
  induction a with
  | nil => simp [idsL]
  | cons t ts ih => simp [idsL, ih]

@[simp] theorem insL_append (a b : List Net) : insL (a ++ b) = insL a ++ insL b := by
  induction a with
  | nil => simp [insL]
  | cons t ts ih => simp [insL, ih]

@[simp] theorem outsL_append (a b : List Net) : outsL (a ++ b) = outsL a ++ outsL b := by
  induction a with
  | nil => simp [outsL]
  | cons t ts ih => simp [outsL, ih]

@[simp] theorem fwdL_append (a b : List Net) : fwdL (a ++ b) = fwdL a ++ fwdL b := by
  induction a with
  | nil => simp [fwdL]
  | cons t ts ih => simp [fwdL, ih]

@[simp] theorem fbkL_append (a b : List Net) : fbkL (a ++ b) = fbkL a ++ fbkL b := by
  induction a with
  | nil => simp [fbkL]
  | cons t ts ih => simp [fbkL, ih]

theorem id_mem (t : Net) : t.id ∈ ids t := by cases t <;> simp [ids, Net.id]

mutual
theorem ins_sub : ∀ t, ∀ x ∈ ins t, x ∈ ids t
  | .seq i _ _, x, h => by simpa [ins, ids] using h
  | .comb i l r, x, h => by
      have := ins_sub l x (by simpa [ins] using h); simp [ids, this]
  | .pipe i _ ss, x, h => by
      have := insHd_sub ss x (by simpa [ins] using h); simp [ids, this]
  | .a2a i _ fs ss, x, h => by
      have := insL_sub fs x (by simpa [ins] using h); simp [ids, this]
  | .farm i _ ws co, x, h => by
      have : x = i := by simpa [ins] using h
      simp [ids, this]
theorem insHd_sub : ∀ ts, ∀ x ∈ insHd ts, x ∈ idsL ts
  | [], x, h => by simp [insHd] at h
  | t :: ts, x, h => by
      have := ins_sub t x (by simpa [insHd] using h); simp [idsL, this]
theorem insL_sub : ∀ ts, ∀ x ∈ insL ts, x ∈ idsL ts
  | [], x, h => by simp [insL] at h
  | t :: ts, x, h => by
      simp only [insL, List.mem_append] at h
      simp only [idsL, List.mem_append]
      rcases h with h | h
      · exact Or.inl (ins_sub t x h)
      · exact Or.inr (insL_sub ts x h)
end

mutual
theorem outs_sub : ∀ t, ∀ x ∈ outs t, x ∈ ids t
  | .seq i _ _, x, h => by simpa [outs, ids] using h
  | .comb i l r, x, h => by
      have := outs_sub r x (by simpa [outs] using h); simp [ids, this]
  | .pipe i _ ss, x, h => by
      have := outsLast_sub ss x (by simpa [outs] using h); simp [ids, this]
  | .a2a i _ fs ss, x, h => by
      have := outsL_sub ss x (by simpa [outs] using h); simp [ids, this]
  | .farm i _ ws .none, x, h => by
      have := outsL_sub ws x (by simpa [outs] using h); simp [ids, this]
  | .farm i _ ws .dflt, x, h => by
      have : x = i := by simpa [outs] using h
      simp [ids, this]
  | .farm i _ ws (.user c), x, h => by
      have : x = c := by simpa [outs] using h
      simp [ids, Coll.node, this]
theorem outsLast_sub : ∀ ts, ∀ x ∈ outsLast ts, x ∈ idsL ts
  | [], x, h => by simp [outsLast] at h
  | [t], x, h => by
      have := outs_sub t x (by simpa [outsLast] using h); simp [idsL, this]
  | _ :: t :: ts, x, h => by
      have := outsLast_sub (t :: ts) x (by simpa [outsLast] using h)
      simp only [idsL, List.mem_append] at this ⊢
      exact Or.inr this
theorem outsL_sub : ∀ ts, ∀ x ∈ outsL ts, x ∈ idsL ts
  | [], x, h => by simp [outsL] at h
  | t :: ts, x, h => by
      simp only [outsL, List.mem_append] at h
      simp only [idsL, List.mem_append]
      rcases h with h | h
      · exact Or.inl (outs_sub t x h)
      · exact Or.inr (outsL_sub ts x h)
end

/-! ### Channels between stages -/

theorem zipLink_mem : ∀ {ws fs : List Net} {x y : Nat}, (x, y) ∈ zipLink ws fs → x ∈ outsL ws ∧ y ∈ insL fs
  | [], _, x, y, h => by simp [zipLink] at h
  | _ :: _, [], x, y, h => by simp [zipLink] at h
  | w :: ws, f :: fs, x, y, h => by
      simp only [zipLink, List.mem_append, mem_pairs] at h
      simp only [outsL, insL, List.mem_append]
      rcases h with h | h
      · exact ⟨Or.inl h.1, Or.inl h.2⟩
      · exact ⟨Or.inr (zipLink_mem h).1, Or.inr (zipLink_mem h).2⟩

theorem p2p_true {s t : Net} (h : p2p s t = true) :
    ∃ i em ws j w fs ss, s = .farm i em ws .none ∧ t = .a2a j w fs ss ∧ ws.length = fs.length := by
  unfold p2p at h
  split at h
  · rename_i i em ws j w fs ss
    exact ⟨i, em, ws, j, w, fs, ss, rfl, rfl, by simpa using h⟩
  · simp at h

theorem link_mem {s t : Net} {x y : Nat} (h : (x, y) ∈ link s t) : x ∈ outs s ∧ y ∈ ins t := by
  unfold link at h
  split at h
  · rename_i hp
    obtain ⟨i, em, ws, j, w, fs, ss, rfl, rfl, _⟩ := p2p_true hp
    simpa [outs, ins, workers, firstSet] using zipLink_mem h
  · simpa using h

theorem links_mem_tail : ∀ {s : Net} {ts : List Net} {x y : Nat}, (x, y) ∈ links (s :: ts) →
    x ∈ ids s ++ idsL ts ∧ y ∈ idsL ts
  | s, [], x, y, h => by simp [links] at h
  | s, t :: ts, x, y, h => by
      simp only [links, List.mem_append] at h
      rcases h with h | h
      · have := link_mem h
        exact ⟨List.mem_append_left _ (outs_sub s x this.1),
          List.mem_append_left _ (ins_sub t y this.2)⟩
      · have := links_mem_tail h
        exact ⟨List.mem_append_right _ this.1, List.mem_append_right _ this.2⟩

theorem links_mem_init : ∀ {ts : List Net} {s : Net} {x y : Nat}, (x, y) ∈ links (ts ++ [s]) →
    x ∈ idsL ts ∧ y ∈ idsL ts ++ ids s
  | [], s, x, y, h => by simp [links] at h
  | [t], s, x, y, h => by
      simp only [List.cons_append, List.nil_append, links, List.append_nil] at h
      have := link_mem h
      exact ⟨List.mem_append_left _ (outs_sub t x this.1), List.mem_append_right _ (ins_sub s y this.2)⟩
  | t :: u :: ts, s, x, y, h => by
      simp only [List.cons_append, links, List.mem_append] at h
      rcases h with h | h
      · have := link_mem h
        refine ⟨List.mem_append_left _ (outs_sub t x this.1), ?_⟩
        have hy := ins_sub u y this.2
        simp [idsL, hy]
      · have := links_mem_init (ts := u :: ts) (by simpa using h)
        refine ⟨List.mem_append_right _ this.1, ?_⟩
        rcases List.mem_append.1 this.2 with h' | h'
        · exact List.mem_append_left _ (List.mem_append_right _ h')
        · exact List.mem_append_right _ h'

theorem links_split : ∀ (pre : List Net) (t : Net) (post : List Net),
    links (pre ++ t :: post) = links (pre ++ [t]) ++ links (t :: post)
  | [], t, post => by simp [links]
  | [s], t, post => by simp [links]
  | s :: u :: pre, t, post => by
      have := links_split (u :: pre) t post
      simp only [List.cons_append] at this
      simp [links, this]

theorem links_snoc (pre : List Net) (s t : Net) :
    links (pre ++ [s] ++ [t]) = links (pre ++ [s]) ++ link s t := by
  have := links_split pre s [t]
  simp only [links, List.append_nil] at this
  simpa using this

mutual
theorem fwd_mem : ∀ t, ∀ {x y : Nat}, (x, y) ∈ fwd t → x ∈ ids t ∧ y ∈ ids t
  | .seq _ _ _, x, y, h => by simp [fwd] at h
  | .comb _ _ _, x, y, h => by simp [fwd] at h
  | .pipe i w ss, x, y, h => by
      simp only [fwd, List.mem_append] at h
      rcases h with h | h
      · have := fwdL_mem ss h; simp [ids, this]
      · cases ss with
        | nil => simp [links] at h
        | cons s ts =>
          have := links_mem_tail h
          have h2 := this.1
          simp only [List.mem_append] at h2
          simp only [ids, idsL, List.mem_cons, List.mem_append]
          exact ⟨Or.inr h2, Or.inr (Or.inr this.2)⟩
  | .a2a i w fs ss, x, y, h => by
      simp only [fwd, List.mem_append, mem_pairs] at h
      simp only [ids, List.mem_cons, List.mem_append]
      rcases h with h | h | h
      · have := fwdL_mem fs h; simp [this]
      · have := fwdL_mem ss h; simp [this]
      · exact ⟨Or.inr (Or.inl (outsL_sub _ _ h.1)), Or.inr (Or.inr (insL_sub _ _ h.2))⟩
  | .farm i em ws co, x, y, h => by
      simp only [fwd, List.mem_append, mem_pairs] at h
      simp only [ids, List.mem_cons, List.mem_append]
      rcases h with h | h | h
      · have := fwdL_mem ws h; simp [this]
      · exact ⟨Or.inr (Or.inl h.1), Or.inr (Or.inr (Or.inl (insL_sub _ _ h.2)))⟩
      · exact ⟨Or.inr (Or.inr (Or.inl (outsL_sub _ _ h.1))), Or.inr (Or.inr (Or.inr h.2))⟩
theorem fwdL_mem : ∀ ts, ∀ {x y : Nat}, (x, y) ∈ fwdL ts → x ∈ idsL ts ∧ y ∈ idsL ts
  | [], x, y, h => by simp [fwdL] at h
  | t :: ts, x, y, h => by
      simp only [fwdL, List.mem_append] at h
      simp only [idsL, List.mem_append]
      rcases h with h | h
      · have := fwd_mem t h; exact ⟨Or.inl this.1, Or.inl this.2⟩
      · have := fwdL_mem ts h; exact ⟨Or.inr this.1, Or.inr this.2⟩
end

mutual
theorem fbk_mem : ∀ t, ∀ {x y : Nat}, (x, y) ∈ fbk t → x ∈ ids t ∧ y ∈ ids t
  | .seq _ _ _, x, y, h => by simp [fbk] at h
  | .comb _ _ _, x, y, h => by simp [fbk] at h
  | .pipe i w ss, x, y, h => by
      simp only [fbk, List.mem_append] at h
      rcases h with h | h
      · have := fbkL_mem ss h; simp [ids, this]
      · cases w <;> simp at h
        simp only [ids, List.mem_cons]
        exact ⟨Or.inr (outsLast_sub _ _ h.1), Or.inr (insHd_sub _ _ h.2)⟩
  | .a2a i w fs ss, x, y, h => by
      simp only [fbk, List.mem_append] at h
      simp only [ids, List.mem_cons, List.mem_append]
      rcases h with h | h | h
      · have := fbkL_mem fs h; simp [this]
      · have := fbkL_mem ss h; simp [this]
      · cases w <;> simp at h
        exact ⟨Or.inr (Or.inr (outsL_sub _ _ h.1)), Or.inr (Or.inl (insL_sub _ _ h.2))⟩
  | .farm i em ws co, x, y, h => by
      simp only [fbk] at h
      have := fbkL_mem ws h; simp [ids, this]
theorem fbkL_mem : ∀ ts, ∀ {x y : Nat}, (x, y) ∈ fbkL ts → x ∈ idsL ts ∧ y ∈ idsL ts
  | [], x, y, h => by simp [fbkL] at h
  | t :: ts, x, y, h => by
      simp only [fbkL, List.mem_append] at h
      simp only [idsL, List.mem_append]
      rcases h with h | h
      · have := fbk_mem t h; exact ⟨Or.inl this.1, Or.inl this.2⟩
      · have := fbkL_mem ts h; exact ⟨Or.inr this.1, Or.inr this.2⟩
end

end FF.Dist
