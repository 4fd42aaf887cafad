import Verif.Repara.Command
/-!
# The flags of one parameter of a kernel (C85)

Models `getCopy`, `getReuse` and `getRelease` (ff/bitflags.hpp 113-121), which read `V[pos]` without a check.
-/
namespace FF.Repara.Command

/-- the entry read by `getCopy(pos, V)`, `getReuse(pos, V)`, `getRelease(pos, V)` (113-121); `none` is a read outside
the vector -/
def flagsAt (V : List Flags) (pos : Nat) : Option Flags := V[pos]?

/-- **C85** (the flags of one parameter; partial as `C85_kernel_partial`).  For every parameter of a kernel the flags
read are those written for it, and reads for further parameters are outside the vector. -/
theorem C85_param_partial {sched : List Char} {es1 es2 : List Entry} {e : Entry} (hs : Plain sched)
    (hok : ∀ x ∈ es1 ++ e :: es2, x.Ok) (hp : e.params ≠ []) (h2 : ∀ x ∈ es2, ¬ dec e.id <+: dec x.id) :
    ∃ V, extractFlags (command sched (es1 ++ e :: es2)) e.id = some V ∧
      (∀ (pos : Nat) t, e.params[pos]? = some t → ∃ f, flagsAt V pos = some f ∧ Meaning t f) ∧
      (∀ pos, e.params.length ≤ pos → flagsAt V pos = none) := by
  obtain ⟨_, V, hV, hl, hm⟩ := C85_kernel_partial hs hok hp h2
  refine ⟨V, hV, fun pos t ht => ?_, fun pos hpos => List.getElem?_eq_none (by omega)⟩
  have hlt : pos < V.length := by
    rw [hl]; exact (List.getElem?_eq_some_iff.1 ht).1
  exact ⟨V[pos], List.getElem?_eq_getElem hlt, hm pos t _ ht (List.getElem?_eq_getElem hlt)⟩

/-- **C85** (no command).  With the empty command, which every kernel gets if the scheduling protocol is not compiled
in (ff/repara/rprkernels.hpp 160-166), parameter 0 is copied, not reused and not released, and the flags of every
further parameter are read outside the vector. -/
theorem C85_no_command_counterexample (k : Nat) :
    ∃ V, extractFlags [] k = some V ∧ flagsAt V 0 = some ⟨true, false, false⟩ ∧
      ∀ pos, 1 ≤ pos → flagsAt V pos = none :=
  ⟨_, rfl, rfl, fun pos hpos => List.getElem?_eq_none (by simpa using hpos)⟩

/-- the second parameter of kernel 1 -/
example : (extractFlags "7;$kernel_1;GPU:0;URF;SF;$kernel_2;CPU:0;R;$".toList 1).bind (flagsAt · 1) =
    some ⟨true, false, true⟩ := by decide +kernel

end FF.Repara.Command
