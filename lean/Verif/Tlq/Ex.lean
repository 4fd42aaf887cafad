import Verif.Tlq.Thm
/-!
# C68: examples
-/
namespace FF.Tlq
open FF
open FF.Msq (Ev Linearizable)

private def go (t k : Nat) : List Act := List.replicate k (.go t)

/-- Two threads and a cache of one node.  The pop of thread 1 takes the element between the two
assignments of the push of thread 0: `tail` then points to a node that is already in the cache. -/
def race : List Act :=
  [.callPush 0 7] ++ go 0 3 ++ [.malloc 0 1 (some 99) 5] ++ go 0 4 ++
  [.callPop 1] ++ go 1 6

/-- … and the threads go on: the next push reuses the node, one pop gives its node back to the cache,
another one frees it, and the last one finds nothing. -/
def rest : List Act :=
  go 0 3 ++ go 1 1 ++
  [.callPush 0 8] ++ go 0 10 ++
  [.callPush 0 9] ++ go 0 3 ++ [.malloc 0 2 none 0] ++ go 0 7 ++
  [.callPop 1] ++ go 1 7 ++ [.callPop 0] ++ go 0 8 ++ [.callPop 1] ++ go 1 4

/-- the hypotheses of C68_linearizable, C68_safe and C68_ends, in the middle of a push and a pop -/
example : ∃ s, Reach (tstep 1 2) (S.init 0) s ∧ s.tail = 0 ∧ s.cache = [0] ∧ s.head = 1 ∧
    s.pc 0 = .pTail 1 ∧ s.pc 1 = .cRet (some 7) :=
  ⟨_, ⟨race, rfl⟩, rfl, rfl, rfl, rfl, rfl⟩

/-- the hypotheses of C68_memory and C68_destroy, when all is done -/
example : ∃ s, Reach (tstep 1 2) (S.init 0) s ∧ (∀ t, s.pc t = .idle) ∧
    s.vis.reverse = [.callPush 0 7, .callPop 1, .retPush 0, .retPop 1 (some 7), .callPush 0 8, .retPush 0,
      .callPush 0 9, .retPush 0, .callPop 1, .retPop 1 (some 8), .callPop 0, .retPop 0 (some 9), .callPop 1,
      .retPop 1 none] ∧
    s.cache = [1] ∧ s.head = 2 ∧ s.live 0 = false ∧ s.live 1 = true ∧ s.live 2 = true :=
  ⟨_, ⟨race ++ rest, rfl⟩, fun t => match t with | 0 => rfl | 1 => rfl | _ + 2 => rfl,
    rfl, rfl, rfl, rfl, rfl, rfl⟩

end FF.Tlq
