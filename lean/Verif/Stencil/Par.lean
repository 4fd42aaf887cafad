import Verif.Stencil.Props
import Verif.Parfor.For
/-!
# C50 with the parallel loop: the rows come from a run of `parallel_for`
-/
namespace FF.Stencil
open FF.Parfor

theorem rows_perm {x0 x1 xs : Nat} (hs : 1 ≤ xs) :
    ((indices x0 x1 xs).map Int.toNat).Perm (steps x0 x1 xs) := by
  have hs' : (1 : Int) ≤ (xs : Int) := by omega
  have hmem := fun x => mem_indices (first := (x0 : Int)) (last := x1) (x := x) hs'
  rw [List.perm_ext_iff_of_nodup]
  · intro a
    rw [mem_steps hs, List.mem_map]
    constructor
    · rintro ⟨x, hx, rfl⟩
      obtain ⟨h1, h2, k, h3⟩ := (hmem x).1 hx
      refine ⟨by omega, by omega, ?_⟩
      have : (xs : Int) ∣ ((x.toNat - x0 : Nat) : Int) := ⟨k, by omega⟩
      exact Int.natCast_dvd_natCast.1 this
    · rintro ⟨h1, h2, h3⟩
      refine ⟨a, (hmem a).2 ⟨by omega, by omega, ?_⟩, by omega⟩
      have := Int.natCast_dvd_natCast.2 h3
      rwa [Int.ofNat_sub h1] at this
  · refine List.Nodup.map_on ?_ (nodup_indices hs')
    intro a ha b hb e
    have := ((hmem a).1 ha).1
    have := ((hmem b).1 hb).1
    omega
  · exact steps_nodup hs

/-- **C50** for the loop the library runs: any number of workers, any grain, after any loops on the same
object, every schedule (`RunFor`), the cells of the rows executed by different workers in any interleaving
(`order`): every cell of the window gets exactly the value of the user's function, all others keep their
value, no write is outside the buffer. -/
theorem C50_parallel_partial {T : Type} {X Y : Nat} (hL : X = Y ∨ X = 1) {x0 x1 xs y0 y1 ys : Nat}
    (hxs : 1 ≤ xs) (hys : 1 ≤ ys) (hx1 : x1 ≤ X) (hy1 : y1 ≤ Y)
    {old d : Nat → Range} {grain : Int} {nw : Nat} {L : Loop} {log : List (Nat × Int)}
    (hT : Table old) (hk : 1 ≤ grain) (hn : 1 ≤ nw)
    (hset : setloopDyn old x0 x1 xs grain nw = some L) (hrun : RunFor x0 x1 xs nw L log d)
    {order : List (Nat × Nat)}
    (ho : order.Perm (cells (log.map fun e => e.2.toNat) (steps y0 y1 ys)))
    (f : Nat → Nat → Buf T → T) (inp out : Buf T) :
    ∃ out', sweep X Y f inp out order = some out' ∧
      ∀ i j, i < X → j < Y → out' (idx X i j) =
        if (x0 ≤ i ∧ i < x1 ∧ xs ∣ i - x0) ∧ (y0 ≤ j ∧ j < y1 ∧ ys ∣ j - y0) then f i j inp
        else out (idx X i j) := by
  have h1 := (C29_exactly_once_partial hT (by omega) hk hn hset hrun).1
  have h2 : (log.map fun e => e.2.toNat).Perm (steps x0 x1 xs) := by
    have := (h1.map Int.toNat).trans (rows_perm hxs)
    rwa [List.map_map] at this
  have hmem : ∀ i, i ∈ (log.map fun e => e.2.toNat) ↔ x0 ≤ i ∧ i < x1 ∧ xs ∣ i - x0 := by
    intro i; rw [h2.mem_iff, mem_steps hxs]
  obtain ⟨out', g1, g2⟩ := C50_sweep_partial hL (xs := log.map fun e => e.2.toNat)
    (ys := steps y0 y1 ys) (fun i hi => by have := (hmem i).1 hi; omega)
    (fun j hj => by have := (mem_steps hys).1 hj; omega) ho f inp out
  refine ⟨out', g1, fun i j hi hj => ?_⟩
  rw [g2 i j hi hj]
  simp only [hmem, mem_steps hys]

end FF.Stencil
