import Mathlib.Algebra.BigOperators.Group.Finset.Basic
import Verif.Spec.Operators
import Verif.Spec.Maps
/-!
Specification vocabulary for symmetry maps of fermions.  A configuration stands for the creation
operators of its occupied sites, in the order of the sites, applied to the vacuum.  Moving every creation
operator to its new site and sorting gives one minus sign for every pair of occupied sites whose order is
reversed.  Nothing here refers to the model.
-/
namespace Spec

/-- `(-1)` to the number of pairs of elements of `O` whose order is reversed by `σ`. -/
def reorderSign {α : Type} [LinearOrder α] (σ : α → α) (O : Finset α) : Int :=
  ∏ j ∈ O, ∏ k ∈ O, if j < k ∧ σ k < σ j then -1 else 1

/-- Occupied sites of the configuration stored in `s`. -/
def occupied (N s : Nat) : Finset Nat := (Finset.range N).filter fun i => occ 2 N s i = 1

/-- Sign of a user map on the configuration `s`: the sign of moving the fermions, and, for inverted sites, one
minus sign for each occupied inverted site with odd index. -/
def fermionMapSign (N : Nat) (map : List Int) (s : Nat) : Int :=
  reorderSign (dest map) (occupied N s) *
    ∏ i ∈ occupied N s, if inverts map i = true ∧ i % 2 = 1 then -1 else 1

/-- The operator that moves every fermion from site `i` to site `σ i`. -/
noncomputable def permuteFermions {N : Nat} (σ : Equiv.Perm (Fin N)) : Matrix (Conf 2 N) (Conf 2 N) ℂ :=
  fun t s => if ∀ i, t (σ i) = s i then (reorderSign σ (Finset.univ.filter fun i => s i = 1) : ℂ) else 0

end Spec
