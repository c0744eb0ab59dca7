import Verif.Spec.ChainBlock
/-!
Specification vocabulary for vectors of the full space that belong to vectors in a symmetry block.  Nothing here refers to the model.
-/
namespace Spec
open scoped BigOperators

/-- `v` is the vector of the full space with the components `v0` along the normalised projections of the configurations `reps` onto the quantum
numbers.  The configurations are the numbers below `size`, listed in decreasing order. -/
def IsExpansion (size : ℕ) (ys : List Generator) (reps : List ℕ) (v0 : List ℂ) (v : ℕ → ℂ) : Prop :=
  ∀ t < size, v (size - 1 - t) = (List.zipWith (fun s a => a * symState (Finset.range size) ys s t) reps v0).sum

end Spec
