import Mathlib.Data.Complex.Basic
/-!
Specification vocabulary for one-dimensional bases without symmetry blocks.  Nothing here refers to the model.
-/
namespace Spec

/-- Contract of `argsort(...)[::-1]` on states: a rearrangement in which the states never increase. -/
def SortsStates (sort : List ℕ → List ℕ) : Prop := ∀ l, (sort l).Perm l ∧ (sort l).Pairwise (fun a b => b ≤ a)

/-- `M` is the matrix of the operator `A` between the listed configurations. -/
def IsMatrixBetween (states : List ℕ) (A : ℕ → ℕ → ℂ) (M : ℕ → ℕ → ℂ) : Prop :=
  ∀ i j : Fin states.length, M j i = A states[j] states[i]

end Spec
