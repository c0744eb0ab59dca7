import Verif.Spec.Chain
import Verif.Spec.Reduced
/-!
Specification vocabulary for the matrices of operators in symmetry blocks.  Nothing here refers to the model.
-/
namespace Spec
open scoped BigOperators

/-- `M` is the matrix of the operator `A` in the normalised projections of the configurations `reps` onto the
quantum numbers; the configurations are the numbers below `size`. -/
def IsRestriction (size : ℕ) (ys : List Generator) (reps : List ℕ) (A : ℕ → ℕ → ℂ) (M : ℕ → ℕ → ℂ) : Prop :=
  ∀ i j : Fin reps.length, M j i = ∑ t ∈ Finset.range size, ∑ u ∈ Finset.range size,
    (starRingEnd ℂ) (symState (Finset.range size) ys reps[j] t) * A t u * symState (Finset.range size) ys reps[i] u

/-- Every term sends each configuration below `size` to a multiple of a configuration below `size`. -/
def TermsWithin (size : ℕ) (terms : List (ℕ → Option (ℕ × ℂ))) : Prop :=
  ∀ f ∈ terms, ∀ s < size, ∃ r < size, ∃ m, f s = some (r, m)

/-- The configurations `es` are listed in increasing order and mapped among themselves by the symmetries. -/
structure IsSectorOf (size : ℕ) (ys : List Generator) (es : List ℕ) : Prop where
  increasing : es.Pairwise (· < ·)
  below : ∀ s ∈ es, s < size
  closed : ∀ y ∈ ys, ∀ s ∈ es, y.img s ∈ es

/-- `reps` are the representatives, among the configurations `es`, of the orbits with the quantum numbers. -/
def AreRepresentatives (ys : List Generator) (es reps : List ℕ) : Prop :=
  reps.Pairwise (· > ·) ∧ ∀ s, s ∈ reps ↔ s ∈ es ∧ IsRepresentative ys s

end Spec
