import Mathlib.LinearAlgebra.Matrix.Hermitian
import Mathlib.Analysis.Complex.Basic

/-!
What a diagonalisation of a matrix is, independent of the code.
-/

namespace Spec

/-- `E` and the columns of `V` are a complete diagonalisation of `A`: the numbers do not decrease, the columns are orthonormal, and each is an
eigenvector for its number. -/
def Diagonalises {N : ℕ} (A : Matrix (Fin N) (Fin N) ℂ) (E : Fin N → ℝ) (V : Matrix (Fin N) (Fin N) ℂ) : Prop :=
  Monotone E ∧ V.conjTranspose * V = 1 ∧ A * V = V * Matrix.diagonal fun i => (E i : ℂ)

/-- The hermitian matrix with the lower (or upper) triangle of `A`: what LAPACK reads. -/
def completed {N : ℕ} (lower : Bool) (A : Matrix (Fin N) (Fin N) ℂ) : Matrix (Fin N) (Fin N) ℂ := fun i j =>
  if i = j then ((A i i).re : ℂ) else if (if lower then j < i else i < j) then A i j else star (A j i)

end Spec
