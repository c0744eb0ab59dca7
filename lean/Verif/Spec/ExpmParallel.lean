import Mathlib.Data.Matrix.Mul
import Mathlib.Analysis.Complex.Basic
import Mathlib.Data.Nat.Factorial.Basic
/-!
Specification vocabulary for the Taylor series of a matrix exponential.  Nothing here refers to the model.
-/
namespace Spec.Taylor
open Matrix Nat

variable {n : ℕ}

/-- The term of order `j` of the series of `exp(X) v`. -/
noncomputable def term (X : Matrix (Fin n) (Fin n) ℂ) (j : ℕ) (v : Fin n → ℂ) : Fin n → ℂ := ((j ! : ℕ) : ℂ)⁻¹ • (X ^ j *ᵥ v)

/-- The series up to order `m`. -/
noncomputable def partialSum (X : Matrix (Fin n) (Fin n) ℂ) (m : ℕ) (v : Fin n → ℂ) : Fin n → ℂ := ∑ j ∈ Finset.range (m + 1), term X j v

/-- The stopping rule after the term of order `m`: the last two terms together are not larger (largest element) than `tol` times the sum;
`c` takes the place of the term of order 0. -/
def SmallTerms (tol : ℝ) (X : Matrix (Fin n) (Fin n) ℂ) (v : Fin n → ℂ) (c : ℝ) (m : ℕ) : Prop :=
  (if m = 1 then c else ‖term X (m - 1) v‖) + ‖term X m v‖ ≤ tol * ‖partialSum X m v‖

/-- `m` is the order reached: the first one that satisfies the stopping rule, at most `mStar`. -/
structure IsOrder (mStar : ℕ) (tol : ℝ) (X : Matrix (Fin n) (Fin n) ℂ) (v : Fin n → ℂ) (c : ℝ) (m : ℕ) : Prop where
  le : m ≤ mStar
  before : ∀ i, 1 ≤ i → i < m → ¬ SmallTerms tol X v c i
  stop : m = mStar ∨ (1 ≤ m ∧ SmallTerms tol X v c m)

/-- `w` comes from `v` by `k` steps `eta` times the series of `exp(X)`, each with the order of the stopping rule; `c` is the number compared
in the first step, in all other steps it is the norm of the vector. -/
inductive Approximates (mStar : ℕ) (tol : ℝ) (eta : ℂ) (X : Matrix (Fin n) (Fin n) ℂ) : ℕ → ℝ → (Fin n → ℂ) → (Fin n → ℂ) → Prop
  | done {c v} : Approximates mStar tol eta X 0 c v v
  | step {k c v m w} : IsOrder mStar tol X v c m → Approximates mStar tol eta X k ‖eta • partialSum X m v‖ (eta • partialSum X m v) w →
      Approximates mStar tol eta X (k + 1) c v w

end Spec.Taylor
