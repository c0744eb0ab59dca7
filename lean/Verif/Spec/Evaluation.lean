import Mathlib.LinearAlgebra.Matrix.ConjTranspose
import Mathlib.LinearAlgebra.Matrix.Trace
import Mathlib.LinearAlgebra.Matrix.Hermitian

/-!
What evaluating an operator means: expectation values, fluctuations, matrix elements, commutators.
States are the columns of a matrix with rows `n`.
-/

namespace Spec.Evaluation

variable {n κ κ' R : Type} [Fintype n] [CommRing R] [StarRing R]

/-- The operator `S + Σ f(t) D` at time `t`. -/
def instant {T : Type} (S : Matrix n n R) (D : List ((T → R) × Matrix n n R)) (t : T) : Matrix n n R :=
  S + (D.map fun e => e.1 t • e.2).sum

/-- `⟨ψ_j| H |ψ_j⟩` for the column `j`. -/
def expectation (H : Matrix n n R) (ψ : Matrix n κ R) (j : κ) : R := ∑ i, ∑ k, star (ψ i j) * (H i k * ψ k j)

/-- `⟨ψ_j| H² |ψ_j⟩ - ⟨ψ_j| H |ψ_j⟩²`. -/
def fluctuation (H : Matrix n n R) (ψ : Matrix n κ R) (j : κ) : R :=
  expectation (H * H) ψ j - expectation H ψ j ^ 2

/-- `tr(H ρ)`. -/
def mixedExpectation (H ρ : Matrix n n R) : R := ∑ i, ∑ k, H i k * ρ k i

/-- `tr(H² ρ) - tr(H ρ)²`. -/
def mixedFluctuation (H ρ : Matrix n n R) : R := mixedExpectation (H * H) ρ - mixedExpectation H ρ ^ 2

/-- `⟨φ_a| H |ψ_b⟩`. -/
def element (H : Matrix n n R) (φ : Matrix n κ R) (ψ : Matrix n κ' R) (a : κ) (b : κ') : R :=
  ∑ i, ∑ k, star (φ i a) * (H i k * ψ k b)

end Spec.Evaluation
