import Mathlib.LinearAlgebra.Matrix.Hermitian
import Mathlib.LinearAlgebra.Matrix.ConjTranspose
import Mathlib.Analysis.Calculus.Deriv.Basic
import Mathlib.Analysis.Complex.Basic

/-!
The equations of motion of quantum mechanics, for matrices of states and for density matrices.
-/

namespace Spec.Motion
open Complex

variable {n κ : Type} [Fintype n]

/-- `ψ` is differentiable and `dψ/dt = f(t, ψ)` at all times. -/
def Solves {K : Type} [NontriviallyNormedField K] [NormedAlgebra ℝ K] (f : ℝ → Matrix n κ K → Matrix n κ K)
    (ψ : ℝ → Matrix n κ K) : Prop :=
  ∀ t i j, HasDerivAt (fun s => ψ s i j) (f t (ψ t) i j) t

/-- `i dψ/dt = H(t) ψ`. -/
def schroedinger (H : ℝ → Matrix n n ℂ) (t : ℝ) (ψ : Matrix n κ ℂ) : Matrix n κ ℂ := (-I) • (H t * ψ)

/-- `dψ/dτ = -H(τ) ψ`. -/
def imaginary (H : ℝ → Matrix n n ℂ) (t : ℝ) (ψ : Matrix n κ ℂ) : Matrix n κ ℂ := -(H t * ψ)

/-- `i dρ/dt = [H(t), ρ]`. -/
def vonNeumann (H : ℝ → Matrix n n ℂ) (t : ℝ) (ρ : Matrix n n ℂ) : Matrix n n ℂ := (-I) • (H t * ρ - ρ * H t)

/-- The operator that takes the state at time `s` to the state at time `t`. -/
structure Propagator [DecidableEq n] (U : ℝ → ℝ → Matrix n n ℂ) : Prop where
  same : ∀ t, U t t = 1
  comp : ∀ r s t, U t s * U s r = U t r

/-- The eigenvalues and eigenvectors of `H`: `H V = V diag(E)`, `V` unitary. -/
structure Eigensystem [DecidableEq n] (H : Matrix (n) (n) ℂ) (E : n → ℝ) (V : Matrix (n) (n) ℂ) : Prop where
  eig : ∀ i a, ∑ k, H i k * V k a = V i a * E a
  unit : V * V.conjTranspose = 1

/-- The norm of a column. -/
noncomputable def norm (ψ : Matrix n κ ℂ) (j : κ) : ℝ := Real.sqrt (∑ i, ‖ψ i j‖ ^ 2)

/-- `φ` is `ψ` with every column multiplied by a positive number, so that column `j` has norm `c j`. -/
def Rescaled (ψ φ : Matrix n κ ℂ) (c : κ → ℝ) : Prop :=
  (∀ j, ∃ a : ℝ, 0 < a ∧ ∀ i, φ i j = a * ψ i j) ∧ ∀ j, norm φ j = c j

end Spec.Motion
