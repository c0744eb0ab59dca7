import Mathlib.Analysis.SpecialFunctions.Integrals.Basic
import Mathlib.Analysis.Complex.Basic
import Mathlib.Data.Matrix.Mul
import Mathlib.LinearAlgebra.Matrix.ConjTranspose
import Mathlib.LinearAlgebra.Matrix.Trace
import Mathlib.Analysis.SpecialFunctions.Log.Basic
import Mathlib.Analysis.SpecialFunctions.Pow.Real
/-! Infinite-time averages after a quench. -/
namespace Spec.Quench
open Matrix Filter Topology

variable {n : ℕ}

/-- `a` is the average of `f` over infinite time, `lim 1/T ∫₀ᵀ f(t) dt`. -/
def TimeAverage (f : ℝ → ℝ) (a : ℝ) : Prop :=
  Tendsto (fun T => (∫ t in (0 : ℝ)..T, f t) / T) atTop (𝓝 a)

/-- `ψ` solves the Schroedinger equation `i dψ/dt = H ψ`. -/
def Schroedinger (H : Matrix (Fin n) (Fin n) ℂ) (psi : ℝ → Fin n → ℂ) : Prop :=
  ∀ t i, HasDerivAt (fun t => psi t i) (-Complex.I * ∑ j, H i j * psi t j) t

/-- `ρ` solves the von Neumann equation `i dρ/dt = H ρ - ρ H`. -/
def VonNeumann (H : Matrix (Fin n) (Fin n) ℂ) (rho : ℝ → Matrix (Fin n) (Fin n) ℂ) : Prop :=
  ∀ t i j, HasDerivAt (fun t => rho t i j) (-Complex.I * ((H * rho t) i j - (rho t * H) i j)) t

/-- `⟨ψ|O|ψ⟩` (a real number if `O` is Hermitian). -/
noncomputable def expectation (O : Matrix (Fin n) (Fin n) ℂ) (psi : Fin n → ℂ) : ℝ :=
  (∑ i, ∑ j, star (psi i) * O i j * psi j).re

/-- `Tr ρO`. -/
noncomputable def mean (O rho : Matrix (Fin n) (Fin n) ℂ) : ℝ := (rho * O).trace.re

/-- The columns of `V` are an orthonormal basis of eigenvectors of `H` with eigenvalues `E`. -/
structure Eigenbasis (H V : Matrix (Fin n) (Fin n) ℂ) (E : Fin n → ℝ) : Prop where
  unitary : Vᴴ * V = 1
  eigen : ∀ i k, (H * V) i k = V i k * (E k : ℂ)

/-- No two differences of energies coincide. -/
def NoResonance (E : Fin n → ℝ) : Prop :=
  ∀ i j k l, i ≠ j → E i - E j = E k - E l → i = k ∧ j = l

/-- Renyi entropy of a probability distribution. -/
noncomputable def entropy (α : ℝ) (p : Fin n → ℝ) : ℝ :=
  if α = 1 then -∑ k, p k * Real.log (p k) else Real.log (∑ k, if p k = 0 then 0 else p k ^ α) / (1 - α)

end Spec.Quench
