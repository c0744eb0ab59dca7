import Mathlib.Data.Complex.Basic
import Mathlib.Algebra.BigOperators.Group.Finset.Basic

/-!
Partial traces for two parts.  The state `i * Nr + j` of the product is the state `i` of the left and `j` of the right part.
-/

namespace Spec.TwoParts
open Finset

/-- The trace over the right part. -/
noncomputable def left (Nr : ℕ) (rho : ℕ → ℕ → ℂ) (i k : ℕ) : ℂ := ∑ j ∈ range Nr, rho (i * Nr + j) (k * Nr + j)

/-- The trace over the left part. -/
noncomputable def right (Nl Nr : ℕ) (rho : ℕ → ℕ → ℂ) (i k : ℕ) : ℂ := ∑ j ∈ range Nl, rho (j * Nr + i) (j * Nr + k)

/-- `|ψ⟩⟨ψ|`. -/
noncomputable def projector (psi : ℕ → ℂ) (r s : ℕ) : ℂ := psi r * star (psi s)

end Spec.TwoParts
