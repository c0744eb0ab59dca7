import Verif.Spec.Reads
import Verif.Spec.Motion
import Mathlib.Analysis.SpecialFunctions.Complex.Log
import Mathlib.LinearAlgebra.Matrix.Charpoly.Basic

/-!
Words for C79: the evolution over one period, its states and quasienergies.
-/

namespace Spec.Floquet
open Matrix Spec.Reads

variable {n : Nat}

/-- The evolution over a list of steps (duration and constant Hamiltonian); the first step acts first. -/
noncomputable def steps : List (ℝ × Matrix (Fin n) (Fin n) ℂ) → Matrix (Fin n) (Fin n) ℂ
  | [] => 1
  | p :: r => steps r * expo (-Complex.I * p.1) p.2

/-- `W t` is the evolution operator from time 0 to time `t`. -/
def Evolution (H W : ℝ → Matrix (Fin n) (Fin n) ℂ) : Prop := W 0 = 1 ∧ Spec.Motion.Solves (Spec.Motion.schroedinger H) W

/-- The columns of `V` are orthonormal eigenvectors of `U`, with eigenvalues `θ`. -/
def Eigenbasis (U : Matrix (Fin n) (Fin n) ℂ) (θ : Fin n → ℂ) (V : Matrix (Fin n) (Fin n) ℂ) : Prop :=
  U * V = V * diagonal θ ∧ Vᴴ * V = 1

/-- `θ` are the eigenvalues of `U`, with multiplicity. -/
def Spectrum (U : Matrix (Fin n) (Fin n) ℂ) (θ : Fin n → ℂ) : Prop := U.charpoly = ∏ k, (Polynomial.X - Polynomial.C (θ k))

/-- `E` are the quasienergies that belong to the phases `θ` of a period `T`: `exp(-i T E) = θ`, in the zone `-π ≤ T E < π`, ordered. -/
def Quasienergies (T : ℝ) (θ : Fin n → ℂ) (E : Fin n → ℝ) : Prop :=
  (∀ k, Complex.exp (-Complex.I * (T * E k)) = θ k ∧ -Real.pi ≤ T * E k ∧ T * E k < Real.pi) ∧ Monotone E

/-- `L` is the principal logarithm of the normal matrix `U`. -/
def PrincipalLog (U L : Matrix (Fin n) (Fin n) ℂ) : Prop :=
  ∃ θ V, Eigenbasis U θ V ∧ L = V * diagonal (fun k => Complex.log (θ k)) * Vᴴ

/-- The drive `f` has period `T`. -/
def Periodic (T : ℝ) (f : ℝ → ℂ) : Prop := ∀ t, f (t + T) = f t

end Spec.Floquet
