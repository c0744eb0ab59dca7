import Verif.Spec.Symmetry
import Mathlib.LinearAlgebra.Matrix.ConjTranspose
import Mathlib.Data.Matrix.Mul
import Mathlib.Analysis.SpecialFunctions.Trigonometric.Basic
import Mathlib.Data.Complex.Basic
/-!
Specification vocabulary for blocks of a translation and a reflection.  The reflection turns momentum `k` into `-k`, so the two do not commute; what can
be diagonalised together are the reflection and the sum of the translation and its inverse.  Nothing here refers to the model.
-/
namespace Spec.Semi
open scoped BigOperators Matrix

variable {N : ℕ}

/-- The signed map `y` of the configurations below `N` as a matrix. -/
def matrixOf (N : ℕ) (y : Generator) : Matrix (Fin N) (Fin N) ℂ := fun t s => if y.img s = (t : ℕ) then (y.sgn s : ℂ) else 0

/-- An operator given by its matrix elements between configurations. -/
def restrict (N : ℕ) (A : ℕ → ℕ → ℂ) : Matrix (Fin N) (Fin N) ℂ := fun t s => A t s

/-- The configuration `s` as a vector. -/
def basisVec (N s : ℕ) : Fin N → ℂ := fun t => if (t : ℕ) = s then 1 else 0

/-- The vector `v` is made of waves with momentum `θ` and `-θ` of the translation `U`, and has eigenvalue `p` of the reflection `R`. -/
structure InBlock (U R : Matrix (Fin N) (Fin N) ℂ) (θ : ℝ) (p : Int) (v : Fin N → ℂ) : Prop where
  momentum : U *ᵥ v + Uᴴ *ᵥ v = ((2 * Real.cos θ : ℝ) : ℂ) • v
  reflection : R *ᵥ v = (p : ℂ) • v

/-- The semi-momentum state `(1 + p R) ∑ⱼ c(θ j) Uʲ |s⟩`, `0 ≤ j < n`, with `c = cos` for positive `σ` and `c = sin` otherwise. -/
noncomputable def state (U R : Matrix (Fin N) (Fin N) ℂ) (n : ℕ) (θ : ℝ) (p σ : Int) (s : ℕ) : Fin N → ℂ :=
  (1 + (p : ℂ) • R) *ᵥ ((∑ j ∈ Finset.range n, ((if 0 < σ then Real.cos (θ * j) else Real.sin (θ * j) : ℝ) : ℂ) • U ^ j) *ᵥ basisVec N s)

/-- A vector as in `InBlock` that has eigenvalue `z` of the inversion `I` too. -/
structure InBlock3 (U R I : Matrix (Fin N) (Fin N) ℂ) (θ : ℝ) (p z : Int) (v : Fin N → ℂ) : Prop where
  block : InBlock U R θ p v
  inversion : I *ᵥ v = (z : ℂ) • v

/-- The state `(1 + z I) (1 + p R) ∑ⱼ c(θ j) Uʲ |s⟩`. -/
noncomputable def state3 (U R I : Matrix (Fin N) (Fin N) ℂ) (n : ℕ) (θ : ℝ) (p z σ : Int) (s : ℕ) : Fin N → ℂ :=
  (1 + (z : ℂ) • I) *ᵥ state U R n θ p σ s

/-- A vector divided by its norm. -/
noncomputable def normalized (v : Fin N → ℂ) : Fin N → ℂ := (((Real.sqrt (∑ t, ‖v t‖ ^ 2))⁻¹ : ℝ) : ℂ) • v

/-- `e` is an orthonormal basis of the vectors with property `B` that live on the configurations `es`. -/
structure IsBasisOf (B : (Fin N → ℂ) → Prop) (es : List ℕ) {d : ℕ} (e : Fin d → Fin N → ℂ) : Prop where
  orthonormal : ∀ i j, ∑ t, (starRingEnd ℂ) (e i t) * e j t = if i = j then 1 else 0
  inBlock : ∀ i, B (e i)
  within : ∀ i t, e i t ≠ 0 → (t : ℕ) ∈ es
  spans : ∀ v : Fin N → ℂ, B v → (∀ t, v t ≠ 0 → (t : ℕ) ∈ es) → ∃ a : Fin d → ℂ, v = ∑ i, a i • e i

/-- `M` is the matrix of the operator `A` in the vectors `e`. -/
def IsMatrixIn {d : ℕ} (e : Fin d → Fin N → ℂ) (A : Matrix (Fin N) (Fin N) ℂ) (M : ℕ → ℕ → ℂ) : Prop :=
  ∀ i j : Fin d, M j i = ∑ t, ∑ u, (starRingEnd ℂ) (e j t) * A t u * e i u

end Spec.Semi
