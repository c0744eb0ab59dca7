import Mathlib.Analysis.Calculus.Deriv.Basic
import Mathlib.Analysis.Calculus.Deriv.Mul
import Mathlib.Analysis.Complex.Basic
import Mathlib.Analysis.Normed.Algebra.MatrixExponential
import Mathlib.Data.Matrix.Mul
import Mathlib.LinearAlgebra.Matrix.ConjTranspose
import Mathlib.Analysis.SpecialFunctions.Pow.Real

/-!
Specification for `block_ops` (C88): motion of a state in the full space.
-/

namespace Spec.BlockOps

variable {N : ℕ}

/-- `ψ` obeys the Schrödinger equation `i dψ/dt = H(t) ψ` at all times. -/
def Moves {n : Type} [Fintype n] (H : ℝ → Matrix n n ℂ) (ψ : ℝ → n → ℂ) : Prop :=
  ∀ t i, HasDerivAt (fun s => ψ s i) (-Complex.I * ∑ j, H t i j * ψ t j) t

/-- The length of a vector. -/
noncomputable def size {n : Type} [Fintype n] (v : n → ℂ) : ℝ := Real.sqrt (∑ i, ‖v i‖ ^ 2)

/-- The columns of `P` are orthonormal and the space they span is invariant: `H(t)` acts in it as `h(t)`. -/
def Invariant {n m : Type} [Fintype n] [Fintype m] [DecidableEq m] (H : ℝ → Matrix n n ℂ) (P : Matrix n m ℂ) (h : ℝ → Matrix m m ℂ) : Prop :=
  P.conjTranspose * P = 1 ∧ ∀ t, H t * P = P * h t

/-- The points of `numpy.linspace(start, stop, num, endpoint)`. -/
noncomputable def points (start stop : ℝ) (num : ℕ) (endpoint : Bool) : List ℝ :=
  (List.range num).map fun (i : ℕ) => start + i * ((stop - start) / (if endpoint then (num : ℝ) - 1 else num))

end Spec.BlockOps
