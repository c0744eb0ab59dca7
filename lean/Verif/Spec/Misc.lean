import Mathlib.LinearAlgebra.Matrix.ConjTranspose
import Mathlib.Analysis.SpecialFunctions.Log.Basic

/-!
Words for the functions of `quspin.tools.misc`: projection of operators, relative entropy, spacings of levels.
-/

namespace Spec.Misc

variable {m n : Type} [Fintype m] [Fintype n]

/-- The operator `A` of the large space, seen from the small one: the columns of `P` are the states of the small
space. -/
def down (P : Matrix n m ℂ) (A : Matrix n n ℂ) : Matrix m m ℂ := P.conjTranspose * A * P

/-- The operator `A` of the small space as operator of the large one. -/
def up (P : Matrix n m ℂ) (A : Matrix m m ℂ) : Matrix n n ℂ := P * A * P.conjTranspose

/-- `<v| A |w>`. -/
def sandwich (v : n → ℂ) (A : Matrix n n ℂ) (w : n → ℂ) : ℂ := ∑ i, ∑ j, star (v i) * A i j * w j

/-- Relative entropy of `p` with respect to `q`, in nats. -/
noncomputable def relativeEntropy {n : ℕ} (p q : Fin n → ℝ) : ℝ := ∑ i, p i * Real.log (p i / q i)

/-- Distance of the levels `i` and `i + 1`. -/
def spacing (E : ℕ → ℝ) (i : ℕ) : ℝ := E (i + 1) - E i

/-- Ratio of the smaller to the larger of two neighbouring distances. -/
noncomputable def ratio (E : ℕ → ℝ) (i : ℕ) : ℝ :=
  min (spacing E i) (spacing E (i + 1)) / max (spacing E i) (spacing E (i + 1))

/-- Mean of this ratio for the levels `0, ..., k + 1`: there are `k` pairs of neighbouring distances. -/
noncomputable def meanRatio (k : ℕ) (E : ℕ → ℝ) : ℝ := (∑ i ∈ Finset.range k, ratio E i) / k

end Spec.Misc
