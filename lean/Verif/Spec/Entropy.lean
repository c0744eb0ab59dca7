import Mathlib.Analysis.Matrix.Spectrum
import Mathlib.Analysis.SpecialFunctions.Log.Basic
import Mathlib.Analysis.SpecialFunctions.Pow.Real

/-! What entropies are. -/

namespace Spec.Entropy
open Matrix

variable {n : Type} [Fintype n] [DecidableEq n]

/-- The Renyi entropy of a density matrix with eigenvalues `p`, counted with multiplicity: `log (∑ p ^ α) / (1 - α)`, and `-∑ p log p` for
`α = 1`.  Eigenvalues zero contribute nothing, so that `α = 0` gives the logarithm of the rank. -/
noncomputable def renyi (α : ℝ) {ρ : Matrix n n ℂ} (h : ρ.IsHermitian) : ℝ :=
  if α = 1 then -∑ i, h.eigenvalues i * Real.log (h.eigenvalues i)
  else Real.log (∑ i, if h.eigenvalues i = 0 then 0 else h.eigenvalues i ^ α) / (1 - α)

/-- The reduced density matrix of the first of two systems in the state `ψ`. -/
noncomputable def first {a b : Type} [Fintype b] (ψ : a → b → ℂ) : Matrix a a ℂ := fun i k => ∑ j, ψ i j * star (ψ k j)

/-- The reduced density matrix of the second of two systems in the state `ψ`. -/
noncomputable def second {a b : Type} [Fintype a] (ψ : a → b → ℂ) : Matrix b b ℂ := fun i k => ∑ j, ψ j i * star (ψ j k)

/-- `U`, `s`, `V` is a (reduced) singular value decomposition of the matrix `v` with `m` rows and `n` columns. -/
structure IsSvd (m n : ℕ) (v U : ℕ → ℕ → ℂ) (s : List ℝ) (V : ℕ → ℕ → ℂ) : Prop where
  length : s.length = min m n
  nonneg : ∀ x ∈ s, 0 ≤ x
  left : ∀ k < s.length, ∀ l < s.length, ∑ i ∈ Finset.range m, star (U i k) * U i l = if k = l then 1 else 0
  right : ∀ k < s.length, ∀ l < s.length, ∑ j ∈ Finset.range n, V k j * star (V l j) = if k = l then 1 else 0
  product : ∀ i < m, ∀ j < n, v i j = ∑ k ∈ Finset.range s.length, U i k * (s.getD k 0 : ℝ) * V k j

/-- `p` lists the eigenvalues of the matrix `R` with `n` rows: there is an orthonormal basis of eigenvectors, the columns of `W`. -/
def IsSpectrum (n : ℕ) (R : ℕ → ℕ → ℂ) (p : List ℝ) : Prop :=
  p.length = n ∧ ∃ W : ℕ → ℕ → ℂ, (∀ k < p.length, ∀ l < p.length, ∑ i ∈ Finset.range n, star (W i k) * W i l = if k = l then 1 else 0) ∧
    ∀ i < n, ∀ j < n, R i j = ∑ k ∈ Finset.range p.length, W i k * (p.getD k 0 : ℝ) * star (W j k)

end Spec.Entropy
