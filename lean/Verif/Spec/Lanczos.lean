import Mathlib.Data.Complex.BigOperators
import Mathlib.LinearAlgebra.Matrix.Hermitian
import Mathlib.Analysis.Real.Sqrt

/-! What a Lanczos basis is. -/

namespace Spec.Lanczos
open Matrix

variable {n : Type} [Fintype n]

/-- The inner product `⟨x, y⟩`. -/
def ip (x y : n → ℂ) : ℂ := ∑ i, star (x i) * y i

/-- The length of a vector. -/
noncomputable def norm (x : n → ℂ) : ℝ := Real.sqrt (∑ i, Complex.normSq (x i))

/-- Entries of the tridiagonal matrix with diagonal `a` and off-diagonal `b`. -/
def tridiagonal (a b : List ℝ) (i j : ℕ) : ℝ :=
  if i = j then a.getD i 0 else if j = i + 1 then b.getD i 0 else if i = j + 1 then b.getD j 0 else 0

/-- `Q` is a Lanczos basis of `A` for the direction of `v`, with the coefficients `a` and `b`. -/
structure IsLanczos (A : Matrix n n ℂ) (v : n → ℂ) (Q : List (n → ℂ)) (a b : List ℝ) : Prop where
  /-- There is a first vector; as many numbers `a`, one number `b` less. -/
  nonempty : 0 < Q.length
  lengths : a.length = Q.length ∧ b.length + 1 = Q.length
  /-- The first vector is `v`, normalised. -/
  first : (norm v : ℂ) • Q.getD 0 0 = v
  /-- The vectors are orthonormal. -/
  orthonormal : ∀ i < Q.length, ∀ j < Q.length, ip (Q.getD i 0) (Q.getD j 0) = if i = j then 1 else 0
  /-- The numbers `b` are positive. -/
  positive : ∀ x ∈ b, 0 < x
  /-- Three-term recurrence. -/
  recurrence : ∀ i, i + 1 < Q.length → A *ᵥ Q.getD i 0 =
    (if i = 0 then 0 else (b.getD (i - 1) 0 : ℂ) • Q.getD (i - 1) 0) + (a.getD i 0 : ℂ) • Q.getD i 0 + (b.getD i 0 : ℂ) • Q.getD (i + 1) 0
  /-- `T = Q† A Q`. -/
  projection : ∀ i < Q.length, ∀ j < Q.length, ip (Q.getD i 0) (A *ᵥ Q.getD j 0) = (tridiagonal a b i j : ℂ)

/-- The tridiagonal matrix with `k + 1` rows. -/
def triMatrix (k : ℕ) (a b : List ℝ) : Matrix (Fin (k + 1)) (Fin (k + 1)) ℝ := Matrix.of fun i j => tridiagonal a b i j

/-- The vectors span a space that `A` maps to itself: there is no residual after the last vector. -/
def Closed (A : Matrix n n ℂ) (Q : List (n → ℂ)) (a b : List ℝ) : Prop :=
  ∀ k, k + 1 = Q.length → A *ᵥ Q.getD k 0 =
    (if k = 0 then 0 else (b.getD (k - 1) 0 : ℂ) • Q.getD (k - 1) 0) + (a.getD k 0 : ℂ) • Q.getD k 0

/-- What `scipy.linalg.eigh_tridiagonal` promises: the columns of the orthogonal matrix `V` are the eigenvectors. -/
structure IsEigh {k : ℕ} (T : Matrix (Fin (k + 1)) (Fin (k + 1)) ℝ) (E : Fin (k + 1) → ℝ) (V : Matrix (Fin (k + 1)) (Fin (k + 1)) ℝ) :
    Prop where
  orthogonal : Vᵀ * V = 1
  eigen : T * V = V * Matrix.diagonal E

end Spec.Lanczos
