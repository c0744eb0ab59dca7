import Mathlib.Data.Matrix.Mul
import Mathlib.LinearAlgebra.Matrix.Kronecker
import Mathlib.Data.Complex.Basic
import Mathlib.Data.List.MinMax

/-!
Model of `get_proj` and `project_from` of tensor bases (`/repo/quspin/basis/tensor.py`) and of photon bases with a conserved total number
(`/repo/quspin/basis/photon.py`).

`P`, `Q` are the matrices of `get_proj` of the parts; `project_from` of a part multiplies with its matrix (C18).  With `full_left=False`,
`full_right=False`, `full_part=False` the matrix of this part is the identity.  The rows of the product are pairs: the pair `(s, m)` is the
row `s * (number of rows of the second part) + m`.  States are columns; sparse and dense formats are not distinguished.
-/

namespace Model.Embedding
open scoped Kronecker

variable {A B : Type} {M Ns c : ℕ}

/-! ### Tensor bases -/

/-- `tensor_basis.get_proj` (tensor.py:342-353). -/
noncomputable def tensorProj {M₁ N₁ M₂ N₂ : ℕ} (P : Matrix (Fin M₁) (Fin N₁) ℂ) (Q : Matrix (Fin M₂) (Fin N₂) ℂ) :
    Matrix (Fin M₁ × Fin M₂) (Fin N₁ × Fin N₂) ℂ := P ⊗ₖ Q

/-- One singular value of every column, with the vectors `V1[i]`, `V2[i]` (tensor.py:1002-1005). -/
structure Term (N₁ N₂ c : ℕ) where
  left : Matrix (Fin N₁) (Fin c) ℂ
  value : Fin c → ℂ
  right : Matrix (Fin N₂) (Fin c) ℂ

/-- The vectors of one term in the full spaces, multiplied element by element: `kron(v1, ones) * kron(ones, v2) * s`
(tensor.py:1055-1075, 1078-1093). -/
noncomputable def product {M₁ N₁ M₂ N₂ c : ℕ} (P : Matrix (Fin M₁) (Fin N₁) ℂ) (Q : Matrix (Fin M₂) (Fin N₂) ℂ) (t : Term N₁ N₂ c) :
    Matrix (Fin M₁ × Fin M₂) (Fin c) ℂ :=
  Matrix.of fun r j => (P * t.left) r.1 j * (Q * t.right) r.2 j * t.value j

/-- `_combine_project_froms` (tensor.py:989-1097): the last term first, then the others; `svd` are the terms of the singular value
decomposition of the reshaped columns. -/
noncomputable def combine {M₁ N₁ M₂ N₂ c : ℕ} (P : Matrix (Fin M₁) (Fin N₁) ℂ) (Q : Matrix (Fin M₂) (Fin N₂) ℂ) (svd : List (Term N₁ N₂ c)) :
    Option (Matrix (Fin M₁ × Fin M₂) (Fin c) ℂ) :=
  svd.getLast?.map fun t => svd.dropLast.foldl (fun v t => v + product P Q t) (product P Q t)

/-! ### Photon bases -/

/-- `self._n` (photon.py:168-170): the photon numbers, computed in place in the array `_Np_list`.  For one-dimensional bases it has signed
numbers of eight bits (basis_1d/base_1d.py:138), with the casting rules of numpy before version 2.  For general bases the numbers are unsigned
(basis_general/base_general.py:747), and `*= -1` raises: the product with a negative number is signed and cannot be stored. -/
def numbers (unsigned : Bool) (Ntot : ℕ) (Np : Fin Ns → ℕ) : Option (Fin Ns → ℤ) :=
  if unsigned then none else some fun k => Int.bmod (Int.bmod ((Np k : ℤ) - Ntot) (2 ^ 8) * -1) (2 ^ 8)

/-- The place `np` of `v_ph`; negative places count from the end (photon.py:799, 817); `none` is an `IndexError`. -/
def level (Nph : ℕ) (np : ℤ) : Option (Fin (Nph + 1)) :=
  if h : 0 ≤ np ∧ np ≤ Nph then some ⟨np.toNat, by omega⟩
  else if h : np < 0 ∧ -((Nph : ℤ) + 1) ≤ np then some ⟨(np + (Nph + 1)).toNat, by omega⟩
  else none

/-- `np_min`, then `range(np_min+1,np_max+1,1)` (photon.py:795-796, 816); `min` of an empty array raises. -/
def steps (n : Fin Ns → ℤ) : Option (List ℤ) :=
  (List.ofFn n).min?.bind fun a => (List.ofFn n).max?.map fun b => a :: (List.range (b - a).toNat).map fun (i : ℕ) => a + 1 + i

/-- `kron(x, v_ph)` with `v_ph` one at the place `l` (photon.py:809-812). -/
def kron {Nph : ℕ} (x : Matrix (Fin M) (Fin c) ℂ) (l : Fin (Nph + 1)) : Matrix (Fin M × Fin (Nph + 1)) (Fin c) ℂ :=
  Matrix.of fun r j => x r.1 j * if r.2 = l then 1 else 0

/-- The sum over the photon numbers of `kron(f np, v_ph)`, with the first one apart (photon.py:809-836, 859-873). -/
def sumLevels (Nph : ℕ) (f : ℤ → Matrix (Fin M) (Fin c) ℂ) : List ℤ → Option (Matrix (Fin M × Fin (Nph + 1)) (Fin c) ℂ)
  | [] => none
  | a :: as => (level Nph a).bind fun l => as.foldlM (fun v np => (level Nph np).map fun l => v + kron (f np) l) (kron (f a) l)

/-- `v0_mask[mask] = v0[mask]`: the rows of the states with this number of photons (photon.py:800-801, 818-819); afterwards they are set to zero
again. -/
def maskRows (n : Fin Ns → ℤ) (np : ℤ) (v : Matrix (Fin Ns) (Fin c) ℂ) : Matrix (Fin Ns) (Fin c) ℂ :=
  Matrix.of fun k j => if n k = np then v k j else 0

/-- `proj_1_mask[:,mask] = proj_1[:,mask]` (photon.py:855-856, 866-867). -/
def maskCols (n : Fin Ns → ℤ) (np : ℤ) (P : Matrix (Fin M) (Fin Ns) ℂ) : Matrix (Fin M) (Fin Ns) ℂ :=
  Matrix.of fun s k => if n k = np then P s k else 0

/-- `project_from` (photon.py:359-390) with `_conserved_project_from` (photon.py:793-838); without `Nph` it is `Ntot`. -/
noncomputable def projectFrom (n : Fin Ns → ℤ) (Ntot Nph : ℕ) (P : Matrix (Fin M) (Fin Ns) ℂ) (v : Matrix (Fin Ns) (Fin c) ℂ) :
    Option (Matrix (Fin M × Fin (Nph + 1)) (Fin c) ℂ) :=
  if Nph < Ntot then none else (steps n).bind fun l => sumLevels Nph (fun np => P * maskRows n np v) l

/-- `get_proj` (photon.py:424-434) with `_conserved_get_proj` (photon.py:840-876). -/
noncomputable def getProj (n : Fin Ns → ℤ) (Ntot Nph : ℕ) (P : Matrix (Fin M) (Fin Ns) ℂ) :
    Option (Matrix (Fin M × Fin (Nph + 1)) (Fin Ns) ℂ) :=
  if Nph < Ntot then none else (steps n).bind fun l => sumLevels Nph (fun np => maskCols n np P) l

end Model.Embedding
