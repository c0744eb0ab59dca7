import Verif.Model.ChainPlain
import Verif.Model.SemiMomentum
import Mathlib.Algebra.Order.Floor.Semiring
import Mathlib.Data.Rat.Floor
/-!
The memory that the constructor of a one-dimensional basis reserves for a momentum block
(`basis_1d/_basis_1d_core/{hcp,boson,spf}_basis.pyx`, `basis_1d/base_1d.py`).
-/
namespace Model.Chain

/-- The number of states without the block, `_basis_1d_core/hcp_basis.pyx:73-78` (`_basis_1d_core/boson_basis.pyx:71-76`): `sps**L`, or the sum of `H_dim` over the list of
particle numbers. -/
def countStates (sps L : ℕ) : Option (List ℕ) → ℕ
  | none => sps ^ L
  | some ks => (ks.map fun k => hDim k L (sps - 1)).sum.toNat

/-- The same for fermions with spin, `_basis_1d_core/spf_basis.pyx:82-87`, for `sps = 2`. -/
def countSpf (L : ℕ) : Option (List (ℕ × ℕ)) → ℕ
  | none => 2 ^ (2 * L)
  | some ps => (ps.map fun p => hDim p.1 L 1 * hDim p.2 L 1).sum.toNat

/-- `int((1+1.0/(L//a))*Ns/(L//a)+(L//a))` for `n = L//a`: `_basis_1d_core/hcp_basis.pyx:80-82` (`_basis_1d_core/boson_basis.pyx:78-80`, `_basis_1d_core/spf_basis.pyx:89-91`), called on
`base_1d.py:105`.  Exact numbers instead of floating-point ones. -/
def reserved (Ns n : ℕ) : ℕ := ⌊(1 + 1 / (n : ℚ)) * Ns / n + n⌋₊

/-- `n_t_basis` and the like (`sources/hcp_basis.pyx:112-127`, and the same loops of the other blocks with momentum): for every sector the states
that are kept are written, with their numbers, behind those of the sectors before, to arrays of `alloc` entries (`base_1d.py:400-413`);
`sectors` are the states that are visited and satisfy `CheckState_nosymm`.  There is no check of the length: `none` if an entry is written
beyond the end of the arrays. -/
def fillBlocks {α : Type} (alloc : ℕ) (keep : ℕ → List α) (sectors : List (List ℕ)) : Option (List (ℕ × α)) :=
  let entries := (sectors.map fun vis => vis.flatMap fun s => (keep s).map fun d => (s, d)).flatten
  if alloc < entries.length then none else some entries

end Model.Chain
