import Mathlib.LinearAlgebra.Matrix.Defs
import Mathlib.Data.Matrix.Basic

/-!
Specification: direct sums of matrices and lists without repetitions.
-/

namespace Spec

/-- Element `i, j` of the matrix with the blocks `M b`, `b` in the list, along the diagonal. -/
def directSum {β R : Type} [Zero R] (dim : β → Nat) (M : (b : β) → Matrix (Fin (dim b)) (Fin (dim b)) R) :
    List β → Nat → Nat → R
  | [], _, _ => 0
  | b :: bs, i, j =>
    if h : i < dim b ∧ j < dim b then M b ⟨i, h.1⟩ ⟨j, h.2⟩
    else if dim b ≤ i ∧ dim b ≤ j then directSum dim M bs (i - dim b) (j - dim b)
    else 0

/-- The different elements of a list in the order in which they appear first. -/
def firsts {K : Type} [DecidableEq K] : List K → List K
  | [] => []
  | k :: l => k :: (firsts l).filter fun x => decide (x ≠ k)

end Spec
