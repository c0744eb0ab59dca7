import Mathlib.Analysis.Normed.Algebra.MatrixExponential
import Mathlib.Analysis.Complex.Basic

/-!
Words for C24 and C60: exponentials, transposes, adjoints, evenly spaced points.
-/

namespace Spec.Reads
open Matrix

/-- The three ways to read an operator. -/
inductive Read where
  | T
  | conj
  | H
  deriving DecidableEq

/-- What a read of a matrix should give. -/
def Read.of {n : Type} : Read → Matrix n n ℂ → Matrix n n ℂ
  | .T, M => Mᵀ
  | .conj, M => M.map star
  | .H, M => Mᴴ

/-- Reads one after the other. -/
def after {n : Type} (l : List Read) (M : Matrix n n ℂ) : Matrix n n ℂ := l.foldl (fun M r => r.of M) M

/-- `e^(tO)`. -/
noncomputable def expo {n : Type} [Fintype n] [DecidableEq n] (t : ℂ) (O : Matrix n n ℂ) : Matrix n n ℂ := NormedSpace.exp (t • O)

/-- `num` evenly spaced points from `start`. -/
def points (start step : ℂ) (num : ℕ) : List ℂ := (List.range num).map fun k : ℕ => start + k * step

end Spec.Reads
