import Mathlib.Data.Matrix.Mul
import Mathlib.LinearAlgebra.Matrix.Trace
import Mathlib.Algebra.BigOperators.Group.List.Basic

/-!
What evaluating a `quantum_operator` with parameters means: an operator is a dictionary of named matrices, the parameters are a
dictionary of numbers, a name without a number counts with the number one, and a number without a matrix of that name is an
error.
-/

namespace Spec.Pars

variable {n R : Type}

/-- The number of a name. -/
def coupling [One R] (d : List (String × R)) (k : String) : R := (d.lookup k).getD 1

/-- The matrix of an operator for given parameters. -/
def value [Semiring R] (op : List (String × Matrix n n R)) (d : List (String × R)) : Matrix n n R :=
  (op.map fun e => coupling d e.1 • e.2).sum

/-- The matrix of an operator if the parameters with `tiny` are left out. -/
def valueCut [Semiring R] (tiny : R → Bool) (op : List (String × Matrix n n R)) (d : List (String × R)) : Matrix n n R :=
  (op.map fun e => (if tiny (coupling d e.1) then 0 else coupling d e.1) • e.2).sum

/-- Every parameter belongs to a matrix of the operator. -/
def Known {M : Type} (op : List (String × M)) (d : List (String × R)) : Prop := ∀ k ∈ d.map Prod.fst, k ∈ op.map Prod.fst

/-- Two operators have matrices of the same names. -/
def SameNames {M : Type} (a b : List (String × M)) : Prop := ∀ k, k ∈ a.map Prod.fst ↔ k ∈ b.map Prod.fst

end Spec.Pars
