import Mathlib.Algebra.BigOperators.Intervals
import Mathlib.Data.ZMod.Basic
/-!
What the sparse matrix-vector products are supposed to compute, and what an execution of a parallel loop is.
-/
namespace Spec

variable {R : Type} [CommRing R] {P : Type}

/-- Compressed sparse rows (columns): the entries of row (column) `k` are those numbered `Ap k .. Ap (k+1) - 1`;
entry number `jj` has the other index `Aj jj` and the value `Ax jj`. -/
structure Compressed (R : Type) where
  Ap : Nat → Nat
  Aj : Nat → Nat
  Ax : Nat → R

/-- Offsets of a valid compressed matrix with `n` rows (columns) whose other dimension is `m`. -/
structure Compressed.Valid (A : Compressed R) (n m : Nat) : Prop where
  zero : A.Ap 0 = 0
  mono : ∀ k < n, A.Ap k ≤ A.Ap (k + 1)
  index : ∀ jj < A.Ap n, A.Aj jj < m

/-- Matrix element of a CSR matrix; repeated entries add up. -/
def csrEntry (A : Compressed R) (i j : Nat) : R :=
  ∑ jj ∈ Finset.Ico (A.Ap i) (A.Ap (i + 1)), if A.Aj jj = j then A.Ax jj else 0

/-- Matrix element of a CSC matrix. -/
def cscEntry (A : Compressed R) (i j : Nat) : R := csrEntry A j i

/-- Matrix element of a DIA matrix: row `d` of the array `data` (rows of length `L`) holds in position `j` the element
of column `j` on the diagonal `offsets d`. -/
def diaEntry (nDiags L : Nat) (offsets : Nat → Int) (data : Nat → R) (i j : Nat) : R :=
  ∑ d ∈ Finset.range nDiags, if (j : Int) = i + offsets d ∧ j < L then data (d * L + j) else 0

/-- `y'` is `y` with `a E x` stored in (or added to) the cells of the output vector and nothing else changed. -/
structure Computes (nRow nCol : Nat) (E : Nat → Nat → R) (overwrite : Bool) (a : R) (x : Nat → R) (cell : Nat → P)
    (y y' : P → R) : Prop where
  out : ∀ i < nRow, y' (cell i) = (if overwrite then 0 else y (cell i)) + a * ∑ j ∈ Finset.range nCol, E i j * x j
  rest : ∀ p, (∀ i < nRow, p ≠ cell i) → y' p = y p

/-- The same for several vectors, the columns `v < nVec` of `x` and of the output. -/
structure ComputesAll (nRow nCol nVec : Nat) (E : Nat → Nat → R) (overwrite : Bool) (a : R) (x : Nat → Nat → R)
    (cell : Nat → Nat → P) (y y' : P → R) : Prop where
  out : ∀ i < nRow, ∀ v < nVec,
    y' (cell i v) = (if overwrite then 0 else y (cell i v)) + a * ∑ j ∈ Finset.range nCol, E i j * x j v
  rest : ∀ p, (∀ i < nRow, ∀ v < nVec, p ≠ cell i v) → y' p = y p

/-- `l` is an interleaving of the programs `prog 0, …, prog (T-1)`: every element carries the number of the iteration
it belongs to, and each iteration's operations occur in its order. -/
def Interleaving {Op : Type} (T : Nat) (prog : Nat → List Op) (l : List (Nat × Op)) : Prop :=
  (∀ e ∈ l, e.1 < T) ∧ ∀ t < T, (l.filter fun e => e.1 = t).map (·.2) = prog t

end Spec
