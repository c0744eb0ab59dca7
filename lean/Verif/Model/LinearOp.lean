import Verif.Spec.Reads

/-!
Model of `quantum_LinearOperator` (quspin/operators/quantum_LinearOperator_core.py).

Simplifications: the off-diagonal operator strings stand for the matrix `S` of their matrix elements (C01 and others describe `basis.Op`),
the diagonal is a vector (absent is zero); states are columns; numbers are exact.
-/

namespace Model.LinearOp
open Matrix

variable {n : Type} [Fintype n] [DecidableEq n]

/-- Attributes (quantum_LinearOperator_core.py:104-141). -/
structure Obj (n : Type) where
  S : Matrix n n ℂ
  D : n → ℂ
  transposed : Bool
  conjugated : Bool

/-- The matrix `inplace_Op` applies (basis/base.py:107-136; positional order `transposed, conjugated` in basis/base.py:138, 178). -/
def inplaceOp (S : Matrix n n ℂ) (transposed conjugated : Bool) : Matrix n n ℂ :=
  let M := if transposed then Sᵀ else S
  if conjugated then M.map star else M

/-- `_matvec` (quantum_LinearOperator_core.py:485-499): the diagonal, then `inplace_Op(..., self._conjugated, self._transposed, ...)` with
the flags in this order. -/
def matvec (x : Obj n) (V : n → ℂ) : n → ℂ := (fun i => x.D i * V i) + inplaceOp x.S x.conjugated x.transposed *ᵥ V

/-- `transpose`, `.T` (quantum_LinearOperator_core.py:181-184, 539-561). -/
def transposeSelf (x : Obj n) : Obj n := { x with transposed := !x.transposed }

/-- `conjugate`, `conj` (quantum_LinearOperator_core.py:563-602). -/
def conjSelf (x : Obj n) : Obj n := { x with conjugated := !x.conjugated }

/-- `getH`, `.H` (quantum_LinearOperator_core.py:186-189, 604-626). -/
def getHSelf (x : Obj n) : Obj n := transposeSelf (conjSelf x)

/-- Statements. -/
inductive Stmt (n : Type) where
  | read (r : Spec.Reads.Read)
  | matvec (V : n → ℂ)
  | rmatvec (V : n → ℂ)
  | rmul (V : n → ℂ)

omit [Fintype n] [DecidableEq n] in
/-- New content of `self` after a read. -/
def readSelf : Spec.Reads.Read → Obj n → Obj n
  | .T, x => transposeSelf x
  | .conj, x => conjSelf x
  | .H, x => getHSelf x

/-- One statement: new content of the object and what is returned.  `A * V` is `_matvec` (quantum_LinearOperator_core.py:706-728);
`rmatvec` is `self.H._matvec` (501-502); `V * A` is `self.T._matvec` (749-751). -/
def step (x : Obj n) : Stmt n → Obj n × Option (n → ℂ)
  | .read r => (readSelf r x, none)
  | .matvec V => (x, some (LinearOp.matvec x V))
  | .rmatvec V => (getHSelf x, some (LinearOp.matvec (getHSelf x) V))
  | .rmul V => (transposeSelf x, some (LinearOp.matvec (transposeSelf x) V))

/-- A history: the object and all results. -/
def run : Obj n → List (Stmt n) → Obj n × List (n → ℂ)
  | x, [] => (x, [])
  | x, s :: p => ((run (step x s).1 p).1, (step x s).2.toList ++ (run (step x s).1 p).2)

/-- A new operator (quantum_LinearOperator_core.py:50-141). -/
def new (S : Matrix n n ℂ) (D : n → ℂ) : Obj n := ⟨S, D, false, false⟩

/-- `copy()` of an operator with `strings` off-diagonal operator strings (quantum_LinearOperator_core.py:630-634): they are stored as
triples `(opstr, indx, J)` (line 141), which the constructor rejects (lines 82-85, hamiltonian_core.py:121-134); `none` is `ValueError`.
The flags are not passed on. -/
def copy (strings : ℕ) (x : Obj n) : Option (Obj n) := if strings = 0 then some (new x.S x.D) else none

end Model.LinearOp
