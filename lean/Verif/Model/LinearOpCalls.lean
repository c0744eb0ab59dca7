import Verif.Model.LinearOp
import Verif.Model.Evaluate

/-!
Model of the construction of a `quantum_LinearOperator` from operator strings and of its calls
(`/repo/quspin/operators/quantum_LinearOperator_core.py:50-141, 201-220, 274-505, 706-795`) for an operator that is neither
transposed nor conjugated (these are the subject of C24).

* `basis.Op(opstr, indx, J, dtype)` is a list of matrix elements with row and column; numbers are exact, so `dtype` plays no
  role.  States are columns of a matrix, a single state is a matrix with the columns `Unit`.
* The checks of the operator lists (113-120) are not modelled (C25, C50 and others are about them).
-/

namespace Model.LinearOpCalls

variable {N : ℕ} {κ : Type}

/-- `ME, row, col = self.basis.Op(opstr,indx,J,self._dtype)` (quantum_LinearOperator_core.py:133). -/
abbrev Elements (N : ℕ) := List (ℂ × Fin N × Fin N)

/-- `_is_diagonal(row,col)` (basis/base.py:18-23). -/
def isDiagonal (t : Elements N) : Bool := t.all fun e => e.2.1 = e.2.2

/-- `_update_diag(diag,ind,ME)` (basis/base.py:26-28). -/
def updateDiag (d : Fin N → ℂ) (t : Elements N) : Fin N → ℂ := t.foldl (fun d e => Function.update d e.2.1 (d e.2.1 + e.1)) d

/-- The attributes `_static_list` and `_diagonal` (quantum_LinearOperator_core.py:122-141); `strings` is the number of
operator strings of the public list (128). -/
structure Obj (N : ℕ) where
  off : List (Elements N)
  diag : Option (Fin N → ℂ)
  strings : ℕ

/-- The loop over the operator strings (quantum_LinearOperator_core.py:131-141). -/
def initLoop : List (Elements N) → Obj N → Obj N
  | [], x => x
  | t :: l, x =>
    if isDiagonal t then initLoop l { x with diag := some (updateDiag (x.diag.getD fun _ => 0) t) }
    else initLoop l { x with off := x.off ++ [t] }

/-- `quantum_LinearOperator(static_list, basis=basis, diagonal=diagonal)` (quantum_LinearOperator_core.py:50-141). -/
def init (terms : List (Elements N)) (diagonal : Option (Fin N → ℂ)) : Obj N := initLoop terms ⟨[], diagonal, terms.length⟩

/-- The array `diagonal` of the caller after the call with the default `copy=False` (quantum_LinearOperator_core.py:122-123,
217-220): it is the array the object keeps and adds to (138). -/
def callerDiagonal (terms : List (Elements N)) (diagonal : Fin N → ℂ) : Fin N → ℂ := ((init terms (some diagonal)).diag).getD diagonal

/-- `set_diagonal(diagonal)` (quantum_LinearOperator_core.py:201-220). -/
def setDiagonal (x : Obj N) (d : Fin N → ℂ) : Obj N := { x with diag := some d }

/-- `_coo_dot(v_in,v_out,row,col,ME)` (basis/base.py:6-15, called on line 134). -/
def cooDot (V : Matrix (Fin N) κ ℂ) (W : Matrix (Fin N) κ ℂ) (t : Elements N) : Matrix (Fin N) κ ℂ :=
  t.foldl (fun W e => Matrix.of fun i k => if i = e.2.1 then W i k + e.1 * V e.2.2 k else W i k) W

/-- `_matvec`, `_matmat` (quantum_LinearOperator_core.py:485-505; basis/base.py:107-136). -/
def matvec (x : Obj N) (V : Matrix (Fin N) κ ℂ) : Matrix (Fin N) κ ℂ :=
  x.off.foldl (cooDot V) (match x.diag with
    | some d => fun i k => V i k * d i
    | none => fun _ _ => 0)

/-- `dot(other, out, a)` (quantum_LinearOperator_core.py:274-317).  With `out` the undefined name `shape` is used (305);
`none`: an exception. -/
def dot (x : Obj N) (V : Matrix (Fin N) κ ℂ) (out : Option (Matrix (Fin N) κ ℂ)) (a : ℂ) : Option (Matrix (Fin N) κ ℂ) :=
  match out with
  | some _ => none
  | none => some fun i k => a * matvec x V i k

/-- `expt_value(V, enforce_pure)` of a two-dimensional array (quantum_LinearOperator_core.py:371-427; the core is the same
code as that of `hamiltonian`).  `Ns <= 0` (401) is left out: `none`. -/
def exptValue {k : ℕ} (x : Obj N) (enforcePure : Bool) (V : Matrix (Fin N) (Fin k) ℂ) : Option (Model.Eval.Value k ℂ) :=
  if N = 0 then none else (dot x V none 1).bind (Model.Eval.exptCore enforcePure V)

/-- `expt_value(V)` of a state (quantum_LinearOperator_core.py:371-427). -/
def exptValueVec (x : Obj N) (V : Matrix (Fin N) Unit ℂ) : Option ℂ :=
  if N = 0 then none else (dot x V none 1).bind (Model.Eval.exptCoreVec V)

/-- `quant_fluct(V)` (quantum_LinearOperator_core.py:319-369): the undefined name `check` is used (360). -/
def quantFluct (_ : Obj N) (_ : Matrix (Fin N) κ ℂ) : Option ℂ := none

/-- `matrix_ele(Vl, Vr)` (quantum_LinearOperator_core.py:429-483). -/
def matrixEle {k l : Type} (x : Obj N) (L : Matrix (Fin N) k ℂ) (V : Matrix (Fin N) l ℂ) : Option (Matrix k l ℂ) :=
  (dot x V none 1).map fun W => L.conjTranspose * W

/-- `matrix_ele(Vl, Vr, diagonal=True)` for as many states on the left as on the right
(quantum_LinearOperator_core.py:460, 480-481). -/
def matrixEleDiagonal {k : Type} (x : Obj N) (L V : Matrix (Fin N) k ℂ) : Option (k → ℂ) :=
  (dot x V none 1).map fun W j => ∑ i, star (L i j) * W i j

/-- What a call returns: `None`, or an array. -/
inductive Result (N : ℕ) (κ : Type) where
  | nothing
  | array (W : Matrix (Fin N) κ ℂ)

/-- `A * c`, `c * A`, `-A` and `A *= c` for a number (quantum_LinearOperator_core.py:639-640, 700-704, 715-716, 743-744,
763-765): `_mul_scalar` has no `return`, and `_scale` is not used anywhere. -/
def mulScalar (x : Obj N) (_ : ℂ) : Obj N × Result N κ := (x, .nothing)

/-- `A * V` for a sparse matrix (quantum_LinearOperator_core.py:731-732, 774-795): the loop takes three values from the
entries of the public list of operator strings, which have two (784); `none`: `ValueError`. -/
def mulSparse (x : Obj N) (V : Matrix (Fin N) κ ℂ) : Option (Matrix (Fin N) κ ℂ) :=
  if x.strings = 0 then some fun i k => (x.diag.getD fun _ => 0) i * V i k else none

end Model.LinearOpCalls
