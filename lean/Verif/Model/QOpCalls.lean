import Verif.Model.Formats
import Mathlib.Data.Matrix.Basic

/-!
Methods of `quantum_operator` with a state (`/repo/quspin/operators/quantum_operator_core.py`): products, adjoints, expectation values,
conversions, and what changes of the matrix formats leave behind.

Names and matrices are lists of pairs; a Python dictionary has no name twice.  A new dictionary is passed to every call (C23 is about
dictionaries that are used again).  `none` is an exception unless a definition says which one.  Numbers are exact complex numbers; `tiny` is
the test `abs(J) <= eps`, `zero` the test `_check_almost_zero`.
-/

namespace Model.QOpCalls
open Spec Model.Eval Model.Formats

/-- An entry of `_quantum_operator` with its entry of `_matvec_functions`. -/
structure Item where
  key : String
  mat : Stored ℂ
  routine : Routine

/-- The object. -/
abbrev QObj := List Item

/-- A dictionary of parameters. -/
abbrev Coup := List (String × ℂ)

/-- `_update_matvecs` (quantum_operator_core.py:1443-1447). -/
def updateMatvecs (o : QObj) : QObj := o.map fun e => { e with routine := routineOf e.mat }

/-- `_check_scalar_pars` (quantum_operator_core.py:1415-1428). -/
def complete (o : QObj) (d : Coup) : Option Coup :=
  if d.all fun e => o.any fun x => x.key == e.1 then
    some (d ++ (o.filter fun x => !d.any fun e => e.1 == x.key).map fun x => (x.key, 1))
  else none

/-- `self._quantum_operator[key]` with its routine. -/
def item (o : QObj) (k : String) : Option Item := o.find? fun x => x.key == k

/-- `dot(V, pars, out, overwrite_out, a)` for a dense `V` of the right shape (quantum_operator_core.py:461-517). -/
def dot {κ : Type} (N : ℕ) (tiny : ℂ → Bool) (o : QObj) (d : Coup) (V : Matrix (Fin N) κ ℂ) (out : Option (Matrix (Fin N) κ ℂ))
    (overwrite : Bool) (a : ℂ) : Option (Matrix (Fin N) κ ℂ) :=
  (complete o d).bind fun d' =>
    d'.foldlM (fun y e => if tiny e.2 then some y else (item o e.1).bind fun x => dotInto N x.routine x.mat V false (a * e.2) y)
      (match out with
        | none => 0
        | some y => if overwrite then 0 else y)

/-- `toarray(pars, out)`, `todense(pars, out)` (quantum_operator_core.py:957-966, 993-1001), and without `out` also `tocsr`, `tocsc` (879-889,
913-923). -/
def toarray (N : ℕ) (o : QObj) (d : Coup) (out : Option (Matrix (Fin N) (Fin N) ℂ)) : Option (Matrix (Fin N) (Fin N) ℂ) :=
  (complete o d).bind fun d' => d'.foldlM (fun y e => (item o e.1).map fun x => y + e.2 • x.mat.mat N) (out.getD 0)

/-- The constructor for one matrix for each name, as the methods below use it (quantum_operator_core.py:200-205, 285-290): matrices that are
almost zero are left out, routines are chosen. -/
def remake (N : ℕ) (zero : Matrix (Fin N) (Fin N) ℂ → Bool) (l : List (String × Stored ℂ)) : QObj :=
  updateMatvecs ((l.filter fun e => !zero (e.2.mat N)).map fun e => ⟨e.1, e.2, .other⟩)

/-- `transpose()` (quantum_operator_core.py:1130-1131). -/
def transpose (N : ℕ) (zero : Matrix (Fin N) (Fin N) ℂ → Bool) (o : QObj) : QObj := remake N zero (o.map fun e => (e.key, e.mat.trans))

/-- The complex conjugate of a stored matrix, in the same format. -/
def conjStored : Stored ℂ → Stored ℂ
  | .csr A => .csr ⟨A.Ap, A.Aj, fun k => star (A.Ax k)⟩
  | .csc A => .csc ⟨A.Ap, A.Aj, fun k => star (A.Ax k)⟩
  | .dia E => .dia fun i j => star (E i j)
  | .dense E => .dense fun i j => star (E i j)

/-- `conjugate()`, `conj()` (quantum_operator_core.py:1151-1152, 1172). -/
def conjugate (N : ℕ) (zero : Matrix (Fin N) (Fin N) ℂ → Bool) (o : QObj) : QObj := remake N zero (o.map fun e => (e.key, conjStored e.mat))

/-- `getH()`, `.H` (quantum_operator_core.py:1193, 345-347). -/
def getH (N : ℕ) (zero : Matrix (Fin N) (Fin N) ℂ → Bool) (o : QObj) : QObj := transpose N zero (conjugate N zero o)

/-- `rdot(V, pars, out, overwrite_out, a)` for a dense `V` whose rows are states (quantum_operator_core.py:556); `out.T` of `None` raises. -/
def rdot {κ : Type} (N : ℕ) (tiny : ℂ → Bool) (zero : Matrix (Fin N) (Fin N) ℂ → Bool) (o : QObj) (d : Coup) (V : Matrix κ (Fin N) ℂ)
    (out : Option (Matrix κ (Fin N) ℂ)) (overwrite : Bool) (a : ℂ) : Option (Matrix κ (Fin N) ℂ) :=
  out.bind fun y => (dot N tiny (transpose N zero o) d V.transpose (some y.transpose) overwrite a).map Matrix.transpose

/-- `matvec(x)`, `matmat(X)` (quantum_operator_core.py:375, 419). -/
def matvec {κ : Type} (N : ℕ) (tiny : ℂ → Bool) (o : QObj) (V : Matrix (Fin N) κ ℂ) : Option (Matrix (Fin N) κ ℂ) := dot N tiny o [] V none true 1

/-- `rmatvec(x)` (quantum_operator_core.py:397). -/
def rmatvec {κ : Type} (N : ℕ) (tiny : ℂ → Bool) (zero : Matrix (Fin N) (Fin N) ℂ → Bool) (o : QObj) (V : Matrix (Fin N) κ ℂ) :
    Option (Matrix (Fin N) κ ℂ) := dot N tiny (getH N zero o) [] V none true 1

/-- `aslinearoperator(pars)` (quantum_operator_core.py:1025-1028, 33-34): the functions `matvec` and `rmatvec` of the result, both with the
completed parameters. -/
def linear {κ : Type} (N : ℕ) (tiny : ℂ → Bool) (zero : Matrix (Fin N) (Fin N) ℂ → Bool) (o : QObj) (d : Coup) :
    Option ((Matrix (Fin N) κ ℂ → Option (Matrix (Fin N) κ ℂ)) × (Matrix (Fin N) κ ℂ → Option (Matrix (Fin N) κ ℂ))) :=
  (complete o d).map fun d' => (fun V => dot N tiny o d' V none true 1, fun V => dot N tiny (getH N zero o) d' V none true 1)

/-! ### Formats -/

/-- One pass of the loop of `update_matrix_formats` (quantum_operator_core.py:1089-1105): `none` for a name is an unknown format, which raises.
A dense matrix is left as it is unless "dense" is asked for. -/
def reformat (N : ℕ) (fmts : List (String × Option Fmt)) (e : Item) : Option Item :=
  match fmts.lookup e.key with
  | none => some e
  | some none => none
  | some (some .dense) => some { e with mat := convert N .dense e.mat }
  | some (some f) => some (if e.mat.isDense then e else { e with mat := convert N f e.mat })

/-- The loop: the items before the one that raises have been changed. -/
def reformatLoop (N : ℕ) (fmts : List (String × Option Fmt)) : QObj → QObj × Bool
  | [] => ([], false)
  | e :: l => (reformat N fmts e).elim (e :: l, true) fun e' => (e' :: (reformatLoop N fmts l).1, (reformatLoop N fmts l).2)

/-- `update_matrix_formats(matrix_formats)` (quantum_operator_core.py:1082-1107): the object left behind and whether the call raised. -/
def updateFormats (N : ℕ) (fmts : List (String × Option Fmt)) (o : QObj) : QObj × Bool :=
  if fmts.all fun f => o.any fun x => x.key == f.1 then
    if (reformatLoop N fmts o).2 then ((reformatLoop N fmts o).1, true) else (updateMatvecs (reformatLoop N fmts o).1, false)
  else (o, true)

/-! ### Constructor -/

/-- What a list of the input holds: a list `[opstr, couplings]` with the matrix it stands for, or a matrix. -/
inductive Part (N : ℕ) where
  | opstr (M : Matrix (Fin N) (Fin N) ℂ)
  | matrix (M : Matrix (Fin N) (Fin N) ℂ)

/-- The matrices of the operator strings of a list, summed by `make_static` (quantum_operator_core.py:118-127, 171-173). -/
def opstrPart {N : ℕ} (l : List (Part N)) : List (Matrix (Fin N) (Fin N) ℂ) := l.filterMap fun
  | .opstr M => some M
  | .matrix _ => none

/-- The matrices of a list (quantum_operator_core.py:118-129). -/
def matrixPart {N : ℕ} (l : List (Part N)) : List (Matrix (Fin N) (Fin N) ℂ) := l.filterMap fun
  | .opstr _ => none
  | .matrix M => some M

/-- `quantum_operator(input_dict)` (quantum_operator_core.py:107-290): names and matrices.  The first matrix of a name is assigned (204-205), which
replaces the sum of its operator strings (171-173).  Names without any entry are left out, and matrices that are almost zero (285-288). -/
def construct {N : ℕ} (zero : Matrix (Fin N) (Fin N) ℂ → Bool) (input : List (String × List (Part N))) : List (String × Matrix (Fin N) (Fin N) ℂ) :=
  (input.filterMap fun e =>
    if matrixPart e.2 ≠ [] then some (e.1, (matrixPart e.2).sum)
    else if opstrPart e.2 ≠ [] then some (e.1, (opstrPart e.2).sum)
    else none).filter fun e => !zero e.2

/-! ### Expectation values -/

/-- A state: an array with one dimension, or a matrix. -/
inductive QState (N : ℕ) where
  | vec (v : Fin N → ℂ)
  | cols (n : ℕ) (V : Matrix (Fin N) (Fin n) ℂ)

/-- A result: one number, or one for each column. -/
inductive Value where
  | number (z : ℂ)
  | numbers (n : ℕ) (z : Fin n → ℂ)

/-- The exceptions of these methods. -/
inductive QErr where
  | valueError
  | indexError
  | nameError
  deriving DecidableEq

/-- `numpy.vdot` of two arrays with the same shape, which are read as one list of numbers. -/
def vdot {N n : ℕ} (L R : Matrix (Fin N) (Fin n) ℂ) : ℂ := ∑ i, ∑ j, star (L i j) * R i j

/-- `_expt_value_core` for dense arrays (quantum_operator_core.py:667-674), for arrays with two dimensions; `V_right.squeeze()` has one dimension
if one of the two is 1 and none if both are, which neither `trace` nor `einsum` accept. -/
def exptCols {N n : ℕ} (L R : Matrix (Fin N) (Fin n) ℂ) (enforcePure : Bool) : Except QErr Value :=
  if N = 1 ∧ n = 1 then .error .valueError
  else if N = 1 ∨ n = 1 then .ok (.number (vdot L R))
  else if hn : N = n then
    if enforcePure then .ok (.numbers n fun j => ∑ i, star (L i j) * R i j)
    else .ok (.number (∑ i, R i (i.cast hn)))
  else .ok (.numbers n fun j => ∑ i, star (L i j) * R i j)

/-- `_expt_value_core` for arrays with one dimension; with one entry, `V_right.squeeze()` has no dimension and `V_left.shape[1]` raises. -/
def exptVec {N : ℕ} (L R : Fin N → ℂ) : Except QErr Value :=
  if N = 1 then .error .indexError else .ok (.number (∑ i, star (L i) * R i))

/-- `expt_value(V, pars, enforce_pure)` for dense states, where `H` is the product with the operator (quantum_operator_core.py:648-659). -/
def exptValue {N : ℕ} (H : Matrix (Fin N) (Fin N) ℂ) (enforcePure : Bool) : QState N → Except QErr Value
  | .vec v => exptVec v (H.mulVec v)
  | .cols _ V => exptCols V (H * V) enforcePure

/-- `quant_fluct(V, pars, enforce_pure)` for dense states (quantum_operator_core.py:593-613): `V.shape[1]` raises for arrays with one dimension
(607), and `time` is not defined for density matrices (610). -/
def quantFluct {N : ℕ} (H : Matrix (Fin N) (Fin N) ℂ) (enforcePure : Bool) : QState N → Except QErr Value
  | .vec v => (exptVec v (H.mulVec v)).bind fun _ => .error .indexError
  | .cols n V =>
    (exptCols V (H * V) enforcePure).bind fun x =>
      if N = n ∧ enforcePure = false then .error .nameError
      else (exptCols (H * V) (H * V) enforcePure).bind fun y =>
        match x, y with
        | .number z, .number w => .ok (.number (w - z ^ 2))
        | .numbers k z, .numbers m w => if h : m = k then .ok (.numbers m fun j => w j - z (j.cast h) ^ 2) else .error .valueError
        | _, _ => .error .valueError

/-- `matrix_ele(Vl, Vr, pars)` for matrices of states (quantum_operator_core.py:711, 735). -/
def matrixEle {N m n : ℕ} (H : Matrix (Fin N) (Fin N) ℂ) (Vl : Matrix (Fin N) (Fin m) ℂ) (Vr : Matrix (Fin N) (Fin n) ℂ) :
    Matrix (Fin m) (Fin n) ℂ := Vl.transpose.map star * (H * Vr)

/-- `matrix_ele(Vl, Vr, pars, diagonal=True)` for equally many states (quantum_operator_core.py:711, 733). -/
def matrixEleDiagonal {N n : ℕ} (H : Matrix (Fin N) (Fin N) ℂ) (Vl Vr : Matrix (Fin N) (Fin n) ℂ) (j : Fin n) : ℂ :=
  ∑ i, star (Vl i j) * (H * Vr) i j

/-! ### Conversion to `hamiltonian` -/

/-- A parameter of `tohamiltonian`: a number, or a function of time with its arguments. -/
inductive HPar (T : Type) where
  | num (z : ℂ)
  | fn (f : T → ℂ)

/-- The lists given to the constructor of `hamiltonian`, and its basis. -/
structure HamInput (T : Type) (N : ℕ) where
  static : List (Matrix (Fin N) (Fin N) ℂ)
  dynamic : List (Matrix (Fin N) (Fin N) ℂ × (T → ℂ))
  hasBasis : Bool

/-- `tohamiltonian(pars)` (quantum_operator_core.py:1048-1062): no basis and no shape is handed on, so that the constructor raises without
matrices. -/
def tohamiltonian {T : Type} {N : ℕ} (ops : List (String × Matrix (Fin N) (Fin N) ℂ)) (d : List (String × HPar T)) : Option (HamInput T N) :=
  if d.all fun e => ops.any fun x => x.1 == e.1 then
    let parOf (k : String) : HPar T := (d.lookup k).getD (.num 1)
    let static := ops.filterMap fun e => match parOf e.1 with
      | .num z => some (z • e.2)
      | .fn _ => none
    let dynamic := ops.filterMap fun e => match parOf e.1 with
      | .num _ => none
      | .fn f => some (e.2, f)
    if ops.isEmpty then none else some ⟨static, dynamic, false⟩
  else none

end Model.QOpCalls
