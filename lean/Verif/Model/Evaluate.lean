import Verif.Spec.Matvec
import Mathlib.LinearAlgebra.Matrix.ConjTranspose
import Mathlib.LinearAlgebra.Matrix.Trace
import Mathlib.Analysis.Complex.Basic

/-!
Model of how a `hamiltonian` is evaluated (`/repo/quspin/operators/hamiltonian_core.py`): conversion to matrices,
products with states, expectation values, and the right-hand sides of the equations of motion.

* A stored matrix keeps its format, because the product routine is chosen from the format once
  (`_get_matvecs`, hamiltonian_core.py:560-564) and then applied also to the transposed matrix.
* Matrix entries are elements of a commutative ring; dtypes are not modelled.
* A drive function is a function from times to numbers (see `Model/Functions.lean` for the objects).
* `none` models an exception.
-/

namespace Model.Eval
open Spec

variable {R T κ : Type} [CommRing R]

/-- A stored matrix.  CSR and CSC matrices are given by their arrays.  For DIA matrices and arrays only the
elements are kept: their transpose has the same format. -/
inductive Stored (R : Type) where
  | csr (A : Compressed R)
  | csc (A : Compressed R)
  | dia (E : Nat → Nat → R)
  | dense (E : Nat → Nat → R)

/-- The element in row `i` and column `j`. -/
def Stored.entry : Stored R → Nat → Nat → R
  | .csr A => csrEntry A
  | .csc A => cscEntry A
  | .dia E => E
  | .dense E => E

/-- The matrix of size `N`. -/
def Stored.mat (N : Nat) (S : Stored R) : Matrix (Fin N) (Fin N) R := fun i j => S.entry i j

/-- `S.T` (scipy and numpy): the transpose of a CSR matrix is the CSC matrix with the same arrays, and the other way
round. -/
def Stored.trans : Stored R → Stored R
  | .csr A => .csc A
  | .csc A => .csr A
  | .dia E => .dia fun i j => E j i
  | .dense E => .dense fun i j => E j i

/-- Sparse or dense. -/
def Stored.isDense : Stored R → Bool
  | .dense _ => true
  | _ => false

/-- The routines `_csr_dot`, `_csc_dot`, `_dia_dot`, `_other_dot`. -/
inductive Routine where
  | csr
  | csc
  | dia
  | other

/-- `_get_matvec_function` (_oputils.pyx:587-595). -/
def routineOf : Stored R → Routine
  | .csr _ => .csr
  | .csc _ => .csc
  | .dia _ => .dia
  | .dense _ => .other

/-- The matrix a routine multiplies with, when it is given the stored matrix `S` (_oputils.pyx:509-573).  `_csr_dot`
and `_csc_dot` read `indptr`, `indices` and `data` without looking at the format; `_dia_dot` reads `offsets`.  The
routines themselves are the subject of C18, C19 and C48. -/
def read : Routine → Stored R → Option (Nat → Nat → R)
  | .csr, .csr A => some (csrEntry A)
  | .csr, .csc A => some (csrEntry A)
  | .csc, .csr A => some (cscEntry A)
  | .csc, .csc A => some (cscEntry A)
  | .dia, .dia E => some E
  | .other, S => some S.entry
  | _, _ => none

/-- `routine(S, x, overwrite_out, out, a)`: `out` becomes `a S x`, or this is added to it.  The states are the
columns of `x`. -/
def dotInto (N : Nat) (r : Routine) (S : Stored R) (x : Matrix (Fin N) κ R) (overwrite : Bool) (a : R)
    (out : Matrix (Fin N) κ R) : Option (Matrix (Fin N) κ R) :=
  (read r S).map fun E =>
    (if overwrite then 0 else out) + a • Matrix.of fun (i : Fin N) v => ∑ j : Fin N, E i j * x j v

/-- A hamiltonian of size `N`: static matrix and dictionary of drive functions, with the routines stored for them. -/
structure Ham (T R : Type) where
  static : Stored R
  dynamic : List ((T → R) × Stored R)

variable (N : Nat) (H : Ham T R)

/-! ### Conversion -/

/-- `tocsr(time)` (hamiltonian_core.py:1518-1554), `tocsc` (1556-1589), `todense` (1591-1644) and `toarray` (1646-1690):
the loops are the same, only the container of the result differs. -/
def toMatrix (t : T) : Matrix (Fin N) (Fin N) R :=
  H.dynamic.foldl (fun M e => M + e.1 t • e.2.mat N) (H.static.mat N)

/-- `H[time, i, j]` (hamiltonian_core.py:2005-2029). -/
def getItem (t : T) (i j : Fin N) : R := toMatrix N H t i j

/-- `diagonal(time)` (hamiltonian_core.py:1905-1933).  The diagonal of a `numpy.ndarray` is a read-only view, so `+=`
raises for a dense static part. -/
def diagonal (t : T) : Option (Fin N → R) :=
  H.dynamic.foldlM (fun d e => if H.static.isDense then none else some (d + e.1 t • fun i => e.2.mat N i i))
    fun i => H.static.mat N i i

/-- `trace(time)` (hamiltonian_core.py:1935-1963). -/
def trace (t : T) : R :=
  H.dynamic.foldl (fun s e => s + (∑ i, e.2.mat N i i) * e.1 t) (∑ i, H.static.mat N i i)

/-! ### Products with states -/

/-- The loop over the dictionary after the static part is in `out` (hamiltonian_core.py:693-694, 1303-1304, 1346-1347):
`out += a f(time) Hd x`. -/
def addDynamic (t : T) (a : R) (x : Matrix (Fin N) κ R) (out : Matrix (Fin N) κ R) : Option (Matrix (Fin N) κ R) :=
  H.dynamic.foldlM (fun out e => dotInto N (routineOf e.2) e.2 x false (a * e.1 t) out) out

/-- `dot(V, time, out, overwrite_out, a)` for an array of states and a number `time` (hamiltonian_core.py:675-694); without
`out` a new array of zeros is overwritten (_oputils.pyx:510-513). -/
def dot (t : T) (V : Matrix (Fin N) κ R) (out : Option (Matrix (Fin N) κ R)) (overwrite : Bool) (a : R) :
    Option (Matrix (Fin N) κ R) :=
  let first := match out with
    | none => dotInto N (routineOf H.static) H.static V true a 0
    | some y => dotInto N (routineOf H.static) H.static V overwrite a y
  first.bind (addDynamic N H t a V)

/-- `dot(V, time, a)` for an array of times (hamiltonian_core.py:644-672): the slice `i` of the last axis with the time
`times i`.  A slice is a state (2-d `V`) or a matrix (3-d `V`). -/
def dotTimes {k : Nat} (times : Fin k → T) (V : Fin k → Matrix (Fin N) κ R) (a : R) :
    Option (Fin k → Matrix (Fin N) κ R) :=
  ((List.finRange k).mapM fun i =>
    (dotInto N (routineOf H.static) H.static (V i) true a 0).bind (addDynamic N H (times i) a (V i))).bind fun l =>
      if h : l.length = k then some fun i => l.get (i.cast h.symm) else none

/-- `transpose()` (hamiltonian_core.py:1834-1854): a new object with its own routines. -/
def Ham.transpose : Ham T R := ⟨H.static.trans, H.dynamic.map fun e => (e.1, e.2.trans)⟩

/-- `rdot(V, time, out, overwrite_out, a)` for one state or a matrix whose rows are states (hamiltonian_core.py:755-776).
The code passes `out.T`, which raises `AttributeError` for the default `out=None`. -/
def rdot (t : T) (V : Matrix κ (Fin N) R) (out : Option (Matrix κ (Fin N) R)) (overwrite : Bool) (a : R) :
    Option (Matrix κ (Fin N) R) :=
  match out with
  | none => none
  | some y => (dot N H.transpose t V.transpose (some y.transpose) overwrite a).map Matrix.transpose

/-! ### Expectation values -/

/-- What `_expt_value_core` returns: one number, or one for every state. -/
inductive Value (k : Nat) (R : Type) where
  | one (x : R)
  | each (x : Fin k → R)

variable {N} [StarRing R]

/-- `_expt_value_core` for a two-dimensional array of shape `(N, k)` and one time (hamiltonian_core.py:904-918).
`squeeze` removes axes of length one: for one row and one column nothing is left, and `trace` and `einsum` raise. -/
def exptCore {k : Nat} (enforcePure : Bool) (L V : Matrix (Fin N) (Fin k) R) : Option (Value k R) :=
  if N = 1 ∧ k = 1 then none
  else if N = 1 ∨ k = 1 then some (.one (∑ i, ∑ j, star (L i j) * V i j))
  else if h : N = k then
    if enforcePure then some (.each fun j => ∑ i, star (L i j) * V i j)
    else some (.one (∑ i, V i (i.cast h)))
  else some (.each fun j => ∑ i, star (L i j) * V i j)

/-- `_expt_value_core` for a state (one-dimensional array) and one time (hamiltonian_core.py:904-908).  For a space of
dimension one `squeeze` leaves no axis, and `V_left.shape[1]` raises `IndexError`. -/
def exptCoreVec (L V : Matrix (Fin N) Unit R) : Option R :=
  if N = 1 then none else some (∑ i, star (L i ()) * V i ())

/-- `expt_value(V, time)` for a two-dimensional array (hamiltonian_core.py:842-891). -/
def exptValue {k : Nat} (t : T) (enforcePure : Bool) (V : Matrix (Fin N) (Fin k) R) : Option (Value k R) :=
  (dot N H t V none true 1).bind (exptCore enforcePure V)

/-- `expt_value(V, time)` for a state (hamiltonian_core.py:842-891). -/
def exptValueVec (t : T) (V : Matrix (Fin N) Unit R) : Option R :=
  (dot N H t V none true 1).bind (exptCoreVec V)

/-- Square of what `_expt_value_core` returns. -/
def Value.square {k : Nat} : Value k R → Value k R
  | .one x => .one (x ^ 2)
  | .each x => .each fun j => x j ^ 2

/-- Difference of two numbers or arrays of numbers. -/
def Value.sub {k : Nat} : Value k R → Value k R → Option (Value k R)
  | .one x, .one y => some (.one (x - y))
  | .each x, .each y => some (.each fun j => x j - y j)
  | _, _ => none

/-- `quant_fluct(V, time)` for a two-dimensional array (hamiltonian_core.py:780-840): for several pure states the mean
of the square is the scalar product of `H V` with itself (832-833). -/
def quantFluct {k : Nat} (t : T) (enforcePure : Bool) (V : Matrix (Fin N) (Fin k) R) : Option (Value k R) :=
  (dot N H t V none true 1).bind fun HV =>
    (exptCore enforcePure V HV).bind fun m =>
      (if N ≠ k ∨ enforcePure = true then exptCore enforcePure HV HV
        else (dot N H t HV none true 1).bind (exptCore enforcePure V)).bind fun s => s.sub m.square

/-- `quant_fluct(V, time)` for a state (hamiltonian_core.py:780-840). -/
def quantFluctVec (t : T) (enforcePure : Bool) (V : Matrix (Fin N) Unit R) : Option R :=
  (dot N H t V none true 1).bind fun HV =>
    (exptCoreVec V HV).bind fun m =>
      (if enforcePure = true then exptCoreVec HV HV
        else (dot N H t HV none true 1).bind (exptCoreVec V)).map fun s => s - m ^ 2

/-- `expt_value(V, times)` for pure states, one for every time (hamiltonian_core.py:894-902). -/
def exptTimes {k : Nat} (times : Fin k → T) (V : Fin k → Matrix (Fin N) Unit R) : Option (Fin k → R) :=
  (dotTimes N H times V 1).map fun HV j => ∑ i, star (V j i ()) * HV j i ()

/-- `expt_value(V, times)` for density matrices, one for every time (hamiltonian_core.py:894-902). -/
def exptTimesMixed {k : Nat} (times : Fin k → T) (V : Fin k → Matrix (Fin N) (Fin N) R) : Option (Fin k → R) :=
  (dotTimes N H times V 1).map fun HV j => ∑ i, HV j i i

/-- `matrix_ele(Vl, Vr, time)` (hamiltonian_core.py:920-990). -/
def matrixEle {k l : Type} (t : T) (L : Matrix (Fin N) k R) (V : Matrix (Fin N) l R) : Option (Matrix k l R) :=
  (dot N H t V none true 1).map fun HV => fun a b => ∑ i, star (L i a) * HV i b

/-- `matrix_ele(Vl, Vr, time, diagonal=True)` (hamiltonian_core.py:986-987). -/
def matrixEleDiag {k : Type} (t : T) (L V : Matrix (Fin N) k R) : Option (k → R) :=
  (dot N H t V none true 1).map fun HV => fun a => ∑ i, star (L i a) * HV i a

/-! ### Right-hand sides of the equations of motion -/

section Motion

open Complex

variable (H : Ham ℝ ℂ)

/-- `__SO` (hamiltonian_core.py:1334-1350). -/
noncomputable def schroedinger (t : ℝ) (V out : Matrix (Fin N) κ ℂ) : Option (Matrix (Fin N) κ ℂ) :=
  ((dotInto N (routineOf H.static) H.static V true 1 out).bind (addDynamic N H t 1 V)).map fun y => (-I) • y

/-- `__ISO` (hamiltonian_core.py:1291-1307). -/
noncomputable def imaginary (t : ℝ) (V out : Matrix (Fin N) κ ℂ) : Option (Matrix (Fin N) κ ℂ) :=
  ((dotInto N (routineOf H.static) H.static V true 1 out).bind (addDynamic N H t 1 V)).map fun y => (-1 : ℂ) • y

/-- `__SO_real` (hamiltonian_core.py:1309-1332): the first half of the array is the real part of the state, the second
half the imaginary part; `H` is real.  The order of the operations is that of the code. -/
def stacked (H : Ham ℝ ℝ) (t : ℝ) (V out : Matrix (Fin N) κ ℝ × Matrix (Fin N) κ ℝ) :
    Option (Matrix (Fin N) κ ℝ × Matrix (Fin N) κ ℝ) :=
  (dotInto N (routineOf H.static) H.static V.2 true 1 out.1).bind fun u =>
    (dotInto N (routineOf H.static) H.static V.1 true (-1) out.2).bind fun w =>
      H.dynamic.foldlM (fun p e =>
        (dotInto N (routineOf e.2) e.2 V.2 false (e.1 t) p.1).bind fun u =>
          (dotInto N (routineOf e.2) e.2 V.1 false (-e.1 t) p.2).map fun w => (u, w)) (u, w)

/-- `out.T` filled in place by a routine given `S` and `x`. -/
def dotIntoT (r : Routine) (S : Stored ℂ) (x : Matrix (Fin N) (Fin N) ℂ) (a : ℂ) (out : Matrix (Fin N) (Fin N) ℂ) :
    Option (Matrix (Fin N) (Fin N) ℂ) :=
  (dotInto N r S x false a out.transpose).map Matrix.transpose

/-- `__LO` (hamiltonian_core.py:1269-1288): the routine chosen for the stored matrix is also given its transpose. -/
noncomputable def liouville (t : ℝ) (rho out : Matrix (Fin N) (Fin N) ℂ) : Option (Matrix (Fin N) (Fin N) ℂ) :=
  ((dotInto N (routineOf H.static) H.static rho true 1 out).bind fun y =>
    (dotIntoT (routineOf H.static) H.static.trans rho.transpose (-1) y).bind fun y =>
      H.dynamic.foldlM (fun y e =>
        (dotInto N (routineOf e.2) e.2 rho false (e.1 t) y).bind fun y =>
          dotIntoT (routineOf e.2) e.2.trans rho.transpose (-e.1 t) y) y).map fun y => (-I) • y

end Motion

end Model.Eval
