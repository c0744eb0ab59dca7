import Verif.Model.ExpmParallel

/-!
The class `expm_multiply_parallel` (`/repo/quspin/tools/expm_multiply_parallel_core/expm_multiply_parallel_core.py`): constructor, `set_a`, `dot`.

Simplifications: exact complex numbers, so a change of the type of `mu` does not change its value.  What scipy's `_fragment_3_1` returns is a parameter.
-/

namespace Model.ExpmObject
open Spec Model.ExpmParallel

/-- Exceptions of the class. -/
inductive ObjErr where
  | valueError
  | typeError
  | nameError
deriving DecidableEq, Repr

/-- `float32`, `float64`, `complex64`, `complex128`. -/
structure DType where
  cplx : Bool
  dbl : Bool
deriving DecidableEq, Repr

/-- Type of the elements of the matrix; `int64` stands for all types that the compiled functions have no signature for. -/
inductive AType where
  | int8
  | int16
  | flt (d : DType)
  | int64
deriving DecidableEq, Repr

/-- `numpy.result_type` of the four types. -/
def DType.join (x y : DType) : DType := ⟨x.cplx || y.cplx, x.dbl || y.dbl⟩

/-- `numpy.can_cast` (safe casting) of the four types. -/
def DType.canCast (x y : DType) : Bool := (!x.cplx || y.cplx) && (!x.dbl || y.dbl)

def f32 : DType := ⟨false, false⟩
def f64 : DType := ⟨false, true⟩

/-- `numpy.result_type(A.dtype, float32)`: integers of at most 16 bits fit into `float32`. -/
def AType.float : AType → DType
  | .int8 => f32
  | .int16 => f32
  | .flt d => d
  | .int64 => f64

/-- A scalar, and what `numpy.min_scalar_type` says of it: complex or not, and whether it takes double precision. -/
structure Scalar where
  val : ℂ
  cplx : Bool
  wide : Bool

/-- `numpy.result_type(min_scalar_type(a), float32)`. -/
def Scalar.min (a : Scalar) : DType := ⟨a.cplx, a.wide⟩

/-- The argument `a`: `numpy.array(a).ndim == 0` or not. -/
inductive AArg where
  | scalar (a : Scalar)
  | array

/-- A matrix as `csr_matrix` stores it. -/
structure Mat where
  rows : ℕ
  cols : ℕ
  csr : Compressed ℂ
  type : AType

/-- The attributes `_A`, `_a`, `_dtype`, `_tol`, `_mu`, `_A_1_norm`, `_m_star`, `_s`. -/
structure Obj where
  A : Mat
  a : Scalar
  dtype : DType
  tol : ℝ
  mu : ℂ
  norm : ℝ
  mStar : ℕ
  s : ℕ

/-- `numpy.finfo(dtype).eps/2`. -/
noncomputable def halfEps (d : DType) : ℝ := if d.dbl then 2⁻¹ ^ 53 else 2⁻¹ ^ 24

/-- `_fragment_3_1(LazyOperatorNormInfo(A, norm, a, mu, dtype), 1, tol)` of scipy: the pair `(m_star, s)`. -/
abbrev Fragment := Mat → ℝ → ℂ → ℂ → DType → ℝ → ℕ × ℕ

/-- `_calculate_partition`, expm_multiply_parallel_core.py:217-223. -/
noncomputable def partition (fr : Fragment) (A : Mat) (norm : ℝ) (a mu : ℂ) (d : DType) (tol : ℝ) : ℕ × ℕ :=
  open Classical in if ‖a‖ * norm = 0 then (0, 1) else fr A norm a mu d tol

/-- The choice of `_dtype` in the constructor, expm_multiply_parallel_core.py:66-76. -/
def chooseType (A : Mat) (a : Scalar) : Option DType → Except ObjErr DType
  | none => .ok ((A.type.float.join a.min).join f64)
  | some d => if ((A.type.float.join a.min).join f32).canCast d then .ok d else .error .valueError

/-- The rest of the constructor, expm_multiply_parallel_core.py:78-85. -/
noncomputable def build (fr : Fragment) (A : Mat) (a : Scalar) (d : DType) : Obj :=
  let tol := halfEps d
  let mu := meanDiagonal A.rows A.csr
  let norm := csrNorm A.rows A.csr mu
  let p := partition fr A norm a.val mu d tol
  { A, a, dtype := d, tol, mu, norm, mStar := p.1, s := p.2 }

/-- `__init__`, expm_multiply_parallel_core.py:56-85.  `_wrapper_csr_trace` has no signature for other integer types (expm_multiply_parallel_wrapper.pyx:24-30). -/
noncomputable def init (fr : Fragment) (A : Mat) (a : AArg) (dtype : Option DType) : Except ObjErr Obj :=
  match a with
  | .array => .error .valueError
  | .scalar a =>
    if A.rows ≠ A.cols then .error .valueError
    else
      match chooseType A a dtype with
      | .error e => .error e
      | .ok d => if A.type = .int64 then .error .typeError else .ok (build fr A a d)

/-- `set_a`, expm_multiply_parallel_core.py:123-145: the object afterwards and the exception.  With `dtype` given the undefined name `A` (132) is read, after `_a` has
been set (124). -/
noncomputable def setA (fr : Fragment) (o : Obj) (a : AArg) (dtype : Option DType) : Obj × Option ObjErr :=
  match a with
  | .array => (o, some .valueError)
  | .scalar a =>
    let o := { o with a }
    match dtype with
    | some _ => (o, some .nameError)
    | none =>
      let d := (o.A.type.float.join a.min).join f64
      let tol := halfEps d
      let p := partition fr o.A o.norm a.val o.mu d tol
      ({ o with dtype := d, tol, mStar := p.1, s := p.2 }, none)

/-- The arguments of `dot`: number of axes, size and type of `v`, whether it is contiguous and writable, shape and type of `work_array`, `overwrite_v`. -/
structure DotCall where
  ndim : ℕ
  len : ℕ
  type : DType
  carray : Bool
  work : Option (List ℕ × DType)
  overwrite : Bool

/-- `get_switch_expm_multiply`, generate_source.py:42-58: is there a signature for these types of the matrix and the vector?  (The type of `tol` is the real type of that of the
vector, expm_multiply_parallel_core.py:210-211.) -/
def signature (A : AType) (v : DType) : Bool :=
  match A with
  | .int64 => false
  | A => A.float.canCast v

/-- The checks of `dot` (expm_multiply_parallel_core.py:175-207) and of the wrapper (expm_multiply_parallel_wrapper.pyx:99-122): the type of the result. -/
def dotCheck (o : Obj) (c : DotCall) : Except ObjErr DType :=
  if c.ndim ≠ 1 then .error .valueError
  else if c.len ≠ o.A.cols then .error .valueError
  else
    let d := o.dtype.join c.type
    if c.overwrite ∧ d ≠ c.type then .error .valueError
    else if c.overwrite ∧ ¬ c.carray then .error .typeError
    else
      match c.work with
      | some (shape, t) =>
        if shape ≠ [2 * o.A.rows] then .error .valueError
        else if t ≠ d then .error .valueError
        else if signature o.A.type d then .ok d else .error .typeError
      | none => if signature o.A.type d then .ok d else .error .typeError

/-- What the compiled function gets, expm_multiply_parallel_core.py:209-213. -/
def input (o : Obj) (numThreads team : ℕ) : Input :=
  { n := o.A.rows, A := o.A.csr, s := o.s, mStar := o.mStar, tol := o.tol, mu := o.mu, a := o.a.val, numThreads, team }

/-- `dot`: an execution that returns the vector `F'`, of type `d`. -/
def Dot {M : ℕ} (o : Obj) (c : DotCall) (numThreads team : ℕ) (F : Matvec.Mem M ℂ) (d : DType) (F' : Matvec.Mem M ℂ) : Prop :=
  dotCheck o c = .ok d ∧ ExpmMultiply (input o numThreads team) F F'

end Model.ExpmObject
