import Verif.Spec.NumberTypes
import Verif.Model.Matvec

/-!
Model of the choice of the compiled matrix-vector product: `/repo/quspin/tools/matvec/generate_oputils.py`, which writes the file
`oputils_impl.h` when the library is built, and `/repo/quspin/tools/matvec/_oputils.pyx`; and of the complex numbers of the compiled code,
`/repo/quspin/tools/matvec/_oputils/complex_ops.h`.

The products themselves are in `Model/Matvec.lean`, over one ring for all numbers.  Here are the types.  Simplifications: exact real numbers;
arrays are contiguous; types that numpy calls equivalent are one type.
-/

namespace Model.MatvecTypes
open Spec.NumberTypes

/-! ### The generated dispatch -/

/-- `numpy.result_type` of two types (numpy, not code of the repository).  Simplification: `other 0` where a further type is involved. -/
def resultType : Ty → Ty → Ty
  | .other _, _ => .other 0
  | _, .other _ => .other 0
  | .int8, u => u
  | .int16, .int8 => .int16
  | .int16, u => u
  | .int32, .int8 => .int32
  | .int32, .int16 => .int32
  | .int32, .int32 => .int32
  | .int32, .int64 => .int64
  | .int32, .float32 => .float64
  | .int32, .float64 => .float64
  | .int32, .complex64 => .complex128
  | .int32, .complex128 => .complex128
  | .int64, .float32 => .float64
  | .int64, .float64 => .float64
  | .int64, .complex64 => .complex128
  | .int64, .complex128 => .complex128
  | .int64, _ => .int64
  | .float32, .int8 => .float32
  | .float32, .int16 => .float32
  | .float32, .int32 => .float64
  | .float32, .int64 => .float64
  | .float32, u => u
  | .float64, .complex64 => .complex128
  | .float64, .complex128 => .complex128
  | .float64, _ => .float64
  | .complex64, .int32 => .complex128
  | .complex64, .int64 => .complex128
  | .complex64, .float64 => .complex128
  | .complex64, .complex128 => .complex128
  | .complex64, _ => .complex64
  | .complex128, _ => .complex128

/-- `numpy.can_cast(t, u)` with the default rule `safe` (numpy, not code of the repository). -/
def canCast (t u : Ty) : Bool := resultType t u == u

/-- `I_types`, `T_types`, `F_types` (generate_oputils.py:19-21). -/
def iTypes : List Ty := [.int32, .int64]
def tTypes : List Ty := [.complex128, .float64, .complex64, .float32]
def fTypes : List Ty := [.complex128, .float64, .complex64, .float32]

/-- Types of one instantiation: indices, matrix, number `a`, vectors. -/
structure Combo where
  I : Ty
  T1 : Ty
  T2 : Ty
  T3 : Ty
  deriving DecidableEq

/-- The loops over the types, the same in all generators (generate_oputils.py:43-59, 162-185, 202-225, 331-354). -/
def combos (is ts fs : List Ty) : List Combo :=
  is.flatMap fun I => ts.flatMap fun T1 =>
    (if T1 = .int8 ∨ T1 = .int16 then fs else [T1]).flatMap fun T2 =>
      fs.flatMap fun T3 => if canCast (resultType T1 T2) T3 && canCast (resultType T1 T2) T2 then [⟨I, T1, T2, T3⟩] else []

/-- `get_switch_num` as written by `generate_get_switch` (generate_oputils.py:26-64): a chain over the index types, and in every branch a chain over
the other types; the number is that of the loops.  `none` is `-1`. -/
def getSwitch (is ts fs : List Ty) (I T1 T2 T3 : Ty) : Option ℕ :=
  match is.find? fun i => i = I with
  | none => none
  | some i => (((combos is ts fs).zipIdx.filter fun c => c.1.I = i).find? fun c => c.1.T1 = T1 ∧ c.1.T2 = T2 ∧ c.1.T3 = T3).map (·.2)

/-- `switch(switch_num)` of the generated products: the types of the case; the default throws (generate_oputils.py:69-190, 193-230, 233-359). -/
def caseOf (is ts fs : List Ty) (k : ℕ) : Option Combo := (combos is ts fs)[k]?

/-! ### The calls -/

/-- A matrix in the format CSR, a vector and perhaps an output: types and lengths. -/
structure Call where
  rows : ℕ
  cols : ℕ
  indptr : Ty
  indices : Ty
  data : Ty
  x : Ty
  xLen : ℕ
  out : Option (Ty × ℕ)

inductive Err | typeError | internal
  deriving DecidableEq

/-- What is run: the instantiation, the numbers of rows and columns handed over, and the output. -/
structure Run where
  types : Combo
  nr : ℕ
  nc : ℕ
  out : Ty
  outLen : ℕ
  deriving DecidableEq

/-- `_csr_dot` and `_csr_matvec` for one vector (_oputils.pyx:64-88, 509-521; `_csc_dot` and `_csc_matvec` have the same lines, 120-144 and 526-538): `a` is
converted to the type of the matrix; the type of the output and the shape of the matrix are not looked at. -/
def dot (c : Call) : Except Err Run :=
  let out := c.out.getD (resultType c.data c.x, c.rows)
  match getSwitch iTypes tTypes fTypes c.indptr c.data c.data c.x with
  | none => .error .typeError
  | some k =>
    match caseOf iTypes tTypes fTypes k with
    | none => .error .internal
    | some t => .ok ⟨t, out.2, c.xLen, out.1, out.2⟩

/-- First byte of the entry of row `k` that the product writes: `y[k * y_stride]` with `y_stride = y_stride_byte/sizeof(T3)` and the byte stride of a
contiguous array (csr.h:69, 81, 277-278). -/
def writtenAt (r : Run) (k : ℕ) : ℤ := k * Matvec.elemStride (bytes r.out) (bytes r.types.T3) * bytes r.types.T3

/-! ### Complex numbers -/

/-- `complex_wrapper`: the two members of numpy's struct (complex_ops.h:10-18). -/
structure W where
  re : ℝ
  im : ℝ

namespace W

/-- Binary operators (complex_ops.h:33-52). -/
noncomputable def neg (A : W) : W := ⟨-A.re, -A.im⟩
noncomputable def add (A B : W) : W := ⟨A.re + B.re, A.im + B.im⟩
noncomputable def sub (A B : W) : W := ⟨A.re - B.re, A.im - B.im⟩
noncomputable def mul (A B : W) : W := ⟨A.re * B.re - A.im * B.im, A.re * B.im + A.im * B.re⟩
noncomputable def div (A B : W) : W :=
  let denom := 1 / (B.re * B.re + B.im * B.im)
  ⟨(A.re * B.re + A.im * B.im) * denom, (A.im * B.re - A.re * B.im) * denom⟩

/-- Products and quotients with a real number (complex_ops.h:147-191); `operator=` of a real number (complex_ops.h:126-131). -/
noncomputable def mulReal (A : W) (B : ℝ) : W := ⟨A.re * B, A.im * B⟩
noncomputable def divReal (A : W) (B : ℝ) : W := ⟨A.re / B, A.im / B⟩
noncomputable def ofReal (B : ℝ) : W := ⟨B, 0⟩

/-- Memory that holds complex numbers. -/
abbrev Mem := ℕ → W

/-- Assignments to one member. -/
noncomputable def setRe (m : Mem) (p : ℕ) (v : ℝ) : Mem := Function.update m p ⟨v, (m p).im⟩
noncomputable def setIm (m : Mem) (p : ℕ) (v : ℝ) : Mem := Function.update m p ⟨(m p).re, v⟩

/-- In-place operators, statement by statement; `B` is a reference and may be the number itself (complex_ops.h:54-76). -/
noncomputable def addTo (m : Mem) (p q : ℕ) : Mem :=
  let m := setRe m p ((m p).re + (m q).re)
  setIm m p ((m p).im + (m q).im)
noncomputable def subTo (m : Mem) (p q : ℕ) : Mem :=
  let m := setRe m p ((m p).re - (m q).re)
  setIm m p ((m p).im - (m q).im)
noncomputable def mulTo (m : Mem) (p q : ℕ) : Mem :=
  let temp := (m p).re * (m q).re - (m p).im * (m q).im
  let m := setIm m p ((m p).re * (m q).im + (m p).im * (m q).re)
  setRe m p temp
noncomputable def divTo (m : Mem) (p q : ℕ) : Mem :=
  let denom := 1 / ((m q).re * (m q).re + (m q).im * (m q).im)
  let temp := ((m p).re * (m q).re + (m p).im * (m q).im) * denom
  let m := setIm m p (((m p).im * (m q).re - (m p).re * (m q).im) * denom)
  setRe m p temp

open Classical in
/-- Comparisons (complex_ops.h:78-86). -/
noncomputable def eq (A B : W) : Bool := decide (A.re = B.re) && decide (A.im = B.im)
open Classical in
noncomputable def ne (A B : W) : Bool := decide (A.re ≠ B.re) || decide (A.im ≠ B.im)
open Classical in
noncomputable def lt (A B : W) : Bool := if A.re = B.re then decide (A.im < B.im) else decide (A.re < B.re)

end W
end Model.MatvecTypes
