import Verif.Model.ExpmObject

/-!
The function `csr_matvec` of `quspin.tools.misc`: `/repo/quspin/tools/expm_multiply_parallel_core/csr_matvec_core.py`, `csr_matvec_wrapper.pyx`, `source/csr_matvec.h`
(compiled with OpenMP).
-/

namespace Model.CsrMatvecOld
open Spec Model.Matvec Model.ExpmObject

variable {M : ℕ} {R : Type} [CommRing R]

/-- `csrmv_merge`, csr_matvec.h:53-115, by `T` threads: the output is set to zero first (71-76, ended by a barrier), then all rows are added to it as in
`csrmv_merge.h` with `overwrite_y` false (79-113). -/
def Kernel (overwrite : Bool) (T n : ℕ) (A : Compressed R) (a : R) (x : Mem M R) (s : Shared M R) (y' : Mem M R) : Prop :=
  ∃ l, Interleaving (if overwrite then n else 0) (zeroOps 1) l ∧ CsrOmp false T n A a 1 x 1 (run l s) y'

/-- The arguments: rows, columns and type of the matrix, shape and type of `v`, type of `a` (a python number, complex or not), shape, type and contiguity of `out`. -/
structure Args where
  rows : ℕ
  cols : ℕ
  aType : DType
  shape : List ℕ
  vType : DType
  cplx : Bool
  out : Option (List ℕ × DType × Bool)
  overwrite : Bool

/-- `numpy.result_type(v.dtype, A.dtype, a)`, csr_matvec_core.py:54. -/
def resultType (g : Args) : DType := (g.vType.join g.aType).join ⟨g.cplx, false⟩

/-- The combinations of types for which `_csr_matvec` does not raise, csr_matvec_wrapper.pyx:42-150; a python number is passed as `double` or `double complex` (`T2`). -/
def accepted (t1 : DType) (t2cplx : Bool) (t3 : DType) : Bool :=
  match t1, t2cplx with
  | ⟨true, true⟩, _ => t3 == ⟨true, true⟩
  | ⟨false, true⟩, true => t3 == ⟨true, true⟩
  | ⟨false, true⟩, false => t3 == ⟨false, true⟩ || t3 == ⟨true, true⟩
  | ⟨true, false⟩, true => t3 == ⟨true, true⟩
  | ⟨true, false⟩, false => t3 == ⟨true, true⟩
  | ⟨false, false⟩, true => t3 == ⟨true, true⟩
  | ⟨false, false⟩, false => t3 == ⟨false, true⟩ || t3 == ⟨true, true⟩

/-- The checks: csr_matvec_core.py:54-72 and the types in csr_matvec_wrapper.pyx.  `x` and `y` of the wrapper have the same type. -/
def check (g : Args) : Except ObjErr Unit :=
  if g.cols ≠ g.shape.prod then .error .valueError
  else
    match g.out with
    | none => if accepted g.aType g.cplx (resultType g) then .ok () else .error .valueError
    | some (shape, t, _) =>
      if shape ≠ g.shape then .error .valueError
      else if t ≠ resultType g then .error .valueError
      else if accepted g.aType g.cplx (resultType g) then .ok () else .error .valueError

/-- Number of row offsets that are read: one more than the size of the output (csr_matvec_wrapper.pyx:36, csr_matvec.h:65-66). -/
def offsetsRead (g : Args) : ℕ := g.shape.prod + 1

/-- Number of row offsets that a csr matrix stores. -/
def offsetsStored (g : Args) : ℕ := g.rows + 1

/-- What happens to the elements of `out` (or of the new array): csr_matvec_core.py:59-74.  The number of rows of the product is the size of the output (csr_matvec_wrapper.pyx:36,
`nr = Yx.shape[0]`); reading beyond the row offsets has no defined result; an array that is not contiguous is copied by `ravel` and the copy is thrown away. -/
def Effect (g : Args) (T : ℕ) (A : Compressed R) (a : R) (x : Mem M R) (s : Shared M R) (res : Mem M R) : Prop :=
  check g = .ok () ∧ offsetsRead g ≤ offsetsStored g ∧ ∃ y', Kernel (g.out.isNone || g.overwrite) T g.shape.prod A a x s y' ∧
    res = match g.out with
      | none => y'
      | some (_, _, contiguous) => if contiguous then y' else s.y

end Model.CsrMatvecOld
