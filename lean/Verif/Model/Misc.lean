import Verif.Model.Hamiltonian
import Mathlib.Analysis.SpecialFunctions.Log.Basic
import Mathlib.Data.Matrix.Basic
import Mathlib.Data.List.Sort
import Mathlib.Data.List.Dedup

/-!
Model of `/repo/quspin/tools/misc.py`: `project_op`, `KL_div`, `mean_level_spacing`.

* Numbers are exact; `nan` is a separate result.
* Arrays carry their shape, so that mismatches can be seen.  `none` is an exception.
-/

namespace Model.Misc

/-! ### Projection of operators -/

/-- A two-dimensional array or sparse matrix with its shape. -/
structure Arr where
  rows : ℕ
  cols : ℕ
  val : Matrix (Fin rows) (Fin cols) ℂ

/-- `a.dot(b)` with the test of the shapes (numpy and scipy). -/
def Arr.dot (a b : Arr) : Option Arr :=
  if h : a.cols = b.rows then some ⟨a.rows, b.cols, a.val * b.val.submatrix (Fin.cast h) id⟩ else none

/-- `a + b` with the test of the shapes (numpy and scipy; shapes with an axis of length one are not spread out). -/
def Arr.add (a b : Arr) : Option Arr :=
  if h : a.rows = b.rows ∧ a.cols = b.cols then
    some ⟨a.rows, a.cols, a.val + b.val.submatrix (Fin.cast h.1) (Fin.cast h.2)⟩
  else none

/-- `a.T.conj()`. -/
def Arr.dagger (a : Arr) : Arr := ⟨a.cols, a.rows, a.val.conjTranspose⟩

/-- `_sp.dia_matrix(shape)`. -/
def Arr.zeros (r c : ℕ) : Arr := ⟨r, c, 0⟩

/-- `project_op(Obs, proj)` for an array or sparse matrix `Obs` (misc.py:92-111). -/
def projectArr (obs proj : Arr) : Option Arr :=
  if obs.rows ≠ obs.cols then none
  else if obs.cols ≠ proj.rows then
    if obs.rows ≠ proj.cols then none
    else (obs.dot proj.dagger).bind proj.dot
  else (obs.dot proj).bind proj.dagger.dot

open Model.Ham in
/-- `project_op(Obs, proj)` for a hamiltonian and an array `proj` (misc.py:74-90); `project_to` with an array is
`Model.Ham.projectDense`. -/
def projectHamArray {F A : Type} {N a b : ℕ} (env : Env F A ℂ) (obs : Ham F A (Fin N) (Fin N) ℂ)
    (proj : Matrix (Fin a) (Fin b) ℂ) : Option (Σ m : ℕ, Ham F A (Fin m) (Fin m) ℂ) :=
  if h : N = a then
    (projectDense env obs ⟨.array, proj.submatrix (Fin.cast h) id⟩).map fun X => ⟨b, X⟩
  else if h : N = b then
    (projectDense env obs ⟨.array, proj.conjTranspose.submatrix (Fin.cast h) id⟩).map fun X => ⟨a, X⟩
  else none

/-- A hamiltonian whose matrices carry their shapes: static part and driven parts with the values of the drives as
functions of time. -/
structure SHam where
  size : ℕ
  static : Arr
  driven : List ((ℝ → ℂ) × Arr)

/-- `_check_almost_zero(matrix)` with threshold zero (_make_hamiltonian.py:12-19). -/
def Arr.isZero (a : Arr) : Prop := a.val = 0

open Classical in
/-- `if _check_almost_zero(M): M = _sp.dia_matrix(shape)`, the shape being that of the object
(hamiltonian_core.py:2681-2682, 2705-2706). -/
noncomputable def Arr.orZeros (size : ℕ) (a : Arr) : Arr := if a.isZero then Arr.zeros size size else a

open Classical in
/-- The loop over the driven parts of `_rmul_sparse` and `_imul_sparse` (hamiltonian_core.py:2684-2693, 2708-2717): both
multiply from the left. -/
noncomputable def leftDriven (other : Arr) (d : List ((ℝ → ℂ) × Arr)) : Option (List ((ℝ → ℂ) × Arr)) :=
  (d.mapM fun e => (other.dot e.2).map fun M => (e.1, M)).map fun l => l.filter fun e => decide ¬e.2.isZero

/-- `_rmul_sparse(other)` (hamiltonian_core.py:2669-2698); the object keeps its size. -/
noncomputable def rmulSparse (H : SHam) (other : Arr) : Option SHam :=
  (other.dot H.static).bind fun s => (leftDriven other H.driven).map fun d => ⟨H.size, s.orZeros H.size, d⟩

/-- `_imul_sparse(other)` (hamiltonian_core.py:2700-2722). -/
noncomputable def imulSparse (H : SHam) (other : Arr) : Option SHam :=
  (H.static.dot other).bind fun s => (leftDriven other H.driven).map fun d => ⟨H.size, s.orZeros H.size, d⟩

/-- `project_to(proj)` with a sparse matrix (hamiltonian_core.py:1047-1053). -/
noncomputable def projectToSparse (H : SHam) (proj : Arr) : Option SHam :=
  if H.size ≠ proj.rows then none
  else (rmulSparse H proj.dagger).bind fun new => imulSparse { new with size := proj.cols } proj

/-- `project_op(Obs, proj)` for a hamiltonian and a sparse matrix, which is what `proj.get_proj(dtype)` returns for a
basis (misc.py:69-90). -/
noncomputable def projectHamSparse (obs : SHam) (proj : Arr) : Option SHam :=
  if obs.size ≠ proj.rows then
    if obs.size ≠ proj.cols then none
    else projectToSparse obs proj.dagger
  else projectToSparse obs proj

/-- `toarray(time)` of a hamiltonian (hamiltonian_core.py:1646-1690). -/
def SHam.toArray (H : SHam) (t : ℝ) : Option Arr :=
  H.driven.foldlM (fun M e => M.add ⟨e.2.rows, e.2.cols, e.1 t • e.2.val⟩) H.static

/-! ### Relative entropy -/

/-- `1E-13` (misc.py:151, 154). -/
noncomputable def klTol : ℝ := 1 / 10 ^ 13

open Classical in
/-- The two masks `_np.delete(p,inds)` with `inds = _np.where(p1 == 0)` (misc.py:157-162). -/
noncomputable def dropZeros (p1 p2 : List ℝ) : List (ℝ × ℝ) := (p1.zip p2).filter fun e => decide (e.1 ≠ 0)

open Classical in
/-- `KL_div(p1, p2)` (misc.py:139-164) for one-dimensional arrays. -/
noncomputable def klDiv (p1 p2 : List ℝ) : Option ℝ :=
  if p1.length ≠ p2.length then none
  else if (∃ x ∈ p1, x ≤ 0) ∨ ∃ x ∈ p2, x ≤ 0 then none
  else if |p1.sum - 1| > klTol then none
  else if |p2.sum - 1| > klTol then none
  else
    let kept := if ∃ x ∈ p1, x = 0 then dropZeros p1 p2 else p1.zip p2
    some (kept.map fun e => e.1 * Real.log (e.1 / e.2)).sum

/-! ### Mean level spacing -/

/-- What `mean_level_spacing` does: raise, return `nan`, or return a number. -/
inductive Outcome where
  | raises
  | nan
  | value (x : ℝ)

/-- `_np.diff(E)` (misc.py:214). -/
noncomputable def diff : List ℝ → List ℝ
  | a :: b :: l => (b - a) :: diff (b :: l)
  | _ => []

/-- `_np.mean`, which is `nan` for an empty array. -/
noncomputable def mean (l : List ℝ) : Outcome := if l = [] then .nan else .value (l.sum / l.length)

open Classical in
/-- `mean_level_spacing(E)` (misc.py:201-223); `_np.roll(sn,-1)` is `List.rotate` by one.  For an empty list
`_np.zeros((-1,2))` raises.  The warning is not modelled. -/
noncomputable def meanLevelSpacing (E : List ℝ) : Outcome :=
  if E.insertionSort (· ≤ ·) ≠ E then .raises
  else if E.dedup.length ≠ E.length then .nan
  else if E.length = 0 then .raises
  else
    let sn := diff E
    mean ((sn.zipWith (fun a b => min a b / max a b) (sn.rotate 1)).dropLast)

end Model.Misc
