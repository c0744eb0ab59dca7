import Verif.Model.Hamiltonian
import Verif.Model.Heap
import Verif.Model.Formats

/-!
`commutator`, `anti_commutator` and `as_dense_format` (`/repo/quspin/operators/hamiltonian_core.py`), with the arithmetic of
`Model.Ham` and the shared data of `Model.Heap`.
-/

namespace Model.Commutator
open Model.Ham Model.Drive

variable {F A R n : Type}

/-- What the functions accept: hamiltonians and matrices (hamiltonian_core.py:48-112, documentation). -/
inductive Arg (F A n R : Type) where
  | ham (H : Ham F A n n R)
  | mat (M : Mat n n R)

section
variable [CommRing R] [Fintype n]

/-- python's `a * b` if one of them is a hamiltonian (hamiltonian_core.py:2093-2141, 2984-2998): `numpy.multiply` and `scipy` pass a matrix on
the left to `__rmul__`.  Two matrices do not reach this. -/
def times (env : Env F A R) : Arg F A n R → Arg F A n R → Option (Ham F A n n R)
  | .ham H, .ham G => mulHam env H G
  | .ham H, .mat M => mulMat env H M
  | .mat M, .ham H => rmulMat env M H
  | .mat _, .mat _ => none

/-- `commutator` (hamiltonian_core.py:75-78). -/
def commutatorCall (env : Env F A R) (a b : Arg F A n R) : Option (Arg F A n R) :=
  match a, b with
  | .mat M, .mat M' => (M.dot M').bind fun x => (M'.dot M).map fun y => .mat (x.sub y)
  | a, b => (times env a b).bind fun x => (times env b a).bind fun y => (subHam env x y).map .ham

/-- `anti_commutator` (hamiltonian_core.py:109-112). -/
def antiCommutator (env : Env F A R) (a b : Arg F A n R) : Option (Arg F A n R) :=
  match a, b with
  | .mat M, .mat M' => (M.dot M').bind fun x => (M'.dot M).map fun y => .mat (x.add y)
  | a, b => (times env a b).bind fun x => (times env b a).bind fun y => (addHam env x y).map .ham

end

section
open Model.Heap
variable {K : Type} [DecidableEq K] [AddCommMonoid R]

/-- The list of drives in `as_dense_format` (hamiltonian_core.py:1796-1797): new arrays for sparse matrices, the same objects for dense ones. -/
def denseDyn (h : Heap n R) : List (K × Ref) → Heap n R × List (K × Ref)
  | [] => (h, [])
  | e :: d =>
    let p := if (get h e.2).fmt = .sparse then alloc h ⟨.array, (get h e.2).val⟩ else (h, e.2)
    ((denseDyn p.1 d).1, (e.1, p.2) :: (denseDyn p.1 d).2)

/-- `as_dense_format` (hamiltonian_core.py:1791-1799).  `asarrayCopy`: `numpy.asarray` knows the argument `copy` (not before version 2 of
numpy); otherwise it raises a `TypeError`. -/
def asDense (asarrayCopy copy : Bool) (h : Heap n R) (o : Obj K) : Option (Heap n R × Obj K) :=
  if (get h o.static).fmt = .sparse ∨ asarrayCopy then
    let q := denseDyn h o.dynamic
    some (construct copy q.1 ⟨.array, (get h o.static).val⟩ q.2)
  else none

end

/-- `as_sparse_format` (hamiltonian_core.py:1828-1830): the constructor with the matrices of the object, which ends with
`update_matrix_formats(static_fmt, dynamic_fmt)`; the formats before do not matter. -/
def asSparse {T K : Type} [CommRing R] [DecidableEq K] (N : Nat) (f : Model.Formats.Fmt) (d : Model.Formats.DynFmt K)
    (o : Model.Formats.Obj T R K) : Option (Model.Formats.Obj T R K) :=
  if (Model.Formats.update N (some f) d o).2 then none else some (Model.Formats.update N (some f) d o).1

end Model.Commutator
