import Verif.Model.Consolidate

/-!
Model of `block_diag_hamiltonian` (`/repo/quspin/tools/block_tools.py:30-137`): the hamiltonians of several symmetry blocks
are put together to a block diagonal one.

The projector (lines 110-112, 134) is not modelled here; single projectors are the subject of C42.  Line 104 (the
dictionaries of the caller are updated with `basis_kwargs`) is not modelled.
-/

namespace Model.BlockDiag
open Model.Drive Model.Ham Model.Consolidate

variable {O I F A R β : Type}

/-- A square sparse matrix of any size; elements outside of it are not used. -/
structure SqMat (R : Type) where
  dim : Nat
  val : Nat → Nat → R

/-- A matrix with a fixed size as `SqMat`. -/
def ofMat [Zero R] {d : Nat} (M : Matrix (Fin d) (Fin d) R) : SqMat R :=
  ⟨d, fun i j => if h : i < d ∧ j < d then M ⟨i, h.1⟩ ⟨j, h.2⟩ else 0⟩

/-- The direct sum of two matrices. -/
def SqMat.sum [Zero R] (a b : SqMat R) : SqMat R :=
  ⟨a.dim + b.dim, fun i j =>
    if i < a.dim ∧ j < a.dim then a.val i j
    else if a.dim ≤ i ∧ a.dim ≤ j then b.val (i - a.dim) (j - a.dim)
    else 0⟩

/-- `scipy.sparse.block_diag(mats)` (not code of the repository).  An empty list gives an empty matrix here; scipy raises an
exception or returns a matrix without columns, which the constructor of `hamiltonian` rejects. -/
def blockDiag [Zero R] : List (SqMat R) → SqMat R
  | [] => ⟨0, fun _ _ => 0⟩
  | a :: l => a.sum (blockDiag l)

/-- `for i,Hd in enumerate(H.dynamic.values()): dynamic_list[i][0].append(Hd)` (block_tools.py:119-120); `none`:
`IndexError`. -/
def append : List (List (SqMat R)) → List (SqMat R) → Option (List (List (SqMat R)))
  | slots, [] => some slots
  | [], _ :: _ => none
  | s :: slots, M :: mats => (append slots mats).map fun r => (s ++ [M]) :: r

/-- The shape check of the constructor (`_mat_checks`, called on hamiltonian_core.py:365, 410); `none`: `ValueError`. -/
def resize (N : Nat) (a : SqMat R) : Option (Mat (Fin N) (Fin N) R) :=
  if a.dim = N then some ⟨.sparse, Matrix.of fun i j => a.val i j⟩ else none

/-- Put together the static and the dynamic matrices of the blocks (block_tools.py:105-106, 118-126, 135-137).  `order` is the
list `set(dynamic_list)` on line 106 is turned into.  The number of rows of the result is the dependent component. -/
def assemble [AddCommMonoid R] (H : PyHash F A) (order : List (F × List A)) (static : List (SqMat R))
    (dynamic : List (List (SqMat R))) : Option ((N : Nat) × Ham F A (Fin N) (Fin N) R) :=
  let N := (blockDiag static).dim
  (dynamic.foldlM append (order.map fun _ => [])).bind fun slots =>
    (resize N (blockDiag static)).bind fun st =>
      ((order.zip slots).mapM fun e => (resize N (blockDiag e.2)).map fun M => ((Fn.atom (.base e.1.1 e.1.2) : Fn F A), M)).bind
        fun dyn => (ofMatrices H [st] dyn).map fun h => ⟨N, h⟩

/-- `block_diag_hamiltonian(blocks, static, dynamic, ...)` (block_tools.py:96-137): `op b` are the matrices of the operator
strings in the basis of block `b`. -/
def blockDiagHamiltonian [DecidableEq O] [DecidableEq I] [DecidableEq F] [DecidableEq A] [CommRing R] (env : Env F A R)
    (big : R → Bool) (dim : β → Nat) (op : (b : β) → O → I → Matrix (Fin (dim b)) (Fin (dim b)) R)
    (order : List (F × List A)) (blocks : List β)
    (st : List (O × List (R × I))) (dyn : List (O × List (R × I) × F × List A)) :
    Option ((N : Nat) × Ham F A (Fin N) (Fin N) R) :=
  assemble env.hash order (blocks.map fun b => ofMat (fromStrings env big (op b) st dyn).static.val)
    (blocks.map fun b => (fromStrings env big (op b) st dyn).dynamic.map fun e => ofMat e.2.val)

end Model.BlockDiag
