import Verif.Model.Evaluate
import Verif.Model.QOpCalls

/-!
Diagonalisation by `hamiltonian` and `quantum_operator` (`operators/hamiltonian_core.py`, `operators/quantum_operator_core.py`) and the wrappers
`aslinearoperator`, `__call__`.

Numbers are exact.  The routines of scipy and numpy are functions given from outside, with contracts in the theorems; only the keyword arguments
listed in `Options` are modelled.  The arrays handed to the routines are new, so that `overwrite_a=True` changes nothing a user can see.
-/

namespace Model.Spectrum

open Model.Eval (Ham Stored toMatrix dot)
open Model.QOpCalls (QObj Coup conjStored)

/-- Keyword arguments of the calls: `UPLO` (numpy; lower or not), `lower` (scipy), `eigvals_only` (scipy), `return_eigenvectors` and `k` of `eigsh`
with `which='SA'`. -/
structure Options where
  uplo : Option Bool := none
  lower : Option Bool := none
  eigvalsOnly : Option Bool := none
  returnVectors : Option Bool := none
  k : ℕ := 6

/-- Exceptions. -/
inductive Err where
  | type | value | unpack | casting
deriving DecidableEq, Repr

/-- What a call returns: numbers with states, numbers, the two arrays of shapes `(0,)` and `(rows, 0)`, or two numbers. -/
inductive Answer (N : ℕ) where
  | pair (k : ℕ) (E : Fin k → ℝ) (V : Matrix (Fin N) (Fin k) ℂ)
  | values (k : ℕ) (E : Fin k → ℝ)
  | empty (rows : ℕ)
  | numbers (a b : ℝ)

/-- The routines of LAPACK and ARPACK behind scipy and numpy: all eigenpairs from one triangle, and the `k` lowest of a sparse matrix. -/
structure Solvers (N : ℕ) where
  heev : Bool → Matrix (Fin N) (Fin N) ℂ → (Fin N → ℝ) × Matrix (Fin N) (Fin N) ℂ
  arpack : (k : ℕ) → Matrix (Fin N) (Fin N) ℂ → (Fin k → ℝ) × Matrix (Fin N) (Fin k) ℂ

variable {N : ℕ} {T : Type}

/-- `scipy.linalg.eigh`: it knows `lower` and `eigvals_only`, any other keyword raises `TypeError`. -/
def scipyEigh (S : Solvers N) (o : Options) (A : Matrix (Fin N) (Fin N) ℂ) : Except Err (Answer N) :=
  if o.uplo.isSome || o.returnVectors.isSome then .error .type
  else
    let r := S.heev (o.lower.getD true) A
    .ok (if o.eigvalsOnly.getD false then .values N r.1 else .pair N r.1 r.2)

/-- `scipy.linalg.eigvalsh`: it knows `lower`. -/
def scipyEigvalsh (S : Solvers N) (o : Options) (A : Matrix (Fin N) (Fin N) ℂ) : Except Err (Answer N) :=
  if o.uplo.isSome || o.returnVectors.isSome || o.eigvalsOnly.isSome then .error .type
  else .ok (.values N (S.heev (o.lower.getD true) A).1)

/-- `numpy.linalg.eigvalsh`: it knows `UPLO`. -/
def numpyEigvalsh (S : Solvers N) (o : Options) (A : Matrix (Fin N) (Fin N) ℂ) : Except Err (Answer N) :=
  if o.lower.isSome || o.returnVectors.isSome || o.eigvalsOnly.isSome then .error .type
  else .ok (.values N (S.heev (o.uplo.getD true) A).1)

/-- `scipy.sparse.linalg.eigsh` with `which='SA'`: it needs `0 < k < N`. -/
def scipyEigsh (S : Solvers N) (o : Options) (A : Matrix (Fin N) (Fin N) ℂ) : Except Err (Answer N) :=
  if o.uplo.isSome || o.lower.isSome || o.eigvalsOnly.isSome then .error .type
  else if o.k = 0 then .error .value
  else if o.k ≥ N then .error .type
  else .ok (if o.returnVectors.getD true then .pair o.k (S.arpack o.k A).1 (S.arpack o.k A).2 else .values o.k (S.arpack o.k A).1)

/-- A hamiltonian with its data type: whether it is real, and whether a function of time returns complex numbers. -/
structure Typed (T : Type) where
  ham : Ham T ℂ
  real : Bool
  complexDrive : Bool

/-- `todense(time)` (hamiltonian_core.py:1629-1644): a new array of the data type of the hamiltonian; adding complex numbers in place to a real array
raises. -/
def todense (N : ℕ) (H : Typed T) (t : T) : Except Err (Matrix (Fin N) (Fin N) ℂ) :=
  if H.real && H.complexDrive then .error .casting else .ok (toMatrix N H.ham t)

/-- `hamiltonian.eigsh` (hamiltonian_core.py:1180-1191); `tocsr` adds complex numbers to a real matrix by making a new one (1548-1551). -/
def hamEigsh (S : Solvers N) (H : Typed T) (t : T) (o : Options) : Except Err (Answer N) :=
  if N = 0 then .ok (if o.returnVectors.getD true then .empty 1 else .values 0 Fin.elim0)
  else scipyEigsh S o (toMatrix N H.ham t)

/-- `hamiltonian.eigh` (hamiltonian_core.py:1222-1229). -/
def hamEigh (S : Solvers N) (H : Typed T) (t : T) (o : Options) : Except Err (Answer N) :=
  if N = 0 then .ok (.empty 1)
  else (todense N H t).bind (scipyEigh S o)

/-- `hamiltonian.eigvalsh` (hamiltonian_core.py:1260-1265). -/
def hamEigvalsh (S : Solvers N) (H : Typed T) (t : T) (o : Options) : Except Err (Answer N) :=
  if N = 0 then .ok (.values 0 Fin.elim0)
  else (todense N H t).bind (scipyEigvalsh S o)

/-- The matrix of a `quantum_operator` for the given couplings, or the exception for unknown names. -/
def qopMatrix (N : ℕ) (o : QObj) (d : Coup) : Except Err (Matrix (Fin N) (Fin N) ℂ) :=
  match Model.QOpCalls.toarray N o d none with
  | some A => .ok A
  | none => .error .value

/-- `quantum_operator.eigsh` (quantum_operator_core.py:768-771). -/
def qopEigsh (S : Solvers N) (q : QObj) (d : Coup) (o : Options) : Except Err (Answer N) :=
  if N = 0 then .ok (.empty 1)
  else (qopMatrix N q d).bind (scipyEigsh S o)

/-- `E,H_dense = _la.eigh(…)` (quantum_operator_core.py:811): two values are unpacked; an array of two numbers is, too. -/
def unpackPair : Answer N → Except Err (Answer N)
  | .values 2 E => .ok (.numbers (E 0) (E 1))
  | .values _ _ => .error .unpack
  | a => .ok a

/-- `quantum_operator.eigh` (quantum_operator_core.py:803-812). -/
def qopEigh (S : Solvers N) (q : QObj) (d : Coup) (o : Options) : Except Err (Answer N) :=
  if N = 0 then .ok (.empty 1)
  else ((qopMatrix N q d).bind (scipyEigh S o)).bind unpackPair

/-- `quantum_operator.eigvalsh` (quantum_operator_core.py:845-852). -/
def qopEigvalsh (S : Solvers N) (q : QObj) (d : Coup) (o : Options) : Except Err (Answer N) :=
  if N = 0 then .ok (.values 0 Fin.elim0)
  else (qopMatrix N q d).bind (numpyEigvalsh S o)

/-- `hamiltonian.H` (hamiltonian_core.py:527-530, 1856-1901): conjugated matrices and functions, transposed. -/
def adjoint (H : Ham T ℂ) : Ham T ℂ :=
  ⟨(conjStored H.static).trans, H.dynamic.map fun e => (fun t => star (e.1 t), (conjStored e.2).trans)⟩

/-- `hamiltonian.aslinearoperator(time)` (hamiltonian_core.py:1510-1516) with `_hamiltonian_dot` (165-167): the functions `matvec` (also `matmat`)
and `rmatvec`. -/
def linear {κ : Type} (N : ℕ) (H : Ham T ℂ) (t : T) :
    (Matrix (Fin N) κ ℂ → Option (Matrix (Fin N) κ ℂ)) × (Matrix (Fin N) κ ℂ → Option (Matrix (Fin N) κ ℂ)) :=
  (fun V => dot N H t V none true 1, fun V => dot N (adjoint H) t V none true 1)

/-- `hamiltonian.__call__(time)` (hamiltonian_core.py:2076-2079): `toarray` or `tocsr`; the container is not modelled. -/
def call (N : ℕ) (H : Typed T) (dense : Bool) (t : T) : Except Err (Matrix (Fin N) (Fin N) ℂ) :=
  if dense then todense N H t else .ok (toMatrix N H.ham t)

end Model.Spectrum
