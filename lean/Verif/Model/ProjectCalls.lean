import Verif.Model.HcbBasis

/-!
Calls of `get_proj`, `project_to` and `project_from` of the general classes (`/repo/quspin/basis/basis_general/base_general.py:454-673`): which arguments they
accept and what they return.  The numbers are those of `Model.projectFromDense`, `Model.getProj` etc.; here only shapes are computed.
-/

namespace Model.ProjectCalls
open Model

/-- Exceptions of the calls. -/
inductive CallErr where
  | attributeError
  | valueError
  | typeError
deriving DecidableEq, Repr

/-- What the calls read of a basis: `_made_basis`, `sps**N`, `_Ns`, `_get_proj_pcon`, and the size of the basis constructed from `_pcon_args`
(`none` if the class sets no such attribute: `user_basis`, base_user.py:210-368).  A failure of that constructor is one of `err`. -/
structure GBasis where
  made : Bool
  full : ℕ
  Ns : ℕ
  single : Bool
  pcon : Option (Except PyErr ℕ)

/-- A state or an array of states, as an argument or as a result. -/
inductive Arr where
  /-- numpy array with one axis -/
  | vec (n : ℕ)
  /-- numpy array with two axes -/
  | mat (n m : ℕ)
  /-- numpy array with no axis or more than two -/
  | other (ndim : ℕ)
  /-- scipy matrix -/
  | sparse (n m : ℕ)
deriving DecidableEq, Repr

def err : PyErr → CallErr
  | .valueError => .valueError
  | .typeError => .typeError
  | .memoryOverrun => .valueError

/-- `self._basis_pcon = self.__class__(**self._pcon_args)` and its `_basis.shape[0]` (base_general.py:463-467, 519-523, 621-625). -/
def pconSize (b : GBasis) : Except CallErr ℕ :=
  match b.pcon with
  | none => .error .attributeError
  | some (.error e) => .error (err e)
  | some (.ok n) => .ok n

/-- `get_proj(dtype, pcon)`: the shape of the result, base_general.py:455-480.  The condition of the `elif` (468) is that of the `if` (461). -/
def getProjShape (b : GBasis) (pcon : Bool) : Except CallErr (ℕ × ℕ) :=
  if ¬ b.made then .error .attributeError
  else if pcon ∧ b.single then
    match pconSize b with
    | .error e => .error e
    | .ok n => .ok (n, b.Ns)
  else if pcon ∧ b.single then .error .typeError
  else .ok (b.full, b.Ns)

/-- `Ns_full` of both functions, base_general.py:516-536, 618-638. -/
def nsFull (b : GBasis) (pcon : Bool) : Except CallErr ℕ :=
  if pcon then
    match pconSize b with
    | .error e => .error e
    | .ok n => if ¬ b.made then .error .attributeError else .ok n
  else if ¬ b.made then .error .attributeError
  else .ok b.full

/-- Number of rows, of columns, and whether there was one axis: base_general.py:538-545, 640-647. -/
def columns : Arr → Except CallErr (ℕ × ℕ × Bool)
  | .vec n => .ok (n, 1, true)
  | .mat n m => .ok (n, m, false)
  | .other _ => .error .valueError
  | .sparse n m => .ok (n, m, false)

/-- `A.dot(B)` of scipy matrices: the shape, or `ValueError: dimension mismatch`. -/
def dotShape (a b : ℕ × ℕ) : Except CallErr Arr := if a.2 = b.1 then .ok (.sparse a.1 b.2) else .error .valueError

def isSparse : Arr → Bool
  | .sparse _ _ => true
  | _ => false

/-- `numpy.squeeze` of an array with `n` rows and one column that came from one axis.  (For `n = 1` no axis is left.) -/
def squeezed (n : ℕ) : Arr := if n = 1 then .other 0 else .vec n

/-- `project_to(v0, sparse, pcon)`, base_general.py:516-572. -/
def projectTo (b : GBasis) (v : Arr) (sparse pcon : Bool) : Except CallErr Arr :=
  match nsFull b pcon with
  | .error e => .error e
  | .ok NsFull =>
    match columns v with
    | .error e => .error e
    | .ok (n, m, sq) =>
      if b.Ns = 0 then .ok (if sparse then .sparse b.Ns 0 else .mat b.Ns 0)
      else if n ≠ NsFull then .error .valueError
      else if isSparse v then .error .valueError
      else if sparse then
        match getProjShape b pcon with
        | .error e => .error e
        | .ok p => dotShape (p.2, p.1) (n, m)
      else .ok (if sq then squeezed b.Ns else .mat b.Ns m)

/-- `project_from(v0, sparse, pcon)`, base_general.py:618-673. -/
def projectFrom (b : GBasis) (v : Arr) (sparse pcon : Bool) : Except CallErr Arr :=
  match nsFull b pcon with
  | .error e => .error e
  | .ok NsFull =>
    match columns v with
    | .error e => .error e
    | .ok (n, m, sq) =>
      if b.Ns = 0 then .ok (if sparse then .sparse NsFull 0 else .mat NsFull 0)
      else if n ≠ b.Ns then .error .valueError
      else if isSparse v then .error .valueError
      else if sparse then
        match getProjShape b pcon with
        | .error e => .error e
        | .ok p => dotShape p (n, m)
      else .ok (if sq then squeezed NsFull else .mat NsFull m)

/-- `spin_basis_general(N, Nup=Nup)` or `boson_basis_general(N, Nb=Nup, sps=2)` without maps: `_get_proj_pcon` for an integer only (base_hcb.py:28-33), `_pcon_args`
repeat the arguments (spin.py:144, boson.py:144). -/
def hcb (sort : List (ℕ × ℤ) → List (ℕ × ℤ)) (N : ℕ) (Nup : NbArg) : Except PyErr GBasis :=
  match hcbBasis sort N Nup with
  | .error e => .error e
  | .ok l => .ok
    { made := true, full := 2 ^ N, Ns := l.length, single := match Nup with | .int _ => true | _ => false,
      pcon := some ((hcbBasis sort N Nup).map List.length) }

/-- `user_basis` with `pcon_dict` for one number (base_user.py:314-334): no `_pcon_args`. -/
def user (full Ns : ℕ) : GBasis := { made := true, full, Ns, single := true, pcon := none }

end Model.ProjectCalls
