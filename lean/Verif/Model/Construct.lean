import Mathlib.Data.Complex.Basic
import Mathlib.Algebra.BigOperators.Group.List.Basic
/-!
The constructor `hamiltonian(static_list, dynamic_list, N, basis, shape, dtype, ...)`: sorting of the
entries of the lists into operator strings and matrices, checks, and the sum.

The matrices of operator strings (`_make_matrix`, C01-C19, and the merging of equal terms, C27) are a
parameter; drives are keys of a dictionary with decidable equality (`function` objects, C24), almost zero
matrices are kept.  Containers of the stored matrices are the subject of C20 and C55.
-/
namespace Model.Construct

/-- Exceptions. -/
inductive Err where
  | typeError | valueError | exception
  deriving DecidableEq

/-- Container of a matrix in one of the lists. -/
inductive Box where
  | sparse | ndarray | nested
  deriving DecidableEq

/-- A matrix as given by the user: container, shape, whether its type is complex, and its entries.  Nested
lists have no attribute `shape`. -/
structure Mtx where
  box : Box
  rows : ℕ
  cols : ℕ
  cplx : Bool
  val : ℕ → ℕ → ℂ

/-- Entry of the static list: an operator string with its couplings (`ok` if the couplings are a list of
nonempty lists of numbers), a matrix. -/
inductive SEntry (S : Type) where
  | str (s : S) (ok : Bool)
  | mat (m : Mtx)

/-- Entry of the dynamic list: a string, or a matrix, with a drive, which may be no callable, or whose
arguments may be no list (`ok = false`); or a list of another length. -/
inductive DEntry (S K : Type) where
  | str (s : S) (f : K) (ok : Bool)
  | mat (m : Mtx) (f : K) (ok : Bool)
  | other

/-- The argument `basis`: absent, a basis with a number of states, or something else. -/
inductive BasisArg where
  | none
  | basis (Ns : ℕ)
  | junk

/-- The argument `N`: absent, an `int`, or a number of another type. -/
inductive NArg where
  | none
  | int (n : ℕ)
  | other

/-- The arguments of the constructor.  `cplx`: the type is complex; `supported`: it is one of the four
types. `defaultNs`: number of states of the default basis on `n` sites with the `basis_kwargs`.
`checks`: the checks that are switched on raise nothing for the strings. -/
structure Args (S K : Type) where
  static : List (SEntry S)
  dynamic : List (DEntry S K)
  N : NArg
  basis : BasisArg
  shape : Option (ℕ × ℕ)
  cplx : Bool
  supported : Bool
  kwargs : Bool
  defaultNs : ℕ → ℕ
  checks : List S → List S → Bool

/-- What the constructor builds: number of states, static matrix and dictionary of drives. -/
structure Built (K : Type) where
  Ns : ℕ
  static : ℕ → ℕ → ℂ
  dynamic : List (K × (ℕ → ℕ → ℂ))

variable {S K : Type}

/-- `_check_static`, `hamiltonian_core.py:121-134`: a list of length two must be an operator string, so
that a matrix given as two nested rows is refused. -/
def checkStatic : SEntry S → Except Err Bool
  | .str _ true => .ok true
  | .str _ false => .error .typeError
  | .mat m => if m.box = .nested ∧ m.rows = 2 then .error .typeError else .ok false

/-- Sorting of the static list, `hamiltonian_core.py:263-270`. -/
def sortStatic : List (SEntry S) → Except Err (List S × List Mtx)
  | [] => .ok ([], [])
  | e :: l =>
    match checkStatic e with
    | .error x => .error x
    | .ok _ =>
      match sortStatic l with
      | .error x => .error x
      | .ok (a, b) =>
        match e with
        | .str s _ => .ok (s :: a, b)
        | .mat m => .ok (a, m :: b)

/-- `_check_dynamic` and sorting of the dynamic list, `hamiltonian_core.py:137-160,274-281`; lists of other
lengths are sorted to the matrices and cannot be unpacked later (`ValueError`, 402-405). -/
def sortDynamic : List (DEntry S K) → Except Err (List (S × K) × List (Mtx × K))
  | [] => .ok ([], [])
  | .str s f ok :: l =>
    if !ok then .error .typeError
    else
      match sortDynamic l with
      | .error x => .error x
      | .ok (a, b) => .ok ((s, f) :: a, b)
  | .mat m f ok :: l =>
    if !ok then .error .typeError
    else
      match sortDynamic l with
      | .error x => .error x
      | .ok (a, b) => .ok (a, (m, f) :: b)
  | .other :: l =>
    match sortDynamic l with
    | .error x => .error x
    | .ok _ => .error .valueError

/-- `dict[func] += M` or `dict[func] = M`, `hamiltonian_core.py:419-425`. -/
def putDrive [DecidableEq K] (f : K) (M : ℕ → ℕ → ℂ) : List (K × (ℕ → ℕ → ℂ)) → List (K × (ℕ → ℕ → ℂ))
  | [] => [(f, M)]
  | e :: d => if e.1 = f then (e.1, fun i j => e.2 i j + M i j) :: d else e :: putDrive f M d

/-- The part made of operator strings, `hamiltonian_core.py:291-324`: number of states, matrix and
dictionary.  `none`: there are no strings. -/
def fromStrings [DecidableEq K] (a : Args S K) (op : S → ℕ → ℕ → ℂ) (st : List S) (dy : List (S × K)) :
    Except Err (Option (Built K)) :=
  if st = [] ∧ dy = [] then .ok none
  else
    let build (Ns : ℕ) : Except Err (Option (Built K)) :=
      if a.checks st (dy.map Prod.fst) then
        .ok (some ⟨Ns, fun i j => (st.map fun s => op s i j).sum,
          dy.foldl (fun d e => putDrive e.2 (op e.1) d) []⟩)
      else .error .typeError
    match a.basis with
    | .basis Ns => if a.kwargs then .error .valueError else build Ns
    | .junk => if a.kwargs then .error .valueError else .error .typeError
    | .none =>
      match a.N with
      | .none => .error .exception
      | .other => .error .typeError
      | .int n => build (a.defaultNs n)

/-- The first shape found among matrices that have one, `hamiltonian_core.py:329-352`. -/
def firstShape : List Mtx → Option (ℕ × ℕ)
  | [] => none
  | m :: l => if m.box = .nested then firstShape l else some (m.rows, m.cols)

/-- Conversion to the type of the operator and `_mat_checks`, `hamiltonian_core.py:364-377,409-415,2327-2337`:
a sparse matrix is checked before the conversion, so that complex entries are refused for real types; a
dense one after `numpy.asarray(O,dtype=dtype)`, which drops imaginary parts with a warning (numbers in nested lists are not converted: `TypeError`). -/
noncomputable def convert (cplx : Bool) (n : ℕ) (m : Mtx) : Except Err (ℕ → ℕ → ℂ) :=
  if m.box = .nested ∧ m.cplx && !cplx then .error .typeError
  else if m.rows ≠ n ∨ m.cols ≠ n then .error .valueError
  else if m.box = .sparse then
    if m.cplx && !cplx then .error .valueError else .ok m.val
  else if m.cplx && !cplx then .ok fun i j => ((m.val i j).re : ℂ)
  else .ok m.val

/-- The loop over the static matrices, `hamiltonian_core.py:363-388`. -/
noncomputable def addStatic (cplx : Bool) (n : ℕ) : List Mtx → (ℕ → ℕ → ℂ) → Except Err (ℕ → ℕ → ℂ)
  | [], M => .ok M
  | m :: l, M =>
    match convert cplx n m with
    | .error x => .error x
    | .ok A => addStatic cplx n l fun i j => M i j + A i j

/-- The loop over the dynamic matrices, `hamiltonian_core.py:401-425`. -/
noncomputable def addDynamic [DecidableEq K] (cplx : Bool) (n : ℕ) : List (Mtx × K) → List (K × (ℕ → ℕ → ℂ)) →
    Except Err (List (K × (ℕ → ℕ → ℂ)))
  | [], d => .ok d
  | e :: l, d =>
    match convert cplx n e.1 with
    | .error x => .error x
    | .ok A => addDynamic cplx n l (putDrive e.2 A d)

/-- The part made of matrices, `hamiltonian_core.py:326-425`, on top of `b`. -/
noncomputable def addMatrices [DecidableEq K] (cplx : Bool) (b : Built K) (st : List Mtx) (dy : List (Mtx × K)) :
    Except Err (Built K) :=
  match addStatic cplx b.Ns st b.static with
  | .error x => .error x
  | .ok M =>
    match addDynamic cplx b.Ns dy b.dynamic with
    | .error x => .error x
    | .ok d => .ok ⟨b.Ns, M, d⟩

/-- `hamiltonian.__init__`, `hamiltonian_core.py:251-462`. -/
noncomputable def construct [DecidableEq K] (a : Args S K) (op : S → ℕ → ℕ → ℂ) : Except Err (Built K) :=
  if !a.supported then .error .typeError
  else
    match sortStatic a.static with
    | .error x => .error x
    | .ok (st, sm) =>
      match sortDynamic a.dynamic with
      | .error x => .error x
      | .ok (dy, dm) =>
        match fromStrings a op st dy with
        | .error x => .error x
        | .ok (some b) => addMatrices a.cplx b sm dm
        | .ok none =>
          if sm = [] ∧ dm = [] then
            match a.shape with
            | some (r, c) =>
              match a.basis with
              | .none => if r ≠ c then .error .valueError else .ok ⟨r, fun _ _ => 0, []⟩
              | _ => .error .valueError
            | none =>
              match a.basis with
              | .basis Ns => .ok ⟨Ns, fun _ _ => 0, []⟩
              | .junk => .error .typeError
              | .none =>
                match a.N with
                | .none => .error .exception
                | .other => .error .typeError
                | .int n => .ok ⟨a.defaultNs n, fun _ _ => 0, []⟩
          else
            match (a.shape <|> firstShape sm) <|> firstShape (dm.map Prod.fst) with
            | none => .error .valueError
            | some (r, c) =>
              if r ≠ c then .error .valueError
              else addMatrices a.cplx ⟨r, fun _ _ => 0, []⟩ sm dm

/-- The matrix of the operator at a time, for values `v` of the drives: `_static + sum f(t) Hd`,
`hamiltonian_core.py:1518-1560`. -/
def Built.at (b : Built K) (v : K → ℂ) (i j : ℕ) : ℂ :=
  b.static i j + (b.dynamic.map fun e => v e.1 * e.2 i j).sum

end Model.Construct
