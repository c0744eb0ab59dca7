import Mathlib.Data.List.Infix
import Mathlib.Data.List.Lemmas

/-!
Model of `save_zip` and `load_zip` of `/repo/quspin/operators/quantum_operator_core.py`: how the names of the matrices of a
`quantum_operator` become names of files in an archive, and how they are read back.

Strings are lists of characters.  Simplifications: which names the file system and the archive accept is a parameter (`writable`;
a name with `/` cannot be written, since the temporary directory has no subdirectory); the contents of a matrix file are an
element of `M` with a flag that says whether `scipy.sparse.save_npz` or `numpy.savez_compressed` wrote it; `pickle` is not
modelled (a basis `B` loads as it was saved); dtypes are not modelled.
-/

namespace Model.Archive

/-- Inner loop of `str.replace(pat, "")`: `skip` characters of a match remain to be dropped. -/
def removeGo (pat : List Char) : Nat → List Char → List Char
  | _, [] => []
  | k + 1, _ :: s => removeGo pat k s
  | 0, c :: s => if pat <+: c :: s then removeGo pat (pat.length - 1) s else c :: removeGo pat 0 s

/-- Python's `s.replace(pat, "")` (not code of the repository). -/
def remove (pat s : List Char) : List Char := removeGo pat 0 s

/-- Python's `pat in s` (not code of the repository). -/
def contains (pat s : List Char) : Bool := decide (pat <:+: s)

/-- A stored matrix: `sparse` if scipy's function wrote it. -/
structure Stored (M : Type) where
  sparse : Bool
  matrix : M
  deriving DecidableEq

/-- A file of the archive. -/
inductive File (M B : Type) where
  | basis (b : B)
  | matrix (x : Stored M)

/-- Files with names, in the order of `arch.namelist()`. -/
abbrev Zip (M B : Type) := List (List Char × File M B)

/-- The name of a matrix file (quantum_operator_core.py:1508-1513). -/
def fileName {M : Type} (key : List Char) (x : Stored M) : List Char :=
  if x.sparse then "sparse_".toList ++ key ++ ".npz".toList else "dense_".toList ++ key ++ ".npz".toList

variable {M B : Type}

/-- The loop over the matrices (quantum_operator_core.py:1507-1519); `none` if an exception is raised. -/
def saveLoop (writable : List Char → Bool) : Zip M B → List (List Char × Stored M) → Option (Zip M B)
  | z, [] => some z
  | z, e :: l =>
    if !writable (fileName e.1 e.2) then none
    else if (z.map Prod.fst).contains (fileName e.1 e.2) then none
    else saveLoop writable (z ++ [(fileName e.1 e.2, .matrix e.2)]) l

/-- `save_zip` (quantum_operator_core.py:1470-1519). -/
def save (writable : List Char → Bool) (saveBasis : Bool) (op : List (List Char × Stored M)) (basis : Option B) : Option (Zip M B) :=
  saveLoop writable (match saveBasis, basis with
    | true, some b => [("basis.pickle".toList, .basis b)]
    | _, _ => []) op

/-- `d[key] = x`. -/
def insert (d : List (List Char × Stored M)) (key : List Char) (x : Stored M) : List (List Char × Stored M) :=
  if key ∈ d.map Prod.fst then d.map fun e => if e.1 = key then (key, x) else e else d ++ [(key, x)]

/-- Loop body of `load_zip` (quantum_operator_core.py:1542-1564).  `scipy.sparse.load_npz` raises for a file that
`numpy.savez_compressed` wrote, and such a file has no entry `matrix` if scipy wrote it. -/
def loadStep (s : Option (List (List Char × Stored M) × Option B)) (f : List Char × File M B) :
    Option (List (List Char × Stored M) × Option B) :=
  s.bind fun (d, b) =>
    if f.1 = "basis.pickle".toList then
      match f.2 with
      | .basis b' => some (d, some b')
      | .matrix _ => none
    else if contains "sparse".toList f.1 then
      match f.2 with
      | .matrix x => if x.sparse then some (insert d (remove ".npz".toList (remove "sparse_".toList f.1)) x, b) else none
      | .basis _ => none
    else
      match f.2 with
      | .matrix x => if x.sparse then none else some (insert d (remove ".npz".toList (remove "dense_".toList f.1)) x, b)
      | .basis _ => none

/-- `load_zip` (quantum_operator_core.py:1524-1566).  Without a matrix the dtype is `None` and the constructor raises; the constructor
removes matrices that are almost zero (285-288). -/
def load (tiny : M → Bool) (z : Zip M B) : Option (List (List Char × Stored M) × Option B) :=
  (z.foldl loadStep (some ([], none))).bind fun (d, b) =>
    if d.isEmpty then none else some (d.filter fun e => !tiny e.2.matrix, b)

end Model.Archive
