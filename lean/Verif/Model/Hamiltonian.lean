import Verif.Model.Functions
import Verif.Spec.TimeOperators
import Mathlib.LinearAlgebra.Matrix.ConjTranspose
import Mathlib.LinearAlgebra.Matrix.Hadamard

/-!
Model of the arithmetic of `/repo/quspin/operators/hamiltonian_core.py`: an object is a static matrix and a
dictionary from time functions to matrices.

* Matrix entries are elements of an arbitrary commutative ring with conjugation; dtypes are not modelled.
* A stored matrix carries its container (`Fmt`), because python's `*` depends on it.
* `none` models an exception.
* What is shared between objects is not part of this model (see `Model/Heap.lean`).
-/

namespace Model.Ham
open Model.Drive

/-- Containers: any scipy sparse matrix, `numpy.ndarray`, `numpy.matrix`. -/
inductive Fmt where
  | sparse
  | array
  | matrix
  deriving DecidableEq

/-- A stored matrix. -/
structure Mat (m n R : Type) where
  fmt : Fmt
  val : Matrix m n R

/-- The parts of the environment the arithmetic relies on: Python's hash and `_check_almost_zero`
(_make_hamiltonian.py:12-19). -/
structure Env (F A R : Type) where
  hash : PyHash F A
  tiny : {m n : Type} → Matrix m n R → Bool

/-- A hamiltonian: `_static` and `_dynamic` (hamiltonian_core.py:360-361).  A python dictionary is an association
list in insertion order. -/
structure Ham (F A m n R : Type) where
  static : Mat m n R
  dynamic : List (Fn F A × Mat m n R)

variable {F A R m n k : Type}

/-! ### numpy and scipy (not code of the repository) -/

section Containers

/-- Container of `a + b`: sparse plus dense is a `numpy.matrix`, `numpy.matrix` wins over `numpy.ndarray`. -/
def Fmt.add : Fmt → Fmt → Fmt
  | .sparse, .sparse => .sparse
  | .array, .array => .array
  | .sparse, _ => .matrix
  | _, _ => .matrix

/-- Container of a matrix product of `a` and `b`. -/
def Fmt.mul : Fmt → Fmt → Fmt
  | .sparse, .sparse => .sparse
  | .matrix, _ => .matrix
  | _, .matrix => .matrix
  | _, _ => .array

/-- `numpy.asarray` of a dense matrix; sparse matrices stay (hamiltonian_core.py:390-391, 409-414). -/
def Fmt.asArray : Fmt → Fmt
  | .sparse => .sparse
  | _ => .array

/-- `a + b`, also `a += b` with its fallback. -/
def Mat.add [Add R] (a b : Mat m n R) : Mat m n R := ⟨a.fmt.add b.fmt, a.val + b.val⟩

/-- `a - b`, also `a -= b` with its fallback. -/
def Mat.sub [Sub R] (a b : Mat m n R) : Mat m n R := ⟨a.fmt.add b.fmt, a.val - b.val⟩

/-- `-a`. -/
def Mat.neg [Neg R] (a : Mat m n R) : Mat m n R := ⟨a.fmt, -a.val⟩

/-- `a * c` for a number `c`, also `a *= c`. -/
def Mat.smul [Mul R] (c : R) (a : Mat m n R) : Mat m n R := ⟨a.fmt, c • a.val⟩

/-- `a.T`. -/
def Mat.trans (a : Mat m n R) : Mat n m R := ⟨a.fmt, a.val.transpose⟩

/-- `a.conj()`. -/
def Mat.conj [Star R] (a : Mat m n R) : Mat m n R := ⟨a.fmt, a.val.map star⟩

/-- The matrix product `a.dot(b)` / `numpy.matmul(a,b)` / `a * b` where these are the matrix product. -/
def Mat.prod [Fintype n] [NonUnitalNonAssocSemiring R] (a : Mat m n R) (b : Mat n k R) : Mat m k R :=
  ⟨a.fmt.mul b.fmt, a.val * b.val⟩

/-- python's `a * b` of two square matrices of the same size: the matrix product, except that the product of two
`numpy.ndarray`s is element by element. -/
def Mat.star [Fintype n] [NonUnitalNonAssocSemiring R] (a b : Mat n n R) : Mat n n R :=
  if a.fmt = .array ∧ b.fmt = .array then ⟨.array, a.val.hadamard b.val⟩ else a.prod b

/-- `a.dot(b)`: a dense matrix cannot be multiplied with a sparse one this way. -/
def Mat.dot [Fintype n] [NonUnitalNonAssocSemiring R] (a : Mat m n R) (b : Mat n k R) : Option (Mat m k R) :=
  if a.fmt ≠ .sparse ∧ b.fmt = .sparse then none else some (a.prod b)

/-- The zero matrix `_sp.dia_matrix(shape)`. -/
def Mat.zero [Zero R] : Mat m n R := ⟨.sparse, 0⟩

/-- Convert a dense matrix to an `numpy.ndarray` (hamiltonian_core.py:390-391, 412-414). -/
def Mat.asArray (a : Mat m n R) : Mat m n R := ⟨a.fmt.asArray, a.val⟩

end Containers

/-! ### Dictionaries of dynamic terms -/

/-- `func in d`; `none` if the function cannot be hashed. -/
def mem (H : PyHash F A) (f : Fn F A) (d : List (Fn F A × Mat m n R)) : Option Bool :=
  (hash H f).map fun _ => d.any fun e => decide (eq H e.1 f = some true)

/-- `d[func] = g(d[func])` for a function that is in `d`; the key that is there stays. -/
def update (H : PyHash F A) (f : Fn F A) (g : Mat m n R → Mat m n R) :
    List (Fn F A × Mat m n R) → List (Fn F A × Mat m n R)
  | [] => []
  | e :: d => if eq H e.1 f = some true then (e.1, g e.2) :: d else e :: update H f g d

/-- `d[func] = g(d[func])` followed by `d.pop(func)` if the new value is almost zero. -/
def updatePop (H : PyHash F A) (tiny : Matrix m n R → Bool) (f : Fn F A) (g : Mat m n R → Mat m n R) :
    List (Fn F A × Mat m n R) → List (Fn F A × Mat m n R)
  | [] => []
  | e :: d =>
    if eq H e.1 f = some true then (if tiny (g e.2).val then d else (e.1, g e.2) :: d)
    else e :: updatePop H tiny f g d

/-- The loop body of the constructor (hamiltonian_core.py:419-425). -/
def initTerm [Add R] (H : PyHash F A) (d : List (Fn F A × Mat m n R)) (e : Fn F A × Mat m n R) :
    Option (List (Fn F A × Mat m n R)) :=
  (mem H e.1 d).map fun b => if b then update H e.1 (fun M => M.add e.2.asArray) d else d ++ [(e.1, e.2.asArray)]

/-- `hamiltonian(static_list, dynamic_list)` for lists of matrices (hamiltonian_core.py:326-425): the static
matrices are added to a zero matrix, the dynamic ones are put in the dictionary. -/
def ofMatrices [AddCommMonoid R] (H : PyHash F A) (st : List (Mat m n R)) (dyn : List (Fn F A × Mat m n R)) :
    Option (Ham F A m n R) :=
  (dyn.foldlM (initTerm H) []).map fun d => ⟨(st.foldl Mat.add Mat.zero).asArray, d⟩

/-- `make_dynamic` (_make_hamiltonian.py:117-146) after consolidation: one matrix for every pair of callable and
arguments; almost zero matrices are skipped; `dynamic[func] = Hd` replaces what is stored for an equal function. -/
def makeDynamic (env : Env F A R) (terms : List ((F × List A) × Matrix m n R)) : List (Fn F A × Mat m n R) :=
  terms.foldl (fun d e =>
    if env.tiny e.2 then d
    else
      let f : Fn F A := .atom (.base e.1.1 e.1.2)
      if d.any fun x => decide (eq env.hash x.1 f = some true) then update env.hash f (fun _ => ⟨.sparse, e.2⟩) d
      else d ++ [(f, ⟨.sparse, e.2⟩)]) []

/-! ### Unary operations -/

section Unary

/-- `astype(dtype, copy)` (hamiltonian_core.py:1965-1992) and `copy()` (1994-1998); the dtype is not modelled. -/
def astype [AddCommMonoid R] (env : Env F A R) (h : Ham F A m n R) : Option (Ham F A m n R) :=
  ofMatrices env.hash [h.static] h.dynamic

/-- `transpose` (hamiltonian_core.py:1834-1854). -/
def transpose [AddCommMonoid R] (env : Env F A R) (h : Ham F A m n R) : Option (Ham F A n m R) :=
  ofMatrices env.hash [h.static.trans] (h.dynamic.map fun e => (e.1, e.2.trans))

/-- `conjugate` (hamiltonian_core.py:1856-1874). -/
def conjugate [AddCommMonoid R] [Star R] (env : Env F A R) (h : Ham F A m n R) : Option (Ham F A m n R) :=
  (h.dynamic.mapM fun e => (Drive.conjugate e.1).map fun f => (f, e.2.conj)).bind fun d =>
    ofMatrices env.hash [h.static.conj] d

/-- `getH` (hamiltonian_core.py:1880-1901). -/
def getH [AddCommMonoid R] [Star R] (env : Env F A R) (h : Ham F A m n R) : Option (Ham F A n m R) :=
  (conjugate env h).bind (transpose env)

/-- `__neg__` (hamiltonian_core.py:2052-2054). -/
def neg [AddCommGroup R] (env : Env F A R) (h : Ham F A m n R) : Option (Ham F A m n R) :=
  ofMatrices env.hash [h.static.neg] (h.dynamic.map fun e => (e.1, e.2.neg))

end Unary

/-- The static part after an operation: replaced by a zero matrix if it is almost zero. -/
def clean [Zero R] (tiny : Matrix m n R → Bool) (a : Mat m n R) : Mat m n R := if tiny a.val then Mat.zero else a

/-! ### Sums -/

/-- Loop body of `_add_hamiltonian` (hamiltonian_core.py:2356-2366) and `_iadd_hamiltonian` (2386-2400). -/
def addTerm [Add R] (env : Env F A R) (d : List (Fn F A × Mat m n R)) (e : Fn F A × Mat m n R) :
    Option (List (Fn F A × Mat m n R)) :=
  (mem env.hash e.1 d).map fun b =>
    if b then updatePop env.hash env.tiny e.1 (fun M => M.add e.2) d else d ++ [e]

/-- Loop body of `_sub_hamiltonian` (hamiltonian_core.py:2422-2433). -/
def subTerm [Sub R] [Neg R] (env : Env F A R) (d : List (Fn F A × Mat m n R)) (e : Fn F A × Mat m n R) :
    Option (List (Fn F A × Mat m n R)) :=
  (mem env.hash e.1 d).map fun b =>
    if b then updatePop env.hash env.tiny e.1 (fun M => M.sub e.2) d else d ++ [(e.1, e.2.neg)]

/-- Loop body of `_isub_hamiltonian` (hamiltonian_core.py:2451-2463): for a function that is already there the
code reads the undefined name `new`: `NameError`. -/
def isubTerm [Neg R] (env : Env F A R) (d : List (Fn F A × Mat m n R)) (e : Fn F A × Mat m n R) :
    Option (List (Fn F A × Mat m n R)) :=
  (mem env.hash e.1 d).bind fun b => if b then none else some (d ++ [(e.1, e.2.neg)])

section Sums

variable [AddCommGroup R]

/-- `_iadd_hamiltonian` (hamiltonian_core.py:2373-2405). -/
def iaddHam (env : Env F A R) (h g : Ham F A m n R) : Option (Ham F A m n R) :=
  (g.dynamic.foldlM (addTerm env) h.dynamic).map fun d => ⟨clean env.tiny (h.static.add g.static), d⟩

/-- `_add_hamiltonian` (hamiltonian_core.py:2343-2371). -/
def addHam (env : Env F A R) (h g : Ham F A m n R) : Option (Ham F A m n R) :=
  (astype env h).bind fun new =>
    (g.dynamic.foldlM (addTerm env) new.dynamic).map fun d => ⟨clean env.tiny (new.static.add g.static), d⟩

/-- `_sub_hamiltonian` (hamiltonian_core.py:2407-2438). -/
def subHam (env : Env F A R) (h g : Ham F A m n R) : Option (Ham F A m n R) :=
  (astype env h).bind fun new =>
    (g.dynamic.foldlM (subTerm env) new.dynamic).map fun d => ⟨clean env.tiny (new.static.sub g.static), d⟩

/-- `_isub_hamiltonian` (hamiltonian_core.py:2440-2468). -/
def isubHam (env : Env F A R) (h g : Ham F A m n R) : Option (Ham F A m n R) :=
  (g.dynamic.foldlM (isubTerm env) h.dynamic).map fun d => ⟨clean env.tiny (h.static.sub g.static), d⟩

/-- `_add_sparse` (hamiltonian_core.py:2583-2600), `_add_dense` (2783-2806). -/
def addMat (env : Env F A R) (h : Ham F A m n R) (a : Mat m n R) : Option (Ham F A m n R) :=
  (astype env h).map fun new => ⟨clean env.tiny (new.static.add a), new.dynamic⟩

/-- `_sub_sparse` (hamiltonian_core.py:2617-2632), `_sub_dense` (2828-2853). -/
def subMat (env : Env F A R) (h : Ham F A m n R) (a : Mat m n R) : Option (Ham F A m n R) :=
  (astype env h).map fun new => ⟨clean env.tiny (new.static.sub a), new.dynamic⟩

/-- `_iadd_sparse` (hamiltonian_core.py:2602-2615), `_iadd_dense` (2808-2826) where the addition itself does not
raise. -/
def iaddMat (env : Env F A R) (h : Ham F A m n R) (a : Mat m n R) : Option (Ham F A m n R) :=
  some ⟨clean env.tiny (h.static.add a), h.dynamic⟩

/-- `_isub_sparse` (hamiltonian_core.py:2634-2647) and `_isub_dense` (2855-2873), which reads the undefined name
`new`: `NameError`. -/
def isubMat (env : Env F A R) (h : Ham F A m n R) (a : Mat m n R) : Option (Ham F A m n R) :=
  if a.fmt = .sparse then some ⟨clean env.tiny (h.static.sub a), h.dynamic⟩ else none

/-- `__rsub__` (hamiltonian_core.py:2292-2294). -/
def rsubMat (env : Env F A R) (a : Mat m n R) (h : Ham F A m n R) : Option (Ham F A m n R) :=
  (subMat env h a).bind (neg env)

end Sums

/-! ### Products -/

/-- `for func in list(d): d[func] = g(d[func]); if almost zero: d.pop(func)`, as in hamiltonian_core.py:2659-2663.
(The keys of a dictionary are different, so this is the same as mapping and filtering.) -/
def mapTerms (tiny : Matrix m n R → Bool) (g : Mat m k R → Mat m n R) (d : List (Fn F A × Mat m k R)) :
    List (Fn F A × Mat m n R) :=
  (d.map fun e => (e.1, g e.2)).filter fun e => !tiny e.2.val

/-- The same where the new matrix may fail to be computed. -/
def mapTermsM (tiny : Matrix k n R → Bool) (g : Mat m n R → Option (Mat k n R)) (d : List (Fn F A × Mat m n R)) :
    Option (List (Fn F A × Mat k n R)) :=
  (d.mapM fun e => (g e.2).map fun M => (e.1, M)).map fun l => l.filter fun e => !tiny e.2.val

section Products

variable [CommRing R]

/-- `_mul_scalar` (hamiltonian_core.py:2728-2751). -/
def mulScalar (env : Env F A R) (c : R) (h : Ham F A m n R) : Option (Ham F A m n R) :=
  (astype env h).map fun new =>
    ⟨clean env.tiny (new.static.smul c), mapTerms env.tiny (Mat.smul c) new.dynamic⟩

/-- `_imul_scalar` (hamiltonian_core.py:2753-2776). -/
def imulScalar (env : Env F A R) (c : R) (h : Ham F A m n R) : Option (Ham F A m n R) :=
  some ⟨clean env.tiny (h.static.smul c), mapTerms env.tiny (Mat.smul c) h.dynamic⟩

variable [Fintype n] [Fintype m]

/-- `_mul_sparse` (hamiltonian_core.py:2648-2667). -/
def mulSparse (env : Env F A R) (h : Ham F A n n R) (a : Mat n n R) : Option (Ham F A n n R) :=
  (astype env h).map fun new =>
    ⟨clean env.tiny (new.static.star a), mapTerms env.tiny (fun M => M.star a) new.dynamic⟩

/-- `_rmul_sparse` (hamiltonian_core.py:2669-2698). -/
def rmulSparse (env : Env F A R) (a : Mat n n R) (h : Ham F A n n R) : Option (Ham F A n n R) :=
  (astype env h).bind fun new =>
    (mapTermsM env.tiny (fun M => a.dot M) new.dynamic).map fun d => ⟨clean env.tiny (a.star new.static), d⟩

/-- `_imul_sparse` (hamiltonian_core.py:2700-2722): the static part is multiplied from the right, the dynamic parts
from the left. -/
def imulSparse (env : Env F A R) (h : Ham F A n n R) (a : Mat n n R) : Option (Ham F A n n R) :=
  (mapTermsM env.tiny (fun M => a.dot M) h.dynamic).map fun d => ⟨clean env.tiny (h.static.star a), d⟩

/-- `_mul_dense` (hamiltonian_core.py:2875-2902); the results are converted to `numpy.ndarray`.  The matrix may be
rectangular here, as in `project_to`. -/
def mulDense (env : Env F A R) (h : Ham F A m n R) (a : Mat n k R) : Option (Ham F A m k R) :=
  (astype env h).map fun new =>
    ⟨clean env.tiny (new.static.prod a).asArray, mapTerms env.tiny (fun M => (M.prod a).asArray) new.dynamic⟩

/-- `_rmul_dense` (hamiltonian_core.py:2904-2941). -/
def rmulDense (env : Env F A R) (a : Mat k m R) (h : Ham F A m n R) : Option (Ham F A k n R) :=
  (astype env h).map fun new =>
    ⟨clean env.tiny (a.prod new.static).asArray,
      (new.dynamic.map fun e => (e.1, (a.prod e.2).asArray)).filter fun e => !env.tiny e.2.val⟩

/-- `_imul_dense` (hamiltonian_core.py:2943-2966). -/
def imulDense (env : Env F A R) (h : Ham F A m n R) (a : Mat n k R) : Option (Ham F A m k R) :=
  some ⟨clean env.tiny (h.static.prod a).asArray, mapTerms env.tiny (fun M => (M.prod a).asArray) h.dynamic⟩

/-- Loop body for one product in `_imul_hamiltonian` (hamiltonian_core.py:2534-2545, 2559-2569): as `addTerm`, but
almost zero products are not stored. -/
def mergeTerm (env : Env F A R) (d : List (Fn F A × Mat m n R)) (e : Fn F A × Mat m n R) :
    Option (List (Fn F A × Mat m n R)) :=
  (mem env.hash e.1 d).map fun b =>
    if b then updatePop env.hash env.tiny e.1 (fun M => M.add e.2) d
    else if env.tiny e.2.val then d else d ++ [e]

/-- Loop body of `self.static * other.dynamic` (hamiltonian_core.py:2505-2515): the functions of `other` are
different, so nothing is there yet. -/
def staticTerm (env : Env F A R) (d : List (Fn F A × Mat m n R)) (e : Fn F A × Mat m n R) :
    List (Fn F A × Mat m n R) := if env.tiny e.2.val then d else d ++ [e]

/-- `_imul_hamiltonian` with two dynamic operands (hamiltonian_core.py:2493-2570). -/
def imulDynamic (env : Env F A R) (h g : Ham F A n n R) : Option (Ham F A n n R) :=
  let d0 := (g.dynamic.map fun e => (e.1, h.static.prod e.2)).foldl (staticTerm env) []
  ((h.dynamic.map fun e => (e.1, e.2.prod g.static)).foldlM (mergeTerm env) d0).bind fun d1 =>
    (((h.dynamic.flatMap fun e => g.dynamic.map fun e' => (e, e')).mapM fun p =>
        (Drive.mul env.hash p.1.1 p.2.1).map fun f => (f, p.1.2.prod p.2.2)).bind fun l =>
      l.foldlM (mergeTerm env) d1).map fun d2 => ⟨h.static.prod g.static, d2⟩

/-- `_imul_hamiltonian` (hamiltonian_core.py:2492-2577). -/
def imulHam (env : Env F A R) (h g : Ham F A n n R) : Option (Ham F A n n R) :=
  if h.dynamic ≠ [] ∧ g.dynamic ≠ [] then imulDynamic env h g
  else if h.dynamic ≠ [] then imulSparse env h g.static
  else if g.dynamic ≠ [] then
    (transpose env g).bind fun gT => (imulSparse env gT h.static.trans).bind (transpose env)
  else imulSparse env h g.static

/-- `_mul_hamiltonian` (hamiltonian_core.py:2470-2479). -/
def mulHam (env : Env F A R) (h g : Ham F A n n R) : Option (Ham F A n n R) :=
  if h.dynamic ≠ [] ∧ g.dynamic ≠ [] then (astype env h).bind fun new => imulHam env new g
  else if h.dynamic ≠ [] then mulSparse env h g.static
  else if g.dynamic ≠ [] then rmulSparse env h.static g
  else mulSparse env h g.static

/-- `_rmul_hamiltonian` (hamiltonian_core.py:2481-2490), meant to be `other * self`. -/
def rmulHam (env : Env F A R) (h g : Ham F A n n R) : Option (Ham F A n n R) :=
  if h.dynamic ≠ [] ∧ g.dynamic ≠ [] then
    (astype env g).bind fun new => (transpose env new).bind fun newT => (transpose env h).bind fun hT =>
      (imulHam env newT hT).bind (transpose env)
  else if h.dynamic ≠ [] then rmulSparse env g.static h
  else if g.dynamic ≠ [] then mulSparse env g h.static
  else rmulSparse env g.static h

/-- `reduce(mul, ...)` over `p` copies (hamiltonian_core.py:2087-2091); no copies: `TypeError`. -/
def pow (env : Env F A R) (h : Ham F A n n R) : Nat → Option (Ham F A n n R)
  | 0 => none
  | 1 => some h
  | p + 2 => (pow env h (p + 1)).bind fun x => mulHam env x h

/-- `__mul__` with a sparse matrix or an array (hamiltonian_core.py:2093-2115). -/
def mulMat (env : Env F A R) (h : Ham F A n n R) (a : Mat n n R) : Option (Ham F A n n R) :=
  if a.fmt = .sparse then mulSparse env h a else mulDense env h a

/-- `__rmul__` with a sparse matrix or an array (hamiltonian_core.py:2117-2141). -/
def rmulMat (env : Env F A R) (a : Mat n n R) (h : Ham F A n n R) : Option (Ham F A n n R) :=
  if a.fmt = .sparse then rmulSparse env a h else rmulDense env a h

/-- `__imul__` with a sparse matrix or an array (hamiltonian_core.py:2143-2167). -/
def imulMat (env : Env F A R) (h : Ham F A n n R) (a : Mat n n R) : Option (Ham F A n n R) :=
  if a.fmt = .sparse then imulSparse env h a else imulDense env h a

variable [StarRing R]

/-- `project_to` with a hamiltonian (hamiltonian_core.py:1040-1042). -/
def projectHam (env : Env F A R) (h p : Ham F A n n R) : Option (Ham F A n n R) :=
  (getH env p).bind fun pH => (rmulHam env h pH).bind fun new => imulHam env new p

/-- `project_to` with a square sparse matrix (hamiltonian_core.py:1047-1053). -/
def projectSparse (env : Env F A R) (h : Ham F A n n R) (p : Mat n n R) : Option (Ham F A n n R) :=
  (rmulSparse env p.conj.trans h).bind fun new => imulSparse env new p

/-- `project_to` with an array, possibly rectangular (hamiltonian_core.py:1058-1064, 1076-1083). -/
def projectDense (env : Env F A R) (h : Ham F A n n R) (p : Mat n m R) : Option (Ham F A m m R) :=
  (rmulDense env p.conj.trans h).bind fun new => imulDense env new p

/-- The object python computes for an expression (`__add__`, `__sub__`, `__neg__`, `__mul__`, `__pow__`, `.T`,
`conj()`, `.H`, and `_mul_scalar` for `c * x`).  Not code of the repository: the evaluation of an expression. -/
def build {ι : Type} (env : Env F A R) (h : ι → Ham F A n n R) : Spec.TimeOp.Expr ι R → Option (Ham F A n n R)
  | .leaf i => some (h i)
  | .add x y => (build env h x).bind fun a => (build env h y).bind fun b => addHam env a b
  | .sub x y => (build env h x).bind fun a => (build env h y).bind fun b => subHam env a b
  | .neg x => (build env h x).bind (neg env)
  | .scale c x => (build env h x).bind (mulScalar env c)
  | .mul x y => (build env h x).bind fun a => (build env h y).bind fun b => mulHam env a b
  | .pow x p => (build env h x).bind fun a => pow env a p
  | .transpose x => (build env h x).bind (transpose env)
  | .conj x => (build env h x).bind (conjugate env)
  | .adjoint x => (build env h x).bind (getH env)

end Products

/-- All matrices of the object are stored in sparse containers (used to state theorems). -/
def Ham.Sparse (h : Ham F A m n R) : Prop := h.static.fmt = .sparse ∧ ∀ e ∈ h.dynamic, e.2.fmt = .sparse

/-- The entries of a python dictionary: the keys can be hashed and are different from each other (used to state
theorems). -/
def Ham.Dict (H : PyHash F A) (h : Ham F A m n R) : Prop :=
  (∀ e ∈ h.dynamic, ∃ k, hash H e.1 = some k) ∧ h.dynamic.Pairwise fun x y => eq H x.1 y.1 ≠ some true

/-! ### Evaluation -/

section Eval

variable {T : Type} [CommRing R] [StarRing R]

/-- The matrix at time `t`: `tocsr`, `tocsc`, `todense`, `toarray` (hamiltonian_core.py:1544-1554, 1580-1589,
1636-1644, 1682-1690): the static matrix, and `Hd * func(time)` added for every dynamic term. -/
def toMatrix (app : F → List A → T → R) (h : Ham F A m n R) (t : T) : Matrix m n R :=
  h.dynamic.foldl (fun M e => M + call app e.1 t • e.2.val) h.static.val

end Eval

end Model.Ham
