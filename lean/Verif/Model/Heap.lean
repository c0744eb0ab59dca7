import Verif.Model.Hamiltonian

/-!
Model of what hamiltonians share (`/repo/quspin/operators/hamiltonian_core.py`): a heap of matrices, objects that refer to
them, and variables that refer to objects.

* A cell of the heap is the data of one matrix.  A reference is a cell, possibly read as its transpose: `M.T` of a CSR or CSC
  matrix and of a `numpy.ndarray` shares the data with `M`.
* numpy and scipy: `a += b` and `a -= b` of two dense arrays change `a`; if one of them is sparse a new matrix is made and the
  name is bound to it.  `a *= c` with a number `c` changes the data of `a`, sparse or dense.  `a + b`, `a * b`, `a.dot(b)`,
  `-a`, `a.conj()` followed by a copy, and `a.astype(t, copy=True)` make new matrices.
* The keys of a dictionary of drives are compared with equality here (`K`; hashes in the code, see C28).
* dtypes, shape checks and the formats chosen by `update_matrix_formats` are not modelled.  The matrices a user passes to the
  constructor are copied (the default `copy=True`).
-/

namespace Model.Heap
open Model.Ham

variable {K n R : Type}

/-- Data of all matrices. -/
abbrev Heap (n R : Type) := List (Mat n n R)

/-- A matrix object: a cell, read as it is or transposed. -/
structure Ref where
  loc : Nat
  trans : Bool
  deriving DecidableEq

/-- A hamiltonian object: `_static`, `_dynamic`. -/
structure Obj (K : Type) where
  static : Ref
  dynamic : List (K × Ref)

/-- `_check_almost_zero`, the product and the conjugate of drives. -/
structure HEnv (K n R : Type) where
  tiny : Matrix n n R → Bool
  kmul : K → K → K
  kconj : K → K

/-! ### numpy and scipy (not code of the repository) -/

/-- The matrix a reference stands for. -/
def get [Zero R] (h : Heap n R) (r : Ref) : Mat n n R :=
  if r.trans then (h.getD r.loc Mat.zero).trans else h.getD r.loc Mat.zero

/-- Change the data a reference stands for. -/
def put (h : Heap n R) (r : Ref) (c : Mat n n R) : Heap n R := h.set r.loc (if r.trans then c.trans else c)

/-- A new matrix. -/
def alloc (h : Heap n R) (c : Mat n n R) : Heap n R × Ref := (h ++ [c], ⟨h.length, false⟩)

/-- `x += c` and `x -= c` (`op`): the reference `x` is bound to afterwards. -/
def iop [Zero R] (op : Mat n n R → Mat n n R → Mat n n R) (h : Heap n R) (r : Ref) (c : Mat n n R) : Heap n R × Ref :=
  if (get h r).fmt ≠ .sparse ∧ c.fmt ≠ .sparse then (put h r ⟨(get h r).fmt, (op (get h r) c).val⟩, r)
  else alloc h (op (get h r) c)

/-- `x *= c` for a number. -/
def iscale [MulZeroClass R] (c : R) (h : Heap n R) (r : Ref) : Heap n R := put h r (Mat.smul c (get h r))

/-! ### Dictionaries of drives -/

section Dict

variable [DecidableEq K]

/-- `d[k]` if `k in d`. -/
def find (d : List (K × Ref)) (k : K) : Option Ref := (d.find? fun e => decide (e.1 = k)).map Prod.snd

/-- `d[k] = r` for a key that is in `d`. -/
def setKey (d : List (K × Ref)) (k : K) (r : Ref) : List (K × Ref) := d.map fun e => if e.1 = k then (e.1, r) else e

/-- `d.pop(k)`. -/
def pop (d : List (K × Ref)) (k : K) : List (K × Ref) := d.filter fun e => decide (e.1 ≠ k)

end Dict

/-- New matrices for all entries of a dictionary. -/
def mapDyn (f : Mat n n R → Mat n n R) [Zero R] (h : Heap n R) : List (K × Ref) → Heap n R × List (K × Ref)
  | [] => (h, [])
  | e :: d => ((mapDyn f (alloc h (f (get h e.2))).1 d).1,
      (e.1, (alloc h (f (get h e.2))).2) :: (mapDyn f (alloc h (f (get h e.2))).1 d).2)

/-! ### Constructor -/

section Make

variable [DecidableEq K] [AddCommMonoid R]

/-- Loop body of the constructor (hamiltonian_core.py:401-425). -/
def initStep (copy : Bool) (s : Heap n R × List (K × Ref)) (e : K × Ref) : Heap n R × List (K × Ref) :=
  let p := if copy then alloc s.1 (get s.1 e.2) else (s.1, e.2)
  match find s.2 e.1 with
  | some r => ((iop Mat.add p.1 r (get p.1 p.2)).1, setKey s.2 e.1 (iop Mat.add p.1 r (get p.1 p.2)).2)
  | none => (p.1, s.2 ++ [(e.1, p.2)])

/-- `hamiltonian([static], dynamic, copy=copy)` for matrices (hamiltonian_core.py:326-425): the static matrix is added to a new
zero matrix. -/
def construct (copy : Bool) (h : Heap n R) (static : Mat n n R) (d : List (K × Ref)) : Heap n R × Obj K :=
  let p := alloc h static.asArray
  let q := d.foldl (initStep copy) (p.1, [])
  (q.1, ⟨p.2, q.2⟩)

/-- `astype(dtype, copy)` for the dtype of the object (hamiltonian_core.py:1965-1992). -/
def astype (copy : Bool) (h : Heap n R) (o : Obj K) : Heap n R × Obj K :=
  let p := if copy then mapDyn id h o.dynamic else (h, o.dynamic)
  construct false p.1 (get p.1 o.static) p.2

/-- `copy()` (hamiltonian_core.py:1995-1999). -/
def copyObj (h : Heap n R) (o : Obj K) : Heap n R × Obj K := construct true h (get h o.static) o.dynamic

/-- `transpose(copy)` (hamiltonian_core.py:1852-1854). -/
def transpose (copy : Bool) (h : Heap n R) (o : Obj K) : Heap n R × Obj K :=
  construct copy h (get h o.static).trans (o.dynamic.map fun e => (e.1, ⟨e.2.loc, !e.2.trans⟩))

end Make

/-- `conjugate()` (hamiltonian_core.py:1874-1876). -/
def conjugate [DecidableEq K] [AddCommMonoid R] [Star R] (env : HEnv K n R) (h : Heap n R) (o : Obj K) : Heap n R × Obj K :=
  let p := mapDyn Mat.conj h o.dynamic
  construct true p.1 (get p.1 o.static).conj (p.2.map fun e => (env.kconj e.1, e.2))

/-- `getH(copy)` (hamiltonian_core.py:1901). -/
def getH [DecidableEq K] [AddCommMonoid R] [Star R] (env : HEnv K n R) (copy : Bool) (h : Heap n R) (o : Obj K) :
    Heap n R × Obj K :=
  transpose copy (conjugate env h o).1 (conjugate env h o).2

/-! ### Arithmetic -/

section Arith

variable [DecidableEq K] [CommRing R] [Fintype n] (env : HEnv K n R)

/-- `__neg__` (hamiltonian_core.py:2052-2054). -/
def neg (h : Heap n R) (o : Obj K) : Heap n R × Obj K :=
  let p := mapDyn Mat.neg h o.dynamic
  construct true p.1 (get p.1 o.static).neg p.2

/-- `if _check_almost_zero(x): x = dia_matrix(...)`. -/
def clean (p : Heap n R × Ref) : Heap n R × Ref := if env.tiny (get p.1 p.2).val then alloc p.1 Mat.zero else p

/-- `d[k] += M` and removal if the result is almost zero. -/
def accumulate (op : Mat n n R → Mat n n R → Mat n n R) (h : Heap n R) (d : List (K × Ref)) (k : K) (r : Ref) (c : Mat n n R) :
    Heap n R × List (K × Ref) :=
  let p := iop op h r c
  (p.1, if env.tiny (get p.1 p.2).val then pop d k else setKey d k p.2)

/-- Loop body of `_add_hamiltonian` (hamiltonian_core.py:2357-2367) and `_iadd_hamiltonian` (2384-2400): a drive that is not
there yet gets the matrix of the other object itself. -/
def addStep (s : Heap n R × List (K × Ref)) (e : K × Ref) : Heap n R × List (K × Ref) :=
  match find s.2 e.1 with
  | some r => accumulate env Mat.add s.1 s.2 e.1 r (get s.1 e.2)
  | none => (s.1, s.2 ++ [e])

/-- Loop body of `_sub_hamiltonian` (hamiltonian_core.py:2422-2433). -/
def subStep (s : Heap n R × List (K × Ref)) (e : K × Ref) : Heap n R × List (K × Ref) :=
  match find s.2 e.1 with
  | some r => accumulate env Mat.sub s.1 s.2 e.1 r (get s.1 e.2)
  | none => ((alloc s.1 (get s.1 e.2).neg).1, s.2 ++ [(e.1, (alloc s.1 (get s.1 e.2).neg).2)])

/-- Loop of `_isub_hamiltonian` (hamiltonian_core.py:2451-2463): after the subtraction for a drive that both have, line 2458
raises a `NameError`; the object stays as it is then. -/
def isubLoop (h : Heap n R) (d : List (K × Ref)) : List (K × Ref) → Heap n R × List (K × Ref)
  | [] => (h, d)
  | e :: l =>
    match find d e.1 with
    | some r => ((iop Mat.sub h r (get h e.2)).1, setKey d e.1 (iop Mat.sub h r (get h e.2)).2)
    | none => isubLoop (alloc h (get h e.2).neg).1 (d ++ [(e.1, (alloc h (get h e.2).neg).2)]) l

/-- `_iadd_hamiltonian` (hamiltonian_core.py:2373-2405). -/
def iaddHam (h : Heap n R) (a b : Obj K) : Heap n R × Obj K :=
  let p := clean env (iop Mat.add h a.static (get h b.static))
  let q := b.dynamic.foldl (addStep env) (p.1, a.dynamic)
  (q.1, ⟨p.2, q.2⟩)

/-- `_add_hamiltonian` (hamiltonian_core.py:2343-2371). -/
def addHam (h : Heap n R) (a b : Obj K) : Heap n R × Obj K := iaddHam env (astype true h a).1 (astype true h a).2 b

/-- `_sub_hamiltonian` (hamiltonian_core.py:2407-2438). -/
def subHam (h : Heap n R) (a b : Obj K) : Heap n R × Obj K :=
  let m := astype true h a
  let p := clean env (iop Mat.sub m.1 m.2.static (get m.1 b.static))
  let q := b.dynamic.foldl (subStep env) (p.1, m.2.dynamic)
  (q.1, ⟨p.2, q.2⟩)

/-- `_isub_hamiltonian` (hamiltonian_core.py:2440-2468). -/
def isubHam (h : Heap n R) (a b : Obj K) : Heap n R × Obj K :=
  let p := clean env (iop Mat.sub h a.static (get h b.static))
  let q := isubLoop p.1 a.dynamic b.dynamic
  (q.1, ⟨p.2, q.2⟩)

/-- Dictionary entries bound to new matrices, almost zero ones removed: the loops of `_mul_sparse` (hamiltonian_core.py:2659-2663),
`_rmul_sparse` (2684-2693), `_imul_sparse` (2708-2717), `_mul_dense` (2893-2897), `_rmul_dense` (2928-2936), `_imul_dense`
(2955-2959). -/
def rebindDyn (f : Mat n n R → Mat n n R) (h : Heap n R) : List (K × Ref) → Heap n R × List (K × Ref)
  | [] => (h, [])
  | e :: d =>
    ((rebindDyn f (alloc h (f (get h e.2))).1 d).1,
      if env.tiny (f (get h e.2)).val then (rebindDyn f (alloc h (f (get h e.2))).1 d).2
      else (e.1, (alloc h (f (get h e.2))).2) :: (rebindDyn f (alloc h (f (get h e.2))).1 d).2)

/-- Static and dynamic matrices are replaced by new ones. -/
def rebind (f g : Mat n n R → Mat n n R) (h : Heap n R) (o : Obj K) : Heap n R × Obj K :=
  let p := clean env (alloc h (f (get h o.static)))
  let q := rebindDyn env g p.1 o.dynamic
  (q.1, ⟨p.2, q.2⟩)

/-- `_mul_sparse` (hamiltonian_core.py:2648-2667). -/
def mulSparse (c : Mat n n R) (h : Heap n R) (o : Obj K) : Heap n R × Obj K :=
  rebind env (fun M => M.star c) (fun M => M.star c) (astype true h o).1 (astype true h o).2

/-- `_rmul_sparse` (hamiltonian_core.py:2669-2698). -/
def rmulSparse (c : Mat n n R) (h : Heap n R) (o : Obj K) : Heap n R × Obj K :=
  rebind env (fun M => c.star M) (fun M => c.prod M) (astype true h o).1 (astype true h o).2

/-- `_imul_sparse` (hamiltonian_core.py:2700-2722). -/
def imulSparse (c : Mat n n R) (h : Heap n R) (o : Obj K) : Heap n R × Obj K :=
  rebind env (fun M => M.star c) (fun M => c.prod M) h o

/-- `_mul_dense` (hamiltonian_core.py:2875-2902). -/
def mulDense (c : Mat n n R) (h : Heap n R) (o : Obj K) : Heap n R × Obj K :=
  rebind env (fun M => (M.prod c).asArray) (fun M => (M.prod c).asArray) (astype true h o).1 (astype true h o).2

/-- `_rmul_dense` (hamiltonian_core.py:2904-2941). -/
def rmulDense (c : Mat n n R) (h : Heap n R) (o : Obj K) : Heap n R × Obj K :=
  rebind env (fun M => (c.prod M).asArray) (fun M => (c.prod M).asArray) (astype true h o).1 (astype true h o).2

/-- `_imul_dense` (hamiltonian_core.py:2943-2964). -/
def imulDense (c : Mat n n R) (h : Heap n R) (o : Obj K) : Heap n R × Obj K :=
  rebind env (fun M => (M.prod c).asArray) (fun M => (M.prod c).asArray) h o

/-- `_iadd_sparse` and `_iadd_dense` (hamiltonian_core.py:2601-2614, 2808-2826), `_isub_sparse` (2633-2646). -/
def imat (op : Mat n n R → Mat n n R → Mat n n R) (c : Mat n n R) (h : Heap n R) (o : Obj K) : Heap n R × Obj K :=
  let p := clean env (iop op h o.static c)
  (p.1, ⟨p.2, o.dynamic⟩)

/-- `_isub_dense` (hamiltonian_core.py:2855-2873): a `NameError` is raised after the subtraction. -/
def isubDense (c : Mat n n R) (h : Heap n R) (o : Obj K) : Heap n R × Obj K :=
  ((iop Mat.sub h o.static c).1, ⟨(iop Mat.sub h o.static c).2, o.dynamic⟩)

/-- `_add_sparse`, `_add_dense`, `_sub_sparse`, `_sub_dense` (hamiltonian_core.py:2583-2599, 2783-2806, 2616-2631, 2828-2853). -/
def matOp (op : Mat n n R → Mat n n R → Mat n n R) (c : Mat n n R) (h : Heap n R) (o : Obj K) : Heap n R × Obj K :=
  imat env op c (astype true h o).1 (astype true h o).2

/-- The loop over the drives in `_mul_scalar` (hamiltonian_core.py:2740-2747) and `_imul_scalar` (2765-2772). -/
def scaleDyn (x : R) (h : Heap n R) : List (K × Ref) → Heap n R × List (K × Ref)
  | [] => (h, [])
  | e :: d =>
    ((scaleDyn x (iscale x h e.2) d).1,
      if env.tiny (get (iscale x h e.2) e.2).val then (scaleDyn x (iscale x h e.2) d).2
      else e :: (scaleDyn x (iscale x h e.2) d).2)

/-- `_imul_scalar` (hamiltonian_core.py:2753-2777). -/
def imulScalar (x : R) (h : Heap n R) (o : Obj K) : Heap n R × Obj K :=
  let p := clean env (iscale x h o.static, o.static)
  let q := scaleDyn env x p.1 o.dynamic
  (q.1, ⟨p.2, q.2⟩)

/-- `_mul_scalar` (hamiltonian_core.py:2728-2751). -/
def mulScalar (x : R) (h : Heap n R) (o : Obj K) : Heap n R × Obj K :=
  imulScalar env x (astype true h o).1 (astype true h o).2

/-- Loop bodies of `_imul_hamiltonian` (hamiltonian_core.py:2507-2516, 2519-2539, 2543-2565); in the first loop no key is there
yet. -/
def mulStep (s : Heap n R × List (K × Ref)) (e : K × Mat n n R) : Heap n R × List (K × Ref) :=
  match find s.2 e.1 with
  | some r => accumulate env Mat.add s.1 s.2 e.1 r e.2
  | none => if env.tiny e.2.val then s else ((alloc s.1 e.2).1, s.2 ++ [(e.1, (alloc s.1 e.2).2)])

/-- `_imul_hamiltonian` of two objects with drives (hamiltonian_core.py:2493-2571).  All products are read from the heap before
the loops, which only change new matrices. -/
def imulBoth (h : Heap n R) (a b : Obj K) : Heap n R × Obj K :=
  let p := alloc h ((get h a.static).prod (get h b.static))
  let terms := (b.dynamic.map fun e => (e.1, (get h a.static).prod (get h e.2))) ++
    (a.dynamic.map fun e => (e.1, (get h e.2).prod (get h b.static))) ++
    a.dynamic.flatMap fun e => b.dynamic.map fun f => (env.kmul e.1 f.1, (get h e.2).prod (get h f.2))
  let q := terms.foldl (mulStep env) (p.1, [])
  (q.1, ⟨p.2, q.2⟩)

/-- `_mul_hamiltonian` (hamiltonian_core.py:2470-2479). -/
def mulHam (h : Heap n R) (a b : Obj K) : Heap n R × Obj K :=
  if a.dynamic ≠ [] ∧ b.dynamic ≠ [] then imulBoth env (astype false h a).1 (astype false h a).2 b
  else if a.dynamic ≠ [] then mulSparse env (get h b.static) h a
  else if b.dynamic ≠ [] then rmulSparse env (get h a.static) h b
  else mulSparse env (get h b.static) h a

/-- `(other.T._imul_sparse(self.static.T)).T` (hamiltonian_core.py:2575): a new object. -/
def imulNew (h : Heap n R) (a b : Obj K) : Heap n R × Obj K :=
  let t := transpose false h b
  let u := imulSparse env (get t.1 a.static).trans t.1 t.2
  transpose false u.1 u.2

/-- `_imul_hamiltonian` (hamiltonian_core.py:2492-2577) where the object itself is changed; not used for an object without
drives times one with drives (`imulNew`). -/
def imulHam (h : Heap n R) (a b : Obj K) : Heap n R × Obj K :=
  if a.dynamic ≠ [] ∧ b.dynamic ≠ [] then imulBoth env h a b else imulSparse env (get h b.static) h a

/-- `reduce(mul, (self for i in range(power)))` for `power = p + 2` (hamiltonian_core.py:2091). -/
def powObj (h : Heap n R) (o : Obj K) : Nat → Heap n R × Obj K
  | 0 => mulHam env h o o
  | p + 1 => mulHam env (powObj h o p).1 (powObj h o p).2 o

end Arith

/-! ### Programs -/

/-- Statements of a user's program; `v`, `u` are variables that refer to hamiltonians.  The first group binds a new variable to
the result, the second group is `v += ...` etc. -/
inductive Op (K n R : Type) where
  | new (static : Mat n n R) (dynamic : List (K × Mat n n R))
  | copy (v : Nat)
  | astype (copy : Bool) (v : Nat)
  | transpose (copy : Bool) (v : Nat)
  | conj (v : Nat)
  | adjoint (copy : Bool) (v : Nat)
  | neg (v : Nat)
  | add (v u : Nat)
  | sub (v u : Nat)
  | mul (v u : Nat)
  | pow (v p : Nat)
  | addMat (v : Nat) (c : Mat n n R)
  | subMat (v : Nat) (c : Mat n n R)
  | mulMat (v : Nat) (c : Mat n n R)
  | rmulMat (v : Nat) (c : Mat n n R)
  | mulScalar (v : Nat) (x : R)
  | addZero (v : Nat)
  | iadd (v u : Nat)
  | isub (v u : Nat)
  | imul (v u : Nat)
  | iaddMat (v : Nat) (c : Mat n n R)
  | isubMat (v : Nat) (c : Mat n n R)
  | imulMat (v : Nat) (c : Mat n n R)
  | imulScalar (v : Nat) (x : R)

/-- Heap, objects, and for every variable the object it refers to. -/
structure World (K n R : Type) where
  heap : Heap n R
  objs : List (Obj K)
  vars : List Nat

/-- The object of a variable. -/
def World.obj (w : World K n R) (v : Nat) : Option (Obj K) := w.vars[v]?.bind fun i => w.objs[i]?

/-- Bind a new variable to a new object. -/
def World.emit (w : World K n R) (r : Heap n R × Obj K) : World K n R := ⟨r.1, w.objs ++ [r.2], w.vars ++ [w.objs.length]⟩

/-- Change the object of a variable. -/
def World.change (w : World K n R) (v : Nat) (r : Heap n R × Obj K) : World K n R :=
  ⟨r.1, w.objs.set (w.vars.getD v 0) r.2, w.vars⟩

/-- A new variable for an operation on one object; nothing happens if the variable does not exist. -/
def World.unary (w : World K n R) (v : Nat) (f : Heap n R → Obj K → Heap n R × Obj K) : World K n R :=
  (w.obj v).elim w fun o => w.emit (f w.heap o)

/-- A new variable for an operation on two objects. -/
def World.binary (w : World K n R) (v u : Nat) (f : Heap n R → Obj K → Obj K → Heap n R × Obj K) : World K n R :=
  (w.obj v).elim w fun a => (w.obj u).elim w fun b => w.emit (f w.heap a b)

/-- An operation that changes the object of a variable. -/
def World.inPlace (w : World K n R) (v : Nat) (f : Heap n R → Obj K → Heap n R × Obj K) : World K n R :=
  (w.obj v).elim w fun o => w.change v (f w.heap o)

/-- An operation with a second object that changes the object of a variable. -/
def World.inPlace2 (w : World K n R) (v u : Nat) (f : Heap n R → Obj K → Obj K → Heap n R × Obj K) : World K n R :=
  (w.obj v).elim w fun a => (w.obj u).elim w fun b => w.change v (f w.heap a b)

/-- Bind a new variable to an existing object. -/
def World.alias (w : World K n R) (v : Nat) : World K n R := ⟨w.heap, w.objs, w.vars ++ w.vars[v]?.toList⟩

/-- The matrices a user passes are copied. -/
def allocAll (h : Heap n R) : List (K × Mat n n R) → Heap n R × List (K × Ref)
  | [] => (h, [])
  | e :: d => ((allocAll (alloc h e.2).1 d).1, (e.1, (alloc h e.2).2) :: (allocAll (alloc h e.2).1 d).2)

section Step

variable [DecidableEq K] [CommRing R] [StarRing R] [Fintype n]

/-- One statement.  The dispatch on the type of the second operand: hamiltonian_core.py:2093-2318. -/
def step (env : HEnv K n R) (w : World K n R) : Op K n R → World K n R
  | .new st d => w.emit (construct true (allocAll w.heap d).1 st (allocAll w.heap d).2)
  | .copy v => w.unary v copyObj
  | .astype c v => w.unary v (astype c)
  | .transpose c v => w.unary v (transpose c)
  | .conj v => w.unary v (conjugate env)
  | .adjoint c v => w.unary v (getH env c)
  | .neg v => w.unary v neg
  | .add v u => w.binary v u (addHam env)
  | .sub v u => w.binary v u (subHam env)
  | .mul v u => w.binary v u (mulHam env)
  | .pow _ 0 => w
  | .pow v 1 => w.alias v
  | .pow v (p + 2) => w.unary v fun h o => powObj env h o p
  | .addMat v c => w.unary v (matOp env Mat.add c)
  | .subMat v c => w.unary v (matOp env Mat.sub c)
  | .mulMat v c => w.unary v (if c.fmt = .sparse then mulSparse env c else mulDense env c)
  | .rmulMat v c => w.unary v (if c.fmt = .sparse then rmulSparse env c else rmulDense env c)
  | .mulScalar v x => w.unary v (mulScalar env x)
  | .addZero v => w.alias v
  | .iadd v u => w.inPlace2 v u (iaddHam env)
  | .isub v u => w.inPlace2 v u (isubHam env)
  | .imul v u => (w.obj v).elim w fun a => (w.obj u).elim w fun b =>
      if a.dynamic = [] ∧ b.dynamic ≠ [] then
        ⟨(imulNew env w.heap a b).1, w.objs ++ [(imulNew env w.heap a b).2], w.vars.set v w.objs.length⟩
      else w.change v (imulHam env w.heap a b)
  | .iaddMat v c => w.inPlace v (imat env Mat.add c)
  | .isubMat v c => w.inPlace v (if c.fmt = .sparse then imat env Mat.sub c else isubDense c)
  | .imulMat v c => w.inPlace v (if c.fmt = .sparse then imulSparse env c else imulDense env c)
  | .imulScalar v x => w.inPlace v (imulScalar env x)

/-- A program. -/
def runOps (env : HEnv K n R) (w : World K n R) (l : List (Op K n R)) : World K n R := l.foldl (step env) w

/-- What a user sees of a variable: the static matrix and the drives with their matrices. -/
def World.view (w : World K n R) (v : Nat) : Option (Mat n n R × List (K × Mat n n R)) :=
  (w.obj v).map fun o => (get w.heap o.static, o.dynamic.map fun e => (e.1, get w.heap e.2))

end Step

end Model.Heap
