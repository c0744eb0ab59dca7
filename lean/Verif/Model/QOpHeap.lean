import Verif.Model.Heap

/-!
Model of what `quantum_operator`s share, and of their arithmetic (`/repo/quspin/operators/quantum_operator_core.py`).  The heap, the
references and the behaviour of numpy and scipy are those of `Model.Heap`.

The argument `copy` of the constructor is never read, so the matrices of the user are stored themselves (204-205, 215-216); `copy()`
(1195-1198) passes the matrices of the object to the constructor.

Simplifications: operator strings in the constructor (their matrices are new), dtypes, shapes and matrix formats are left out;
`A * x` needs a number with an attribute `dtype` (1365: a Python number raises), so `mul` is the product with a numpy number;
`conj`, whose result shares data or not depending on the dtype, is left out; an empty list for a name makes no entry.
-/

namespace Model.QOpHeap
open Model.Ham
open Model.Heap (Heap Ref get put alloc iop iscale find setKey pop mapDyn)

variable {n R : Type}

/-- `_quantum_operator`. -/
abbrev Obj := List (String × Ref)

section

variable [CommRing R] (tiny : Matrix n n R → Bool)

/-- Remove what is almost zero (quantum_operator_core.py:285-288). -/
def dropTiny (h : Heap n R) (o : Obj) : Obj := o.filter fun e => !tiny (get h e.2).val

/-- The list of matrices of one name (quantum_operator_core.py:201-243): the first is stored, the others are added to it with `+=`. -/
def sumList (h : Heap n R) : List Ref → Heap n R × Option Ref
  | [] => (h, none)
  | r :: rs =>
    let p := rs.foldl (fun (s : Heap n R × Ref) x => iop Mat.add s.1 s.2 (get s.1 x)) (h, r)
    (p.1, some p.2)

/-- The loop over the names (quantum_operator_core.py:200). -/
def collect (h : Heap n R) : List (String × List Ref) → Heap n R × Obj
  | [] => (h, [])
  | e :: l =>
    let p := sumList h e.2
    let q := collect p.1 l
    (q.1, p.2.toList.map (fun r => (e.1, r)) ++ q.2)

/-- The constructor for matrices (quantum_operator_core.py:176-290). -/
def construct (h : Heap n R) (l : List (String × List Ref)) : Heap n R × Obj :=
  let p := collect h l
  (p.1, dropTiny tiny p.1 p.2)

/-- `copy()` (quantum_operator_core.py:1195-1198). -/
def copyObj (h : Heap n R) (o : Obj) : Heap n R × Obj := (h, dropTiny tiny h o)

/-- `transpose()` (quantum_operator_core.py:1130-1131). -/
def transpose (h : Heap n R) (o : Obj) : Heap n R × Obj := (h, dropTiny tiny h (o.map fun e => (e.1, ⟨e.2.loc, !e.2.trans⟩)))

/-- `astype(dtype, copy=True)` (quantum_operator_core.py:1220-1222). -/
def astype (h : Heap n R) (o : Obj) : Heap n R × Obj :=
  let p := mapDyn id h o
  (p.1, dropTiny tiny p.1 p.2)

/-- Loop body of `__iadd__` (quantum_operator_core.py:1305-1312). -/
def addStep (s : Heap n R × Obj) (e : String × Ref) : Heap n R × Obj :=
  match find s.2 e.1 with
  | some r =>
    let p := alloc s.1 (Mat.add (get s.1 r) (get s.1 e.2))
    (p.1, if tiny (get p.1 p.2).val then pop s.2 e.1 else setKey s.2 e.1 p.2)
  | none => (s.1, if tiny (get s.1 e.2).val then s.2 else s.2 ++ [e])

/-- Loop body of `__isub__` (quantum_operator_core.py:1330-1337). -/
def subStep (s : Heap n R × Obj) (e : String × Ref) : Heap n R × Obj :=
  match find s.2 e.1 with
  | some r =>
    let p := alloc s.1 (Mat.sub (get s.1 r) (get s.1 e.2))
    (p.1, if tiny (get p.1 p.2).val then pop s.2 e.1 else setKey s.2 e.1 p.2)
  | none =>
    let p := alloc s.1 (Mat.neg (get s.1 e.2))
    (p.1, if tiny (get p.1 p.2).val then s.2 else s.2 ++ [(e.1, p.2)])

/-- The loops over another object. -/
def addLoop (h : Heap n R) (a b : Obj) : Heap n R × Obj := b.foldl (addStep tiny) (h, a)

def subLoop (h : Heap n R) (a b : Obj) : Heap n R × Obj := b.foldl (subStep tiny) (h, a)

/-- The loops `A += A`, `A -= A` over the own dictionary: Python raises a `RuntimeError` after an entry has been removed. -/
def selfLoop (step : Heap n R × Obj → String × Ref → Heap n R × Obj) : Heap n R × Obj → List (String × Ref) → Heap n R × Obj
  | s, [] => s
  | s, e :: l => if (step s e).2.length < s.2.length then step s e else selfLoop step (step s e) l

/-- `__add__` (quantum_operator_core.py:1321-1325). -/
def add (h : Heap n R) (a b : Obj) : Heap n R × Obj := addLoop tiny (astype tiny h a).1 (astype tiny h a).2 b

/-- `__sub__` (quantum_operator_core.py:1346-1350). -/
def sub (h : Heap n R) (a b : Obj) : Heap n R × Obj := subLoop tiny (astype tiny h a).1 (astype tiny h a).2 b

omit tiny in
/-- The loop of `__imul__` (quantum_operator_core.py:1358-1359): the matrices themselves are changed. -/
def imulLoop (x : R) (h : Heap n R) (o : Obj) : Heap n R := o.foldl (fun h e => iscale x h e.2) h

/-- `__mul__` (quantum_operator_core.py:1364-1368). -/
def mul (x : R) (h : Heap n R) (a : Obj) : Heap n R × Obj :=
  (imulLoop x (astype tiny h a).1 (astype tiny h a).2, (astype tiny h a).2)

/-- Statements of a program.  `mat` makes a matrix of the user; `new` makes an operator from lists of such matrices. -/
inductive Stmt (n R : Type) where
  | mat (c : Mat n n R)
  | new (l : List (String × List Nat))
  | copy (v : Nat)
  | transpose (v : Nat)
  | add (v u : Nat)
  | sub (v u : Nat)
  | mul (v : Nat) (x : R)
  | neg (v : Nat)
  | iadd (v u : Nat)
  | isub (v u : Nat)
  | imul (v : Nat) (x : R)

/-- Heap, matrices of the user, objects, and for every variable the object it refers to. -/
structure World (n R : Type) where
  heap : Heap n R
  mats : List Ref
  objs : List Obj
  vars : List Nat

/-- The object of a variable. -/
def World.obj (w : World n R) (v : Nat) : Option Obj := w.vars[v]?.bind fun i => w.objs[i]?

/-- Bind a new variable to a new object. -/
def World.emit (w : World n R) (r : Heap n R × Obj) : World n R := ⟨r.1, w.mats, w.objs ++ [r.2], w.vars ++ [w.objs.length]⟩

/-- Change the object of a variable. -/
def World.change (w : World n R) (v : Nat) (r : Heap n R × Obj) : World n R := ⟨r.1, w.mats, w.objs.set (w.vars.getD v 0) r.2, w.vars⟩

/-- One statement; nothing happens if a variable does not exist.  `__neg__` is `self.__imul__(-1)` (quantum_operator_core.py:1299-1300): the
new variable is the same object. -/
def step (w : World n R) : Stmt n R → World n R
  | .mat c => ⟨(alloc w.heap c).1, w.mats ++ [(alloc w.heap c).2], w.objs, w.vars⟩
  | .new l => w.emit (construct tiny w.heap (l.map fun e => (e.1, e.2.filterMap fun i => w.mats[i]?)))
  | .copy v => (w.obj v).elim w fun o => w.emit (copyObj tiny w.heap o)
  | .transpose v => (w.obj v).elim w fun o => w.emit (transpose tiny w.heap o)
  | .add v u => (w.obj v).elim w fun a => (w.obj u).elim w fun b => w.emit (add tiny w.heap a b)
  | .sub v u => (w.obj v).elim w fun a => (w.obj u).elim w fun b => w.emit (sub tiny w.heap a b)
  | .mul v x => (w.obj v).elim w fun a => w.emit (mul tiny x w.heap a)
  | .neg v => (w.obj v).elim w fun a => ⟨imulLoop (-1) w.heap a, w.mats, w.objs, w.vars ++ w.vars[v]?.toList⟩
  | .iadd v u => (w.obj v).elim w fun a => (w.obj u).elim w fun b =>
      w.change v (if w.vars[v]? = w.vars[u]? then selfLoop (addStep tiny) (w.heap, a) b else addLoop tiny w.heap a b)
  | .isub v u => (w.obj v).elim w fun a => (w.obj u).elim w fun b =>
      w.change v (if w.vars[v]? = w.vars[u]? then selfLoop (subStep tiny) (w.heap, a) b else subLoop tiny w.heap a b)
  | .imul v x => (w.obj v).elim w fun a => w.change v (imulLoop x w.heap a, a)

/-- A program. -/
def run (w : World n R) (l : List (Stmt n R)) : World n R := l.foldl (step tiny) w

omit tiny in
/-- What a user sees of an object. -/
def entries (h : Heap n R) (o : Obj) : List (String × Matrix n n R) := o.map fun e => (e.1, (get h e.2).val)

omit tiny in
/-- What a user sees of a variable. -/
def World.view (w : World n R) (v : Nat) : Option (List (String × Matrix n n R)) := (w.obj v).map (entries w.heap)

omit tiny in
/-- What a user sees of one of their matrices. -/
def World.viewMat (w : World n R) (i : Nat) : Option (Matrix n n R) := w.mats[i]?.map fun r => (get w.heap r).val

end

end Model.QOpHeap
