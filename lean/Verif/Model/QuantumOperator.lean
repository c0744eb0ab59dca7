import Verif.Spec.Pars
import Mathlib.Data.String.Defs

/-!
Model of how `quantum_operator` treats its parameters (`/repo/quspin/operators/quantum_operator_core.py`).

Every method has the argument `pars={}`.  Python makes this default dictionary once, when the class is defined, so that all
calls of one method without parameters use the same dictionary object (one for each method).  `_check_scalar_pars` writes the
missing names into the dictionary it is given.

Simplifications: numbers are elements of a commutative ring; parameters of `tohamiltonian` are numbers (no drives); the
dictionaries are association lists, and new names are appended in the order of the operator's dictionary (Python's order of
a set difference is arbitrary; no result depends on it); `rdot`, which raises before it looks at the parameters unless an
output array is given, the shape and dtype checks, and operators of dimension zero are left out.
-/

namespace Model.QOp

variable {n R : Type}

/-- `_quantum_operator`: names and matrices. -/
abbrev Op (n R : Type) := List (String × Matrix n n R)

/-- A dictionary of parameters. -/
abbrev Pars (R : Type) := List (String × R)

/-- `_check_scalar_pars` (quantum_operator_core.py:1415-1428) and, for numbers, `_check_hamiltonian_pars` (1390-1413): the
dictionary afterwards, or `none` for `ValueError("unexpected couplings")`, which is raised before anything is written. -/
def checkPars [One R] (op : Op n R) (d : Pars R) : Option (Pars R) :=
  if d.any (fun e => !(op.map Prod.fst).contains e.1) then none
  else some (d ++ ((op.map Prod.fst).filter fun k => (d.lookup k).isNone).map fun k => (k, 1))

/-- Methods with the argument `pars={}`; a `dot` with a sparse and with a dense `V` is the same method. -/
inductive Fn where
  | dot | exptValue | quantFluct | matrixEle | eigsh | eigh | eigvalsh | tocsr | tocsc | todense | toarray
  | aslinearoperator | tohamiltonian | diagonal | trace
  deriving DecidableEq

/-- What the user passes to a method and gets back: a matrix, a vector or a number. -/
inductive Out (n R : Type) where
  | nothing
  | raised
  | matrix (M : Matrix n n R)
  | vector (v : n → R)
  | number (x : R)

section Values

variable [CommRing R] [Fintype n]

/-- `self._quantum_operator[key]`. -/
def get (op : Op n R) (k : String) : Matrix n n R := (op.lookup k).getD 0

/-- The loops of `tocsr`, `tocsc`, `todense`, `toarray` (quantum_operator_core.py:883-887, 917-921, 963-964, 998-999), of
`tohamiltonian` (1053-1060) and of `dot` with a sparse `V` (491-492): a sum over the dictionary of parameters. -/
def sumAll (op : Op n R) (d : Pars R) : Matrix n n R := d.foldl (fun acc e => acc + e.2 • get op e.1) 0

/-- The loop of `dot` with a dense `V` (quantum_operator_core.py:512-514): small parameters are skipped. -/
def sumBig (tiny : R → Bool) (op : Op n R) (d : Pars R) (v : n → R) : n → R :=
  d.foldl (fun acc e => if tiny e.2 then acc else acc + e.2 • (get op e.1).mulVec v) 0

/-- `pars[key]`. -/
def par (d : Pars R) (k : String) : R := (d.lookup k).getD 0

/-- The loop of `diagonal` (quantum_operator_core.py:1249-1250). -/
def sumDiagonal (op : Op n R) (d : Pars R) : n → R := op.foldl (fun acc e => acc + par d e.1 • fun i => e.2 i i) 0

/-- The loop of `trace` (quantum_operator_core.py:1275-1279). -/
def sumTrace (op : Op n R) (d : Pars R) : R := op.foldl (fun acc e => acc + par d e.1 * e.2.trace) 0

/-- The result of a method once the parameters are complete.  The methods that apply the operator (`expt_value`,
`quant_fluct`, `matrix_ele`: quantum_operator_core.py:604, 658, 711) call `dot` with the dictionary they got; here their result is the
vector they work with.  `eigsh`, `eigh`, `eigvalsh` (771, 809, 848) call `tocsr` and `todense`; here their result is the matrix
they diagonalise. -/
def result (tiny : R → Bool) (op : Op n R) (f : Fn) (v : n → R) (d : Pars R) : Out n R :=
  match f with
  | .dot | .exptValue | .quantFluct | .matrixEle => .vector (sumBig tiny op d v)
  | .eigsh | .eigh | .eigvalsh | .tocsr | .tocsc | .todense | .toarray | .tohamiltonian | .aslinearoperator => .matrix (sumAll op d)
  | .diagonal => .vector (sumDiagonal op d)
  | .trace => .number (sumTrace op d)

end Values

/-- Where the dictionary of a call comes from: the argument is left out, or it is a dictionary of the user. -/
inductive Arg where
  | default
  | user (i : Nat)
  deriving DecidableEq

/-- A dictionary object: the default of a method or a dictionary of the user. -/
inductive Ref where
  | default (f : Fn)
  | user (i : Nat)
  deriving DecidableEq

/-- The dictionary object a call works with. -/
def Arg.ref (f : Fn) : Arg → Ref
  | .default => .default f
  | .user i => .user i

/-- The dictionaries of the interpreter, and the linear operators made so far. -/
structure World (R : Type) where
  defaults : Fn → Pars R
  users : List (Pars R)
  linear : List (Nat × Ref)

/-- When the module has been imported. -/
def World.start : World R := ⟨fun _ => [], [], []⟩

/-- The contents of a dictionary. -/
def World.read (w : World R) : Ref → Pars R
  | .default f => w.defaults f
  | .user i => w.users.getD i []

/-- Contents of a dictionary after it has been changed. -/
def World.write (w : World R) (r : Ref) (d : Pars R) : World R :=
  match r with
  | .default f => { w with defaults := fun g => if g = f then d else w.defaults g }
  | .user i => { w with users := w.users.set i d }

/-- What a program does with operators and parameters.  `new` makes a dictionary, `set` writes `d[k] = x`, `call` calls a method of
operator number `o` with a dense vector `v`, `keywords` is `op(**pars)`, `apply` applies a linear operator made by `aslinearoperator`. -/
inductive Event (n R : Type) where
  | new (d : Pars R)
  | set (i : Nat) (k : String) (x : R)
  | call (o : Nat) (f : Fn) (a : Arg) (v : n → R)
  | keywords (o : Nat) (d : Pars R)
  | apply (l : Nat) (v : n → R)

/-- `d[k] = x`. -/
def assign (d : Pars R) (k : String) (x : R) : Pars R :=
  if (d.lookup k).isSome then d.map fun e => if e.1 = k then (k, x) else e else d ++ [(k, x)]

section Run

variable [CommRing R] [Fintype n] (tiny : R → Bool) (ops : Nat → Op n R)

/-- Complete the parameters of dictionary `r` for operator `o` and go on. -/
def use (w : World R) (o : Nat) (r : Ref) (go : Pars R → Out n R) : World R × Out n R :=
  match checkPars (ops o) (w.read r) with
  | none => (w, .raised)
  | some d => (w.write r d, go d)

/-- One step of a program; `ops o` is operator number `o`.  Methods: quantum_operator_core.py:421-1280; `__call__` (1292-1297) has a new
dictionary for every call; `aslinearoperator` (1025-1028) keeps the operator and the dictionary object, and applying it is `dot` with
that dictionary (33-34). -/
def step (w : World R) : Event n R → World R × Out n R
  | .new d => ({ w with users := w.users ++ [d] }, .nothing)
  | .set i k x => ({ w with users := w.users.set i (assign (w.users.getD i []) k x) }, .nothing)
  | .call o f a v =>
    let p := use ops w o (a.ref f) (result tiny (ops o) f v)
    if f = .aslinearoperator then
      match p.2 with
      | .raised => p
      | x => ({ p.1 with linear := p.1.linear ++ [(o, a.ref f)] }, x)
    else p
  | .keywords o d =>
    match checkPars (ops o) d with
    | none => (w, .raised)
    | some d => (w, .matrix (sumAll (ops o) d))
  | .apply l v =>
    match w.linear[l]? with
    | none => (w, .raised)
    | some (o, r) => use ops w o r (result tiny (ops o) .dot v)

/-- The world after a program. -/
def run (w : World R) (p : List (Event n R)) : World R := p.foldl (fun w e => (step tiny ops w e).1) w

/-- What the last statement of a program returns. -/
def last (p : List (Event n R)) (e : Event n R) : Out n R := (step tiny ops (run tiny ops World.start p) e).2

end Run

end Model.QOp
