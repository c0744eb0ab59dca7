import Mathlib.Algebra.Star.Basic
import Mathlib.Algebra.Ring.Defs
import Mathlib.Data.List.Sort
import Verif.Spec.Drive

/-!
Model of `/repo/quspin/operators/_functions.py`: the objects that represent the time functions
of the dynamic part of a hamiltonian.

* A python callable is an element of an arbitrary type `F`; an argument an element of `A`.
* Python's `hash` is a parameter (`PyHash`): the code compares functions only through it.
* `none` models an exception (`AttributeError`, or `RecursionError` for a call that never ends).
-/

namespace Model.Drive

/-- The parts of Python's `hash` the code relies on.  `tup` is the hash of a tuple as a
function of the hashes of its elements, `callable` the hash of a callable, `arg` the hash of an
argument, `unit` the hash of `1j`, `int` the hash of the exponent.  Not code of the
repository: the meaning of the calls `hash(...)` on _functions.py:35,39,115,136. -/
structure PyHash (F A : Type) where
  tup : List Int → Int
  callable : F → Int
  arg : A → Int
  unit : Int
  int : Nat → Int

/-- The objects that `function.__mul__` may raise to a power: a `function` (_functions.py:5-8)
or the `conjugate_function` of one (_functions.py:98-103).  Simplification: a
`conjugate_function` holds a `function`, which is the only thing `conjugate` (l.10-11) puts in
it. -/
inductive Atom (F A : Type) where
  | base (f : F) (args : List A)
  | conj (f : F) (args : List A)
  deriving DecidableEq

/-- Time functions: `function`/`conjugate_function`, `pow_function` (_functions.py:121-127),
`mul_function` (_functions.py:76-78, 55-64). -/
inductive Fn (F A : Type) where
  | atom (a : Atom F A)
  | pow (a : Atom F A) (p : Nat)
  | mul (x y : Fn F A)
  deriving DecidableEq

variable {F A : Type}

/-- `function._hash_list` (_functions.py:34-35) and `conjugate_function._hash_list`
(_functions.py:114-115). -/
def Atom.hashList (H : PyHash F A) : Atom F A → List Int
  | .base f args => [H.tup [H.callable f, H.tup (args.map H.arg)]]
  | .conj f args => [H.tup [H.unit, H.callable f, H.tup (args.map H.arg)]]

/-- `_hash_list` of every class: _functions.py:34-35, 66-70, 114-115, 135-136.  The list of a
power reads the attributes `_f` and `_args` of its base, which a `conjugate_function` does not
have: `AttributeError`. -/
def hashList (H : PyHash F A) : Fn F A → Option (List Int)
  | .atom a => some (a.hashList H)
  | .pow (.base f args) p => some [H.tup [H.callable f, H.tup (args.map H.arg), H.int p]]
  | .pow (.conj _ _) _ => none
  | .mul x y =>
    (hashList H x).bind fun l => (hashList H y).map fun m => (l ++ m).insertionSort (· ≤ ·)

/-- `__hash__` (_functions.py:37-39). -/
def hash (H : PyHash F A) (x : Fn F A) : Option Int := (hashList H x).map H.tup

/-- `__eq__` (_functions.py:22-26). -/
def eq (H : PyHash F A) (x y : Fn F A) : Option Bool :=
  (hash H x).bind fun h => (hash H y).map fun k => decide (h = k)

/-- `__contains__` of `function` (_functions.py:31-32) and of `conjugate_function`
(_functions.py:117-118), which asks the function it conjugates. -/
def Atom.contains (H : PyHash F A) (a : Atom F A) (o : Fn F A) : Option Bool :=
  match a with
  | .base f args => eq H (.atom (.base f args)) o
  | .conj f args => eq H (.atom (.base f args)) o

/-- `__contains__` of every class: _functions.py:31-32, 72-73, 117-118, 144-145. -/
def contains (H : PyHash F A) : Fn F A → Fn F A → Option Bool
  | .atom a, o => a.contains H o
  | .pow a _, o => a.contains H o
  | .mul x y, o => (contains H x o).bind fun c => if c then some true else contains H y o

/-- `a * b` for two atoms: `function.__mul__` (_functions.py:44-50).  If neither test for
equality succeeds and each is contained in the other the two calls alternate for ever. -/
def atomMul (H : PyHash F A) (a b : Atom F A) : Option (Fn F A) :=
  (eq H (.atom a) (.atom b)).bind fun e =>
    if e then some (.pow a 2)
    else (b.contains H (.atom a)).bind fun c =>
      if c then
        (a.contains H (.atom b)).bind fun d =>
          if d then none else some (.mul (.atom b) (.atom a))
      else some (.mul (.atom a) (.atom b))

/-- `pow_function.__mul__` (_functions.py:138-142). -/
def powMul (H : PyHash F A) (a : Atom F A) (p : Nat) (o : Fn F A) : Option (Fn F A) :=
  (eq H (.atom a) o).map fun e => if e then .pow a (p + 1) else .mul (.pow a p) o

/-- `x * a` for an atom `a`: the `__mul__` of the class of `x` (_functions.py:44-50, 87-93,
138-142). -/
def mulAtom (H : PyHash F A) : Fn F A → Atom F A → Option (Fn F A)
  | .atom b, a => atomMul H b a
  | .pow b p, a => powMul H b p (.atom a)
  | .mul x y, a =>
    (contains H x (.atom a)).bind fun c =>
      if c then (mulAtom H x a).map fun z => .mul z y
      else (contains H y (.atom a)).bind fun d =>
        if d then (mulAtom H y a).map fun z => .mul x z
        else some (.mul (.mul x y) (.atom a))

/-- `x * o`: `function.__mul__` (_functions.py:44-50), `pow_function.__mul__` (138-142),
`mul_function.__mul__` (87-93). -/
def mul (H : PyHash F A) : Fn F A → Fn F A → Option (Fn F A)
  | .atom a, o =>
    (eq H (.atom a) o).bind fun e =>
      if e then some (.pow a 2)
      else (contains H o (.atom a)).bind fun c =>
        if c then mulAtom H o a else some (.mul (.atom a) o)
  | .pow a p, o => powMul H a p o
  | .mul x y, o =>
    (contains H x o).bind fun c =>
      if c then (mul H x o).map fun z => .mul z y
      else (contains H y o).bind fun d =>
        if d then (mul H y o).map fun z => .mul x z
        else some (.mul (.mul x y) o)

/-- `conjugate` (_functions.py:10-11, 108-109).  Products and powers inherit
`function.conjugate`, which reads `self._f`: `AttributeError`. -/
def conjugate : Fn F A → Option (Fn F A)
  | .atom (.base f args) => some (.atom (.conj f args))
  | .atom (.conj f args) => some (.atom (.base f args))
  | .pow _ _ => none
  | .mul _ _ => none

/-- The object python builds for an expression: `*` and `conjugate` on the objects of its parts.
Not code of the repository: the evaluation of a python expression. -/
def build (H : PyHash F A) : Spec.Drive.Expr F A → Option (Fn F A)
  | .fn f args => some (.atom (.base f args))
  | .mul x y => (build H x).bind fun a => (build H y).bind fun b => mul H a b
  | .conj x => (build H x).bind conjugate

section Call

variable {T R : Type} [CommSemiring R] [StarRing R]

/-- `__call__` of `function` (_functions.py:41-42) and `conjugate_function` (l.105-106).
`app` is what the callables return. -/
def Atom.call (app : F → List A → T → R) : Atom F A → T → R
  | .base f args, t => app f args t
  | .conj f args, t => star (app f args t)

/-- `__call__` (_functions.py:41-42, 80-81, 105-106, 129-130). -/
def call (app : F → List A → T → R) : Fn F A → T → R
  | .atom a, t => a.call app t
  | .pow a p, t => a.call app t ^ p
  | .mul x y, t => call app x t * call app y t

end Call

/-- Callable and arguments of an atom. -/
def Atom.part : Atom F A → F × List A
  | .base f args => (f, args)
  | .conj f args => (f, args)

/-- Callables with arguments of a time function (used to state theorems). -/
def parts : Fn F A → List (F × List A)
  | .atom a => [a.part]
  | .pow a _ => [a.part]
  | .mul x y => parts x ++ parts y

/-- Number of factors of a time function (used to state theorems). -/
def degree : Fn F A → Nat
  | .atom _ => 1
  | .pow _ p => p
  | .mul x y => degree x + degree y

/-- The factors of a time function, a power counting as one (used to state theorems). -/
def factors : Fn F A → List (Atom F A × Option Nat)
  | .atom a => [(a, none)]
  | .pow a p => [(a, some p)]
  | .mul x y => factors x ++ factors y

/-- Among the functions made of callables in `S` with at most `m` factors, only functions with
the same factors have the same hash.  (An assumption of the code about Python's `hash`.) -/
def NoCollision (H : PyHash F A) (S : F × List A → Prop) (m : Nat) : Prop :=
  ∀ x y : Fn F A, (∀ q ∈ parts x, S q) → (∀ q ∈ parts y, S q) → degree x ≤ m → degree y ≤ m →
    eq H x y = some true → (factors x).Perm (factors y)

/-- Python's hash of an integer (CPython: the value modulo `2^61 - 1` with the sign kept, and
`-1` replaced by `-2`).  Not code of the repository: the value of `PyHash.arg` for integer
arguments. -/
def intHash (n : Int) : Int :=
  let h : Int := n.sign * (n.natAbs % (2 ^ 61 - 1) : Nat)
  if h = -1 then -2 else h

end Model.Drive
