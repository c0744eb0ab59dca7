import Mathlib.Algebra.Star.Basic
import Mathlib.Algebra.Ring.Defs
import Mathlib.Algebra.BigOperators.Group.List.Basic

/-!
Specification for drive functions: what a product, a power and a conjugate of time functions
mean.  A time function is just a function from times to numbers.
-/

namespace Spec.Drive

variable {T R : Type}

/-- Pointwise product of two time functions. -/
def times [Mul R] (f g : T → R) : T → R := fun t => f t * g t

/-- Pointwise power of a time function. -/
def power [Monoid R] (f : T → R) (p : Nat) : T → R := fun t => f t ^ p

/-- Pointwise complex conjugate of a time function. -/
def conj [Star R] (f : T → R) : T → R := fun t => star (f t)

/-- Expressions a user can write with drive functions: a callable with arguments, a product, a
conjugate. -/
inductive Expr (F A : Type) where
  | fn (f : F) (args : List A)
  | mul (x y : Expr F A)
  | conj (x : Expr F A)

/-- The time function an expression stands for; `app` is what the callables return. -/
def Expr.meaning {F A : Type} [CommSemiring R] [StarRing R] (app : F → List A → T → R) :
    Expr F A → T → R
  | .fn f args => app f args
  | .mul x y => times (x.meaning app) (y.meaning app)
  | .conj x => Drive.conj (x.meaning app)

/-- The callables with arguments occurring in an expression. -/
def Expr.parts {F A : Type} : Expr F A → List (F × List A)
  | .fn f args => [(f, args)]
  | .mul x y => x.parts ++ y.parts
  | .conj x => x.parts

/-- The expression contains no conjugate. -/
def Expr.NoConj {F A : Type} : Expr F A → Prop
  | .fn _ _ => True
  | .mul x y => x.NoConj ∧ y.NoConj
  | .conj _ => False

/-- The repeated product `x * x * … * x` with `n + 1` factors, as python evaluates it. -/
def Expr.pow {F A : Type} (x : Expr F A) : Nat → Expr F A
  | 0 => x
  | n + 1 => .mul (x.pow n) x

end Spec.Drive
