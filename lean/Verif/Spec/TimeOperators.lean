import Mathlib.LinearAlgebra.Matrix.ConjTranspose
import Mathlib.Analysis.Normed.Ring.Basic

/-!
Specification for operators that depend on time: an operator is a function from times to matrices, and every
arithmetic operation acts at every time separately.
-/

namespace Spec.TimeOp

/-- Two matrices agree up to `e` in every element. -/
def Close {m n R : Type} [NormedCommRing R] (e : ℝ) (A B : Matrix m n R) : Prop := ∀ i j, ‖A i j - B i j‖ ≤ e

/-- What a user writes with hamiltonians `0, 1, …`: sums, differences, negatives, multiples, products, powers,
transposes and adjoints. -/
inductive Expr (ι R : Type) where
  | leaf (i : ι)
  | add (x y : Expr ι R)
  | sub (x y : Expr ι R)
  | neg (x : Expr ι R)
  | scale (c : R) (x : Expr ι R)
  | mul (x y : Expr ι R)
  | pow (x : Expr ι R) (p : Nat)
  | transpose (x : Expr ι R)
  | conj (x : Expr ι R)
  | adjoint (x : Expr ι R)

variable {ι R n T : Type} [CommRing R] [StarRing R] [Fintype n] [DecidableEq n]

/-- The operator an expression stands for, time by time. -/
def Expr.meaning (v : ι → T → Matrix n n R) : Expr ι R → T → Matrix n n R
  | .leaf i, t => v i t
  | .add x y, t => x.meaning v t + y.meaning v t
  | .sub x y, t => x.meaning v t - y.meaning v t
  | .neg x, t => -x.meaning v t
  | .scale c x, t => c • x.meaning v t
  | .mul x y, t => x.meaning v t * y.meaning v t
  | .pow x p, t => x.meaning v t ^ p
  | .transpose x, t => (x.meaning v t).transpose
  | .conj x, t => (x.meaning v t).map star
  | .adjoint x, t => (x.meaning v t).conjTranspose

/-- Number of drive functions multiplied with each other at most, if a leaf has at most `d` of them. -/
def Expr.degree (d : ι → Nat) : Expr ι R → Nat
  | .leaf i => d i
  | .add x y => max (x.degree d) (y.degree d)
  | .sub x y => max (x.degree d) (y.degree d)
  | .neg x => x.degree d
  | .scale _ x => x.degree d
  | .mul x y => x.degree d + y.degree d
  | .pow x p => p * x.degree d
  | .transpose x => x.degree d
  | .conj x => x.degree d
  | .adjoint x => x.degree d

/-- Expressions without conjugates and with positive powers. -/
def Expr.Plain : Expr ι R → Prop
  | .leaf _ => True
  | .add x y => x.Plain ∧ y.Plain
  | .sub x y => x.Plain ∧ y.Plain
  | .neg x => x.Plain
  | .scale _ x => x.Plain
  | .mul x y => x.Plain ∧ y.Plain
  | .pow x p => x.Plain ∧ p ≠ 0
  | .transpose x => x.Plain
  | .conj _ => False
  | .adjoint _ => False

end Spec.TimeOp
