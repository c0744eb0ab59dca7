import Mathlib.Logic.Relation
import Mathlib.Logic.Function.Iterate
import Mathlib.Analysis.SpecialFunctions.Complex.Circle
import Mathlib.Analysis.SpecialFunctions.Trigonometric.Basic
/-!
Specification vocabulary for symmetry-reduced bases: signed maps of configurations, the orbit of a
configuration, the projection of a configuration onto a set of quantum numbers.  Nothing here refers
to the model of the code.
-/
namespace Spec

/-- One symmetry as the user gives it: configuration `t` goes to `sgn t` times configuration
`img t`; applying it `per` times is the identity; quantum number `q` (eigenvalue
`exp(2πi q/per)`). -/
structure Generator where
  img : Nat → Nat
  sgn : Nat → Int
  per : Nat
  q : Int

/-- The symmetry on a configuration with a sign in front. -/
def Generator.U (y : Generator) (x : Nat × Int) : Nat × Int := (y.img x.1, x.2 * y.sgn x.1)

/-- The product of powers of the symmetries with exponents `cs`. -/
def word : List Generator → List Nat → Nat × Int → Nat × Int
  | y :: ys, c :: cs, x => y.U^[c] (word ys cs x)
  | _, _, x => x

/-- All exponent lists, each exponent below its period: the elements of the symmetry group. -/
def exponents : List Generator → List (List Nat)
  | [] => [[]]
  | y :: ys => (exponents ys).flatMap fun cs => (List.range y.per).map fun c => c :: cs

/-- `S` is a set of configurations on which the symmetries act as a representation of the product of
the cyclic groups of orders `per`: the set is closed, signs are ±1, each symmetry to the power of
its period is the identity, and they commute with each other. -/
structure Acts (S : Nat → Prop) (ys : List Generator) : Prop where
  per_pos : ∀ y ∈ ys, 0 < y.per
  closed : ∀ y ∈ ys, ∀ t, S t → S (y.img t)
  sign : ∀ y ∈ ys, ∀ t, S t → y.sgn t = 1 ∨ y.sgn t = -1
  period : ∀ y ∈ ys, ∀ t, S t → y.U^[y.per] (t, 1) = (t, 1)
  commute : ∀ y ∈ ys, ∀ z ∈ ys, ∀ t, S t → y.U (z.U (t, 1)) = z.U (y.U (t, 1))

/-- `t` can be reached from `s` by symmetries. -/
def Related (ys : List Generator) : Nat → Nat → Prop :=
  Relation.ReflTransGen fun a b => ∃ y ∈ ys, b = y.img a

/-- `Σ 2π q_d c_d / per_d`. -/
noncomputable def angle : List Generator → List Nat → ℝ
  | y :: ys, c :: cs => 2 * Real.pi * y.q / y.per * c + angle ys cs
  | _, _ => 0

/-- Character of the group element with exponents `cs`. -/
noncomputable def character (ys : List Generator) (cs : List Nat) : ℂ :=
  Complex.exp (Complex.I * angle ys cs)

/-- Amplitude on configuration `t` of the (unnormalised) projection of configuration `s` onto the
subspace in which symmetry `d` has eigenvalue `exp(2πi q_d/per_d)`:
`Σ_g conj(χ(g)) ⟨t| U(g) |s⟩`. -/
noncomputable def projection (ys : List Generator) (s t : Nat) : ℂ :=
  ((exponents ys).map fun cs =>
    if (word ys cs (s, 1)).1 = t then (starRingEnd ℂ) (character ys cs) * (word ys cs (s, 1)).2 else 0).sum

end Spec
