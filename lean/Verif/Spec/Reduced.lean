import Verif.Spec.Symmetry
import Mathlib.Algebra.BigOperators.Group.Finset.Basic
import Mathlib.Analysis.SpecialFunctions.Sqrt
/-!
Specification vocabulary for operators between symmetry-projected states.
-/
namespace Spec
open scoped BigOperators

/-- Matrix element `⟨t|O|s⟩` of the sum of the given terms; a term sends configuration `s` to a
number times one configuration (or is not defined on `s`). -/
noncomputable def operatorOf (terms : List (Nat → Option (Nat × ℂ))) (t s : Nat) : ℂ :=
  (terms.map fun f => match f s with
    | some (r, m) => if r = t then m else 0
    | none => 0).sum

/-- `U O = O U` for every symmetry `U`, in matrix elements `⟨img t| · |s⟩`. -/
def InvariantUnder (S : Nat → Prop) (ys : List Generator) (O : Nat → Nat → ℂ) : Prop :=
  ∀ y ∈ ys, ∀ s t, S s → S t → (y.sgn t : ℂ) * O t s = O (y.img t) (y.img s) * (y.sgn s : ℂ)

/-- Amplitude on `t` of the normalised projection of configuration `s` onto the quantum numbers;
`conf` is the set of all configurations. -/
noncomputable def symState (conf : Finset Nat) (ys : List Generator) (s t : Nat) : ℂ :=
  projection ys s t / (Real.sqrt (∑ u ∈ conf, ‖projection ys s u‖ ^ 2) : ℝ)

end Spec
