import Verif.Spec.Reduced
/-!
Vocabulary for representatives, normalizations and amplitudes of symmetry-reduced bases.
-/
namespace Spec
open scoped BigOperators

/-- `s` is the largest configuration of its symmetry orbit. -/
def OrbitMax (ys : List Generator) (s : Nat) : Prop := ∀ t, Related ys s t → t ≤ s

open Classical in
/-- The square of the norm of the (unnormalised) projection of a representative onto the quantum numbers; zero
for the other configurations. -/
noncomputable def squareNorm (conf : Finset Nat) (ys : List Generator) (s : Nat) : ℝ :=
  if OrbitMax ys s then ∑ t ∈ conf, ‖projection ys s t‖ ^ 2 else 0

/-- `s` labels a state of the reduced basis: it is the largest of its orbit and has a part with the requested
quantum numbers. -/
def InReduced (ys : List Generator) (s : Nat) : Prop := OrbitMax ys s ∧ ∃ t, projection ys s t ≠ 0

/-- `psi` is the vector of the full space with coefficients `v` with respect to the reduced basis. -/
def IsExpanded (conf : Finset Nat) (ys : List Generator) (v psi : Nat → ℂ) : Prop :=
  open Classical in
  ∀ t ∈ conf, psi t = ∑ r ∈ conf.filter (InReduced ys), v r * symState conf ys r t

end Spec
