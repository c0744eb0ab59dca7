import Verif.Spec.Operators
import Mathlib.Logic.Equiv.Fintype

/-!
Symmetry operations of a lattice of `N` sites with `b` levels per site.  Nothing here refers to the model.
-/

namespace Spec

/-- The operator that moves the level of site `i` to site `σ i`, and turns the level `a` into `b-1-a` on the way if `flip i`. -/
noncomputable def moveSites (b N : Nat) (σ : Equiv.Perm (Fin N)) (flip : Fin N → Bool) : Matrix (Conf b N) (Conf b N) ℂ :=
  fun t s => if ∀ i, t (σ i) = (if flip i then (s i).rev else s i) then 1 else 0

/-- The letters of spin operators. -/
def SpinLetter (c : Char) : Prop := c = 'I' ∨ c = 'x' ∨ c = 'y' ∨ c = 'z' ∨ c = '+' ∨ c = '-'

/-- Inverting the levels exchanges `+` and `-`, changes the sign of `z` and `y`, and does nothing to `x` and the identity. -/
def InvertsSpins (b : Nat) (u : Char → Nat → Nat → ℂ) : Prop :=
  ∀ a < b, ∀ c < b, u '+' (b - 1 - a) (b - 1 - c) = u '-' a c ∧ u 'z' (b - 1 - a) (b - 1 - c) = -u 'z' a c ∧
    u 'y' (b - 1 - a) (b - 1 - c) = -u 'y' a c ∧ u 'x' (b - 1 - a) (b - 1 - c) = u 'x' a c ∧ u 'I' (b - 1 - a) (b - 1 - c) = u 'I' a c

end Spec
