import Mathlib.Data.Nat.Notation
/-!
Specification vocabulary for an `Lx × Ly` periodic square lattice whose sites are numbered row by row.  Nothing here refers to the model.
-/
namespace Spec.Square

/-- The number of the site in column `x` and row `y`. -/
def siteAt (Lx x y : ℕ) : ℕ := x + Lx * y

/-- Nearest neighbours on a ring of `L` sites. -/
def Ring (L a b : ℕ) : Prop := b = (a + 1) % L ∨ a = (b + 1) % L

/-- Nearest neighbours on the periodic lattice. -/
def Bond (Lx Ly : ℕ) (x y x' y' : ℕ) : Prop := (y = y' ∧ Ring Lx x x') ∨ (x = x' ∧ Ring Ly y y')

end Spec.Square
