import Verif.Spec.Maps
import Verif.Spec.Strings
/-!
Spinful fermions on `L` lattice sites.  In the simple notation an orbital is a spin and a site; in the advanced notation the `2L` orbitals are
numbered, those of spin up first.
-/
namespace Spec

/-- The number of the orbital with the given spin (`down = true`: spin down) on site `i`. -/
def orbital (L : Nat) (down : Bool) (i : Nat) : Nat := if down then L + i else i

/-- What an entry of a simple map says of an orbital on site `i`: `j ≥ 0` sends it to site `j`, `-(j+1)` sends it to site `j` and turns its spin. -/
def moved (map : List Int) (o : Bool × Nat) : Bool × Nat := (xor o.1 (inverts map o.2), dest map o.2)

/-- The digits of a number, most significant first, written by `value2`. -/
def value2 : List Nat → Nat := fun ds => ds.foldl (fun n d => 2 * n + d) 0

/-- The operator a dynamic list of spinful strings `up|down` stands for; `x f` is the value of the drive `f`. -/
def spinfulDrivenOp {F A : Type} [Ring A] [Module ℂ A] (w : Char → Nat → A) (L : Nat) (x : F → ℂ)
    (l : List ((List Char × List Char) × List (ℂ × List Nat × List Nat) × F)) : A :=
  (l.map fun e => x e.2.2 • (e.2.1.map fun b => spinfulTerm w L e.1.1 b.2.1 e.1.2 b.2.2 b.1).sum).sum

end Spec
