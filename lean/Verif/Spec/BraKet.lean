import Verif.Spec.Reduced
/-!
Vocabulary for operators given by lists of (matrix element, bra, ket), and for operators that take one symmetry
sector to another.
-/
namespace Spec
open scoped BigOperators

/-- All symmetries have eigenvalue 1. -/
def TrivialSector (ys : List Generator) : Prop := ∀ y ∈ ys, (y.per : Int) ∣ y.q

/-- The part of a number that an array of real (`isReal`) or complex type holds. -/
noncomputable def storedPart (isReal : Bool) (x : ℂ) : ℂ := if isReal then (x.re : ℂ) else x

/-- The coefficient of `|t⟩⟨s|` in a list of (matrix element, bra, ket). -/
noncomputable def coefficient (l : List (ℂ × Nat × Nat)) (t s : Nat) : ℂ :=
  (l.map fun e => if e.2.1 = t ∧ e.2.2 = s then e.1 else 0).sum

/-- The same symmetries with other quantum numbers. -/
def SameMaps (ys zs : List Generator) : Prop :=
  List.Forall₂ (fun y z => y.img = z.img ∧ y.sgn = z.sgn ∧ y.per = z.per) ys zs

/-- `O` takes the quantum numbers of `ys` to those of `zs`: `U O = exp(2πi (q' - q)/per) O U` for every symmetry
`U`, in matrix elements `⟨img t| · |s⟩`. -/
def Shifts (S : Nat → Prop) (ys zs : List Generator) (O : Nat → Nat → ℂ) : Prop :=
  List.Forall₂ (fun y z => ∀ s t, S s → S t → (y.sgn t : ℂ) * O t s
    = Complex.exp (Complex.I * (2 * Real.pi * z.q / z.per)) / Complex.exp (Complex.I * (2 * Real.pi * y.q / y.per))
      * (O (y.img t) (y.img s) * (y.sgn s : ℂ))) ys zs

end Spec
