import Verif.Spec.Symmetry
/-!
Specification vocabulary for families of symmetry blocks.
-/
namespace Spec

/-- The same symmetries with quantum numbers `qs` instead. -/
def withQ (ys : List Generator) (qs : List Nat) : List Generator :=
  List.zipWith (fun y (q : Nat) => { y with q := (q : Int) }) ys qs

end Spec
