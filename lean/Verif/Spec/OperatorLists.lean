import Mathlib.LinearAlgebra.Matrix.Defs
import Mathlib.Data.Matrix.Basic

/-!
Specification of the operator lists of the constructor of `hamiltonian`: every bond `J, sites` of every entry
contributes `J` times the matrix of the operator string on these sites, times the drive function for dynamic lists.
-/

namespace Spec.OpLists

variable {O I F A T R n : Type} [CommRing R]

/-- The matrix a static list stands for. -/
def static (op : O → I → Matrix n n R) (l : List (O × List (R × I))) : Matrix n n R :=
  (l.map fun e => (e.2.map fun x => x.1 • op e.1 x.2).sum).sum

/-- The matrix a dynamic list stands for at time `t`. -/
def dynamic (op : O → I → Matrix n n R) (app : F → List A → T → R) (l : List (O × List (R × I) × F × List A)) (t : T) :
    Matrix n n R :=
  (l.map fun e => app e.2.2.1 e.2.2.2 t • (e.2.1.map fun x => x.1 • op e.1 x.2).sum).sum

end Spec.OpLists
