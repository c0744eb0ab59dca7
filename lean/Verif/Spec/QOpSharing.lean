import Verif.Model.QOpHeap
import Verif.Spec.Pars

/-!
Words for C59: programs with `quantum_operator`s, which statements change an operator, when two variables share data.
-/

namespace Spec.QOpSharing
open Model.QOpHeap

variable {n R : Type}

/-- Before the first statement. -/
def start : World n R := ⟨[], [], [], []⟩

/-- Names are not repeated in a dictionary of the user. -/
def Dicts (p : List (Stmt n R)) : Prop := ∀ l, Stmt.new l ∈ p → (l.map Prod.fst).Nodup

/-- Statements that have to leave everything as it is and only make something new. -/
def Pure : Stmt n R → Prop
  | .neg _ => False
  | .iadd _ _ => False
  | .isub _ _ => False
  | .imul _ _ => False
  | _ => True

/-- The operators of the statement are made from at most one matrix per name. -/
def Single : Stmt n R → Prop
  | .new l => ∀ e ∈ l, e.2.length ≤ 1
  | _ => True

/-- Cells an object refers to. -/
def cells (o : Obj) : List Nat := o.map fun e => e.2.loc

/-- No two names of the operator share a matrix. -/
def Distinct (o : Obj) : Prop := (cells o).Nodup

end Spec.QOpSharing
