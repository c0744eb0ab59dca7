import Verif.Model.Heap

/-!
Words for C21: which statements change a variable, when two variables share data, and which statements keep hamiltonians
apart.
-/

namespace Spec.Sharing
open Model.Ham (Mat)
open Model.Heap

variable {K n R : Type}

/-- Before the first statement. -/
def start : World K n R := ⟨[], [], []⟩

/-- The variable on the left of `+=`, `-=`, `*=`; none for a statement that only binds a new variable. -/
def target : Op K n R → Option Nat
  | .iadd v _ => some v
  | .isub v _ => some v
  | .imul v _ => some v
  | .iaddMat v _ => some v
  | .isubMat v _ => some v
  | .imulMat v _ => some v
  | .imulScalar v _ => some v
  | _ => none

/-- Cells an object refers to. -/
def cells (o : Obj K) : List Nat := o.static.loc :: o.dynamic.map fun e => e.2.loc

/-- Two variables are one object, or their objects have a matrix in common. -/
def Shares (w : World K n R) (v u : Nat) : Prop :=
  w.vars[v]? = w.vars[u]? ∨ ∃ a b, w.obj v = some a ∧ w.obj u = some b ∧ ∃ l ∈ cells a, l ∈ cells b

/-- Every drive of `u` is a drive of `v`. -/
def DrivesAmong (w : World K n R) (u v : Nat) : Prop :=
  ∀ a b, w.obj v = some a → w.obj u = some b → ∀ k ∈ b.dynamic.map Prod.fst, k ∈ a.dynamic.map Prod.fst

/-- Statements after which no two hamiltonians share data, if none did before: no `copy=False`, no `H + 0`, no `H**1`, and
sums only when every drive of the second operand is a drive of the first. -/
def Apart (w : World K n R) : Op K n R → Prop
  | .astype c _ => c = true
  | .transpose c _ => c = true
  | .add v u => DrivesAmong w u v
  | .iadd v u => DrivesAmong w u v
  | .addZero _ => False
  | .pow _ 1 => False
  | _ => True

section

variable [DecidableEq K] [CommRing R] [StarRing R] [Fintype n]

/-- Every statement of the program keeps hamiltonians apart. -/
def ApartAll (env : HEnv K n R) (w : World K n R) : List (Op K n R) → Prop
  | [] => True
  | op :: l => Apart w op ∧ ApartAll env (step env w op) l

end

end Spec.Sharing
