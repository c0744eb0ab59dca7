import Mathlib.Data.Matrix.Mul
import Mathlib.LinearAlgebra.Matrix.Kronecker
import Mathlib.Data.Complex.Basic

/-!
The operator a list of particle-photon strings stands for.  `P o i` is the operator of the particle string `o` on the sites `i`, `Q o` the
operator of the photon string `o`.
-/

namespace Spec.PhotonList
open scoped Kronecker

variable {m n : Type}

/-- Entries: particle string, photon string, and bonds of a coupling and sites. -/
abbrev Entry := (List Char × List Char) × List (ℂ × List Nat)

/-- The strings as the user writes them: `particle|photon`. -/
def written (l : List Entry) : List (List Char × List (ℂ × List Nat)) := l.map fun e => (e.1.1 ++ '|' :: e.1.2, e.2)

/-- `Σ J P ⊗ Q`. -/
noncomputable def operator (P : List Char → List Nat → Matrix m m ℂ) (Q : List Char → Matrix n n ℂ) (l : List Entry) : Matrix (m × n) (m × n) ℂ :=
  (l.map fun e => (e.2.map fun b => b.1 • (P e.1.1 b.2 ⊗ₖ Q e.1.2)).sum).sum

/-- With drives. -/
def writtenD {F : Type} (l : List (Entry × F)) : List (List Char × List (ℂ × List Nat) × F) := l.map fun e => (e.1.1.1 ++ '|' :: e.1.1.2, e.1.2, e.2)

/-- With drives of the values `x`. -/
noncomputable def driven {F : Type} (P : List Char → List Nat → Matrix m m ℂ) (Q : List Char → Matrix n n ℂ) (x : F → ℂ) (l : List (Entry × F)) :
    Matrix (m × n) (m × n) ℂ := (l.map fun e => x e.2 • operator P Q [e.1]).sum

end Spec.PhotonList
