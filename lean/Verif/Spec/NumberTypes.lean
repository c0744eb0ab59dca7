import Mathlib.Data.Nat.Notation

/-!
The number types of arrays, and when one type holds all values of another.
-/

namespace Spec.NumberTypes

/-- Types of the entries of arrays; `other n` stands for all further types. -/
inductive Ty
  | int8 | int16 | int32 | int64 | float32 | float64 | complex64 | complex128
  | other (n : ℕ)
  deriving DecidableEq

/-- Bytes of one entry. -/
def bytes : Ty → ℕ
  | .int8 => 1
  | .int16 => 2
  | .int32 => 4
  | .int64 => 8
  | .float32 => 4
  | .float64 => 8
  | .complex64 => 8
  | .complex128 => 16
  | .other n => n

/-- The real and complex floating point types. -/
def Floating (t : Ty) : Prop := t = .float32 ∨ t = .float64 ∨ t = .complex64 ∨ t = .complex128

def IsComplex (t : Ty) : Prop := t = .complex64 ∨ t = .complex128

def IsDouble (t : Ty) : Prop := t = .float64 ∨ t = .complex128

/-- Every value of the floating type `t` is a value of the floating type `u`. -/
def Holds (u t : Ty) : Prop := Floating t ∧ Floating u ∧ (IsComplex t → IsComplex u) ∧ (IsDouble t → IsDouble u)

end Spec.NumberTypes
