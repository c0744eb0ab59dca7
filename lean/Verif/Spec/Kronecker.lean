import Mathlib.LinearAlgebra.Finsupp.LSum
import Mathlib.Algebra.BigOperators.Group.List.Basic
import Mathlib.Analysis.Real.Sqrt
import Mathlib.Data.Complex.Basic
import Mathlib.Algebra.Module.LinearMap.End

/-! Matrices given by their stored elements, Kronecker products of any number of factors, and the oscillator. -/

namespace Spec.Kronecker

/-- The entry in row `r` and column `c` of a matrix given by elements `(element, row, column)`; equal places add up. -/
def entry (l : List (ℂ × ℤ × ℤ)) (r c : ℤ) : ℂ := ((l.filter fun t => t.2.1 = r ∧ t.2.2 = c).map fun t => t.1).sum

/-- All elements are inside of a square matrix. -/
def Inside (n : ℕ) (l : List (ℂ × ℤ × ℤ)) : Prop := ∀ t ∈ l, (0 ≤ t.2.1 ∧ t.2.1 < n) ∧ (0 ≤ t.2.2 ∧ t.2.2 < n)

/-- The place of a product state: the last factor runs fastest. -/
def place : List ℕ → List ℕ → ℕ
  | _ :: ds, i :: is => i * ds.prod + place ds is
  | _, _ => 0

/-- The entry of a Kronecker product. -/
def kron : List (ℕ → ℕ → ℂ) → List ℕ → List ℕ → ℂ
  | m :: ms, r :: rs, c :: cs => m r c * kron ms rs cs
  | _, _, _ => 1

end Spec.Kronecker

namespace Spec.Oscillator

/-- Vectors with finitely many components along the levels 0, 1, 2, ... of an oscillator, without a cutoff. -/
abbrev Vec := ℕ →₀ ℂ

/-- `a† |n⟩ = √(n+1) |n+1⟩` -/
noncomputable def raise : Vec →ₗ[ℂ] Vec := Finsupp.lsum ℂ fun n => (Real.sqrt (n + 1) : ℂ) • Finsupp.lsingle (n + 1)

/-- `a |n⟩ = √n |n-1⟩` -/
noncomputable def lower : Vec →ₗ[ℂ] Vec := Finsupp.lsum ℂ fun n => (Real.sqrt n : ℂ) • Finsupp.lsingle (n - 1)

/-- `n |n⟩ = n |n⟩` -/
noncomputable def number : Vec →ₗ[ℂ] Vec := Finsupp.lsum ℂ fun n => (n : ℂ) • Finsupp.lsingle n

/-- The operator of a symbol. -/
noncomputable def symbol : Char → Option (Vec →ₗ[ℂ] Vec)
  | 'I' => some LinearMap.id
  | 'n' => some number
  | '+' => some raise
  | '-' => some lower
  | _ => none

/-- The operator of a string: the last symbol acts first. -/
noncomputable def string : List Char → Option (Vec →ₗ[ℂ] Vec)
  | [] => some LinearMap.id
  | o :: os => (symbol o).bind fun x => (string os).map fun y => x ∘ₗ y

/-- The matrix element `⟨m| X |n⟩`. -/
noncomputable def element (X : Vec →ₗ[ℂ] Vec) (m n : ℕ) : ℂ := X (Finsupp.single n 1) m

end Spec.Oscillator
