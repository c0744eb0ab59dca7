import Mathlib.LinearAlgebra.Pi
import Mathlib.Analysis.SpecialFunctions.Complex.Circle
import Mathlib.Algebra.BigOperators.Fin
import Mathlib.Analysis.SpecialFunctions.Trigonometric.Basic
/-!
Specification vocabulary for the quantum numbers a user asks a basis of a chain for: the symmetries as linear maps, what it means for a vector to have
the requested quantum numbers, and the symmetries as maps of configurations.  Nothing here refers to the model.
-/
namespace Spec.Labels
open scoped BigOperators

/-- The quantum numbers given by the user: momentum, reflection, inversion, inversion of the even sites, inversion of the odd sites, reflection followed by
inversion.  (For fermions with spin inversion is the exchange of the spins, for bosons the exchange of particles and holes.) -/
structure Request where
  k : Option Int := none
  p : Option Int := none
  z : Option Int := none
  zA : Option Int := none
  zB : Option Int := none
  pz : Option Int := none

/-- The symmetries of a chain as linear maps: translation by a unit cell and its inverse, reflection, inversion, inversion of the sublattices. -/
structure Symmetries (V : Type) [AddCommGroup V] [Module ℂ V] where
  T : V →ₗ[ℂ] V
  Tinv : V →ₗ[ℂ] V
  P : V →ₗ[ℂ] V
  Z : V →ₗ[ℂ] V
  ZA : V →ₗ[ℂ] V
  ZB : V →ₗ[ℂ] V

variable {V : Type} [AddCommGroup V] [Module ℂ V]

/-- The vector has all the requested quantum numbers in a chain of `n` unit cells.  Reflection turns momentum `k` into `-k`: together with a reflection
the momentum means that the vector is made of waves with momentum `k` and `-k`. -/
structure Satisfies (S : Symmetries V) (n : ℕ) (r : Request) (v : V) : Prop where
  k : ∀ k ∈ r.k, r.p = none → r.pz = none → S.T v = Complex.exp (2 * Real.pi * Complex.I * k / n) • v
  kk : ∀ k ∈ r.k, r.p ≠ none ∨ r.pz ≠ none → S.T v + S.Tinv v = ((2 * Real.cos (2 * Real.pi * k / n) : ℝ) : ℂ) • v
  p : ∀ p ∈ r.p, S.P v = (p : ℂ) • v
  z : ∀ z ∈ r.z, S.Z v = (z : ℂ) • v
  zA : ∀ z ∈ r.zA, S.ZA v = (z : ℂ) • v
  zB : ∀ z ∈ r.zB, S.ZB v = (z : ℂ) • v
  pz : ∀ q ∈ r.pz, S.Z (S.P v) = (q : ℂ) • v

/-- Configurations of `L` sites with `b` levels. -/
abbrev Conf (L b : ℕ) := Fin L → Fin b

/-- Site `i` goes to site `i+a`, periodically: what is found at `j` was at `j-a`. -/
def translate {L b : ℕ} (a : ℕ) (s : Conf L b) : Conf L b := fun j => s ⟨(j + (L - a % L)) % L, Nat.mod_lt _ (Nat.zero_lt_of_lt j.2)⟩

/-- Reflection about the middle of the chain. -/
def reflect {L b : ℕ} (s : Conf L b) : Conf L b := fun j => s j.rev

/-- Inversion of every site. -/
def invert {L b : ℕ} (s : Conf L b) : Conf L b := fun j => (s j).rev

/-- Inversion of the sites with index `r` modulo two. -/
def invertOf {L b : ℕ} (r : ℕ) (s : Conf L b) : Conf L b := fun j => if (j : ℕ) % 2 = r then (s j).rev else s j

/-- Number of particles (of raised spins). -/
def number {L b : ℕ} (s : Conf L b) : ℕ := ∑ j, (s j : ℕ)

/-- The linear map that moves the amplitude of `f s` to `s`. -/
def pull {C : Type} (f : C → C) : (C → ℂ) →ₗ[ℂ] (C → ℂ) := LinearMap.funLeft ℂ ℂ f

/-- The symmetries of a chain of spins or bosons with unit cell `a`.  Every map but the translation is its own inverse, so moving the amplitude of the image
to the configuration is the same as moving the amplitude of the configuration to its image. -/
def spins (L b a : ℕ) : Symmetries (Conf L b → ℂ) where
  T := pull (translate (L - a % L))
  Tinv := pull (translate a)
  P := pull reflect
  Z := pull invert
  ZA := pull (invertOf 0)
  ZB := pull (invertOf 1)

/-- A set of particle numbers is carried to itself by a map of configurations. -/
def Keeps {L b : ℕ} (l : List Int) (f : Conf L b → Conf L b) : Prop := ∀ s : Conf L b, (number s : Int) ∈ l → (number (f s) : Int) ∈ l

end Spec.Labels
