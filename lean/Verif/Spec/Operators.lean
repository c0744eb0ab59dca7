import Mathlib.Data.Matrix.Mul
import Mathlib.Data.Complex.Basic
import Mathlib.Analysis.SpecialFunctions.Sqrt
import Verif.Spec.Digits
/-!
Specification vocabulary for operators on lattices of `N` sites with `b` levels per site: textbook
single-site matrices, the operator a single-site matrix defines on the lattice, products along an
operator string.  Nothing here refers to the model.
-/
namespace Spec

/-- A configuration: a level for every site. -/
abbrev Conf (b N : Nat) := Fin N → Fin b

/-- The configuration stored in the integer `s`: site 0 is the most significant digit. -/
def conf (b N : Nat) [NeZero b] (s : Nat) : Conf b N := fun i => ⟨occ b N s i, Nat.mod_lt _ (NeZero.pos b)⟩

/-- The lattice operator that acts with the matrix `u` on site `i` and leaves the other sites alone. -/
noncomputable def onSite {b N : Nat} (u : Nat → Nat → ℂ) (i : Fin N) : Matrix (Conf b N) (Conf b N) ℂ :=
  fun t s => if ∀ j, j ≠ i → t j = s j then u (t i) (s i) else 0

/-- Product of the lattice operators of an operator string `o₁o₂…oₖ` on sites `i₁,i₂,…,iₖ`. -/
noncomputable def stringOp {b N : Nat} (op : Char → Fin N → Matrix (Conf b N) (Conf b N) ℂ)
    (str : List (Char × Fin N)) : Matrix (Conf b N) (Conf b N) ℂ :=
  (str.map fun p => op p.1 p.2).prod

/-- Spin-1/2 / hard-core boson single-site matrices `⟨a|o|c⟩`, level 1 is "up"/occupied. -/
noncomputable def spinHalf (o : Char) (a c : Nat) : ℂ :=
  match o with
  | 'I' => if a = c then 1 else 0
  | 'z' => if a = c then (if c = 1 then 1 / 2 else -(1 / 2)) else 0
  | 'n' => if a = c then (if c = 1 then 1 else 0) else 0
  | 'x' => if a ≠ c then 1 / 2 else 0
  | 'y' => if a = 1 ∧ c = 0 then -Complex.I / 2 else if a = 0 ∧ c = 1 then Complex.I / 2 else 0
  | '+' => if a = 1 ∧ c = 0 then 1 else 0
  | '-' => if a = 0 ∧ c = 1 then 1 else 0
  | _ => 0

/-- Documented single-site matrices of the spin-1/2 bases for `pauli = 0, 1, -1`: spin matrices, Pauli
matrices with `σ^± = σ^x ± iσ^y`, Pauli matrices with `σ^± = (σ^x ± iσ^y)/2`. -/
noncomputable def pauliMatrix (pauli : Int) (o : Char) (a c : Nat) : ℂ :=
  if pauli = 0 then spinHalf o a c else
  match o with
  | 'I' => if a = c then 1 else 0
  | 'z' => if a = c then (if c = 1 then 1 else -1) else 0
  | 'x' => if a ≠ c then 1 else 0
  | 'y' => if a = 1 ∧ c = 0 then -Complex.I else if a = 0 ∧ c = 1 then Complex.I else 0
  | '+' => if a = 1 ∧ c = 0 then (if pauli = 1 then 2 else 1) else 0
  | '-' => if a = 0 ∧ c = 1 then (if pauli = 1 then 2 else 1) else 0
  | _ => 0

/-- Bosonic ladder and number matrices truncated to levels `0..b-1`. -/
noncomputable def boson (b : Nat) (o : Char) (a c : Nat) : ℂ :=
  match o with
  | 'I' => if a = c then 1 else 0
  | 'n' => if a = c then (c : ℂ) else 0
  | 'z' => if a = c then (c : ℂ) - ((b : ℂ) - 1) / 2 else 0
  | '+' => if a = c + 1 then (Real.sqrt (c + 1) : ℂ) else 0
  | '-' => if a + 1 = c then (Real.sqrt c : ℂ) else 0
  | _ => 0

/-- Spin matrices for spin `S = (b-1)/2`; level `c` has `S^z = c - S`;
`S^±|m⟩ = √(S(S+1) - m(m±1)) |m±1⟩`. -/
noncomputable def spin (b : Nat) (o : Char) (a c : Nat) : ℂ :=
  let S : ℝ := ((b : ℝ) - 1) / 2
  let m : ℝ := c - S
  match o with
  | 'I' => if a = c then 1 else 0
  | 'z' => if a = c then (m : ℂ) else 0
  | '+' => if a = c + 1 then (Real.sqrt (S * (S + 1) - m * (m + 1)) : ℂ) else 0
  | '-' => if a + 1 = c then (Real.sqrt (S * (S + 1) - m * (m - 1)) : ℂ) else 0
  | _ => 0

/-- Fermion parity of the sites after `i`. -/
def parityAfter {N : Nat} (s : Conf 2 N) (i : Fin N) : Int :=
  ((List.finRange N).map fun j => if i < j ∧ s j = 1 then (-1 : Int) else 1).prod

/-- Jordan-Wigner fermion operators: creation and annihilation carry the parity of the sites after
the site they act on. -/
noncomputable def fermion {N : Nat} (o : Char) (i : Fin N) : Matrix (Conf 2 N) (Conf 2 N) ℂ :=
  match o with
  | '+' | '-' => fun t s => (parityAfter s i : ℂ) * onSite (spinHalf o) i t s
  | _ => onSite (spinHalf o) i

end Spec
