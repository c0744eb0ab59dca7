import Verif.Spec.Operators

/-!
Operator strings as operators: `J` times the product of the operators of the characters on the sites, from left to right.
-/

namespace Spec

/-- A matrix on site `i` of a lattice of `N` sites; zero if there is no such site. -/
noncomputable def siteOp (b N : Nat) (u : Char → Nat → Nat → ℂ) (o : Char) (i : Nat) : Matrix (Conf b N) (Conf b N) ℂ :=
  if h : i < N then onSite (u o) ⟨i, h⟩ else 0

/-- A fermion operator on site `i` of a lattice of `N` sites; zero if there is no such site. -/
noncomputable def fermionOp (N : Nat) (o : Char) (i : Nat) : Matrix (Conf 2 N) (Conf 2 N) ℂ :=
  if h : i < N then fermion o ⟨i, h⟩ else 0

section

variable {A : Type} [Ring A] [Module ℂ A]

/-- The product `o₁(i₁) o₂(i₂) ...`. -/
def opWord (w : Char → Nat → A) (str : List Char) (indx : List Nat) : A := ((str.zip indx).map fun p => w p.1 p.2).prod

/-- `J o₁(i₁) o₂(i₂) ...`. -/
def term (w : Char → Nat → A) (str : List Char) (indx : List Nat) (J : ℂ) : A := J • opWord w str indx

/-- `J` times the string before the bar on the sites of spin up, times the string after the bar on the sites of spin down, for
`L` sites of each spin; the sites of spin down come after those of spin up. -/
def spinfulTerm (w : Char → Nat → A) (L : Nat) (up : List Char) (iup : List Nat) (down : List Char) (idown : List Nat) (J : ℂ) : A :=
  J • (opWord w up iup * opWord w down (idown.map (· + L)))

/-- The operator an operator list stands for. -/
def listOp (w : Char → Nat → A) (l : List (List Char × List (ℂ × List Nat))) : A :=
  (l.map fun e => (e.2.map fun b => term w e.1 b.2 b.1).sum).sum

/-- The operator a dynamic operator list stands for; `x f` is the value of the drive `f`. -/
def drivenOp {F : Type} (w : Char → Nat → A) (x : F → ℂ) (l : List (List Char × List (ℂ × List Nat) × F)) : A :=
  (l.map fun e => x e.2.2 • (e.2.1.map fun b => term w e.1 b.2 b.1).sum).sum

/-- The operator a list of spinful strings `up|down` stands for, with `L` sites of each spin. -/
def spinfulListOp (w : Char → Nat → A) (L : Nat) (l : List ((List Char × List Char) × List (ℂ × List Nat × List Nat))) : A :=
  (l.map fun e => (e.2.map fun b => spinfulTerm w L e.1.1 b.2.1 e.1.2 b.2.2 b.1).sum).sum

end

/-- `+` and `-` are adjoint matrices, the other matrices are Hermitian (on the levels `0..b-1`). -/
def AdjointPairs (b : Nat) (u : Char → Nat → Nat → ℂ) : Prop :=
  ∀ a < b, ∀ c < b, star (u '+' a c) = u '-' c a ∧ star (u '-' a c) = u '+' c a ∧
    ∀ o, o ≠ '+' → o ≠ '-' → star (u o a c) = u o c a

/-- `+` raises the level by one, `-` lowers it by one, and the other matrices are diagonal. -/
def Ladder (u : Char → Nat → Nat → ℂ) : Prop :=
  (∀ a c, u '+' a c ≠ 0 → a = c + 1) ∧ (∀ a c, u '-' a c ≠ 0 → a + 1 = c) ∧
    ∀ o, o ≠ '+' → o ≠ '-' → o ≠ 'x' → o ≠ 'y' → ∀ a c, u o a c ≠ 0 → a = c

/-- The operator keeps the sum of the levels of the sites. -/
def KeepsSum {b N : Nat} (M : Matrix (Conf b N) (Conf b N) ℂ) : Prop := ∀ t s, M t s ≠ 0 → ∑ j, (t j : Nat) = ∑ j, (s j : Nat)

end Spec
