import Mathlib.Data.Complex.Basic
import Mathlib.Algebra.BigOperators.Fin
import Mathlib.Algebra.Star.BigOperators

/-! What the partial trace is. -/

namespace Spec.PartialTrace

/-- The place of a list of digits in lexicographic order: the first digit is the most significant one. -/
def position (d : ℕ) (l : List ℕ) : ℕ := l.foldl (fun acc x => acc * d + x) 0

/-- A configuration gives every site one of `d` local states, counted from the highest one, as the full basis is listed in descending order. -/
abbrev Config (n d : ℕ) := Fin n → Fin d

/-- The row of a configuration in the full basis. -/
def row {n d : ℕ} (s : Config n d) : ℕ := position d (List.ofFn fun i => (s i : ℕ))

/-- The reduced density matrix of the sites `S`, in this order, between the configurations `a` and `b` of these sites: the sum of all
entries of `rho` between configurations that are `a` and `b` on `S` and agree elsewhere. -/
def partialTrace {L d : ℕ} (rho : Config L d → Config L d → ℂ) (S : List (Fin L)) (a b : Config S.length d) : ℂ :=
  ∑ s : Config L d, ∑ t : Config L d,
    if (∀ p, s (S.get p) = a p) ∧ (∀ p, t (S.get p) = b p) ∧ (∀ i, i ∉ S → s i = t i) then rho s t else 0

/-- The projector on a state. -/
def projector {L d : ℕ} (psi : Config L d → ℂ) (s t : Config L d) : ℂ := psi s * star (psi t)

end Spec.PartialTrace
