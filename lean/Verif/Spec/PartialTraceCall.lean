import Verif.Spec.PartialTrace
import Mathlib.Algebra.BigOperators.Ring.Finset

/-! What a density matrix of a symmetry block is in the full space. -/

namespace Spec.PartialTraceCall
open Spec.PartialTrace

/-- The density matrix `rho` of the block whose states have the amplitudes `P row state` in the full space. -/
def inFull {L d Ns : ℕ} (P : ℕ → Fin Ns → ℂ) (rho : Fin Ns → Fin Ns → ℂ) (s t : Config L d) : ℂ :=
  ∑ k, ∑ l, P (row s) k * rho k l * star (P (row t) l)

/-- The density matrix of the state `v`. -/
def density {Ns : ℕ} (v : Fin Ns → ℂ) (k l : Fin Ns) : ℂ := v k * star (v l)

end Spec.PartialTraceCall
