import Mathlib.Analysis.Complex.Basic
import Mathlib.LinearAlgebra.Matrix.ConjTranspose
import Mathlib.Analysis.SpecialFunctions.Pow.Real

/-!
Model of `ent_entropy` in `/repo/quspin/tools/measurements.py:32-98`, which translates its arguments for
`basis.ent_entropy` and the result back.  What `basis.ent_entropy` does is a parameter here (C41-C43 treat it).
`none` models an exception.
-/

namespace Model.EntWrapper

variable {N : ℕ}

/-- The argument `system_state` (measurements.py:68-79): an array, or one of two dictionaries. -/
inductive SystemState (N : ℕ) where
  | vector (v : Fin N → ℂ)
  | array (c : ℕ) (M : Matrix (Fin N) (Fin c) ℂ)
  | diagonal (V : Matrix (Fin N) (Fin N) ℂ) (rho_d : Fin N → ℂ)
  | states (c : ℕ) (V : Matrix (Fin N) (Fin c) ℂ)
  | other

/-- The argument `DM` (measurements.py:42-60). -/
inductive DM where
  | no
  | chainSubsys
  | otherSubsys
  | both
  | wrong

/-- An array given to `basis.ent_entropy`. -/
inductive Given (N : ℕ) where
  | vector (v : Fin N → ℂ)
  | array (c : ℕ) (M : Matrix (Fin N) (Fin c) ℂ)

/-- The keyword `return_rdm` (measurements.py:44, 49, 56). -/
inductive ReturnRdm where
  | nothing
  | A
  | B
  | both

/-- The keywords of the call of `basis.ent_entropy`. -/
structure Call (N : ℕ) where
  state : Given N
  enforcePure : Bool
  returnRdm : ReturnRdm
  returnEVs : Bool

/-- The dictionary `basis.ent_entropy` returns; absent keys are `none`. -/
structure Answer where
  sentA : Option ℝ
  sentB : Option ℝ
  rdmA : Option (ℕ → ℕ → ℂ)
  rdmB : Option (ℕ → ℕ → ℂ)
  pA : Option (List ℝ)

/-- The translated keys of the result. -/
structure Output where
  sent : ℝ
  chain : Option (ℕ → ℕ → ℂ)
  other : Option (ℕ → ℕ → ℂ)
  lmbda : Option (List ℝ)

/-- The state handed to the basis (measurements.py:68-79): `einsum("ji,j,jk->ik",V_rho,rho_d,V_rho.conj())`. -/
def stateOf : SystemState N → Option (Given N × Bool)
  | .vector v => some (.vector v, false)
  | .array c M => some (.array c M, false)
  | .diagonal V d => some (.array N fun i k => ∑ j, V j i * d j * star (V j k), false)
  | .states c V => some (.array c V, true)
  | .other => none

/-- `return_rdm` for `DM` (measurements.py:42-60). -/
def rdmOf : DM → Option ReturnRdm
  | .no => some .nothing
  | .chainSubsys => some .A
  | .otherSubsys => some .B
  | .both => some .both
  | .wrong => none

/-- `ent_entropy(system_state, basis, DM=dm, svd_return_vec=[_,lmbda,_])` (measurements.py:32-98).  A missing key raises
`KeyError`. -/
noncomputable def entEntropy (basis : Call N → Option Answer) (s : SystemState N) (dm : DM) (lmbda : Bool) : Option Output := do
  let r ← rdmOf dm
  let (g, pure) ← stateOf s
  let ans ← basis ⟨g, pure, r, lmbda⟩
  let sent ← match dm with
    | .otherSubsys => ans.sentB
    | _ => ans.sentA
  let chain ← match dm with
    | .chainSubsys => ans.rdmA.map some
    | .both => ans.rdmA.map some
    | _ => some none
  let other ← match dm with
    | .otherSubsys => ans.rdmB.map some
    | .both => ans.rdmB.map some
    | _ => some none
  let l ← if lmbda then ans.pA.map fun p => some (p.map Real.sqrt) else some none
  pure' ⟨sent, chain, other, l⟩
where
  pure' (o : Output) : Option Output := some o

end Model.EntWrapper
