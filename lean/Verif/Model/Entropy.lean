import Verif.Model.PartialTrace
import Mathlib.Analysis.SpecialFunctions.Log.Basic
import Mathlib.Analysis.SpecialFunctions.Pow.Real

/-!
Model of entanglement entropies: `lattice_basis._ent_entropy` (quspin/basis/lattice.py:263-415), `tensor_basis.ent_entropy`
(quspin/basis/tensor.py:473-668) and the spectra they come from (lattice.py:421-582, tensor.py:673-806).

Simplifications: one state, already in the full basis; `sub_sys_A` already sorted if this is asked for (lattice.py:292-293); exact numbers;
`eps`, which stands for `numpy.finfo(..).eps`, is a number of our choice.  The decompositions come from numpy and scipy and are functions with
a contract (in `Proof/Entropy`).  A value that is not a number, or infinite, is `none`; errors are `none` as well, one level further out.
-/

namespace Model.Entropy
open Model.PartialTrace

/-- `U, lmbda, V` of a singular value decomposition. -/
structure Svd where
  U : ℕ → ℕ → ℂ
  s : List ℝ
  V : ℕ → ℕ → ℂ

/-- `numpy.log` -/
noncomputable def log (x : ℝ) : Option ℝ := if 0 < x then some (Real.log x) else none

/-- `nansum(p * log(p))`: summands that are not numbers are left out (lattice.py:373). -/
noncomputable def sumLog (p : List ℝ) : ℝ := (p.map fun x => if 0 < x then x * Real.log x else 0).sum

/-- `nansum(power(p, alpha))` (lattice.py:380).  Simplification: powers of negative numbers always count as not a number. -/
noncomputable def sumPower (alpha : ℝ) (p : List ℝ) : ℝ := (p.map fun x => if 0 ≤ x then x ^ alpha else 0).sum

/-- `if density: Sent_A /= N_A` (lattice.py:374) -/
noncomputable def perSite (density : Bool) (n : ℕ) (S : ℝ) : Option ℝ :=
  if density then if n = 0 then none else some (S / n) else some S

/-- The entropy of a spectrum for lattice bases (lattice.py:371-387); the outer `none` is the `ValueError`. -/
noncomputable def lattice (alpha : ℝ) (density : Bool) (n : ℕ) (p : List ℝ) : Option (Option ℝ) :=
  if alpha = 1 then some (perSite density n (-sumLog p))
  else if 0 ≤ alpha then some ((log (sumPower alpha p)).bind fun S => perSite density n (S / (1 - alpha)))
  else none

/-- The entropy of a spectrum for tensor bases (tensor.py:624-637). -/
noncomputable def tensor (alpha : ℝ) (p : List ℝ) : Option (Option ℝ) :=
  if alpha = 1 then some (some (-sumLog p))
  else if 0 ≤ alpha then some (log (sumPower alpha p / (1 - alpha)))
  else none

/-- `return_rdm` -/
inductive Rdm where
  | none | A | B | both
  deriving DecidableEq

/-- The checks of `sub_sys_A` (lattice.py:272-285). -/
def checks (L : ℕ) (A : List ℕ) : Bool := A.length < L && A.all (· ≤ L) && A.Nodup

/-- The spectrum and the matrices of a pure state (`_p_pure`, lattice.py:421-467, tensor.py:673-699), from the reshaped state `v` with `m` rows
and `n` columns. -/
noncomputable def pure (svd : ℕ → ℕ → (ℕ → ℕ → ℂ) → Svd) (eps : ℝ) (m n : ℕ) (v : ℕ → ℕ → ℂ) :
    List ℝ × (ℕ → ℕ → ℂ) × (ℕ → ℕ → ℂ) :=
  let r := svd m n v
  (r.s.map fun x => x ^ 2 + eps,
    fun i k => ∑ j ∈ Finset.range r.s.length, r.U i j * (r.s.getD j 0 : ℂ) ^ 2 * star (r.U k j),
    fun i k => ∑ j ∈ Finset.range r.s.length, star (r.V j i) * (r.s.getD j 0 : ℂ) ^ 2 * r.V j k)

/-- `Sent_A` and `Sent_B` of a pure state in a lattice basis (lattice.py:263-387, dense). -/
noncomputable def latticePure (svd : ℕ → ℕ → (ℕ → ℕ → ℂ) → Svd) (eps : ℝ) (sps L : ℕ) (A B : List ℕ) (Ns : ℕ) (psi : ℕ → ℂ) (alpha : ℝ)
    (density : Bool) : Option (Option ℝ × Option ℝ) :=
  if checks L A then
    (reshapePure sps A B Ns psi).bind fun v =>
      let p := (pure svd eps (sps ^ A.length) (sps ^ B.length) v).1
      (lattice alpha density A.length p).bind fun SA => (lattice alpha density (L - A.length) p).map fun SB => (SA, SB)
  else none

/-- `rdm_A` and `rdm_B` as the entropy function returns them (lattice.py:459-465). -/
noncomputable def latticeRdm (svd : ℕ → ℕ → (ℕ → ℕ → ℂ) → Svd) (sps L : ℕ) (A B : List ℕ) (Ns : ℕ) (psi : ℕ → ℂ) :
    Option ((ℕ → ℕ → ℂ) × (ℕ → ℕ → ℂ)) :=
  if checks L A then (reshapePure sps A B Ns psi).map fun v => (pure svd 0 (sps ^ A.length) (sps ^ B.length) v).2 else none

/-- `Sent_A` and `Sent_B` of a mixed state in a lattice basis (lattice.py:532-582, 367-387): only the matrices that are asked for give entropies;
`none` is the one that is not computed. -/
noncomputable def latticeMixed (eigvalsh : ℕ → (ℕ → ℕ → ℂ) → List ℝ) (eps : ℝ) (sps L : ℕ) (A B : List ℕ) (Ns : ℕ) (rho : ℕ → ℕ → ℂ)
    (alpha : ℝ) (density : Bool) (rdm : Rdm) : Option (Option (Option ℝ) × Option (Option ℝ)) :=
  if checks L A then
    (traceMixed sps L A B Ns rho).bind fun r =>
      (lattice alpha density A.length ((eigvalsh (sps ^ A.length) r.1).map (· + eps))).bind fun SA =>
        (lattice alpha density (L - A.length) ((eigvalsh (sps ^ B.length) r.2).map (· + eps))).map fun SB =>
          (if rdm = .B then none else some SA, if rdm = .B ∨ rdm = .both then some SB else none)
  else none

/-- Which matrix `_p_pure_sparse` diagonalises (lattice.py:479-504): `true` for `rdm_A`. -/
def sparseChoice (NA NB : ℕ) (rdm : Rdm) : Bool :=
  match rdm with
  | .none => NA ≤ NB
  | .A => if NA ≤ NB then true else NA < NB
  | .B => if NB ≤ NA then false else NA < NB
  | .both => NA < NB

/-- `Sent_A` and `Sent_B` of a sparse pure state in a lattice basis (lattice.py:469-530, 367-387).  The two halves of the spectrum from `eigsh`
are one list here. -/
noncomputable def latticeSparse (eigvalsh : ℕ → (ℕ → ℕ → ℂ) → List ℝ) (quotient : ℕ → ℕ → ℕ) (eps : ℝ) (sps L : ℕ) (A B : List ℕ)
    (psi : List (ℕ × ℂ)) (alpha : ℝ) (density : Bool) (rdm : Rdm) : Option (Option ℝ × Option ℝ) :=
  if checks L A then
    let r := traceSparse quotient sps L A B psi
    let p := (if sparseChoice A.length (L - A.length) rdm then eigvalsh (sps ^ A.length) r.1 else eigvalsh (sps ^ B.length) r.2).map (· + eps)
    (lattice alpha density A.length p).bind fun SA => (lattice alpha density (L - A.length) p).map fun SB => (SA, SB)
  else none

/-- `sub_sys_A` of a tensor basis -/
inductive Side where
  | left | right | both
  deriving DecidableEq

/-- `_tensor_reshape_pure` (_reshape_subsys.py:219-227): every other word than "left" means right. -/
def tensorReshape (side : Side) (Nr : ℕ) (psi : ℕ → ℂ) (i j : ℕ) : ℂ := if side = .left then psi (i * Nr + j) else psi (j * Nr + i)

/-- `Sent_A` and `Sent_B` of a pure state in a tensor basis (tensor.py:473-637, dense); `Nl` and `Nr` are the dimensions. -/
noncomputable def tensorPure (svd : ℕ → ℕ → (ℕ → ℕ → ℂ) → Svd) (eps : ℝ) (side : Side) (Nl Nr : ℕ) (psi : ℕ → ℂ) (alpha : ℝ) :
    Option (Option ℝ × Option ℝ) :=
  let m := if side = .left then Nl else Nr
  let n := if side = .left then Nr else Nl
  let p := (pure svd eps m n (tensorReshape side Nr psi)).1
  (tensor alpha p).map fun S => (S, S)

end Model.Entropy
