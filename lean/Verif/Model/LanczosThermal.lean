import Verif.Model.Lanczos
import Mathlib.Analysis.SpecialFunctions.Exp
import Mathlib.Data.Matrix.Mul

/-!
Model of what is computed from a Lanczos basis: `expm_lanczos` (quspin/tools/lanczos/_expm.py), `FTLM_static_iteration`
(quspin/tools/lanczos/_FTLM.py) and `LTLM_static_iteration` (quspin/tools/lanczos/_LTLM.py).

Simplifications: exact arithmetic; one operator and one inverse temperature (the functions treat all of them alike, except for
`beta.min()`, which then is `beta`); `E`, `V` and the `k + 1` vectors `Q_T` are given.
-/

namespace Model.LanczosThermal
open Matrix
open Spec.Lanczos (ip)

variable {n : Type} [Fintype n] {k : ℕ}

omit [Fintype n] in
/-- `expm_lanczos(E, V, Q_T, a)` (_expm.py:49-50). -/
noncomputable def expm (E : Fin (k + 1) → ℝ) (V : Matrix (Fin (k + 1)) (Fin (k + 1)) ℝ) (Q : List (n → ℂ)) (a : ℂ) : Option (n → ℂ) :=
  Lanczos.linComb (List.ofFn fun i => ∑ j, (V i j : ℂ) * (Complex.exp (a * E j) * V 0 j)) Q

/-- The numbers `c` of `FTLM_static_iteration` (_FTLM.py:94-95). -/
noncomputable def weights (E : Fin (k + 1) → ℝ) (V : Matrix (Fin (k + 1)) (Fin (k + 1)) ℝ) (beta : ℝ) (i : Fin (k + 1)) : ℝ :=
  ∑ j, V 0 j * V i j * Real.exp (-(beta * E j))

/-- `FTLM_static_iteration({key: O}, E, V, Q_T, beta)`: the entry for the operator and the value for the identity (_FTLM.py:94-110). -/
noncomputable def ftlm (O : Matrix n n ℂ) (E : Fin (k + 1) → ℝ) (V : Matrix (Fin (k + 1)) (Fin (k + 1)) ℝ) (Q : List (n → ℂ)) (beta : ℝ) :
    ℂ × ℝ :=
  (∑ i : Fin (k + 1), (weights E V beta i : ℂ) * ip (Q.getD i 0) (O *ᵥ Q.getD 0 0), weights E V beta 0)

open Classical in
/-- The number of vectors `LTLM_static_iteration` keeps (_LTLM.py:93-100): up to the first Ritz value whose weight is below the
precision `feps`. -/
noncomputable def cut (E : Fin (k + 1) → ℝ) (V : Matrix (Fin (k + 1)) (Fin (k + 1)) ℝ) (beta feps : ℝ) : ℕ :=
  ((List.finRange (k + 1)).findIdx? fun i =>
    decide (Real.exp (-(E i * beta)) * Finset.univ.sup' Finset.univ_nonempty (fun j => |V 0 j|) < feps)).getD (k + 1)

/-- `LTLM_static_iteration({key: O}, E, V, Q_T, beta)` (_LTLM.py:93-140); `none` is the `IndexError` of `V[0,:]` for `nv = 0`. -/
noncomputable def ltlm (O : Matrix n n ℂ) (E : Fin (k + 1) → ℝ) (V : Matrix (Fin (k + 1)) (Fin (k + 1)) ℝ) (Q : List (n → ℂ))
    (beta feps : ℝ) : Option (ℂ × ℝ) :=
  let nv := cut E V beta feps
  let K := Finset.univ.filter fun i : Fin (k + 1) => (i : ℕ) < nv
  if nv = 0 then none
  else
    let ome : Fin (k + 1) → Fin (k + 1) → ℂ := fun i j => ip (Q.getD j 0) (O *ᵥ Q.getD i 0)
    let c : Fin (k + 1) → ℝ := fun j => V 0 j * Real.exp (-(E j * (beta / 2)))
    let diag : Fin (k + 1) → Fin (k + 1) → ℂ := fun j l => ∑ i ∈ K, (V i j : ℂ) * ∑ p ∈ K, ome i p * V p l
    some (∑ j ∈ K, ∑ l ∈ K, (c j : ℂ) * c l * diag j l, ∑ j ∈ K, V 0 j ^ 2 * Real.exp (-(E j * beta)))

end Model.LanczosThermal
