import Mathlib.Data.List.Sort
import Mathlib.Algebra.Order.Floor.Ring
import Mathlib.Analysis.SpecialFunctions.Log.Basic
import Mathlib.Analysis.SpecialFunctions.Pow.Real
import Mathlib.Analysis.Complex.Basic
import Mathlib.Data.Matrix.Mul
import Mathlib.LinearAlgebra.Matrix.ConjTranspose
import Mathlib.Algebra.Order.Archimedean.Real.Basic
/-!
`diag_ensemble` of `quspin/tools/measurements.py`, without the entanglement entropy (`Srdm_Renyi`).  Numbers are exact
real and complex numbers; `none` is NaN.
-/
namespace Model.DiagEns
open Matrix

variable {n m : ℕ}

/-- Spacing of double precision numbers at 1, `_np.finfo(...).eps`, `measurements.py:269`. -/
noncomputable def eps : ℝ := 1 / 2 ^ 52

/-- Errors of `diag_ensemble`, `measurements.py:270-358`. -/
inductive Err
  /-- `raise TypeError` -/
  | typeError
  /-- truth value of an array, minimum of an empty list -/
  | valueError
deriving DecidableEq

/-- The test for degenerate energies, `measurements.py:269`: `any(diff(sort(E2)) < 1E3*eps)`. -/
noncomputable def degenerate (E : Fin n → ℝ) : Prop :=
  let s := (List.ofFn E).insertionSort (· ≤ ·)
  ∃ d ∈ List.zipWith (fun a b => b - a) s s.tail, d < 1000 * eps

/-- The argument `Obs`, `measurements.py:100`: `False`, an array, or an object of class `hamiltonian`. -/
inductive ObsArg (n : ℕ)
  /-- `False` -/
  | no
  /-- `numpy.ndarray` (or a sparse matrix) -/
  | array (O : Matrix (Fin n) (Fin n) ℂ)
  /-- `hamiltonian` -/
  | hamiltonian (O : Matrix (Fin n) (Fin n) ℂ)

/-- `if not Obs: raise TypeError`, `measurements.py:278-280`: the truth value of an array with more than one element
raises `ValueError`; one element: whether it is zero. -/
noncomputable def checkObs (deltaT deltaQ : Bool) (obs : ObsArg n) : Except Err Unit :=
  open Classical in
  if deltaT || deltaQ then
    match obs with
    | .no => .error .typeError
    | .array O => if n > 1 then .error .valueError else if ∀ i j, O i j = 0 then .error .typeError else .ok ()
    | .hamiltonian _ => .ok ()
  else .ok ()

/-- A dictionary given as `system_state`, `measurements.py:296-333`: `f` is `none` for the Gibbs distribution
(line 327), `intArgs` says that `f_args[0][0]` is an integer, so that the arrays `rho_mixed` and `f_norms` have an
integer type (331, 343). -/
structure Dict (n m : ℕ) where
  /-- states in columns -/
  V1 : Matrix (Fin n) (Fin m) ℂ
  /-- energies -/
  E1 : Fin m → ℝ
  /-- distribution -/
  f : Option ((Fin m → ℝ) → ℝ → Fin m → ℝ)
  /-- arguments of the distribution -/
  args : List ℝ
  /-- the first argument is an integer -/
  intArgs : Bool
  /-- states whose values are also returned -/
  states : Option (List ℤ)
  /-- normalise the distribution -/
  norm : Bool

/-- The argument `system_state`, `measurements.py:284-358`. -/
inductive State (n m : ℕ)
  /-- one-dimensional array -/
  | pure (psi : Fin n → ℂ)
  /-- two-dimensional array -/
  | dm (rho : Matrix (Fin n) (Fin n) ℂ)
  /-- dictionary -/
  | dict (d : Dict n m)

/-- `rho = abs( system_state.conj().dot(V2) )**2`, `measurements.py:289`. -/
noncomputable def rhoPure (V : Matrix (Fin n) (Fin n) ℂ) (psi : Fin n → ℂ) (k : Fin n) : ℝ :=
  ‖∑ i, star (psi i) * V i k‖ ^ 2

/-- `rho = einsum('ij,ji->i', V2.T.conj(), system_state.dot(V2)).real`, `measurements.py:293`. -/
noncomputable def rhoDM (V rho : Matrix (Fin n) (Fin n) ℂ) (k : Fin n) : ℝ := (∑ j, Vᴴ k j * (rho * V) j k).re

/-- Column `p` of `rho = abs( V2.conj().T.dot(V1) )**2`, `measurements.py:354`. -/
noncomputable def rhoDict (V : Matrix (Fin n) (Fin n) ℂ) (V1 : Matrix (Fin n) (Fin m) ℂ) (p : Fin m) (k : Fin n) : ℝ :=
  ‖(Vᴴ * V1) k p‖ ^ 2

/-- `rho[rho<=1E-16] = eps`, `measurements.py:365`. -/
noncomputable def clip (r : ℝ) : ℝ := open Classical in if r ≤ 1 / 10 ^ 16 then eps else r

/-- `sqrt` of numpy for real numbers. -/
noncomputable def sqrtNan (x : ℝ) : Option ℝ := open Classical in if x < 0 then none else some (Real.sqrt x)

/-- `V2.T.conj().dot( Obs.dot(V2) )`, `measurements.py:374`. -/
noncomputable def rotated (V O : Matrix (Fin n) (Fin n) ℂ) : Matrix (Fin n) (Fin n) ℂ := Vᴴ * (O * V)

/-- `_np.diag(Obs).real`, `measurements.py:379`; line 383 computes the same numbers with `einsum`. -/
noncomputable def obsDiag (A : Matrix (Fin n) (Fin n) ℂ) (k : Fin n) : ℝ := (A k k).re

/-- `delta_t_Obs = square(Obs)` with the diagonal set to zero, `measurements.py:375-376`. -/
noncomputable def offSquare (A : Matrix (Fin n) (Fin n) ℂ) (j k : Fin n) : ℂ := if j = k then 0 else A j k ^ 2

/-- `_np.diag(Obs.dot(Obs)).real`, `measurements.py:378`. -/
noncomputable def squareDiag (A : Matrix (Fin n) (Fin n) ℂ) (k : Fin n) : ℝ := ((A * A) k k).re

/-- `Obs_d = Obs.dot(rho)`, `measurements.py:1211`. -/
noncomputable def obsD (A : Matrix (Fin n) (Fin n) ℂ) (r : Fin n → ℝ) : ℝ := ∑ k, obsDiag A k * r k

/-- `delta_t_Obs_d` before the square root, `measurements.py:1216`. -/
noncomputable def deltaTSq (A : Matrix (Fin n) (Fin n) ℂ) (r : Fin n → ℝ) : ℝ :=
  (∑ j, ∑ k, (r j : ℂ) * offSquare A j k * (r k : ℂ)).re

/-- `delta_q_Obs_d`, `measurements.py:1220`, before the square root. -/
noncomputable def deltaQSq (A : Matrix (Fin n) (Fin n) ℂ) (r : Fin n → ℝ) : ℝ :=
  ∑ k, r k * squareDiag A k - deltaTSq A r - obsD A r ^ 2

/-- `_entropy`, `measurements.py:1226-1236`; the weights are positive (see `clip`), so that no term is NaN. -/
noncomputable def entropy (alpha : ℝ) (p : Fin n → ℝ) : ℝ :=
  open Classical in
  if alpha = 1 then -∑ k, p k * Real.log (p k) else 1 / (1 - alpha) * Real.log (∑ k, p k ^ alpha)

/-- Names of the results, `measurements.py:1185-1201`. -/
inductive Quantity
  /-- `Obs_...` -/
  | obs
  /-- `delta_t_Obs_...` -/
  | deltaT
  /-- `delta_q_Obs_...` -/
  | deltaQ
  /-- `Sd_...` and `Sd_Renyi_...` -/
  | sd
deriving DecidableEq

/-- The arguments that say what to calculate, `measurements.py:100`. -/
structure Flags where
  /-- `density` -/
  density : Bool
  /-- `alpha` -/
  alpha : ℝ
  /-- `rho_d` -/
  rhoD : Bool
  /-- `delta_t_Obs` -/
  deltaT : Bool
  /-- `delta_q_Obs` -/
  deltaQ : Bool
  /-- `Sd_Renyi` -/
  sd : Bool

/-- The observable behind the argument. -/
def ObsArg.matrix : ObsArg n → Option (Matrix (Fin n) (Fin n) ℂ)
  | .no => none
  | .array O => some O
  | .hamiltonian O => some O

/-- The quantities `_inf_time_obs` returns for one column `r` of `rho`, `measurements.py:369-383`, 1185-1264, with
`value /= N` of line 432.  `delta_t_Obs` is returned whenever one of the two fluctuations was asked for (375). -/
noncomputable def infTime (N : ℕ) (fl : Flags) (V : Matrix (Fin n) (Fin n) ℂ) (O : Option (Matrix (Fin n) (Fin n) ℂ))
    (r : Fin n → ℝ) : List (Quantity × Option ℝ) :=
  let scale (x : Option ℝ) : Option ℝ := if fl.density then x.map (· / N) else x
  (match O with
    | none => []
    | some O =>
      let A := rotated V O
      [(.obs, scale (some (obsD A r)))]
        ++ (if fl.deltaT || fl.deltaQ then [(.deltaT, scale (sqrtNan (deltaTSq A r)))] else [])
        ++ (if fl.deltaQ then [(.deltaQ, scale (sqrtNan (deltaQSq A r)))] else []))
  ++ (if fl.sd then [(.sd, scale (some (entropy fl.alpha r)))] else [])

/-- Storing a number into an array whose type is that of `f_args[0][0]`, `measurements.py:343-350`: truncated if
that is an integer. -/
noncomputable def store (int : Bool) (x : ℝ) : ℝ := if int then (if 0 ≤ x then (⌊x⌋ : ℝ) else (⌈x⌉ : ℝ)) else x

/-- The distribution, `measurements.py:321-327`. -/
noncomputable def Dict.dist (d : Dict n m) (arg : ℝ) (p : Fin m) : ℝ :=
  match d.f with
  | some f => f d.E1 arg p
  | none => if h : 0 < m then Real.exp (-arg * (d.E1 p - d.E1 ⟨0, h⟩)) else 0

/-- `rho_mixed[p,i]`, `measurements.py:344-348`. -/
noncomputable def Dict.weight (d : Dict n m) (arg : ℝ) (p : Fin m) : ℝ :=
  store d.intArgs (if d.norm then d.dist arg p / ∑ q, d.dist arg q else d.dist arg p)

/-- Results. -/
structure Out (n : ℕ) where
  /-- per quantity one number, or one for every argument of the distribution -/
  vals : List (Quantity × List (Option ℝ))
  /-- `V1_state` -/
  states : List (Quantity × List (Option ℝ))
  /-- `f_norm` -/
  norms : Option (List ℝ)
  /-- columns of `rho_d` -/
  rho : Option (List (Fin n → ℝ))

/-- A sum in which one NaN makes the result NaN. -/
noncomputable def dotNan : List (Option ℝ) → List ℝ → Option ℝ
  | x :: xs, w :: ws => (x.map (· * w)).bind fun a => (dotNan xs ws).map (a + ·)
  | _, _ => some 0

/-- The quantities of all columns, grouped: `Expt_Diag`, whose values have one entry for every column. -/
noncomputable def grouped (cols : List (List (Quantity × Option ℝ))) : List (Quantity × List (Option ℝ)) :=
  match cols with
  | [] => []
  | c :: _ => (List.range c.length).filterMap fun i =>
      (c[i]?).map fun q => (q.1, cols.map fun c => ((c[i]?).map (·.2)).getD none)

/-- The checks of `V1_state`, `measurements.py:335-339`. -/
def checkStates (m : ℕ) (states : Option (List ℤ)) : Except Err Unit :=
  match states with
  | none => .ok ()
  | some [] => .error .valueError
  | some l => if l.all fun i => 0 ≤ i && i < m then .ok () else .error .typeError

/-- `diag_ensemble` for a dictionary, `measurements.py:296-356`, 421-460; `f_args[0]` not empty, positive `N`. -/
noncomputable def ensembleDict (N : ℕ) (fl : Flags) (V : Matrix (Fin n) (Fin n) ℂ) (O : Option (Matrix (Fin n) (Fin n) ℂ))
    (d : Dict n m) : Except Err (Out n) :=
  open Classical in
  if ¬ ((List.ofFn d.E1).Pairwise (· ≤ ·)) then .error .typeError
  else match checkStates m d.states with
    | .error e => .error e
    | .ok () =>
      if fl.alpha < 0 then .error .typeError
      else
        let cols : List (Fin n → ℝ) := List.ofFn fun p k => clip (rhoDict V d.V1 p k)
        let values := grouped (cols.map (infTime N fl V O))
        .ok { vals := values.map fun q => (q.1, d.args.map fun a => dotNan q.2 (List.ofFn (d.weight a)))
              states := match d.states with
                | none => []
                | some l => values.map fun q => (q.1, l.map fun i => (q.2[i.toNat]?).getD none)
              norms := if d.norm then none else some (d.args.map fun a => store d.intArgs (∑ p, d.dist a p))
              rho := if fl.rhoD then
                  (match d.states with
                    | none => some cols
                    | some l => some (l.filterMap fun i => cols[i.toNat]?))
                else none }

/-- `diag_ensemble`, `measurements.py:267-460`, for positive `N`. -/
noncomputable def diagEnsemble (N : ℕ) (st : State n m) (E : Fin n → ℝ) (V : Matrix (Fin n) (Fin n) ℂ) (fl : Flags)
    (obs : ObsArg n) : Except Err (Out n) :=
  open Classical in
  if degenerate E then .error .typeError
  else match checkObs fl.deltaT fl.deltaQ obs with
    | .error e => .error e
    | .ok () =>
      let one (r : Fin n → ℝ) : Except Err (Out n) :=
        if fl.alpha < 0 then .error .typeError
        else .ok { vals := (infTime N fl V obs.matrix fun k => clip (r k)).map fun q => (q.1, [q.2])
                   states := [], norms := none
                   rho := if fl.rhoD then some [fun k => clip (r k)] else none }
      match st with
      | .pure psi => one (rhoPure V psi)
      | .dm rho => one (rhoDM V rho)
      | .dict d => ensembleDict N fl V obs.matrix d

end Model.DiagEns
