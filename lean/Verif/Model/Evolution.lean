import Verif.Model.Evaluate
import Mathlib.Analysis.SpecialFunctions.Exp
import Mathlib.Analysis.SpecialFunctions.Complex.Circle
import Mathlib.Analysis.SpecialFunctions.Sqrt

/-!
Model of `quspin/tools/evolution.py`: the wrapper `evolve` around a solver of ordinary differential equations, and
`ED_state_vs_time`.

* `scipy.integrate.ode` is not modelled.  It appears as a parameter `step`: given the time and the state it holds, and
  the requested time, it returns the new state or fails.
* `ravel`/`reshape` of the states and `view` of complex numbers as pairs of real numbers keep the order of the
  elements; they are modelled explicitly only where they can fail (`stack_state`).
* Arrays changed in place are returned as part of the new solver state.
* The generator branch of `evolve` (`_evolve_iter`) formats the same states in the same order as the list branch.
-/

namespace Model.Evolution
open Complex

variable {Y : Type}

/-- What `ode` holds. -/
structure Solver (Y : Type) where
  time : ℝ
  y : Y

/-- One pass of the loop in `_evolve_list` (evolution.py:382-396): `fmt` is `_format_output`, which returns the output
and leaves a changed array behind (evolution.py:345-358).  At `t == t0` the array `v0` is formatted, otherwise the
array of the solver; `set_initial_value` keeps a reference to `v0`, so that until the first integration they are the
same array: `fresh` says so. -/
noncomputable def listStep (step : ℝ → Y → ℝ → Option Y) (fmt : Y → Y) (t0 : ℝ) (st : Y × Bool × Solver Y) (t : ℝ) :
    Option (Y × (Y × Bool × Solver Y)) :=
  if t = t0 then
    let out := fmt st.1
    some (out, (out, st.2.1, if st.2.1 then ⟨st.2.2.time, out⟩ else st.2.2))
  else
    (step st.2.2.time st.2.2.y t).map fun y =>
      let out := fmt y
      (out, (st.1, false, ⟨t, out⟩))

/-- `_evolve_list` (evolution.py:372-403): the outputs in the order of `times`. -/
noncomputable def evolveLoop (step : ℝ → Y → ℝ → Option Y) (fmt : Y → Y) (t0 : ℝ) : (Y × Bool × Solver Y) → List ℝ → Option (List Y)
  | _, [] => some []
  | st, t :: ts => (listStep step fmt t0 st t).bind fun r => (evolveLoop step fmt t0 r.2 ts).map fun rest => r.1 :: rest

/-- `evolve(v0, t0, times, f)` with an array of times (evolution.py:143-337). -/
noncomputable def evolveList (step : ℝ → Y → ℝ → Option Y) (fmt : Y → Y) (t0 : ℝ) (v0 : Y) (times : List ℝ) : Option (List Y) :=
  evolveLoop step fmt t0 (v0, true, ⟨t0, v0⟩) times

/-- `_evolve_scalar` (evolution.py:362-370). -/
noncomputable def evolveScalar (step : ℝ → Y → ℝ → Option Y) (fmt : Y → Y) (t0 : ℝ) (v0 : Y) (t : ℝ) : Option Y :=
  if t = t0 then some (fmt v0) else (step t0 v0 t).map fmt

section Imaginary
variable {n κ : Type} [Fintype n] [Fintype κ]

/-- `numpy.linalg.norm(v0)` after `ravel` (evolution.py:276-283): of all the columns together. -/
noncomputable def totalNorm (v : Matrix n κ ℂ) : ℝ := Real.sqrt (∑ i, ∑ j, ‖v i j‖ ^ 2)

/-- `norm(yout, axis=0)` (evolution.py:356). -/
noncomputable def columnNorm (v : Matrix n κ ℂ) (j : κ) : ℝ := Real.sqrt (∑ i, ‖v i j‖ ^ 2)

/-- `_format_output` with `imag_time` (evolution.py:355-356). -/
noncomputable def imagFormat (norm0 : ℝ) (v : Matrix n κ ℂ) : Matrix n κ ℂ :=
  fun i j => v i j / ((columnNorm v j / norm0 : ℝ) : ℂ)

/-- `evolve(..., imag_time=True)`. -/
noncomputable def evolveImag (step : ℝ → Matrix n κ ℂ → ℝ → Option (Matrix n κ ℂ)) (t0 : ℝ) (v0 : Matrix n κ ℂ)
    (times : List ℝ) : Option (List (Matrix n κ ℂ)) :=
  evolveList step (imagFormat (totalNorm v0)) t0 v0 times

end Imaginary

section Stack
variable {N k : Nat}

/-- The array given to the solver for `stack_state` (evolution.py:285-300): the real parts of all the elements in row
order, then the imaginary parts. -/
def stackPack (v : Matrix (Fin N) (Fin k) ℂ) : List ℝ :=
  (List.ofFn fun p : Fin (N * k) => (v p.divNat p.modNat).re) ++ List.ofFn fun p : Fin (N * k) => (v p.divNat p.modNat).im

/-- How `__SO_real` reads the array: `V.reshape(V_out.shape)` with `V_out` of shape `(2 Ns, k)`
(hamiltonian_core.py:1449-1451, 1324): the first `Ns` rows and the last `Ns` rows. -/
def stackView (N k : Nat) (y : List ℝ) : Matrix (Fin N) (Fin k) ℝ × Matrix (Fin N) (Fin k) ℝ :=
  (fun i j => y.getD (i * k + j) 0, fun i j => y.getD ((N + i) * k + j) 0)

/-- `_format_output` with `stack_state` (evolution.py:345-349): `y[:Ns].reshape(shape0)` and `y[Ns:].reshape(shape0)`
raise unless the sizes agree. -/
noncomputable def stackFormat (N k : Nat) (y : List ℝ) : Option (Matrix (Fin N) (Fin k) ℂ) :=
  if (y.take N).length = N * k ∧ (y.drop N).length = N * k then
    some fun i j => ((y.take N).getD (i * k + j) 0 : ℂ) + I * ((y.drop N).getD (i * k + j) 0 : ℂ)
  else none

end Stack

section Exact
variable {N : Nat}

/-- `ED_state_vs_time(psi, E, V, times)` for a state (evolution.py:97-118): the state at `times[m]` is column `m`.
`numpy.squeeze` leaves no axis of an array with one element, and `psi.shape[0]` raises (58, 64). -/
noncomputable def edPure {m : Nat} (psi : Fin N → ℂ) (E : Fin N → ℝ) (V : Matrix (Fin N) (Fin N) ℂ) (times : Fin m → ℝ) :
    Option (Matrix (Fin N) (Fin m) ℂ) :=
  if N = 1 then none else
  let c : Fin N → ℂ := fun a => ∑ i, star (V i a) * psi i
  let psiT : Matrix (Fin m) (Fin N) ℂ := fun m a => exp (-I * times m * E a) * c a
  some fun i m => ∑ a, V i a * psiT m a

/-- The generator for a state (evolution.py:81-86). -/
noncomputable def edPureIter (psi : Fin N → ℂ) (E : Fin N → ℝ) (V : Matrix (Fin N) (Fin N) ℂ) (times : List ℝ) :
    Option (List (Fin N → ℂ)) :=
  if N = 1 then none else
  let c : Fin N → ℂ := fun a => ∑ i, star (V i a) * psi i
  some (times.map fun (t : ℝ) i => ∑ a, V i a * (exp (E a * (-I * t)) * c a))

/-- `ED_state_vs_time(psi, E, V, times)` for a density matrix (evolution.py:119-137). -/
noncomputable def edMixed {m : Nat} (psi : Matrix (Fin N) (Fin N) ℂ) (E : Fin N → ℝ) (V : Matrix (Fin N) (Fin N) ℂ)
    (times : Fin m → ℝ) : Option (Fin N → Fin N → Fin m → ℂ) :=
  if N = 1 then none else
  let rho : Matrix (Fin N) (Fin N) ℂ := fun a b => ∑ i, star (V i a) * ∑ j, psi i j * V j b
  let e : Fin m → Fin N → ℂ := fun m a => exp (-I * times m * E a)
  some fun i l m => ∑ a, ∑ b, V i a * e m a * rho a b * star (e m b) * star (V l b)

/-- The generator for a density matrix (evolution.py:88-94). -/
noncomputable def edMixedIter (psi : Matrix (Fin N) (Fin N) ℂ) (E : Fin N → ℝ) (V : Matrix (Fin N) (Fin N) ℂ)
    (times : List ℝ) : Option (List (Matrix (Fin N) (Fin N) ℂ)) :=
  if N = 1 then none else
  let rho : Matrix (Fin N) (Fin N) ℂ := fun a b => ∑ i, star (V i a) * ∑ j, psi i j * V j b
  some (times.map fun (t : ℝ) i l => ∑ a, ∑ b, V i a * exp (-I * t * E a) * rho a b * star (exp (-I * t * E b)) * star (V l b))

end Exact

end Model.Evolution
