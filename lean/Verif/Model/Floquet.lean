import Verif.Spec.Reads
import Mathlib.Analysis.SpecialFunctions.Complex.Log
import Mathlib.Data.List.Sort

/-!
Model of the class `Floquet` (/repo/quspin/tools/Floquet.py:25-415).

Simplifications: numbers are exact; a hamiltonian stands for the matrix it gives at every time (C50, C51) and for its drives;
`expm_multiply(M, v)` is `e^M v`; `H.evolve` and the routines of scipy are arguments (`Tools`), described by contracts in the property;
the tests for types and number of dimensions of the arguments are left out; `joblib` returns the results in the order of the tasks.
-/

namespace Model.Floquet
open Matrix

variable {n : Nat}

/-- `zeros`, then `psi0[i]=1.0` (Floquet.py:45-46, 88-89, 102-103). -/
def unit (i : Fin n) : Fin n → ℂ := fun j => if j = i then 1 else 0

/-- The routines that are called: `eig`, `eigvals`, `qr`, `logm` of scipy, `argsort` of numpy, and `evolve` of a hamiltonian from time 0
(Floquet.py:52, 324, 328, 331, 340, 346). -/
structure Tools (n : Nat) where
  eig : Matrix (Fin n) (Fin n) ℂ → (Fin n → ℂ) × Matrix (Fin n) (Fin n) ℂ
  eigvals : Matrix (Fin n) (Fin n) ℂ → Fin n → ℂ
  qr : Matrix (Fin n) (Fin n) ℂ → Matrix (Fin n) (Fin n) ℂ
  logm : Matrix (Fin n) (Fin n) ℂ → Matrix (Fin n) (Fin n) ℂ
  argsort : (Fin n → ℝ) → Fin n → Fin n
  evolve : (ℝ → Matrix (Fin n) (Fin n) ℂ) → (Fin n → ℂ) → List ℝ → Option (List (Fin n → ℂ))

/-- `linspace(0,T,num=nsteps+1,endpoint=True)` (Floquet.py:57). -/
noncomputable def times (T : ℝ) (nsteps : Nat) : List ℝ := (List.range (nsteps + 1)).map fun (k : Nat) => T * k / nsteps

/-- The loop of `_evolve_cont`: `nsteps` steps first, ten times as many after a failure, as long as there are less than `10^7`
(Floquet.py:50-59).  The first list is `[0, T]`, which is `times T 1`. -/
noncomputable def attempts (run : List ℝ → Option (List (Fin n → ℂ))) (T : ℝ) : Nat → Nat → Option (Fin n → ℂ)
  | 0, _ => none
  | fuel + 1, nsteps =>
    if nsteps < 10 ^ 7 then
      match run (if nsteps = 1 then [0, T] else times T nsteps) with
      | some psi => psi.getLast?
      | none => attempts run T fuel (nsteps * 10)
    else none

/-- `_evolve_cont` (Floquet.py:39-59). -/
noncomputable def evolveCont (tl : Tools n) (H : ℝ → Matrix (Fin n) (Fin n) ℂ) (T : ℝ) (i : Fin n) : Option (Fin n → ℂ) :=
  attempts (tl.evolve H (unit i)) T 8 1

/-- `_evolve_step_3` (Floquet.py:83-95). -/
noncomputable def evolveStep3 (Hs : List (Matrix (Fin n) (Fin n) ℂ)) (dts : List ℝ) (i : Fin n) : Fin n → ℂ :=
  (dts.zip Hs).foldl (fun psi p => (NormedSpace.exp ((-Complex.I * p.1) • p.2)).mulVec psi) (unit i)

/-- `_evolve_step_2` (Floquet.py:97-109). -/
noncomputable def evolveStep2 (H : ℝ → Matrix (Fin n) (Fin n) ℂ) (ts dts : List ℝ) (i : Fin n) : Fin n → ℂ :=
  (ts.zip dts).foldl (fun psi p => (NormedSpace.exp ((-Complex.I * p.2) • H p.1)).mulVec psi) (unit i)

/-- `vstack(sols)`: the vectors become the rows (Floquet.py:118, 124, 130). -/
def vstack (sols : Fin n → Fin n → ℂ) : Matrix (Fin n) (Fin n) ℂ := Matrix.of sols

/-- The forms of `evo_dict` (Floquet.py:220-225, 268-282, 292-303). -/
inductive Protocol (n : Nat) where
  | continuous (H : ℝ → Matrix (Fin n) (Fin n) ℂ) (drives : List (ℝ → ℂ)) (T : ℝ)
  | stepTimes (H : ℝ → Matrix (Fin n) (Fin n) ℂ) (ts dts : List ℝ) (T : Option ℝ)
  | stepList (Hs : List (Matrix (Fin n) (Fin n) ℂ)) (dts : List ℝ) (T : Option ℝ)

/-- The test of the period: every drive at one time `t0` and one period later (Floquet.py:251-256). -/
def periodTest (t0 tol T : ℝ) (drives : List (ℝ → ℂ)) : Prop := ∀ f ∈ drives, ¬‖f t0 - f (t0 + T)‖ > tol

open Classical in
/-- `UF` and `T`; `none` where an error is raised (Floquet.py:217-318).  `H_list[0]` of an empty list is an error. -/
noncomputable def period (tl : Tools n) (t0 tol : ℝ) : Protocol n → Option (Matrix (Fin n) (Fin n) ℂ × ℝ)
  | .continuous H drives T =>
    if periodTest t0 tol T drives then
      if h : ∀ i, (evolveCont tl H T i).isSome then some (vstack fun i => (evolveCont tl H T i).get (h i), T) else none
    else none
  | .stepTimes H ts dts T => some (vstack (evolveStep2 H ts dts), T.getD dts.sum)
  | .stepList Hs dts T => if dts.length = Hs.length ∧ Hs ≠ [] then some (vstack (evolveStep3 Hs dts), T.getD dts.sum) else none

/-- numpy compares complex numbers by their real parts, then by their imaginary parts. -/
def lexLe (a b : ℂ) : Prop := a.re < b.re ∨ a.re = b.re ∧ a.im ≤ b.im

/-- `<` of numpy for a complex and a real number (Floquet.py:330). -/
def lexLt (a : ℂ) (x : ℝ) : Prop := a.re < x ∨ a.re = x ∧ a.im < 0

/-- Neighbours of a list differ by less than `eps`: `any(diff(l) < eps)` (Floquet.py:330). -/
def anyClose (eps : ℝ) : List ℂ → Prop
  | a :: b :: r => lexLt (b - a) eps ∨ anyClose eps (b :: r)
  | _ => False

open Classical in
/-- The test of degeneracy (Floquet.py:330). -/
noncomputable def degenerate (eps : ℝ) (theta : Fin n → ℂ) : Prop := anyClose eps ((List.ofFn theta).insertionSort lexLe)

/-- `real(1j/T*log(thetaF))` (Floquet.py:338, 348). -/
noncomputable def energies (T : ℝ) (theta : Fin n → ℂ) : Fin n → ℝ := fun k => (Complex.I / T * Complex.log (theta k)).re

/-- The optional attributes asked for (Floquet.py:210-214). -/
structure Flags where
  HF : Bool
  UF : Bool
  VF : Bool
  thetaF : Bool

/-- The attributes; an attribute that is `none` raises when read (Floquet.py:358-415). -/
structure Object (n : Nat) where
  T : ℝ
  EF : Fin n → ℝ
  HF : Option (Matrix (Fin n) (Fin n) ℂ)
  UF : Option (Matrix (Fin n) (Fin n) ℂ)
  VF : Option (Matrix (Fin n) (Fin n) ℂ)
  thetaF : Option (Fin n → ℂ)

open Classical in
/-- Phases and states before they are ordered (Floquet.py:326-331, 345-346). -/
noncomputable def diagonalise (tl : Tools n) (eps : ℝ) (vf : Bool) (U : Matrix (Fin n) (Fin n) ℂ) :
    (Fin n → ℂ) × Option (Matrix (Fin n) (Fin n) ℂ) :=
  if vf then ((tl.eig U).1, some (if degenerate eps (tl.eig U).1 then tl.qr (tl.eig U).2 else (tl.eig U).2))
  else (tl.eigvals U, none)

/-- `Floquet(evo_dict,HF,UF,thetaF,VF)` (Floquet.py:170-355). -/
noncomputable def create (tl : Tools n) (t0 tol eps : ℝ) (fl : Flags) (p : Protocol n) : Option (Object n) :=
  (period tl t0 tol p).map fun r =>
    let d := diagonalise tl eps fl.VF r.1
    let ind := tl.argsort (energies r.2 d.1)
    { T := r.2
      EF := fun k => energies r.2 d.1 (ind k)
      HF := if fl.HF then some ((Complex.I / r.2) • tl.logm r.1) else none
      UF := if fl.UF then some r.1 else none
      VF := d.2.map fun V => V.submatrix id ind
      thetaF := if fl.thetaF then some (fun k => d.1 (ind k)) else none }

end Model.Floquet
