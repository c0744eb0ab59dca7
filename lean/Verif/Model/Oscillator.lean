import Mathlib.Analysis.SpecialFunctions.Complex.Log
import Mathlib.Analysis.SpecialFunctions.Sqrt

/-!
Model of `coherent_state` and `photon_Hspace_dim` (`/repo/quspin/basis/photon.py`).  Floating point numbers are real numbers with the two special
values that occur.
-/

namespace Model.Oscillator

/-- A real floating point number: not a number, minus infinity, or finite. -/
inductive Val where
  | nan | negInf | fin (x : ℝ)

/-- `numpy.log` of a real number. -/
noncomputable def log (x : ℝ) : Val := if x < 0 then .nan else if x = 0 then .negInf else .fin (Real.log x)

/-- The product with a number that is not negative: infinity times zero is not a number. -/
noncomputable def times (x : Val) (k : ℝ) : Val :=
  match x with
  | .nan => .nan
  | .negInf => if k = 0 then .nan else .negInf
  | .fin y => .fin (y * k)

/-- The sum with a finite number. -/
noncomputable def plus (x : Val) (y : ℝ) : Val :=
  match x with
  | .nan => .nan
  | .negInf => .negInf
  | .fin z => .fin (y + z)

/-- `numpy.exp`. -/
noncomputable def exp (x : Val) : Val :=
  match x with
  | .nan => .nan
  | .negInf => .fin 0
  | .fin y => .fin (Real.exp y)

/-- `s3` (photon.py:42-45): `s3[0] = log 1`, then half of the sums of the logarithms. -/
noncomputable def halfLogs : ℕ → ℝ
  | 0 => Real.log 1
  | k + 1 => 0.5 * ((List.range (k + 1)).map fun (j : ℕ) => Real.log ((j + 1 : ℕ) : ℝ)).sum

/-- `coherent_state` (photon.py:15-47) for a real `a`; `s3[0] = 1` raises for `n = 0`. -/
noncomputable def coherentReal (a : ℝ) (n : ℕ) : Option (List Val) :=
  if n = 0 then none else some ((List.range n).map fun (k : ℕ) => exp (plus (times (log a) k) (-|a| ^ 2 / 2.0 - halfLogs k)))

/-- `coherent_state` (photon.py:15-47) for a complex `a` that is not zero. -/
noncomputable def coherentComplex (a : ℂ) (n : ℕ) : Option (List ℂ) :=
  if n = 0 then none
  else some ((List.range n).map fun (k : ℕ) => Complex.exp (((-‖a‖ ^ 2 / 2.0 : ℝ) : ℂ) + Complex.log a * k - (halfLogs k : ℂ)))

/-- `binom(N,m)` (scipy.special). -/
def binom (N m : ℕ) : ℝ := N.choose m

/-- `hyp2f1(1,-b,c,-1)` (scipy.special) for natural numbers `b`, `c > 0`: the series ends after `b + 1` terms; the `j`-th is
`∏_{i<j} (b - i) / (c + i)`. -/
noncomputable def hyp (b c : ℕ) : ℝ := ((List.range (b + 1)).map fun (j : ℕ) => ((List.range j).map fun (i : ℕ) => ((b : ℝ) - i) / (c + i)).prod).sum

/-- `photon_Hspace_dim` (photon.py:72-77).  `other` is the value of the hypergeometric function when its second argument is positive. -/
noncomputable def spaceDim (other : ℝ) (N : ℕ) (Ntot Nph : Option ℕ) : Option ℝ :=
  match Ntot, Nph with
  | none, some m => some (2 ^ N * (m + 1))
  | some t, _ => some (2 ^ N - binom N (t + 1) * if t + 1 ≤ N then hyp (N - 1 - t) (2 + t) else other)
  | none, none => none

end Model.Oscillator
