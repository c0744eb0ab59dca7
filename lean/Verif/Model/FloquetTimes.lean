import Mathlib.Analysis.SpecialFunctions.Trigonometric.Basic

/-!
Model of `Floquet_t_vec` (quspin/tools/Floquet.py:420-810).

Simplifications: exact real numbers instead of double precision; numbers of periods are natural numbers and `len_T` is positive (numpy
raises for `len_T = 0`).
-/

namespace Model.FloquetTimes

/-- `numpy.linspace(start, stop, num)` (Floquet.py:470). -/
noncomputable def linspace (start stop : ℝ) (num : ℕ) : List ℝ :=
  (List.range num).map fun k : ℕ => start + k * ((stop - start) / ((num - 1 : ℕ) : ℝ))

/-- `numpy.arange(0, size, len_T)` (Floquet.py:692). -/
def arange (size L : ℕ) : List ℕ := (List.range ((size + L - 1) / L)).map (· * L)

/-- `_strobo_times` (Floquet.py:685-697): indices and values. -/
structure Strobo where
  inds : List ℕ
  vals : List ℝ

/-- `_strobo_times.__init__` (Floquet.py:686-697): the values are taken before the indices are shifted. -/
def strobo (t : List ℝ) (L ind0 : ℕ) : Strobo := ⟨(arange t.length L).map (· + ind0), (arange t.length L).map fun i => t.getD i 0⟩

/-- `_periodic_ramp` (Floquet.py:731-743). -/
structure Ramp where
  N : ℕ
  vals : List ℝ
  i : ℝ
  f : ℝ
  tot : ℝ
  len : ℕ
  strobo : Strobo

/-- `_periodic_ramp.__init__` (Floquet.py:732-743). -/
noncomputable def ramp (N : ℕ) (t : List ℝ) (T : ℝ) (L ind0 : ℕ) : Ramp :=
  ⟨N, t, t.headD 0, t.getLastD 0, N * T, t.length, strobo t L ind0⟩

/-- The attributes of `Floquet_t_vec`; segments that are not defined are `none`. -/
structure Times where
  N : ℕ
  lenT : ℕ
  T : ℝ
  vals : List ℝ
  dt : ℝ
  strobo : Strobo
  i : ℝ
  f : ℝ
  tot : ℝ
  up : Option Ramp
  const : Option Ramp
  down : Option Ramp

/-- `numpy` slice `t[a:b]`. -/
def slice (t : List ℝ) (a b : ℕ) : List ℝ := (t.take b).drop a

/-- `t_up` (Floquet.py:492, 504). -/
def tUp (vals : List ℝ) (inds : List ℕ) (Nup : ℕ) : List ℝ := vals.take (inds.getD Nup 0)

/-- `t_const` (Floquet.py:495, 507, 512). -/
def tConst (vals : List ℝ) (inds : List ℕ) (Nup Nconst : ℕ) : List ℝ := slice vals (inds.getD Nup 0) (inds.getD (Nup + Nconst) 0 + 1)

/-- `t_down` (Floquet.py:499, 515). -/
def tDown (vals : List ℝ) (inds : List ℕ) (Nup Nconst : ℕ) : List ℝ :=
  slice vals (inds.getD (Nup + Nconst) 0 + 1) (inds.getLastD 0 + 1)

/-- `Floquet_t_vec.__init__` (Floquet.py:441-517). -/
noncomputable def floquet (Omega : ℝ) (Nconst L Nup Ndown : ℕ) : Times :=
  let N := Nup + Nconst + Ndown
  let T := 2 * Real.pi / Omega
  let vals := (linspace (-(Nup : ℝ)) ((Nconst + Ndown : ℕ) : ℝ) (N * L + 1)).map (T * ·)
  let st := strobo vals L 0
  let up := ramp Nup (tUp vals st.inds Nup) T L 0
  let constAt := fun ind0 => ramp Nconst (tConst vals st.inds Nup Nconst) T L ind0
  let downAt := fun ind0 => ramp Ndown (tDown vals st.inds Nup Nconst) T L ind0
  let i := vals.headD 0
  let f := vals.getLastD 0
  if 0 < Nup ∧ 0 < Ndown then
    let const := constAt (up.strobo.inds.getLastD 0 + L)
    ⟨N, L, T, vals, T / L, st, i, f, f - i, some up, some const, some (downAt (const.strobo.inds.getLastD 0 + L))⟩
  else if 0 < Nup then ⟨N, L, T, vals, T / L, st, i, f, f - i, some up, some (constAt (up.strobo.inds.getLastD 0 + L)), none⟩
  else if 0 < Ndown then
    ⟨N, L, T, vals, T / L, st, i, f, f - i, none, some (constAt 0), some (downAt ((constAt 0).strobo.inds.getLastD 0 + L))⟩
  else ⟨N, L, T, vals, T / L, st, i, f, f - i, none, none, none⟩

open Classical in
/-- `numpy.searchsorted(a, x)`: the number of entries before the first one that is at least `x` (Floquet.py:677). -/
noncomputable def searchsorted (a : List ℝ) (x : ℝ) : ℕ := a.findIdx fun y => decide (x ≤ y)

open Classical in
/-- `get_coordinates` (Floquet.py:641-681); `none` is the `IndexError` of `strobo.inds[1]` or of an empty `where`. -/
noncomputable def getCoordinates (x : Times) (eps : ℝ) (index : ℕ) : Option (ℕ × ℕ) :=
  x.strobo.inds[1]?.bind fun one => x.vals[index]?.bind fun t =>
    let i := searchsorted x.strobo.vals (t + eps) - 1
    ((x.vals.take one).findIdx? fun v => decide (|t - i * x.T - v| < eps)).map fun j => (i, j)

end Model.FloquetTimes
