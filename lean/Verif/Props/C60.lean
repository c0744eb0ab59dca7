import Verif.Props.C24
import Mathlib.Analysis.SpecialFunctions.Exponential
import Mathlib.Analysis.SpecialFunctions.Trigonometric.Basic

/-!
C60: `exp_op` applies `exp(a O)`, or `exp(a t O)` at every point `t` of the grid.

The full statement is false (`C60_fails_*` below): `sandwich` without a grid has the two factors interchanged, the shift has the wrong sign
or is dropped, hamiltonians on a grid raise, complex grids give wrong sandwiches, and `set_grid` needs its optional arguments.
-/

namespace Props
open Matrix Model.ExpOp Spec.Reads

section
variable {n m : Type} [Fintype n] [DecidableEq n]

/-- `get_mat`, `dot` and `rdot` without a grid. -/
theorem C60_plain (x : Obj n) (V : Matrix n m ℂ) (W : Matrix m n ℂ) :
    getMat x = expo x.a x.O ∧ dot x none V = expo x.a x.O * V ∧ rdot x none W = W * expo x.a x.O := by
  refine ⟨rfl, rfl, ?_⟩
  rw [rdot, expmMultiply, exponent, Matrix.exp_transpose, ← Matrix.transpose_mul, Matrix.transpose_transpose]
  rfl

/-- `linspace` gives evenly spaced points, from `start` to `stop`, or to the point before. -/
theorem C60_linspace (start stop : ℂ) (num : ℕ) (endpoint : Bool) :
    (linspace start stop num endpoint).1 = points start (linspace start stop num endpoint).2 num ∧
      (2 ≤ num → start + ((if endpoint then num - 1 else num : ℕ) : ℂ) * (linspace start stop num endpoint).2 = stop) := by
  refine ⟨rfl, fun h => ?_⟩
  have h0 : ((if endpoint then num - 1 else num : ℕ) : ℂ) ≠ 0 := by
    rw [Nat.cast_ne_zero]
    split <;> omega
  rw [linspace]
  simp only
  rw [mul_div_cancel₀ _ h0]
  ring

/-- `dot` on a grid: one result for every point, the exponential at this point applied to the state. -/
theorem C60_dot (x : Obj n) (V : Matrix n m ℂ) (start stop : ℂ) (num : ℕ) (endpoint : Bool) :
    dotGrid x none V (linspace start stop (num + 1) endpoint) =
      some ((linspace start stop (num + 1) endpoint).1.map fun t => expo (x.a * t) x.O * V) := by
  rw [dotGrid, (C60_linspace start stop (num + 1) endpoint).1, Proof.ExpOp.iterDot_eq]
  congr 1
  refine List.map_congr_left fun t _ => ?_
  rw [exponent, smul_smul, mul_comm t]
  rfl

/-- `rdot` on a grid. -/
theorem C60_rdot (x : Obj n) (V : Matrix m n ℂ) (start stop : ℂ) (num : ℕ) (endpoint : Bool) :
    rdotGrid x none V (linspace start stop (num + 1) endpoint) =
      some ((linspace start stop (num + 1) endpoint).1.map fun t => V * expo (x.a * t) x.O) := by
  rw [rdotGrid, iterRdot, (C60_linspace start stop (num + 1) endpoint).1, Proof.ExpOp.iterDot_eq, Option.map_some, List.map_map]
  congr 1
  refine List.map_congr_left fun t _ => ?_
  simp only [Function.comp_apply]
  rw [exponent, ← Matrix.transpose_smul, Matrix.exp_transpose, ← Matrix.transpose_mul, Matrix.transpose_transpose, smul_smul, mul_comm t]
  rfl

/-- `sandwich` on a grid of real numbers.
Missing: complex grids, operators that are not Hermitian, shifts, `set_grid` with defaults (`C60_fails_sandwich`, `C60_fails_complex`, `C60_fails_shift`, `C60_fails_set_grid`). -/
theorem C60_sandwich_partial (x : Obj n) (C : Matrix n n ℂ) (start stop : ℝ) (num : ℕ) (endpoint : Bool) :
    sandwichGrid x none C (linspace start stop (num + 1) endpoint) =
      some ((linspace start stop (num + 1) endpoint).1.map fun t => (expo (x.a * t) x.O)ᴴ * C * expo (x.a * t) x.O) := by
  rw [sandwichGrid, (C60_linspace start stop (num + 1) endpoint).1, Proof.ExpOp.iterSandwich_eq]
  congr 1
  refine List.map_congr_left fun t ht => ?_
  have hreal : star t = t := by
    obtain ⟨k, -, rfl⟩ := List.mem_map.mp ht
    cases endpoint <;> simp [linspace]
  have he : NormedSpace.exp (t • exponentH x none) = (expo (x.a * t) x.O)ᴴ := by
    rw [exponentH, expo, ← Matrix.exp_conjTranspose, Matrix.conjTranspose_smul, star_mul, hreal, smul_smul]
  rw [he, Matrix.conjTranspose_conjTranspose]

/-- `sandwich` without a grid: what is computed, exactly.
Missing: complex grids, operators that are not Hermitian, shifts, `set_grid` with defaults (`C60_fails_sandwich`, `C60_fails_complex`, `C60_fails_shift`, `C60_fails_set_grid`). -/
theorem C60_sandwich_plain_partial (x : Obj n) (C : Matrix n n ℂ) :
    (sandwich x none C).1 = expo x.a x.O * C * (expo x.a x.O)ᴴ := by
  have h1 := (C60_plain x C (0 : Matrix n n ℂ)).2.1
  have h2 := (C60_plain (getHSelf x) (0 : Matrix n n ℂ) (dot x none C)).2.2
  rw [sandwich]
  simp only
  rw [h2, h1]
  congr 1
  rw [getHSelf, expo, expo, ← Matrix.exp_conjTranspose, Matrix.conjTranspose_smul]

/-- It is the documented `exp(aO)† C exp(aO)` if `a O` is Hermitian.
Missing: complex grids, operators that are not Hermitian, shifts, `set_grid` with defaults (`C60_fails_sandwich`, `C60_fails_complex`, `C60_fails_shift`, `C60_fails_set_grid`). -/
theorem C60_sandwich_hermitian_partial (x : Obj n) (C : Matrix n n ℂ) (h : (x.a • x.O)ᴴ = x.a • x.O) :
    (sandwich x none C).1 = (expo x.a x.O)ᴴ * C * expo x.a x.O := by
  have : (expo x.a x.O)ᴴ = expo x.a x.O := by rw [expo, ← Matrix.exp_conjTranspose, h]
  rw [C60_sandwich_plain_partial, this]

/-- Shifts: `dot` uses `O + shift`, not `O - shift`.
Missing: complex grids, operators that are not Hermitian, shifts, `set_grid` with defaults (`C60_fails_sandwich`, `C60_fails_complex`, `C60_fails_shift`, `C60_fails_set_grid`). -/
theorem C60_shift_partial (x : Obj n) (s : ℂ) (V : Matrix n m ℂ) : dot x (some s) V = expo x.a (x.O + s • 1) * V := rfl

/-- The grid made by the constructor and by `set_grid` with all arguments.
Missing: complex grids, operators that are not Hermitian, shifts, `set_grid` with defaults (`C60_fails_sandwich`, `C60_fails_complex`, `C60_fails_shift`, `C60_fails_set_grid`). -/
theorem C60_grids_partial (start stop : ℂ) (num : ℕ) (endpoint : Bool) :
    initGrid start stop (some num) (some endpoint) = linspace start stop num endpoint ∧
      initGrid start stop none none = linspace start stop 50 true ∧
      setGrid start stop (some num) (some endpoint) = some (linspace start stop num endpoint) := ⟨rfl, rfl, rfl⟩

/-- Defect: `set_grid` with default arguments raises. -/
theorem C60_fails_set_grid (start stop : ℂ) (num : Option ℕ) (endpoint : Option Bool) :
    setGrid start stop none endpoint = none ∧ setGrid start stop num none = none := by
  refine ⟨rfl, ?_⟩
  cases num <;> rfl

/-- Defect: `dot` and `rdot` with a hamiltonian raise for every grid. -/
theorem C60_fails_hamiltonian (x : Obj n) (shift : Option ℂ) (V : Matrix n n ℂ) (grid : List ℂ × ℂ) :
    dotGridHam x shift V grid = none ∧ rdotGridHam x shift V grid = none := ⟨rfl, rfl⟩

/-- Defect: `sandwich` without a grid ignores the shift. -/
theorem C60_fails_sandwich_shift (x : Obj n) (s : ℂ) (C : Matrix n n ℂ) : sandwich x (some s) C = sandwich x none C := rfl

end

/-- The exponential of a diagonal matrix with two entries. -/
theorem expo_diag2 (t a b : ℂ) : expo t !![a, 0; 0, b] = !![Complex.exp (t * a), 0; 0, Complex.exp (t * b)] := by
  have h : t • !![a, 0; 0, b] = diagonal ![t * a, t * b] := by
    ext i j
    fin_cases i <;> fin_cases j <;> simp
  rw [expo, h, Matrix.exp_diagonal]
  ext i j
  fin_cases i <;> fin_cases j <;> simp [Complex.exp_eq_exp_ℂ]

/-- The evolution `exp(-i O)` with energies `π/2` and `0`. -/
noncomputable def quarter : Obj (Fin 2) := ⟨!![Real.pi / 2, 0; 0, 0], -Complex.I⟩

theorem expo_quarter : expo quarter.a quarter.O = !![-Complex.I, 0; 0, 1] := by
  rw [quarter, expo_diag2, mul_zero, Complex.exp_zero]
  have : Complex.exp (-Complex.I * (Real.pi / 2)) = -Complex.I := by
    have : -Complex.I * (Real.pi / 2 : ℂ) = -(Real.pi / 2 * Complex.I) := by ring
    rw [this, Complex.exp_neg, Complex.exp_pi_div_two_mul_I, Complex.inv_I]
  rw [this]

/-- Defect: without a grid `sandwich` evolves in the wrong direction; the documented result is the second one. -/
theorem C60_fails_sandwich : (sandwich quarter none !![0, 1; 1, 0]).1 = !![0, -Complex.I; Complex.I, 0] ∧
    (expo quarter.a quarter.O)ᴴ * !![0, 1; 1, 0] * expo quarter.a quarter.O = !![0, Complex.I; -Complex.I, 0] := by
  rw [C60_sandwich_plain_partial, expo_quarter]
  constructor <;> ext i j <;> fin_cases i <;> fin_cases j <;> simp [Matrix.mul_apply, Fin.sum_univ_two]

/-- With a grid that only has the point 1 the documented result is returned. -/
example : sandwichGrid quarter none !![0, 1; 1, 0] (linspace 1 1 1 true) = some [!![0, Complex.I; -Complex.I, 0]] := by
  have h := C60_sandwich_partial quarter !![0, 1; 1, 0] 1 1 0 true
  have hl : (linspace ((1 : ℝ) : ℂ) ((1 : ℝ) : ℂ) (0 + 1) true).1 = [1] := by simp [linspace]
  rw [hl, List.map_cons, List.map_nil, mul_one, C60_fails_sandwich.2] at h
  simpa using h

/-- Defect: a complex grid is accepted with `iterate=True`, but then `sandwich` is wrong: at the point `i` for `a = 1`, `O = π/2`, the
factors cancel in the right result, but not in the computed one. -/
theorem C60_fails_complex : sandwichGrid (⟨!![Real.pi / 2, 0; 0, 0], 1⟩ : Obj (Fin 2)) none !![0, 1; 1, 0] (linspace Complex.I Complex.I 1 true) =
      some [!![0, Complex.I; -Complex.I, 0]] ∧
    (expo (1 * Complex.I) !![Real.pi / 2, 0; 0, 0])ᴴ * !![0, 1; 1, 0] * expo (1 * Complex.I) !![Real.pi / 2, 0; 0, 0] =
      !![0, -Complex.I; Complex.I, 0] := by
  have e : expo (1 * Complex.I) !![(Real.pi / 2 : ℂ), 0; 0, 0] = !![Complex.I, 0; 0, 1] := by
    rw [expo_diag2, mul_zero, Complex.exp_zero, one_mul, mul_comm, Complex.exp_pi_div_two_mul_I]
  have hl : linspace Complex.I Complex.I 1 true = (points Complex.I 0 (0 + 1), 0) := by simp [linspace, points]
  have hH : (!![(Real.pi / 2 : ℂ), 0; 0, 0])ᴴ = !![(Real.pi / 2 : ℂ), 0; 0, 0] := by
    ext i j
    fin_cases i <;> fin_cases j <;> simp
  constructor
  · rw [sandwichGrid, hl]
    simp only
    rw [Proof.ExpOp.iterSandwich_eq]
    have hp : points Complex.I 0 (0 + 1) = [Complex.I] := by simp [points]
    rw [hp, List.map_cons, List.map_nil, exponentH]
    simp only [star_one, hH, smul_smul, mul_one]
    rw [one_mul] at e
    have e' : NormedSpace.exp (Complex.I • !![(Real.pi / 2 : ℂ), 0; 0, 0]) = !![Complex.I, 0; 0, 1] := e
    rw [e']
    congr 2
    ext i j
    fin_cases i <;> fin_cases j <;> simp [Matrix.vecMul, dotProduct, Fin.sum_univ_two]
  · rw [e]
    ext i j
    fin_cases i <;> fin_cases j <;> simp [Matrix.mul_apply, Fin.sum_univ_two]

/-- Defect: with the documented `exp(O - shift)` the shift of `O = 0` by `iπ/2` would give `-i`. -/
theorem C60_fails_shift : dot (⟨0, 1⟩ : Obj (Fin 1)) (some (Real.pi / 2 * Complex.I)) !![1] = !![Complex.I] ∧
    expo 1 ((0 : Matrix (Fin 1) (Fin 1) ℂ) - (Real.pi / 2 * Complex.I : ℂ) • 1) * !![1] = !![-Complex.I] := by
  have key : ∀ c : ℂ, expo 1 (c • (1 : Matrix (Fin 1) (Fin 1) ℂ)) = !![Complex.exp c] := by
    intro c
    have h : (1 : ℂ) • c • (1 : Matrix (Fin 1) (Fin 1) ℂ) = diagonal ![c] := by
      ext i j
      fin_cases i; fin_cases j; simp
    rw [expo, h, Matrix.exp_diagonal]
    ext i j
    fin_cases i; fin_cases j; simp [Complex.exp_eq_exp_ℂ]
  constructor
  · rw [C60_shift_partial, zero_add, key, Complex.exp_pi_div_two_mul_I]
    ext i j
    fin_cases i; fin_cases j; simp
  · rw [zero_sub, ← neg_smul, key, Complex.exp_neg, Complex.exp_pi_div_two_mul_I, Complex.inv_I]
    ext i j
    fin_cases i; fin_cases j; simp

end Props
