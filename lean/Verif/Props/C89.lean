import Verif.Model.LinearOpCalls
import Mathlib.Data.Matrix.Basis
import Mathlib.LinearAlgebra.Matrix.Trace
import Mathlib.Tactic.FinCases

/-!
C89: a `quantum_LinearOperator` acts as the sum of its operator strings and its diagonal.
-/

namespace Props
open Model.LinearOpCalls

variable {N : ℕ} {κ : Type}

/-- The matrix of an operator string: the sum of its matrix elements. -/
noncomputable def stringMatrix (t : Elements N) : Matrix (Fin N) (Fin N) ℂ := (t.map fun e => Matrix.single e.2.1 e.2.2 e.1).sum

/-- The matrix of a list of operator strings. -/
noncomputable def stringsMatrix (l : List (Elements N)) : Matrix (Fin N) (Fin N) ℂ := (l.map stringMatrix).sum

theorem cooDot_eq (V W : Matrix (Fin N) κ ℂ) (t : Elements N) : cooDot V W t = W + stringMatrix t * V := by
  unfold cooDot
  induction t generalizing W with
  | nil => simp [stringMatrix]
  | cons e t ih =>
    rw [List.foldl_cons, ih]
    simp only [stringMatrix, List.map_cons, List.sum_cons, Matrix.add_mul]
    rw [← add_assoc]
    congr 1
    ext i k
    rw [Matrix.add_apply, Matrix.of_apply]
    by_cases hi : i = e.2.1
    · subst hi
      rw [if_pos rfl, Matrix.single_mul_apply_same]
    · rw [if_neg hi, Matrix.single_mul_apply_of_ne (h := hi), add_zero]

theorem foldl_cooDot (V : Matrix (Fin N) κ ℂ) (l : List (Elements N)) : ∀ W, l.foldl (cooDot V) W = W + stringsMatrix l * V := by
  induction l with
  | nil => intro W; simp [stringsMatrix]
  | cons t l ih =>
    intro W
    rw [List.foldl_cons, ih, cooDot_eq]
    simp only [stringsMatrix, List.map_cons, List.sum_cons, Matrix.add_mul, add_assoc]

/-- The matrix an object stands for. -/
noncomputable def operatorMatrix (x : Obj N) : Matrix (Fin N) (Fin N) ℂ := stringsMatrix x.off + Matrix.diagonal (x.diag.getD fun _ => 0)

theorem matvec_eq (x : Obj N) (V : Matrix (Fin N) κ ℂ) : matvec x V = operatorMatrix x * V := by
  rw [matvec, foldl_cooDot, operatorMatrix, Matrix.add_mul, add_comm]
  congr 1
  ext i k
  rw [Matrix.diagonal_mul]
  cases x.diag with
  | none => simp
  | some d => simp [mul_comm]

theorem updateDiag_eq (d : Fin N → ℂ) (t : Elements N) (h : isDiagonal t = true) :
    Matrix.diagonal (updateDiag d t) = Matrix.diagonal d + stringMatrix t := by
  unfold updateDiag
  induction t generalizing d with
  | nil => simp [stringMatrix]
  | cons e t ih =>
    simp only [isDiagonal, List.all_cons, Bool.and_eq_true, decide_eq_true_eq] at h
    rw [List.foldl_cons, ih _ h.2]
    simp only [stringMatrix, List.map_cons, List.sum_cons]
    rw [← add_assoc]
    congr 1
    ext i j
    rw [Matrix.add_apply]
    by_cases hij : i = j
    · subst hij
      rw [Matrix.diagonal_apply_eq, Matrix.diagonal_apply_eq]
      by_cases hi : i = e.2.1
      · subst hi
        rw [Function.update_self, ← h.1, Matrix.single_apply_same]
      · rw [Function.update_of_ne hi, Matrix.single_apply_of_row_ne (Ne.symm hi), add_zero]
    · rw [Matrix.diagonal_apply_ne _ hij, Matrix.diagonal_apply_ne _ hij, ← h.1, Matrix.single_apply_of_ne, add_zero]
      rintro ⟨rfl, rfl⟩
      exact hij rfl

theorem initLoop_matrix (l : List (Elements N)) : ∀ x : Obj N, operatorMatrix (initLoop l x) = operatorMatrix x + stringsMatrix l := by
  induction l with
  | nil => intro x; simp [initLoop, stringsMatrix]
  | cons t l ih =>
    intro x
    rw [initLoop]
    split
    · rename_i h
      rw [ih]
      simp only [operatorMatrix, Option.getD_some, updateDiag_eq _ _ h, stringsMatrix, List.map_cons, List.sum_cons]
      abel
    · rw [ih]
      simp only [operatorMatrix, stringsMatrix, List.map_cons, List.sum_cons, List.map_append, List.sum_append, List.map_nil, List.sum_nil]
      abel

theorem initLoop_off (l : List (Elements N)) : ∀ x : Obj N, (initLoop l x).off = x.off ++ l.filter fun t => !isDiagonal t := by
  induction l with
  | nil => intro x; simp [initLoop]
  | cons t l ih =>
    intro x
    rw [initLoop]
    split
    · rename_i h
      rw [ih, List.filter_cons, if_neg (by simp [h])]
    · rename_i h
      rw [ih, List.filter_cons, if_pos (by simpa using h), List.append_assoc]
      rfl

theorem init_matrix (terms : List (Elements N)) (diagonal : Option (Fin N → ℂ)) :
    operatorMatrix (init terms diagonal) = stringsMatrix terms + Matrix.diagonal (diagonal.getD fun _ => 0) := by
  rw [init, initLoop_matrix]
  simp only [operatorMatrix, stringsMatrix, List.map_nil, List.sum_nil, zero_add]
  rw [add_comm]

/-- **C89 (product).**  The operator made from operator strings and a diagonal acts on states as `a` times the sum of the
strings and the diagonal, whichever of the strings are diagonal.  (Partial: with the documented `out` it raises, see
`C89_fails_out`.) -/
theorem C89_dot_partial (terms : List (Elements N)) (diagonal : Option (Fin N → ℂ)) (V : Matrix (Fin N) κ ℂ) (a : ℂ) :
    dot (init terms diagonal) V none a = some (a • ((stringsMatrix terms + Matrix.diagonal (diagonal.getD fun _ => 0)) * V)) := by
  simp only [dot, matvec_eq, init_matrix]
  rfl

/-- **C89 (diagonal).**  After `set_diagonal` the operator is the sum of the strings with matrix elements off the diagonal and
the new diagonal. -/
theorem C89_set_diagonal (terms : List (Elements N)) (diagonal : Option (Fin N → ℂ)) (d : Fin N → ℂ) (V : Matrix (Fin N) κ ℂ) (a : ℂ) :
    dot (setDiagonal (init terms diagonal) d) V none a =
      some (a • ((stringsMatrix (terms.filter fun t => !isDiagonal t) + Matrix.diagonal d) * V)) := by
  simp only [dot, matvec_eq, setDiagonal, operatorMatrix, init, initLoop_off, List.nil_append, Option.getD_some]
  rfl

/-- **C89 (state).**  `expt_value` of a state is `⟨ψ|A|ψ⟩`.  (Partial: it raises for a space of dimension one.) -/
theorem C89_state_partial (terms : List (Elements N)) (diagonal : Option (Fin N → ℂ)) (ψ : Matrix (Fin N) Unit ℂ) (hN : 2 ≤ N) :
    exptValueVec (init terms diagonal) ψ =
      some ((ψ.conjTranspose * (stringsMatrix terms + Matrix.diagonal (diagonal.getD fun _ => 0)) * ψ) () ()) := by
  rw [exptValueVec, if_neg (by omega), C89_dot_partial, one_smul, Option.bind_some, Model.Eval.exptCoreVec, if_neg (by omega), Matrix.mul_assoc]
  rfl

/-- **C89 (states).**  `expt_value` of several states, given as columns, are their expectation values: for a number of
columns other than the dimension, or with `enforce_pure=True`.
Missing: operators that were transposed or conjugated before (C24), and spaces of dimension one. -/
theorem C89_states_partial {k : ℕ} (terms : List (Elements N)) (diagonal : Option (Fin N → ℂ)) (V : Matrix (Fin N) (Fin k) ℂ) (pure : Bool) (hN : 2 ≤ N)
    (hk : k ≠ 1) (h : N ≠ k ∨ pure = true) :
    exptValue (init terms diagonal) pure V =
      some (.each fun j => (V.conjTranspose * (stringsMatrix terms + Matrix.diagonal (diagonal.getD fun _ => 0)) * V) j j) := by
  rw [exptValue, if_neg (by omega), C89_dot_partial, one_smul, Option.bind_some, Model.Eval.exptCore, if_neg (by omega), if_neg (by omega), Matrix.mul_assoc]
  split
  · rename_i e
    rw [if_pos (h.resolve_left fun c => c e)]
    rfl
  · rfl

/-- **C89 (mixture).**  `expt_value` of a square array without `enforce_pure` is `tr(A ρ)`.
Missing: operators that were transposed or conjugated before (C24), and spaces of dimension one. -/
theorem C89_mixture_partial (terms : List (Elements N)) (diagonal : Option (Fin N → ℂ)) (ρ : Matrix (Fin N) (Fin N) ℂ) (hN : 2 ≤ N) :
    exptValue (init terms diagonal) false ρ = some (.one ((stringsMatrix terms + Matrix.diagonal (diagonal.getD fun _ => 0)) * ρ).trace) := by
  rw [exptValue, if_neg (by omega), C89_dot_partial, one_smul, Option.bind_some, Model.Eval.exptCore, if_neg (by omega), if_neg (by omega), dif_pos rfl,
    if_neg (by simp)]
  rfl

/-- **C89 (matrix elements).**  `matrix_ele` are the numbers `⟨φ|A|ψ⟩` of all pairs of states, or of the pairs with the same
number. -/
theorem C89_matrix_ele {k l : Type} (terms : List (Elements N)) (diagonal : Option (Fin N → ℂ)) (L : Matrix (Fin N) k ℂ) (V : Matrix (Fin N) l ℂ)
    (L' V' : Matrix (Fin N) k ℂ) :
    matrixEle (init terms diagonal) L V = some (L.conjTranspose * (stringsMatrix terms + Matrix.diagonal (diagonal.getD fun _ => 0)) * V) ∧
      matrixEleDiagonal (init terms diagonal) L' V' =
        some fun j => (L'.conjTranspose * (stringsMatrix terms + Matrix.diagonal (diagonal.getD fun _ => 0)) * V') j j := by
  constructor
  · rw [matrixEle, C89_dot_partial, one_smul, Option.map_some, Matrix.mul_assoc]
  · rw [matrixEleDiagonal, C89_dot_partial, one_smul, Option.map_some]
    simp only [Matrix.mul_assoc]
    rfl

/-- A string with a diagonal and one with an off-diagonal element, on two states. -/
def twoStrings : List (Elements 2) := [[(2, 0, 0)], [(3, 0, 1), (5, 1, 0)]]

/-- The example is not trivial: the matrix has elements on the diagonal and off it, from the strings and from the array. -/
example : stringsMatrix twoStrings + Matrix.diagonal ((some ![7, 11]).getD fun _ => 0) = !![9, 3; 5, 11] := by
  ext i j
  fin_cases i <;> fin_cases j <;> simp [stringsMatrix, stringMatrix, twoStrings]; norm_num

/-- A product into a given array `out` always raises an exception: the code uses the name `shape`, which is not defined
(line 305). -/
theorem C89_fails_out (x : Obj N) (V W : Matrix (Fin N) κ ℂ) (a : ℂ) : dot x V (some W) a = none := rfl

/-- `quant_fluct` always raises an exception: the code uses the name `check`, which is not defined (line 360). -/
theorem C89_fails_quant_fluct (x : Obj N) (V : Matrix (Fin N) κ ℂ) : quantFluct x V = none := rfl

/-- The product of an operator with a number, its negative and `A *= c` give `None`, and the operator does not change
(lines 763-765). -/
theorem C89_fails_number (x : Obj N) (c : ℂ) : (mulScalar x c : Obj N × Result N κ) = (x, .nothing) := rfl

/-- The product with a sparse matrix raises an exception for every operator with an operator string (line 784). -/
theorem C89_fails_sparse (terms : List (Elements N)) (diagonal : Option (Fin N → ℂ)) (V : Matrix (Fin N) κ ℂ) (h : terms ≠ []) :
    mulSparse (init terms diagonal) V = none := by
  have hs : ∀ (l : List (Elements N)) (x : Obj N), (initLoop l x).strings = x.strings := by
    intro l
    induction l with
    | nil => intro x; rfl
    | cons t l ih =>
      intro x
      rw [initLoop]
      split <;> rw [ih]
  rw [mulSparse, if_neg]
  rw [init, hs]
  simpa using h

/-- The constructor changes the array given as `diagonal`: the diagonal operator strings are added to it (lines 122, 138).
Making the same operator twice from the same array gives two different operators. -/
theorem C89_fails_caller : callerDiagonal [[(1, 0, 0)]] (fun _ : Fin 1 => 0) = (fun _ => 1) ∧
    (init [[(1, 0, 0)]] (some (fun _ : Fin 1 => 0))).diag = some (fun _ => 1) ∧
    (init [[(1, 0, 0)]] (some (callerDiagonal [[(1, 0, 0)]] (fun _ : Fin 1 => 0)))).diag = some (fun _ => 2) := by
  have h : ∀ d : Fin 1 → ℂ, updateDiag d [(1, 0, 0)] = fun _ => d 0 + 1 := by
    intro d
    funext i
    fin_cases i
    simp [updateDiag]
  have h1 : ∀ d : Fin 1 → ℂ, (init [[(1, 0, 0)]] (some d)).diag = some (fun _ => d 0 + 1) := by
    intro d
    rw [init, initLoop, if_pos (by simp [isDiagonal]), initLoop, Option.getD_some, h]
  have h2 : callerDiagonal [[(1, 0, 0)]] (fun _ : Fin 1 => 0) = (fun _ => 1) := by
    rw [callerDiagonal, h1]
    simp
  refine ⟨h2, by rw [h1]; simp, ?_⟩
  rw [h2, h1]
  norm_num

end Props
