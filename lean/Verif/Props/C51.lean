import Verif.Proof.Evaluate
import Mathlib.LinearAlgebra.Matrix.Notation
import Mathlib.Tactic.FinCases
import Mathlib.Tactic.NormNum

/-!
C51: all ways of evaluating a hamiltonian agree.
C57: expectation values, fluctuations and matrix elements.

`instantOf N H t` is the operator `S + Σ f(t) D` the object `H` stands for (`Spec.Evaluation.instant` of the stored
matrices); the theorems hold for every format (CSR, CSC, DIA, dense) of every part.
-/

namespace Props
open Model.Eval Spec Spec.Evaluation Proof.Eval

variable {R T κ : Type} [CommRing R] {N : Nat}

/-! ### C51 -/

/-- C51: `H.tocsr(t)`, `tocsc`, `todense`, `toarray` and `H(t)`. -/
theorem C51_matrix (H : Ham T R) (t : T) :
    toMatrix N H t = instant (H.static.mat N) (H.dynamic.map fun e => (e.1, e.2.mat N)) t := toMatrix_ok H t

/-- C51: `H[t, i, j]`. -/
theorem C51_element (H : Ham T R) (t : T) (i j : Fin N) : getItem N H t i j = toMatrix N H t i j := rfl

/-- C51: `H.dot(V, time=t, a=a, out=out, overwrite_out=ow)` is `a H(t) V`, stored in or added to `out`. -/
theorem C51_dot (H : Ham T R) (t : T) (V : Matrix (Fin N) κ R) (ow : Bool) (a : R) :
    dot N H t V none ow a = some (a • (toMatrix N H t * V)) ∧
      ∀ y, dot N H t V (some y) ow a = some ((if ow then 0 else y) + a • (toMatrix N H t * V)) := by
  refine ⟨?_, fun y => ?_⟩
  · rw [dot_ok, zero_add, toMatrix_ok]
  · rw [dot_ok, toMatrix_ok]

/-- C51: `H.dot(V, time=times)` uses for every slice of `V` its own time. -/
theorem C51_dot_times {k : Nat} (H : Ham T R) (times : Fin k → T) (V : Fin k → Matrix (Fin N) κ R) (a : R) :
    ∃ W, dotTimes N H times V a = some W ∧ ∀ i, dot N H (times i) (V i) none true a = some (W i) := by
  refine ⟨_, dotTimes_ok H times V a, fun i => ?_⟩
  rw [dot_ok, zero_add]

/-- C51, part: `H.rdot(V, time=t, out=y)` is `a V H(t)`.  Missing: without `out` (`C51_rdot_fails`). -/
theorem C51_rdot_partial (H : Ham T R) (t : T) (V y : Matrix κ (Fin N) R) (ow : Bool) (a : R) :
    rdot N H t V (some y) ow a = some ((if ow then 0 else y) + a • (V * toMatrix N H t)) := by
  rw [rdot_ok, toMatrix_ok]

/-- C51: `H.trace(t)`. -/
theorem C51_trace (H : Ham T R) (t : T) : trace N H t = ∑ i, toMatrix N H t i i := by
  rw [trace_ok, toMatrix_ok]; rfl

/-- C51, part: `H.diagonal(t)`, unless the static part is dense and there is a time-dependent part.
Missing: that case, which raises (`C51_diagonal_fails`). -/
theorem C51_diagonal_partial (H : Ham T R) (t : T) (h : H.static.isDense = false ∨ H.dynamic = []) :
    diagonal N H t = some fun i => toMatrix N H t i i := by
  rw [diagonal_ok H t h, toMatrix_ok]

/-- C51: the transposed object. -/
theorem C51_transpose (H : Ham T R) (t : T) : toMatrix N H.transpose t = (toMatrix N H t).transpose := by
  rw [toMatrix_ok, toMatrix_ok, instantOf_transpose]

/-- C51 fails for `rdot` with default arguments: it raises for every operator and every state. -/
theorem C51_rdot_fails (H : Ham T R) (t : T) (V : Matrix κ (Fin N) R) (ow : Bool) (a : R) :
    rdot N H t V none ow a = none := rfl

/-- C51 fails for `diagonal` of every driven operator with a dense static part: it raises. -/
theorem C51_diagonal_fails (E : Nat → Nat → R) (f : T → R) (D : Stored R) (d : List ((T → R) × Stored R)) (t : T) :
    diagonal N ⟨.dense E, (f, D) :: d⟩ t = none := rfl

/-! ### C57 -/

variable [StarRing R] (H : Ham T R)

/-- C57, part: one state.  Missing: spaces of dimension one (`C57_one_dimensional_fails`). -/
theorem C57_state_partial (hN : N ≠ 1) (t : T) (ψ : Matrix (Fin N) Unit R) :
    exptValueVec H t ψ = some (expectation (toMatrix N H t) ψ ()) ∧
      quantFluctVec H t false ψ = some (fluctuation (toMatrix N H t) ψ ()) := by
  rw [toMatrix_ok]
  constructor
  · rw [exptValueVec, dot_simple, Option.bind_some, exptCoreVec, if_neg hN, sum_expectation]
  · simp only [quantFluctVec, dot_simple, Option.bind_some, exptCoreVec, if_neg hN, Bool.false_eq_true, if_false, Option.map_some,
      sum_expectation, ← Matrix.mul_assoc]
    rfl

/-- C57, part: several states in the columns of an array (not square, or `enforce_pure`).
Missing: spaces of dimension one (`C57_one_dimensional_fails`, `C57_one_dimensional_sum`). -/
theorem C57_states_partial {k : Nat} (hN : N ≠ 1) (hk : k ≠ 1) (pure : Bool) (h : N ≠ k ∨ pure = true) (t : T)
    (ψ : Matrix (Fin N) (Fin k) R) :
    exptValue H t pure ψ = some (.each fun j => expectation (toMatrix N H t) ψ j) := by
  rw [toMatrix_ok, exptValue, dot_simple, Option.bind_some, exptCore, if_neg (by tauto), if_neg (by tauto)]
  split
  · rename_i hNk
    rcases h with h | h
    · exact absurd hNk h
    · rw [if_pos h]; simp only [sum_expectation]
  · simp only [sum_expectation]

/-- C57, part: one state in an array with one column.
Missing: spaces of dimension one (`C57_one_dimensional_fails`, `C57_one_dimensional_sum`). -/
theorem C57_column_partial (hN : N ≠ 1) (pure : Bool) (t : T) (ψ : Matrix (Fin N) (Fin 1) R) :
    exptValue H t pure ψ = some (.one (expectation (toMatrix N H t) ψ 0)) := by
  rw [toMatrix_ok, exptValue, dot_simple, Option.bind_some, exptCore, if_neg (by tauto), if_pos (by tauto)]
  have : ∀ f : Fin N → Fin 1 → R, ∑ i, ∑ j, f i j = ∑ i, f i 0 := fun f => by simp
  rw [this fun i j => star (ψ i j) * (instantOf N H t * ψ) i j, sum_expectation]

/-- C57, part: fluctuations in several states, for a Hermitian operator.  Missing: operators that are not Hermitian
(`C57_fluctuation_fails`). -/
theorem C57_fluctuations_partial {k : Nat} (hN : N ≠ 1) (hk : k ≠ 1) (pure : Bool) (h : N ≠ k ∨ pure = true) (t : T)
    (hH : (toMatrix N H t).IsHermitian) (ψ : Matrix (Fin N) (Fin k) R) :
    quantFluct H t pure ψ = some (.each fun j => fluctuation (toMatrix N H t) ψ j) := by
  rw [toMatrix_ok] at *
  have core : ∀ L V : Matrix (Fin N) (Fin k) R, exptCore pure L V = some (.each fun j => ∑ i, star (L i j) * V i j) := by
    intro L V
    rw [exptCore, if_neg (by tauto), if_neg (by tauto)]
    split
    · rename_i hNk
      rcases h with h | h
      · exact absurd hNk h
      · rw [if_pos h]
    · rfl
  simp only [quantFluct, dot_simple, Option.bind_some, core, if_pos h, Value.square, Value.sub, sum_expectation,
    hermitian_square _ hH]
  rfl

/-- C57, part: a density matrix.
Missing: spaces of dimension one (`C57_one_dimensional_fails`, `C57_one_dimensional_sum`). -/
theorem C57_density_partial (hN : N ≠ 1) (t : T) (ρ : Matrix (Fin N) (Fin N) R) :
    exptValue H t false ρ = some (.one (mixedExpectation (toMatrix N H t) ρ)) ∧
      quantFluct H t false ρ = some (.one (mixedFluctuation (toMatrix N H t) ρ)) := by
  rw [toMatrix_ok]
  have core : ∀ L V : Matrix (Fin N) (Fin N) R, exptCore false L V = some (.one (∑ i, V i i)) := by
    intro L V
    rw [exptCore, if_neg (by tauto), if_neg (by tauto), dif_pos rfl, if_neg (by simp)]
    rfl
  constructor
  · rw [exptValue, dot_simple, Option.bind_some, core, trace_mixed]
  · simp only [quantFluct, dot_simple, Option.bind_some, core, ne_eq, not_true_eq_false, Bool.false_eq_true, or_self, if_false,
      Value.square, Value.sub, trace_mixed]
    rw [mixedFluctuation, ← trace_mixed _ (_ * ρ), ← trace_mixed (_ * _) ρ, Matrix.mul_assoc]

/-- C57: one state, or one density matrix, for every time. -/
theorem C57_times {k : Nat} (times : Fin k → T) (ψ : Fin k → Matrix (Fin N) Unit R) (ρ : Fin k → Matrix (Fin N) (Fin N) R) :
    exptTimes H times ψ = some (fun j => expectation (toMatrix N H (times j)) (ψ j) ()) ∧
      exptTimesMixed H times ρ = some fun j => mixedExpectation (toMatrix N H (times j)) (ρ j) := by
  simp only [toMatrix_ok]
  constructor
  · simp only [exptTimes, dotTimes_ok, Option.map_some, one_smul, sum_expectation]
  · simp only [exptTimesMixed, dotTimes_ok, Option.map_some, one_smul, trace_mixed]

/-- C57: matrix elements. -/
theorem C57_matrix_elements {k l : Type} (t : T) (φ : Matrix (Fin N) k R) (ψ : Matrix (Fin N) l R) (χ : Matrix (Fin N) k R) :
    matrixEle H t φ ψ = some (Matrix.of fun a b => element (toMatrix N H t) φ ψ a b) ∧
      matrixEleDiag H t φ χ = some fun a => element (toMatrix N H t) φ χ a a := by
  simp only [toMatrix_ok]
  have aux : ∀ {l : Type} (ψ : Matrix (Fin N) l R) (a : k) (b : l),
      ∑ i, star (φ i a) * (instantOf N H t * ψ) i b = element (instantOf N H t) φ ψ a b := by
    intro l ψ a b
    unfold element
    refine Finset.sum_congr rfl fun i _ => ?_
    rw [mul_col, Finset.mul_sum]
  constructor
  · rw [matrixEle, dot_simple]
    exact congrArg some (Matrix.ext fun a b => aux ψ a b)
  · simp only [matrixEleDiag, dot_simple, Option.map_some, aux]

/-- C57 fails in a space of dimension one (for example a symmetry sector with one state): the expectation value of a
state raises, and so does that of a 1 x 1 array. -/
theorem C57_one_dimensional_fails (H : Ham T R) (t : T) (pure : Bool) (ψ : Matrix (Fin 1) Unit R) (ρ : Matrix (Fin 1) (Fin 1) R) :
    exptValueVec H t ψ = none ∧ exptValue H t pure ρ = none := by
  constructor
  · rw [exptValueVec, dot_simple]; rfl
  · rw [exptValue, dot_simple]; rfl

/-- C57 fails in a space of dimension one for several states: one number is returned, the sum over the states. -/
theorem C57_one_dimensional_sum (H : Ham T R) (t : T) (pure : Bool) {k : Nat} (hk : k ≠ 1) (ψ : Matrix (Fin 1) (Fin k) R) :
    exptValue H t pure ψ = some (.one (∑ j, expectation (toMatrix 1 H t) ψ j)) := by
  rw [toMatrix_ok, exptValue, dot_simple, Option.bind_some, exptCore, if_neg (by tauto), if_pos (by tauto), Finset.sum_comm]
  simp only [sum_expectation]

/-- C57 fails for operators that are not Hermitian: for `H = |0⟩⟨1|`, where `H² = 0`, and the states `|1⟩, |1⟩, |1⟩` the
library returns the fluctuations 1, 1, 1 instead of 0, 0, 0; for the single state `|1⟩` it returns 0. -/
theorem C57_fluctuation_fails (t : T) : ∃ (H : Ham T ℤ) (ψ : Matrix (Fin 2) (Fin 3) ℤ) (φ : Matrix (Fin 2) Unit ℤ),
    quantFluct H t false ψ = some (.each fun _ => 1) ∧ (∀ j, fluctuation (toMatrix 2 H t) ψ j = 0) ∧
      quantFluctVec H t false φ = some 0 ∧ (∀ i j, ψ i j = φ i ()) := by
  let M : Matrix (Fin 2) (Fin 2) ℤ := Matrix.of fun i j => if i.val = 0 ∧ j.val = 1 then 1 else 0
  let ψ : Matrix (Fin 2) (Fin 3) ℤ := Matrix.of fun i _ => if i = 1 then 1 else 0
  let φ : Matrix (Fin 2) Unit ℤ := Matrix.of fun i _ => if i = 1 then 1 else 0
  let H : Ham T ℤ := ⟨.dia fun i j => if i = 0 ∧ j = 1 then 1 else 0, []⟩
  have hM : instantOf 2 H t = M := add_zero M
  refine ⟨H, ψ, φ, ?_, ?_, ?_, fun _ _ => rfl⟩
  · unfold quantFluct
    rw [dot_simple, hM]
    simp only [Option.bind_some, exptCore]
    refine congrArg (fun x => some (Value.each x)) (funext fun j => ?_)
    revert j
    decide
  · rw [toMatrix_ok, hM]
    decide
  · rw [(C57_state_partial H (by decide) t φ).2, toMatrix_ok, hM]
    decide

/-! ### The hypotheses are met -/

/-- `sigma_z + t sigma_x`, static part in CSR format, driven part in CSC format. -/
def sampleStored : Ham ℤ ℤ :=
  ⟨.csr ⟨fun k => k, fun k => k, fun k => if k = 0 then 1 else -1⟩,
    [(fun t => t, .csc ⟨fun k => k, fun k => 1 - k, fun _ => 1⟩)]⟩

example : toMatrix 2 sampleStored 7 = !![1, 7; 7, -1] := by
  ext i j
  fin_cases i <;> fin_cases j <;> decide

example : (toMatrix 2 sampleStored 7).IsHermitian := by
  rw [show toMatrix 2 sampleStored 7 = !![1, 7; 7, -1] from by ext i j; fin_cases i <;> fin_cases j <;> decide]
  ext i j
  fin_cases i <;> fin_cases j <;> simp

example : exptValueVec sampleStored 7 (Matrix.of fun i _ => if i = (0 : Fin 2) then 2 else 3) = some (4 + 2 * 7 * 6 - 9) := by
  rw [(C57_state_partial sampleStored (by decide) 7 _).1]
  decide

example : sampleStored.static.isDense = false := rfl

end Props
