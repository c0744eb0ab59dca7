import Verif.Model.Evaluate
import Verif.Spec.Evaluation
import Mathlib.Tactic.Abel
import Mathlib.Tactic.Ring

namespace Proof.Eval
open Model.Eval Spec Spec.Evaluation

variable {R T κ : Type} [CommRing R] {N : Nat}

/-- The operator a stored hamiltonian stands for. -/
def instantOf (N : Nat) (H : Ham T R) (t : T) : Matrix (Fin N) (Fin N) R :=
  instant (H.static.mat N) (H.dynamic.map fun e => (e.1, e.2.mat N)) t

/-- The time-dependent part. -/
def drivenOf (N : Nat) (d : List ((T → R) × Stored R)) (t : T) : Matrix (Fin N) (Fin N) R :=
  (d.map fun e => e.1 t • e.2.mat N).sum

theorem instantOf_eq (H : Ham T R) (t : T) : instantOf N H t = H.static.mat N + drivenOf N H.dynamic t := by
  rw [instantOf, instant, List.map_map]; rfl

theorem drivenOf_nil (t : T) : drivenOf (R := R) N [] t = 0 := rfl

theorem drivenOf_cons (e : (T → R) × Stored R) (d : List ((T → R) × Stored R)) (t : T) :
    drivenOf N (e :: d) t = e.1 t • e.2.mat N + drivenOf N d t := by simp [drivenOf]

theorem read_own (S : Stored R) : read (routineOf S) S = some S.entry := by cases S <;> rfl

theorem dotInto_read {r : Routine} {S : Stored R} {E : Nat → Nat → R} (h : read r S = some E) (x out : Matrix (Fin N) κ R)
    (ow : Bool) (a : R) : dotInto N r S x ow a out =
      some ((if ow then 0 else out) + a • ((Matrix.of fun i j : Fin N => E i j) * x)) := by
  unfold dotInto; rw [h]; rfl

theorem dotInto_own (S : Stored R) (x out : Matrix (Fin N) κ R) (ow : Bool) (a : R) :
    dotInto N (routineOf S) S x ow a out = some ((if ow then 0 else out) + a • (S.mat N * x)) :=
  dotInto_read (read_own S) x out ow a

theorem toMatrix_ok (H : Ham T R) (t : T) : toMatrix N H t = instantOf N H t := by
  rw [instantOf_eq, toMatrix]
  generalize H.static.mat N = S
  induction H.dynamic generalizing S with
  | nil => rw [drivenOf_nil, add_zero]; rfl
  | cons e d ih => rw [List.foldl_cons, ih, drivenOf_cons, add_assoc]

theorem addDynamic_loop (t : T) (a : R) (x : Matrix (Fin N) κ R) (d : List ((T → R) × Stored R)) :
    ∀ out, d.foldlM (fun out e => dotInto N (routineOf e.2) e.2 x false (a * e.1 t) out) out =
      some (out + a • (drivenOf N d t * x)) := by
  induction d with
  | nil => intro out; rw [drivenOf_nil, Matrix.zero_mul, smul_zero, add_zero]; rfl
  | cons e d ih =>
    intro out
    rw [List.foldlM_cons, dotInto_own]
    show List.foldlM _ _ d = _
    rw [ih, drivenOf_cons, Matrix.add_mul, Matrix.smul_mul, smul_add, smul_smul]
    simp only [Bool.false_eq_true, if_false, add_assoc]

theorem addDynamic_ok (H : Ham T R) (t : T) (a : R) (x out : Matrix (Fin N) κ R) :
    addDynamic N H t a x out = some (out + a • (drivenOf N H.dynamic t * x)) := addDynamic_loop t a x H.dynamic out

theorem dot_ok (H : Ham T R) (t : T) (V : Matrix (Fin N) κ R) (out : Option (Matrix (Fin N) κ R)) (ow : Bool) (a : R) :
    dot N H t V out ow a = some ((match out with
      | none => 0
      | some y => if ow then 0 else y) + a • (instantOf N H t * V)) := by
  cases out with
  | none =>
    simp only [dot, dotInto_own, Option.bind_some, addDynamic_ok, if_true]
    rw [instantOf_eq, Matrix.add_mul, smul_add, add_assoc]
  | some y =>
    simp only [dot, dotInto_own, Option.bind_some, addDynamic_ok]
    rw [instantOf_eq, Matrix.add_mul, smul_add, add_assoc]

theorem dot_simple (H : Ham T R) (t : T) (V : Matrix (Fin N) κ R) :
    dot N H t V none true 1 = some (instantOf N H t * V) := by rw [dot_ok, zero_add, one_smul]

theorem mapM_some {α β : Type} (l : List α) (f : α → Option β) (g : α → β) (h : ∀ x ∈ l, f x = some (g x)) :
    l.mapM f = some (l.map g) := by
  induction l with
  | nil => rfl
  | cons x l ih =>
    rw [List.mapM_cons, h x (by simp), ih fun y hy => h y (by simp [hy])]
    rfl

theorem dotTimes_ok {k : Nat} (H : Ham T R) (times : Fin k → T) (V : Fin k → Matrix (Fin N) κ R) (a : R) :
    dotTimes N H times V a = some fun i => a • (instantOf N H (times i) * V i) := by
  rw [dotTimes, mapM_some _ _ (fun i => a • (instantOf N H (times i) * V i)) (fun i _ => by
    rw [dotInto_own, Option.bind_some, addDynamic_ok, instantOf_eq, Matrix.add_mul, smul_add, if_pos rfl, zero_add])]
  rw [Option.bind_some, dif_pos (by simp)]
  congr 1
  funext i
  simp

theorem mat_trans (S : Stored R) : S.trans.mat N = (S.mat N).transpose := by
  cases S <;> rfl

theorem instantOf_transpose (H : Ham T R) (t : T) : instantOf N H.transpose t = (instantOf N H t).transpose := by
  rw [instantOf_eq, instantOf_eq, Matrix.transpose_add]
  congr 1
  · exact mat_trans _
  · show drivenOf N (H.dynamic.map fun e => (e.1, e.2.trans)) t = _
    induction H.dynamic with
    | nil => rw [drivenOf_nil, Matrix.transpose_zero]; rfl
    | cons e d ih => rw [List.map_cons, drivenOf_cons, ih, drivenOf_cons, Matrix.transpose_add, Matrix.transpose_smul, mat_trans]

theorem rdot_ok (H : Ham T R) (t : T) (V y : Matrix κ (Fin N) R) (ow : Bool) (a : R) :
    rdot N H t V (some y) ow a = some ((if ow then 0 else y) + a • (V * instantOf N H t)) := by
  simp only [rdot, dot_ok, Option.map_some, instantOf_transpose]
  congr 1
  rw [Matrix.transpose_add, Matrix.transpose_smul, ← Matrix.transpose_mul, Matrix.transpose_transpose]
  cases ow <;> simp

theorem trace_ok (H : Ham T R) (t : T) : trace N H t = (instantOf N H t).trace := by
  rw [instantOf_eq, trace, Matrix.trace_add]
  show List.foldl _ ((H.static.mat N).trace) _ = _
  generalize (H.static.mat N).trace = s
  induction H.dynamic generalizing s with
  | nil => rw [drivenOf_nil, Matrix.trace_zero, add_zero]; rfl
  | cons e d ih =>
    rw [List.foldl_cons, ih, drivenOf_cons, Matrix.trace_add, Matrix.trace_smul, smul_eq_mul, ← add_assoc, mul_comm]
    rfl

theorem diagonal_ok (H : Ham T R) (t : T) (h : H.static.isDense = false ∨ H.dynamic = []) :
    diagonal N H t = some fun i => instantOf N H t i i := by
  rw [instantOf_eq, diagonal]
  rcases h with h | h
  · rw [h]
    show List.foldlM (fun d (e : (T → R) × Stored R) => some (d + e.1 t • fun i => e.2.mat N i i)) (fun i => H.static.mat N i i) _ = _
    generalize H.static.mat N = S
    induction H.dynamic generalizing S with
    | nil => rw [drivenOf_nil, add_zero]; rfl
    | cons e d ih =>
      rw [List.foldlM_cons]
      show List.foldlM _ ((fun i => S i i) + e.1 t • fun i => e.2.mat N i i) d = _
      have := ih (S + e.1 t • e.2.mat N)
      rw [drivenOf_cons, ← add_assoc]
      exact this
  · rw [h, drivenOf_nil, add_zero]; rfl

variable [StarRing R]

omit [StarRing R] in
theorem mul_col (H : Matrix (Fin N) (Fin N) R) (V : Matrix (Fin N) κ R) (i : Fin N) (j : κ) :
    (H * V) i j = ∑ k, H i k * V k j := Matrix.mul_apply

theorem sum_expectation (H : Matrix (Fin N) (Fin N) R) (V : Matrix (Fin N) κ R) (j : κ) :
    ∑ i, star (V i j) * (H * V) i j = expectation H V j := by
  unfold expectation
  refine Finset.sum_congr rfl fun i _ => ?_
  rw [mul_col, Finset.mul_sum]

omit [StarRing R] in
theorem trace_mixed (H ρ : Matrix (Fin N) (Fin N) R) : ∑ i, (H * ρ) i i = mixedExpectation H ρ := by
  unfold mixedExpectation
  exact Finset.sum_congr rfl fun i _ => mul_col H ρ i i

/-- For a Hermitian operator the norm of `H ψ` is the mean of `H²`. -/
theorem hermitian_square (H : Matrix (Fin N) (Fin N) R) (hH : H.IsHermitian) (V : Matrix (Fin N) κ R) (j : κ) :
    ∑ i, star ((H * V) i j) * (H * V) i j = expectation (H * H) V j := by
  have h1 : ∑ i, star ((H * V) i j) * (H * V) i j = ((H * V).conjTranspose * (H * V)) j j := by
    rw [Matrix.mul_apply]; rfl
  have h2 : expectation (H * H) V j = (V.conjTranspose * ((H * H) * V)) j j := by
    rw [← sum_expectation, Matrix.mul_apply]; rfl
  rw [h1, h2, Matrix.conjTranspose_mul, hH.eq, Matrix.mul_assoc, Matrix.mul_assoc]

end Proof.Eval
