import Verif.Proof.HamiltonianMul
import Verif.Props.C28
import Mathlib.Analysis.Normed.Field.Basic
import Mathlib.LinearAlgebra.Matrix.Notation
import Mathlib.Data.Real.Star
import Mathlib.Tactic.NormNum

/-!
C20: arithmetic of hamiltonians acts at every time separately.

A hamiltonian is a static matrix plus drive functions times matrices; `toMatrix app H t` is the matrix the
library returns for it at time `t`, where `app f args t` is what the user's callable `f` returns.

* `Threshold env tol`: the library calls a matrix zero when all its elements are at most `tol` in absolute value.
* `Keys S b H.dynamic`: the drive functions are products of at most `b` callables out of `S`.
* `NoCollision`: Python's `hash` tells these functions apart (see C28).
* `wsum app t H.dynamic`: the sum of `|f(t)|` over the drive functions of `H`.

Matrices that are almost zero are dropped, so the operations are exact only up to `tol` times these weights.
-/

namespace Props
open Model.Ham Model.Drive Spec.TimeOp Proof.Ham

variable {F A T R m n k : Type} [NormedCommRing R] [StarRing R]
variable (env : Env F A R) (app : F → List A → T → R) (S : F × List A → Prop) (b : Nat) (tol : ℝ)

/-! ### Single operations, with the error made by dropping almost zero matrices -/

/-- C20, part (`H + G`): up to the threshold.
Missing: exactness, since matrices below the threshold are dropped (`C20_fails_tiny`). -/
theorem C20_add_partial (hc : NoCollision env.hash S b) (ht : Threshold env tol) (h0 : 0 ≤ tol) (H G X : Ham F A m n R)
    (hH : Keys S b H.dynamic) (hG : Keys S b G.dynamic) (hX : addHam env H G = some X) (t : T) :
    Close (tol * (1 + wsum app t G.dynamic)) (toMatrix app X t) (toMatrix app H t + toMatrix app G t) :=
  (addHam_ok hc ht h0 hH hG hX).2

/-- C20, part (`H - G`): up to the threshold.
Missing: exactness, since matrices below the threshold are dropped (`C20_fails_tiny`). -/
theorem C20_sub_partial (hc : NoCollision env.hash S b) (ht : Threshold env tol) (h0 : 0 ≤ tol) (H G X : Ham F A m n R)
    (hH : Keys S b H.dynamic) (hG : Keys S b G.dynamic) (hX : subHam env H G = some X) (t : T) :
    Close (tol * (1 + wsum app t G.dynamic)) (toMatrix app X t) (toMatrix app H t - toMatrix app G t) :=
  (subHam_ok hc ht h0 hH hG hX).2

/-- C20 (`-H`): exact. -/
theorem C20_neg (hc : NoCollision env.hash S b) (H X : Ham F A m n R) (hH : Keys S b H.dynamic)
    (hX : neg env H = some X) (t : T) : toMatrix app X t = -toMatrix app H t :=
  (neg_ok hc hH hX).2

/-- C20, part (`c * H`): up to the threshold.
Missing: exactness, since matrices below the threshold are dropped (`C20_fails_tiny`). -/
theorem C20_scalar_partial (hc : NoCollision env.hash S b) (ht : Threshold env tol) (h0 : 0 ≤ tol) (c : R)
    (H X : Ham F A m n R) (hH : Keys S b H.dynamic) (hX : mulScalar env c H = some X) (t : T) :
    Close (tol * (1 + wsum app t H.dynamic)) (toMatrix app X t) (c • toMatrix app H t) :=
  (mulScalar_ok hc ht h0 hH hX).2

/-- C20, part (`H * G`): up to the threshold, and unless both are time-independent (or one of them) and dense.
Missing: two dense operators of which one is time independent (`C20_fails_dense`), and matrices below the threshold (`C20_fails_tiny`). -/
theorem C20_mul_partial [Fintype n] (b' : Nat) (hc : NoCollision env.hash S (b + b')) (ht : Threshold env tol)
    (h0 : 0 ≤ tol) (H G X : Ham F A n n R) (hH : Keys S b H.dynamic) (hG : Keys S b' G.dynamic)
    (hf : H.Sparse ∨ G.Sparse ∨ (H.dynamic ≠ [] ∧ G.dynamic ≠ [])) (hX : mulHam env H G = some X) (t : T) :
    Close (tol * ((1 + wsum app t H.dynamic) * (1 + wsum app t G.dynamic))) (toMatrix app X t)
      (toMatrix app H t * toMatrix app G t) :=
  (mulHam_ok hc ht h0 hH hG hf hX).2

/-- C20 (`H.T`): exact. -/
theorem C20_transpose (hc : NoCollision env.hash S b) (H : Ham F A m n R) (X : Ham F A n m R)
    (hH : Keys S b H.dynamic) (hX : transpose env H = some X) (t : T) :
    toMatrix app X t = (toMatrix app H t).transpose :=
  (transpose_ok hc hH hX).2.1

/-- C20 (`H.conj()`): exact. -/
theorem C20_conj (hc : NoCollision env.hash S b) (H X : Ham F A m n R) (hH : Keys S b H.dynamic)
    (hX : Model.Ham.conjugate env H = some X) (t : T) : toMatrix app X t = (toMatrix app H t).map star :=
  (conjugate_ok hc hH hX).2

/-- C20 (`H.H`): exact. -/
theorem C20_adjoint (hc : NoCollision env.hash S b) (H : Ham F A m n R) (X : Ham F A n m R)
    (hH : Keys S b H.dynamic) (hX : getH env H = some X) (t : T) :
    toMatrix app X t = (toMatrix app H t).conjTranspose :=
  (getH_ok hc hH hX).2

/-! ### Sums and products with matrices -/

/-- C20, part (`H + M`).
Missing: exactness, since matrices below the threshold are dropped (`C20_fails_tiny`). -/
theorem C20_add_matrix_partial (hc : NoCollision env.hash S b) (ht : Threshold env tol) (h0 : 0 ≤ tol)
    (H X : Ham F A m n R) (M : Mat m n R) (hH : Keys S b H.dynamic) (hX : addMat env H M = some X) (t : T) :
    Close tol (toMatrix app X t) (toMatrix app H t + M.val) :=
  (addMat_ok hc ht h0 hH hX).2

/-- C20, part (`H - M`).
Missing: exactness, since matrices below the threshold are dropped (`C20_fails_tiny`). -/
theorem C20_sub_matrix_partial (hc : NoCollision env.hash S b) (ht : Threshold env tol) (h0 : 0 ≤ tol)
    (H X : Ham F A m n R) (M : Mat m n R) (hH : Keys S b H.dynamic) (hX : subMat env H M = some X) (t : T) :
    Close tol (toMatrix app X t) (toMatrix app H t - M.val) :=
  (subMat_ok hc ht h0 hH hX).2

/-- C20, part (`M - H`).
Missing: exactness, since matrices below the threshold are dropped (`C20_fails_tiny`). -/
theorem C20_rsub_matrix_partial (hc : NoCollision env.hash S b) (ht : Threshold env tol) (h0 : 0 ≤ tol)
    (H X : Ham F A m n R) (M : Mat m n R) (hH : Keys S b H.dynamic) (hX : rsubMat env M H = some X) (t : T) :
    Close tol (toMatrix app X t) (M.val - toMatrix app H t) :=
  (rsubMat_ok hc ht h0 hH hX).2

/-- C20, part (`H * M` for a sparse or dense matrix).
Missing: exactness, since matrices below the threshold are dropped (`C20_fails_tiny`). -/
theorem C20_mul_matrix_partial [Fintype n] (hc : NoCollision env.hash S b) (ht : Threshold env tol) (h0 : 0 ≤ tol)
    (H X : Ham F A n n R) (M : Mat n n R) (hH : Keys S b H.dynamic) (hX : mulMat env H M = some X) (t : T) :
    Close (tol * (1 + wsum app t H.dynamic)) (toMatrix app X t) (toMatrix app H t * M.val) := by
  unfold mulMat at hX
  split at hX
  · rename_i hf
    exact (mulSparse_ok hc ht h0 hH (by simp [hf]) hX).2
  · exact (mulDense_ok hc ht h0 hH hX).2

/-- C20, part (`M * H` for a sparse or dense matrix).
Missing: exactness, since matrices below the threshold are dropped (`C20_fails_tiny`). -/
theorem C20_rmul_matrix_partial [Fintype n] (hc : NoCollision env.hash S b) (ht : Threshold env tol) (h0 : 0 ≤ tol)
    (H X : Ham F A n n R) (M : Mat n n R) (hH : Keys S b H.dynamic) (hX : rmulMat env M H = some X) (t : T) :
    Close (tol * (1 + wsum app t H.dynamic)) (toMatrix app X t) (M.val * toMatrix app H t) := by
  unfold rmulMat at hX
  split at hX
  · rename_i hf
    exact (rmulSparse_ok hc ht h0 hH (by simp [hf]) hX).2
  · exact (rmulDense_ok hc ht h0 hH hX).2

/-! ### Expressions -/

/-- C20, part: any expression in hamiltonians, exactly, when only zero matrices are dropped and the matrices are
sparse.  Missing: the threshold of the code is not zero (`C20_fails_tiny`), dense matrices (`C20_fails_dense`). -/
theorem C20_expression_partial {ι : Type} [Fintype n] [DecidableEq n] (ht : Threshold env 0) (H : ι → Ham F A n n R)
    (d : ι → Nat) (hs : ∀ i, (H i).Sparse) (hH : ∀ i, Keys S (d i) (H i).dynamic) (e : Spec.TimeOp.Expr ι R)
    (hc : NoCollision env.hash S (e.degree d)) (X : Ham F A n n R) (hX : Model.Ham.build env H e = some X) (t : T) :
    toMatrix app X t = e.meaning (fun i => toMatrix app (H i)) t :=
  (build_ok ht hs hH e hc hX).2.2

/-- Expressions without conjugates and with positive powers are computed without an exception. -/
theorem C20_returns {ι : Type} [Fintype n] [DecidableEq n] (ht : Threshold env 0) (H : ι → Ham F A n n R)
    (d : ι → Nat) (hs : ∀ i, (H i).Sparse) (hH : ∀ i, Keys S (d i) (H i).dynamic)
    (hb : ∀ i, BaseKeys (H i).dynamic) (e : Spec.TimeOp.Expr ι R) (he : e.Plain)
    (hc : NoCollision env.hash S (e.degree d)) : ∃ X, Model.Ham.build env H e = some X := by
  obtain ⟨X, h, -⟩ := build_base ht hs hH hb e he hc
  exact ⟨X, h⟩

/-! ### Where the property fails -/

/-- C20 fails: with the threshold `100 * 2^-52` of double precision, `2^-52 * H` is zero for the matrix `H = 1`. -/
theorem C20_fails_tiny (env : Env F A ℝ) (ht : Threshold env (100 / 2 ^ 52)) (app : F → List A → T → ℝ) (t : T) :
    ∃ (H X : Ham F A Unit Unit ℝ) (c : ℝ), mulScalar env c H = some X ∧
      toMatrix app X t ≠ c • toMatrix app H t := by
  refine ⟨⟨⟨.sparse, 1⟩, []⟩, ⟨Mat.zero, []⟩, 1 / 2 ^ 52, ?_, ?_⟩
  · have h1 : env.tiny ((1 / 2 ^ 52 : ℝ) • (0 + 1 : Matrix Unit Unit ℝ)) = true := by
      rw [ht]
      intro i j
      rw [zero_add, Matrix.smul_apply, smul_eq_mul, Matrix.one_apply, if_pos (Subsingleton.elim i j), mul_one, Real.norm_eq_abs]
      norm_num
    simp only [mulScalar, astype, ofMatrices, List.foldlM_nil, List.foldl_cons, List.foldl_nil]
    show some _ = some _
    simp only [clean, Mat.smul, Mat.add, Mat.zero, Mat.asArray, h1, if_true]
    rfl
  · intro h
    have := congrFun (congrFun h ()) ()
    simp [toMatrix, Mat.zero] at this
    norm_num at this

/-- C20 fails: the product of two time-independent hamiltonians with dense matrices is element by element; for
the 2 x 2 matrix of ones the product is the matrix of ones instead of the matrix of twos. -/
theorem C20_fails_dense (env : Env F A ℝ) (ht : Threshold env tol) (h1 : tol < 1)
    (app : F → List A → T → ℝ) (t : T) :
    ∃ H X : Ham F A (Fin 2) (Fin 2) ℝ, mulHam env H H = some X ∧
      toMatrix app X t 0 0 = 1 ∧ (toMatrix app H t * toMatrix app H t) 0 0 = 2 := by
  have hb : env.tiny (Matrix.of fun _ _ : Fin 2 => (1 : ℝ)) = false := by
    rw [← Bool.not_eq_true, ht]
    intro h
    have := h 0 0
    rw [Matrix.of_apply, norm_one] at this
    linarith
  refine ⟨⟨⟨.array, Matrix.of fun _ _ => 1⟩, []⟩, ⟨⟨.array, Matrix.of fun _ _ => 1⟩, []⟩, ?_, ?_, ?_⟩
  · have hh : Matrix.hadamard (0 + Matrix.of fun _ _ : Fin 2 => (1 : ℝ)) (Matrix.of fun _ _ => 1) =
        Matrix.of fun _ _ => 1 := by
      ext i j; simp
    simp only [mulHam, mulSparse, astype, ofMatrices, List.foldlM_nil, List.foldl_cons, List.foldl_nil]
    show some _ = some _
    simp only [clean, Mat.star, Mat.add, Mat.zero, Mat.asArray, Fmt.add, Fmt.asArray, and_self, if_true, hh, hb]
    rfl
  · simp [toMatrix]
  · simp [toMatrix, Matrix.mul_apply]

omit [StarRing R] in
/-- C20 fails for `H ** 0`: it raises instead of giving the identity. -/
theorem C20_pow_zero_fails [Fintype n] (H : Ham F A n n R) : pow env H 0 = none := rfl

/-! ### The hypotheses are met -/

/-- Real matrices, zero threshold. -/
noncomputable def sampleEnv : Env Nat Nat ℝ where
  hash := sampleHash
  tiny M := @decide (∀ i j, ‖M i j‖ ≤ 0) (Classical.propDecidable _)

theorem sampleEnv_threshold : Threshold sampleEnv 0 := fun M => by simp [sampleEnv]

/-- A driven two level system `sigma_z + f(t, 3) sigma_x`. -/
def sampleHam : Ham Nat Nat (Fin 2) (Fin 2) ℝ :=
  ⟨⟨.sparse, !![1, 0; 0, -1]⟩, [(.atom (.base 0 [3]), ⟨.sparse, !![0, 1; 1, 0]⟩)]⟩

theorem sampleHam_keys : Keys (fun _ => True) 1 sampleHam.dynamic := by
  intro e he
  simp only [sampleHam, List.mem_singleton] at he
  subst he
  exact ⟨fun _ _ => trivial, by simp [degree], trivial⟩

theorem sampleHam_sparse : sampleHam.Sparse := by simp [Ham.Sparse, sampleHam]

/-- `(H - 2 H.T) * H ** 3` for the driven two level system is computed, and is right at every time. -/
example (app : Nat → List Nat → ℝ → ℝ) (t : ℝ) : ∃ X,
    Model.Ham.build sampleEnv (fun _ : Unit => sampleHam)
      (.mul (.sub (.leaf ()) (.scale 2 (.transpose (.leaf ())))) (.pow (.leaf ()) 3)) = some X ∧
    toMatrix app X t = (toMatrix app sampleHam t - (2 : ℝ) • (toMatrix app sampleHam t).transpose) *
      toMatrix app sampleHam t ^ 3 := by
  obtain ⟨X, hX⟩ := C20_returns sampleEnv (fun _ => True) sampleEnv_threshold (fun _ : Unit => sampleHam) (fun _ => 1)
    (fun _ => sampleHam_sparse) (fun _ => sampleHam_keys)
    (fun _ e he => by
      simp only [sampleHam, List.mem_singleton] at he
      subst he; trivial)
    (.mul (.sub (.leaf ()) (.scale 2 (.transpose (.leaf ())))) (.pow (.leaf ()) 3)) ⟨⟨trivial, trivial⟩, trivial, by decide⟩
    (Proof.Drive.noCollision_of_injective sampleHash_injective _ _)
  exact ⟨X, hX, C20_expression_partial sampleEnv app (fun _ => True) sampleEnv_threshold _ (fun _ => 1)
    (fun _ => sampleHam_sparse) (fun _ => sampleHam_keys) _
    (Proof.Drive.noCollision_of_injective sampleHash_injective _ _) X hX t⟩

/-- There is an environment with the threshold of double precision. -/
example : ∃ env : Env Nat Nat ℝ, Threshold env (100 / 2 ^ 52) :=
  ⟨⟨sampleHash, fun M => @decide (∀ i j, ‖M i j‖ ≤ 100 / 2 ^ 52) (Classical.propDecidable _)⟩, fun M => by simp⟩

end Props
