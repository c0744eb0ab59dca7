import Verif.Proof.HamiltonianInplace
import Verif.Props.C20
import Mathlib.Data.Fin.VecNotation

/-!
C22: `H *= A` agrees with `H * A`; C53: `H += G`, `H -= G`; C54: `H.project_to(P)` is `P^dagger H(t) P`.
The vocabulary is that of C20.
-/

namespace Props
open Model.Ham Model.Drive Spec.TimeOp Proof.Ham

variable {F A T R m n k : Type} [NormedCommRing R] [StarRing R]
variable (env : Env F A R) (app : F → List A → T → R) (S : F × List A → Prop) (b : Nat) (tol : ℝ)

/-! ### C22 -/

/-- C22, part (numbers): `H *= c` and `H * c` are the same at every time.
Missing: sparse matrices times driven operators (`C22_fails`). -/
theorem C22_scalar_partial (c : R) (H X Y : Ham F A m n R) (hd : H.Dict env.hash) (hX : imulScalar env c H = some X)
    (hY : mulScalar env c H = some Y) (t : T) : toMatrix app X t = toMatrix app Y t :=
  scalar_agree hd hX hY

/-- C22, part (arrays): `H *= M` and `H * M` are the same at every time.
Missing: sparse matrices times driven operators (`C22_fails`). -/
theorem C22_dense_partial [Fintype n] (M : Mat n n R) (H X Y : Ham F A n n R) (hd : H.Dict env.hash)
    (hX : imulDense env H M = some X) (hY : mulDense env H M = some Y) (t : T) :
    toMatrix app X t = toMatrix app Y t :=
  dense_agree hd hX hY

/-- C22, part (sparse matrices and hamiltonians without time dependence).
Missing: sparse matrices times driven operators (`C22_fails`). -/
theorem C22_sparse_partial [Fintype n] (ht : Threshold env tol) (h0 : 0 ≤ tol) (M : Mat n n R) (H X : Ham F A n n R)
    (hd : H.dynamic = []) (hM : ¬(H.static.fmt = .array ∧ M.fmt = .array)) (hX : imulSparse env H M = some X) (t : T) :
    Close tol (toMatrix app X t) (toMatrix app H t * M.val) :=
  imulSparse_ok ht h0 hd hM hX

/-- C22, part (two time-dependent hamiltonians): `H *= G` is `H(t) G(t)` up to the threshold, as `H * G`
(`C20_mul_partial`). -/
theorem C22_hamiltonian_partial [Fintype n] (b' : Nat) (hc : NoCollision env.hash S (b + b')) (ht : Threshold env tol)
    (h0 : 0 ≤ tol) (H G X : Ham F A n n R) (hH : Keys S b H.dynamic) (hG : Keys S b' G.dynamic)
    (hd : H.dynamic ≠ [] ∧ G.dynamic ≠ []) (hX : imulHam env H G = some X) (t : T) :
    Close (tol * ((1 + wsum app t H.dynamic) * (1 + wsum app t G.dynamic))) (toMatrix app X t)
      (toMatrix app H t * toMatrix app G t) := by
  rw [imulHam, if_pos hd] at hX
  exact (imulDynamic_ok hc ht h0 hH hG hX).2

/-- Pauli matrices. -/
def sx : Matrix (Fin 2) (Fin 2) ℝ := !![0, 1; 1, 0]
def sz : Matrix (Fin 2) (Fin 2) ℝ := !![1, 0; 0, -1]

theorem not_tiny {env : Env F A ℝ} (ht : Threshold env tol) (h1 : tol < 1) (M : Matrix (Fin 2) (Fin 2) ℝ)
    (hM : ‖M 0 1‖ = 1) : env.tiny M = false := by
  rw [← Bool.not_eq_true, ht]
  intro h
  have := h 0 1
  linarith

theorem szx : (sz * sx) 0 1 = 1 := by simp [sx, sz]
theorem sxz : (sx * sz) 0 1 = -1 := by simp [sx, sz]
theorem szzx : (sz * (sz * sx)) 0 1 = 1 := by simp [sx, sz]
theorem szxz : (sz * sx * sz) 0 1 = -1 := by simp [sx, sz]

/-- C22 fails: for `H(t) = f(t) sigma_x` and the sparse matrix `sigma_z`, `H *= sigma_z` is `f(t) sigma_z sigma_x`,
the negative of `H(t) sigma_z`, while `H * sigma_z` is right. -/
theorem C22_fails (env : Env F A ℝ) (ht : Threshold env tol) (h1 : tol < 1) (app : F → List A → T → ℝ) (f : F) (t : T) :
    ∃ (H X Y : Ham F A (Fin 2) (Fin 2) ℝ) (M : Mat (Fin 2) (Fin 2) ℝ),
      imulMat env H M = some X ∧ mulMat env H M = some Y ∧ (toMatrix app X t) 0 1 = app f [] t ∧
        (toMatrix app Y t) 0 1 = -app f [] t ∧ (toMatrix app H t * M.val) 0 1 = -app f [] t := by
  have e1 := not_tiny tol ht h1 (sz * sx) (by rw [szx]; simp)
  have e2 := not_tiny tol ht h1 (sx * sz) (by rw [sxz]; simp)
  refine ⟨⟨⟨.sparse, 0⟩, [(.atom (.base f []), ⟨.sparse, sx⟩)]⟩,
    ⟨⟨.sparse, 0⟩, [(.atom (.base f []), ⟨.sparse, sz * sx⟩)]⟩,
    ⟨⟨.sparse, 0⟩, [(.atom (.base f []), ⟨.sparse, sx * sz⟩)]⟩, ⟨.sparse, sz⟩, ?_, ?_, ?_, ?_, ?_⟩
  · simp [imulMat, imulSparse, mapTermsM, Mat.dot, Mat.prod, Mat.star, Fmt.mul, e1, clean, Mat.zero]
  · simp [mulMat, mulSparse, astype, ofMatrices, initTerm, mem, Model.Drive.hash, hashList, mapTerms, Mat.prod, Mat.star,
      Mat.add, Mat.asArray, Fmt.add, Fmt.asArray, Fmt.mul, e2, clean, Mat.zero]
  · simp only [toMatrix, List.foldl_cons, List.foldl_nil, zero_add, call, Atom.call, Matrix.smul_apply, szx]
    simp
  · simp only [toMatrix, List.foldl_cons, List.foldl_nil, zero_add, call, Atom.call, Matrix.smul_apply, sxz]
    simp
  · simp only [toMatrix, List.foldl_cons, List.foldl_nil, zero_add, call, Atom.call, Matrix.smul_mul, Matrix.smul_apply, sxz]
    simp

/-- C22 fails for hamiltonians too: for `H = sigma_z` and `G(t) = f(t) sigma_x`, `H *= G` is
`f(t) sigma_x sigma_z`. -/
theorem C22_hamiltonian_fails (env : Env F A ℝ) (ht : Threshold env tol) (h1 : tol < 1) (app : F → List A → T → ℝ)
    (f : F) (t : T) : ∃ H G X : Ham F A (Fin 2) (Fin 2) ℝ,
      imulHam env H G = some X ∧ (toMatrix app X t) 0 1 = -app f [] t ∧
        (toMatrix app H t * toMatrix app G t) 0 1 = app f [] t := by
  have e1 : env.tiny (sz.transpose * sx.transpose) = false :=
    not_tiny tol ht h1 _ (by simp [sx, sz, Matrix.mul_apply])
  refine ⟨⟨⟨.sparse, sz⟩, []⟩, ⟨⟨.sparse, 0⟩, [(.atom (.base f []), ⟨.sparse, sx⟩)]⟩,
    ⟨⟨.sparse, 0⟩, [(.atom (.base f []), ⟨.sparse, (sz.transpose * sx.transpose).transpose⟩)]⟩, ?_, ?_, ?_⟩
  · simp [imulHam, transpose, imulSparse, ofMatrices, initTerm, mem, Model.Drive.hash, hashList, mapTermsM, Mat.dot,
      Mat.prod, Mat.star, Mat.trans, Mat.add, Mat.asArray, Fmt.add, Fmt.asArray, Fmt.mul, e1, clean, Mat.zero]
  · simp only [toMatrix, List.foldl_cons, List.foldl_nil, zero_add, call, Atom.call, Matrix.smul_apply]
    simp [sx, sz, Matrix.mul_apply]
  · simp only [toMatrix, List.foldl_cons, List.foldl_nil, zero_add, call, Atom.call, Matrix.mul_smul, Matrix.smul_apply, szx]
    simp

/-! ### C53 -/

/-- C53, part (`H += G`): up to the threshold.
Missing: matrices below the threshold; `-=` raises for shared drives and for arrays (`C53_isub_fails`, `C53_isub_dense_fails`). -/
theorem C53_iadd_partial (hc : NoCollision env.hash S b) (ht : Threshold env tol) (h0 : 0 ≤ tol) (H G X : Ham F A m n R)
    (hH : Keys S b H.dynamic) (hG : Keys S b G.dynamic) (hX : iaddHam env H G = some X) (t : T) :
    Close (tol * (1 + wsum app t G.dynamic)) (toMatrix app X t) (toMatrix app H t + toMatrix app G t) :=
  (iaddHam_ok hc ht h0 hH hG hX).2

/-- C53, part (`H -= G`, when it returns): up to the threshold.
Missing: matrices below the threshold; `-=` raises for shared drives and for arrays (`C53_isub_fails`, `C53_isub_dense_fails`). -/
theorem C53_isub_partial (ht : Threshold env tol) (h0 : 0 ≤ tol) (H G X : Ham F A m n R)
    (hH : Keys S b H.dynamic) (hG : Keys S b G.dynamic) (hX : isubHam env H G = some X) (t : T) :
    Close (tol * (1 + wsum app t G.dynamic)) (toMatrix app X t) (toMatrix app H t - toMatrix app G t) :=
  (isubHam_ok ht h0 hH hG hX).2

/-- C53, part (`H += M`).
Missing: matrices below the threshold; `-=` raises for shared drives and for arrays (`C53_isub_fails`, `C53_isub_dense_fails`). -/
theorem C53_iadd_matrix_partial (ht : Threshold env tol) (h0 : 0 ≤ tol) (H X : Ham F A m n R) (M : Mat m n R)
    (hH : Keys S b H.dynamic) (hX : iaddMat env H M = some X) (t : T) :
    Close tol (toMatrix app X t) (toMatrix app H t + M.val) :=
  (iaddMat_ok ht h0 hH hX).2

/-- C53, part (`H -= M`, when it returns).
Missing: matrices below the threshold; `-=` raises for shared drives and for arrays (`C53_isub_fails`, `C53_isub_dense_fails`). -/
theorem C53_isub_matrix_partial (ht : Threshold env tol) (h0 : 0 ≤ tol) (H X : Ham F A m n R) (M : Mat m n R)
    (hH : Keys S b H.dynamic) (hX : isubMat env H M = some X) (t : T) :
    Close tol (toMatrix app X t) (toMatrix app H t - M.val) :=
  (isubMat_ok ht h0 hH hX).2

omit [StarRing R] in
/-- C53 fails: `H -= G` raises for every `G` whose first drive function is a drive function of `H`, although
`H - G` is fine; in particular `H -= H` for every driven `H`. -/
theorem C53_isub_fails (H G : Ham F A m n R) (e e' : Fn F A × Mat m n R) (l : List (Fn F A × Mat m n R))
    (he : e ∈ H.dynamic) (hG : G.dynamic = e' :: l) (hee : eq env.hash e.1 e'.1 = some true) : isubHam env H G = none := by
  have hm : mem env.hash e'.1 H.dynamic = some true ∨ mem env.hash e'.1 H.dynamic = none := by
    unfold mem
    cases Model.Drive.hash env.hash e'.1 with
    | none => right; rfl
    | some k =>
      left
      simp only [Option.map_some, Option.some.injEq, List.any_eq_true, decide_eq_true_eq]
      exact ⟨e, he, hee⟩
  have : isubTerm env H.dynamic e' = none := by
    unfold isubTerm
    rcases hm with h | h <;> rw [h] <;> rfl
  rw [isubHam, hG, List.foldlM_cons, this]
  rfl

omit [StarRing R] in
/-- C53 fails: `H -= M` raises for every dense `M`. -/
theorem C53_isub_dense_fails (H : Ham F A m n R) (M : Mat m n R) (hM : M.fmt ≠ .sparse) : isubMat env H M = none := by
  rw [isubMat, if_neg hM]

/-! ### C54 -/

/-- C54, part (arrays, possibly rectangular): `project_to(P)` is `P^dagger H(t) P` at every time.
Missing: sparse matrices with driven operators (`C54_fails`). -/
theorem C54_dense_partial [Fintype n] [Fintype m] (hc : NoCollision env.hash S b) (ht : Threshold env 0)
    (H : Ham F A n n R) (P : Mat n m R) (X : Ham F A m m R) (hH : Keys S b H.dynamic)
    (hX : projectDense env H P = some X) (t : T) :
    toMatrix app X t = P.val.conjTranspose * toMatrix app H t * P.val :=
  projectDense_ok hc ht hH hX

/-- C54, part (sparse matrices, operators without time dependence).
Missing: sparse matrices with driven operators (`C54_fails`). -/
theorem C54_sparse_partial [Fintype n] (hc : NoCollision env.hash S b) (ht : Threshold env 0)
    (H X : Ham F A n n R) (P : Mat n n R) (hd : H.dynamic = []) (hP : P.fmt = .sparse)
    (hX : projectSparse env H P = some X) (t : T) :
    toMatrix app X t = P.val.conjTranspose * toMatrix app H t * P.val :=
  projectSparse_ok hc ht hd (by simp [hP]) hX

/-- C54 fails: for `H(t) = f(t) sigma_x` and the sparse matrix `P = sigma_z` the code returns
`P P^dagger H(t) = f(t) sigma_x` instead of `P^dagger H(t) P = -f(t) sigma_x`. -/
theorem C54_fails (env : Env F A ℝ) (ht : Threshold env tol) (h1 : tol < 1) (app : F → List A → T → ℝ) (f : F) (t : T) :
    ∃ (H X : Ham F A (Fin 2) (Fin 2) ℝ) (P : Mat (Fin 2) (Fin 2) ℝ),
      projectSparse env H P = some X ∧ (toMatrix app X t) 0 1 = app f [] t ∧
        (P.val.conjTranspose * toMatrix app H t * P.val) 0 1 = -app f [] t := by
  have hz : (sz.map star).transpose = sz := by ext i j; fin_cases i <;> fin_cases j <;> simp [sz]
  have e1 := not_tiny tol ht h1 (sz * sx) (by rw [szx]; simp)
  have e2 := not_tiny tol ht h1 (sz * (sz * sx)) (by rw [szzx]; simp)
  have e3 : env.tiny (0 : Matrix (Fin 2) (Fin 2) ℝ) = true ∨ env.tiny (0 : Matrix (Fin 2) (Fin 2) ℝ) = false := by
    cases env.tiny (0 : Matrix (Fin 2) (Fin 2) ℝ) <;> simp
  refine ⟨⟨⟨.sparse, 0⟩, [(.atom (.base f []), ⟨.sparse, sx⟩)]⟩,
    ⟨⟨.sparse, 0⟩, [(.atom (.base f []), ⟨.sparse, sz * (sz * sx)⟩)]⟩, ⟨.sparse, sz⟩, ?_, ?_, ?_⟩
  · rcases e3 with e3 | e3 <;>
    simp [projectSparse, rmulSparse, astype, ofMatrices, initTerm, mem, Model.Drive.hash, hashList, imulSparse, mapTermsM,
      Mat.dot, Mat.conj, Mat.trans, hz, Mat.prod, Mat.star, Mat.add, Mat.asArray, Fmt.add, Fmt.asArray, Fmt.mul, e1, e2,
      e3, clean, Mat.zero]
  · simp only [toMatrix, List.foldl_cons, List.foldl_nil, zero_add, call, Atom.call, Matrix.smul_apply, szzx]
    simp
  · simp only [toMatrix, List.foldl_cons, List.foldl_nil, zero_add, call, Atom.call, Matrix.mul_smul, Matrix.smul_mul,
      Matrix.smul_apply]
    rw [show sz.conjTranspose = sz from hz, szxz]
    simp

/-! ### The hypotheses are met -/

theorem sampleHam_dict : sampleHam.Dict sampleEnv.hash := by
  refine ⟨fun e he => ?_, by simp [sampleHam]⟩
  simp only [sampleHam, List.mem_singleton] at he
  subst he
  exact ⟨_, rfl⟩

example (app : Nat → List Nat → ℝ → ℝ) (t : ℝ) : ∃ X Y, imulScalar sampleEnv 3 sampleHam = some X ∧
    mulScalar sampleEnv 3 sampleHam = some Y ∧ toMatrix app X t = toMatrix app Y t := by
  have hY : ∃ Y, mulScalar sampleEnv 3 sampleHam = some Y := by
    rw [mulScalar, astype_dict sampleHam_dict]; exact ⟨_, rfl⟩
  obtain ⟨Y, hY⟩ := hY
  exact ⟨_, Y, rfl, hY, C22_scalar_partial sampleEnv app 3 sampleHam _ Y sampleHam_dict rfl hY t⟩

/-- `H -= G` for two hamiltonians driven differently. -/
example : ∃ X, isubHam sampleEnv sampleHam ⟨⟨.sparse, 1⟩, []⟩ = some X := ⟨_, rfl⟩

/-- Projection on one state. -/
example (app : Nat → List Nat → ℝ → ℝ) (t : ℝ) : ∃ X,
    projectDense sampleEnv sampleHam (⟨.array, !![1; 1]⟩ : Mat (Fin 2) (Fin 1) ℝ) = some X ∧
      toMatrix app X t = (!![1; 1] : Matrix (Fin 2) (Fin 1) ℝ).conjTranspose * toMatrix app sampleHam t *
        (!![1; 1] : Matrix (Fin 2) (Fin 1) ℝ) := by
  have hX : ∃ X, projectDense sampleEnv sampleHam (⟨.array, !![1; 1]⟩ : Mat (Fin 2) (Fin 1) ℝ) = some X := by
    rw [projectDense, rmulDense, astype_dict sampleHam_dict]
    exact ⟨_, rfl⟩
  obtain ⟨X, hX⟩ := hX
  exact ⟨X, hX, C54_dense_partial sampleEnv app (fun _ => True) 1
    (Proof.Drive.noCollision_of_injective sampleHash_injective _ _) sampleEnv_threshold sampleHam _ X sampleHam_keys hX t⟩

end Props
