import Verif.Model.Spectrum
import Verif.Spec.Spectrum
import Verif.Proof.Evaluate
import Verif.Props.C102
import Mathlib.LinearAlgebra.Matrix.Charpoly.Basic
import Mathlib.LinearAlgebra.Matrix.Charpoly.Coeff
import Mathlib.LinearAlgebra.Matrix.NonsingularInverse
import Mathlib.Data.List.OfFn
import Mathlib.Analysis.Matrix.Spectrum
import Mathlib.Data.Fin.Tuple.Sort
import Mathlib.Algebra.Polynomial.Roots
import Mathlib.Data.List.Sort

/-!
C109: diagonalisation, and the hamiltonian as a linear operator.

`Spec.Diagonalises A E V`: numbers that do not decrease with orthonormal eigenvectors.  `instantOf` is the operator at a time; `valueOf` is the
operator for given couplings.
-/

namespace Props
open Spec Model.Spectrum Polynomial
open Model.Eval (Ham Stored toMatrix)
open Model.QOpCalls (QObj Coup)
open Proof.Eval (instantOf toMatrix_ok)

/-- The contract of LAPACK: it diagonalises the hermitian matrix with the triangle it is told to read. -/
def Lapack {N : ℕ} (S : Solvers N) : Prop := ∀ low A, Diagonalises (completed low A) (S.heev low A).1 (S.heev low A).2

/-- The contract of ARPACK for the smallest eigenvalues of a hermitian matrix: the result is the beginning of a diagonalisation. -/
def Arpack {N : ℕ} (S : Solvers N) : Prop := ∀ k A (hk : k ≤ N), A.IsHermitian →
  ∃ E V, Diagonalises A E V ∧ (S.arpack k A).1 = (fun i => E (i.castLE hk)) ∧ (S.arpack k A).2 = V.submatrix id fun j => j.castLE hk

theorem completed_hermitian {N : ℕ} (low : Bool) {A : Matrix (Fin N) (Fin N) ℂ} (h : A.IsHermitian) : completed low A = A := by
  ext i j
  unfold completed
  by_cases hij : i = j
  · subst hij
    rw [if_pos rfl]
    exact Complex.conj_eq_iff_re.1 (h.apply i i)
  · rw [if_neg hij]
    split_ifs <;> first | rfl | exact h.apply i j

/-- The numbers of a diagonalisation are the zeros of the characteristic polynomial. -/
theorem diagonalises_charpoly {N : ℕ} {A V : Matrix (Fin N) (Fin N) ℂ} {E : Fin N → ℝ} (h : Diagonalises A E V) :
    A.charpoly = ∏ i, (X - C (E i : ℂ)) := by
  obtain ⟨-, h1, h2⟩ := h
  have h3 : V * V.conjTranspose = 1 := mul_eq_one_comm.1 h1
  let u : (Matrix (Fin N) (Fin N) ℂ)ˣ := ⟨V, V.conjTranspose, h3, h1⟩
  have hA : A = u.val * Matrix.diagonal (fun i => (E i : ℂ)) * u⁻¹.val := by
    show A = V * _ * V.conjTranspose
    rw [← h2, Matrix.mul_assoc, h3, Matrix.mul_one]
  rw [hA, Matrix.coe_units_inv, Matrix.charpoly_units_conj, Matrix.charpoly_diagonal]

/-- The numbers of two diagonalisations of a matrix are the same. -/
theorem diagonalises_unique {N : ℕ} {A V W : Matrix (Fin N) (Fin N) ℂ} {E F : Fin N → ℝ} (h : Diagonalises A E V) (h' : Diagonalises A F W) :
    E = F := by
  have hroots : (Finset.univ.val.map fun i => (E i : ℂ)) = Finset.univ.val.map fun i => (F i : ℂ) := by
    have := congrArg Polynomial.roots ((diagonalises_charpoly h).symm.trans (diagonalises_charpoly h'))
    rw [Finset.prod_eq_multiset_prod, Finset.prod_eq_multiset_prod] at this
    have hm : ∀ G : Fin N → ℝ, (Finset.univ.val.map fun i => (X - C (G i : ℂ))) =
        (Finset.univ.val.map fun i => (G i : ℂ)).map fun a => X - C a := fun G => by rw [Multiset.map_map]; rfl
    rwa [hm, hm, Polynomial.roots_multiset_prod_X_sub_C, Polynomial.roots_multiset_prod_X_sub_C] at this
  have hreal : Finset.univ.val.map E = Finset.univ.val.map F := by
    have := congrArg (Multiset.map Complex.re) hroots
    simpa [Multiset.map_map, Function.comp_def] using this
  have hperm : (List.ofFn E).Perm (List.ofFn F) := by
    rw [← Multiset.coe_eq_coe]
    simpa [Fin.univ_val_map] using hreal
  have hs : ∀ G : Fin N → ℝ, Monotone G → (List.ofFn G).Pairwise (· ≤ ·) := by
    intro G hG
    rw [List.pairwise_ofFn]
    intro i j hij
    exact hG hij.le
  have := List.Perm.eq_of_pairwise (fun a b _ _ h h' => le_antisymm h h') (hs E h.1) (hs F h'.1) hperm
  exact List.ofFn_injective this

/-- Every hermitian matrix can be diagonalised in this sense, so the contracts can be met. -/
theorem diagonalises_exists {N : ℕ} {A : Matrix (Fin N) (Fin N) ℂ} (h : A.IsHermitian) : ∃ E V, Diagonalises A E V := by
  let σ := Tuple.sort h.eigenvalues
  let U : Matrix (Fin N) (Fin N) ℂ := h.eigenvectorUnitary
  have hU : U.conjTranspose * U = 1 := by
    have := h.eigenvectorUnitary.2
    exact (Matrix.mem_unitaryGroup_iff').1 this
  have hU' : U * U.conjTranspose = 1 := mul_eq_one_comm.1 hU
  have hA : A * U = U * Matrix.diagonal fun i => (h.eigenvalues i : ℂ) := by
    have := h.spectral_theorem
    conv_lhs => rw [this]
    rw [Unitary.conjStarAlgAut_apply]
    show U * _ * U.conjTranspose * U = _
    rw [Matrix.mul_assoc, hU, Matrix.mul_one]
    rfl
  refine ⟨h.eigenvalues ∘ σ, U.submatrix id σ, Tuple.monotone_sort _, ?_, ?_⟩
  · have : (U.submatrix id σ).conjTranspose * U.submatrix id σ = (U.conjTranspose * U).submatrix σ σ := by
      ext i j; simp [Matrix.mul_apply]
    rw [this, hU, Matrix.submatrix_one_equiv]
  · ext i j
    have := congrFun (congrFun hA i) (σ j)
    rw [Matrix.mul_diagonal] at this ⊢
    simpa [Matrix.mul_apply] using this

theorem completed_is_hermitian {N : ℕ} (low : Bool) (A : Matrix (Fin N) (Fin N) ℂ) : (completed low A).IsHermitian := by
  ext i j
  rw [Matrix.conjTranspose_apply]
  unfold completed
  rcases lt_trichotomy i j with h | h | h
  · cases low <;> simp [h, h.ne, h.ne', h.not_gt]
  · subst h; simp
  · cases low <;> simp [h, h.ne, h.ne', h.not_gt]

open Classical in
/-- Routines that keep the contracts. -/
noncomputable def solvers (N : ℕ) : Solvers N where
  heev low A := (Classical.choose (diagonalises_exists (completed_is_hermitian low A)),
    Classical.choose (Classical.choose_spec (diagonalises_exists (completed_is_hermitian low A))))
  arpack k A :=
    if h : k ≤ N ∧ A.IsHermitian then
      (fun i => Classical.choose (diagonalises_exists h.2) (i.castLE h.1),
        (Classical.choose (Classical.choose_spec (diagonalises_exists h.2))).submatrix id fun j => j.castLE h.1)
    else (fun _ => 0, 0)

theorem solvers_ok (N : ℕ) : Lapack (solvers N) ∧ Arpack (solvers N) := by
  refine ⟨fun low A => Classical.choose_spec (Classical.choose_spec (diagonalises_exists (completed_is_hermitian low A))), fun k A hk h => ?_⟩
  refine ⟨_, _, Classical.choose_spec (Classical.choose_spec (diagonalises_exists h)), ?_, ?_⟩ <;> simp [solvers, hk, h]

section Ham

variable {N : ℕ} {T : Type} (S : Solvers N) (H : Typed T) (t : T)

/-- `eigh(time)` diagonalises the hamiltonian at this time, with any choice of the triangle by scipy's name; `eigvalsh(time)` returns the same
numbers, and `eigsh(time, k)` with `which='SA'` the `k` first of them with orthonormal eigenvectors.
Missing: operators that are not hermitian (`C109_fails_triangle`), the documented keyword `UPLO` (`C109_fails_uplo`), spaces without states
(`C109_fails_empty`), real operators with complex functions (`C109_fails_complex`), other values of `which`. -/
theorem C109_hamiltonian_partial (hS : Lapack S) (hA : Arpack S) (hN : 0 < N) (ht : ¬ (H.real = true ∧ H.complexDrive = true))
    (hh : (instantOf N H.ham t).IsHermitian) (low : Option Bool) (k : ℕ) (hk : 0 < k) (hkN : k < N) :
    ∃ E V W, Diagonalises (instantOf N H.ham t) E V ∧
      hamEigh S H t { lower := low } = .ok (.pair N E V) ∧
      hamEigvalsh S H t { lower := low } = .ok (.values N E) ∧
      hamEigsh S H t { k := k } = .ok (.pair k (fun i => E (i.castLE hkN.le)) W) ∧
      hamEigsh S H t { k := k, returnVectors := some false } = .ok (.values k fun i => E (i.castLE hkN.le)) ∧
      W.conjTranspose * W = 1 ∧ instantOf N H.ham t * W = W * Matrix.diagonal fun i => (E (i.castLE hkN.le) : ℂ) := by
  have hd := hS (low.getD true) (instantOf N H.ham t)
  rw [completed_hermitian _ hh] at hd
  have hden : todense N H t = .ok (instantOf N H.ham t) := by
    unfold todense
    rw [if_neg (by simpa using ht), toMatrix_ok]
  obtain ⟨F, U, hU, h1, h2⟩ := hA k _ hkN.le hh
  have hE := diagonalises_unique hd hU
  refine ⟨_, _, (S.arpack k (instantOf N H.ham t)).2, hd, ?_, ?_, ?_, ?_, ?_, ?_⟩
  · simp [hamEigh, hN.ne', hden, Except.bind, scipyEigh]
  · simp [hamEigvalsh, hN.ne', hden, Except.bind, scipyEigvalsh]
  · simp [hamEigsh, hN.ne', scipyEigsh, hk.ne', hkN, toMatrix_ok, h1, hE]
  · simp [hamEigsh, hN.ne', scipyEigsh, hk.ne', hkN, toMatrix_ok, h1, hE]
  · obtain ⟨-, e1, -⟩ := hU
    ext i j
    have := congrFun (congrFun e1 (i.castLE hkN.le)) (j.castLE hkN.le)
    simp only [h2, Matrix.mul_apply, Matrix.conjTranspose_apply, Matrix.one_apply, Matrix.submatrix_apply, id] at this ⊢
    rw [this]
    by_cases hij : i = j
    · simp [hij]
    · rw [if_neg hij, if_neg (fun h => hij (Fin.castLE_injective hkN.le h))]
  · obtain ⟨-, -, e2⟩ := hU
    ext i j
    have := congrFun (congrFun e2 i) (j.castLE hkN.le)
    rw [Matrix.mul_diagonal] at this ⊢
    simp only [h2, Matrix.mul_apply, Matrix.submatrix_apply, id] at this ⊢
    rw [this, hE]

/-- Two levels with energies `t` and `-t`: hermitian at each time. -/
def splitLevels : Typed ℝ := ⟨⟨.dense fun _ _ => 0, [(fun t => (t : ℂ), .dense fun i j => if i = j then (if i = 0 then 1 else -1) else 0)]⟩, false, false⟩

example (t : ℝ) : ∃ E V W, Diagonalises (instantOf 2 splitLevels.ham t) E V ∧ hamEigh (solvers 2) splitLevels t {} = .ok (.pair 2 E V) ∧
    hamEigsh (solvers 2) splitLevels t { k := 1 } = .ok (.pair 1 (fun i => E (i.castLE (by omega))) W) := by
  have hh : (instantOf 2 splitLevels.ham t).IsHermitian := by
    rw [Proof.Eval.instantOf_eq]
    ext i j
    fin_cases i <;> fin_cases j <;> simp [splitLevels, Proof.Eval.drivenOf, Stored.mat, Stored.entry]
  obtain ⟨E, V, W, h1, h2, -, h3, -⟩ := C109_hamiltonian_partial (solvers 2) splitLevels t (solvers_ok 2).1 (solvers_ok 2).2 (by omega)
    (by simp [splitLevels]) hh none 1 (by omega) (by omega)
  exact ⟨E, V, W, h1, h2, h3⟩

end Ham

section Qop

variable {N : ℕ} (S : Solvers N)

/-- `quantum_operator.eigh(pars)`, `eigvalsh(pars)` and `eigsh(pars, k)`: the same for the operator with the given couplings, one for names not
given; so the numbers are those of the `hamiltonian` with the same matrix.
Missing: as for `hamiltonian`, and `eigvals_only` (`C109_fails_unpack`). -/
theorem C109_quantum_operator_partial {q : QObj} {d : Coup} (hq : QOp.Names q) (hd : QOp.Fits q d) (hS : Lapack S) (hA : Arpack S) (hN : 0 < N)
    (hh : (QOp.valueOf N q d).IsHermitian) (low uplo : Option Bool) (k : ℕ) (hk : 0 < k) (hkN : k < N) :
    ∃ E V W, Diagonalises (QOp.valueOf N q d) E V ∧
      qopEigh S q d { lower := low } = .ok (.pair N E V) ∧
      qopEigvalsh S q d { uplo := uplo } = .ok (.values N E) ∧
      qopEigsh S q d { k := k } = .ok (.pair k (fun i => E (i.castLE hkN.le)) W) ∧
      ∀ (T : Type) (H : Typed T) (t : T), instantOf N H.ham t = QOp.valueOf N q d → ¬ (H.real = true ∧ H.complexDrive = true) →
        hamEigvalsh S H t {} = .ok (.values N E) := by
  have hm : qopMatrix N q d = .ok (QOp.valueOf N q d) := by
    unfold qopMatrix
    rw [QOp.C102_toarray_partial hq hd]
  have hdiag : ∀ l, Diagonalises (QOp.valueOf N q d) (S.heev l (QOp.valueOf N q d)).1 (S.heev l (QOp.valueOf N q d)).2 := by
    intro l
    have := hS l (QOp.valueOf N q d)
    rwa [completed_hermitian _ hh] at this
  obtain ⟨F, U, hU, h1, h2⟩ := hA k _ hkN.le hh
  refine ⟨_, _, (S.arpack k (QOp.valueOf N q d)).2, hdiag (low.getD true), ?_, ?_, ?_, ?_⟩
  · simp [qopEigh, hN.ne', hm, Except.bind, scipyEigh, unpackPair]
  · simp only [qopEigvalsh, hN.ne', ite_false, hm, Except.bind, numpyEigvalsh]
    simp only [Option.isSome_none, Bool.or_self, Bool.false_eq_true, ite_false]
    rw [diagonalises_unique (hdiag (uplo.getD true)) (hdiag (low.getD true))]
  · simp [qopEigsh, hN.ne', hm, Except.bind, scipyEigsh, hk.ne', hkN, h1, diagonalises_unique hU (hdiag (low.getD true))]
  · intro T H t he ht
    unfold hamEigvalsh todense
    rw [if_neg hN.ne', if_neg (by simpa using ht), toMatrix_ok, he]
    simp only [Except.bind, scipyEigvalsh, Option.isSome_none, Bool.or_self, Bool.false_eq_true, ite_false, Option.getD_none]
    rw [diagonalises_unique (hdiag true) (hdiag (low.getD true))]

example : ∃ E V, Diagonalises (QOp.valueOf 2 QOp.one1 []) E V ∧
    qopEigh (solvers 2) QOp.one1 [] {} = .ok (.pair 2 E V) := by
  have hh : (QOp.valueOf 2 QOp.one1 []).IsHermitian := by
    ext i j
    simp [QOp.valueOf, QOp.valueWith, QOp.one1, QOp.couplingOf, Stored.mat, Stored.entry]
  obtain ⟨E, V, W, h1, h2, -⟩ := C109_quantum_operator_partial (solvers 2) (q := QOp.one1) (d := []) (by simp [QOp.Names, QOp.one1])
    ⟨by decide, by simp⟩ (solvers_ok 2).1 (solvers_ok 2).2 (by omega) hh none none 1 (by omega) (by omega)
  exact ⟨E, V, h1, h2⟩

end Qop

/-- `aslinearoperator(time)`: `matvec` and `matmat` multiply with the operator at this time, `rmatvec` with its hermitian conjugate, also for complex
functions of time. -/
theorem C109_linear {N : ℕ} {T κ : Type} (H : Ham T ℂ) (t : T) (V : Matrix (Fin N) κ ℂ) :
    (linear N H t).1 V = some (instantOf N H t * V) ∧ (linear N H t).2 V = some ((instantOf N H t).conjTranspose * V) := by
  have hadj : instantOf N (adjoint H) t = (instantOf N H t).conjTranspose := by
    rw [Proof.Eval.instantOf_eq, Proof.Eval.instantOf_eq, Matrix.conjTranspose_add]
    congr 1
    · simp only [adjoint, Proof.Eval.mat_trans, QOp.mat_conj]
      rfl
    · simp only [adjoint]
      induction H.dynamic with
      | nil => simp [Proof.Eval.drivenOf]
      | cons e l ih =>
        rw [List.map_cons, Proof.Eval.drivenOf_cons, Proof.Eval.drivenOf_cons, ih, Matrix.conjTranspose_add, Matrix.conjTranspose_smul]
        congr 1
        simp only [Proof.Eval.mat_trans, QOp.mat_conj]
        rfl
  constructor
  · simp [linear, Proof.Eval.dot_ok]
  · simp [linear, Proof.Eval.dot_ok, hadj]

/-- `H(time)` is the operator at this time, in either format.
Missing: a dense real operator with complex functions, for which it raises (`C109_fails_complex`). -/
theorem C109_call_partial {N : ℕ} {T : Type} (H : Typed T) (dense : Bool) (t : T)
    (ht : ¬ (dense = true ∧ H.real = true ∧ H.complexDrive = true)) : call N H dense t = .ok (instantOf N H.ham t) := by
  unfold call todense
  cases dense
  · simp [toMatrix_ok]
  · simp only [if_true]
    rw [if_neg (by simpa using ht), toMatrix_ok]

/-- The documentation of `hamiltonian.eigh`, `hamiltonian.eigvalsh` and `quantum_operator.eigh` refers to numpy's functions for the arguments, but
scipy's are called: numpy's only argument, `UPLO`, raises `TypeError`; `quantum_operator.eigvalsh` accepts it. -/
theorem C109_fails_uplo {N : ℕ} {T : Type} (S : Solvers N) (hN : 0 < N) (H : Typed T) (t : T) (ht : H.real = false) (low : Bool)
    (q : QObj) (d : Coup) (A : Matrix (Fin N) (Fin N) ℂ) (hq : qopMatrix N q d = .ok A) :
    hamEigh S H t { uplo := some low } = .error .type ∧ hamEigvalsh S H t { uplo := some low } = .error .type ∧
      qopEigh S q d { uplo := some low } = .error .type ∧ qopEigvalsh S q d { uplo := some low } = .ok (.values N (S.heev low A).1) := by
  refine ⟨?_, ?_, ?_, ?_⟩
  · simp [hamEigh, hN.ne', todense, ht, Except.bind, scipyEigh]
  · simp [hamEigvalsh, hN.ne', todense, ht, Except.bind, scipyEigvalsh]
  · simp [qopEigh, hN.ne', hq, Except.bind, scipyEigh]
  · simp [qopEigvalsh, hN.ne', hq, Except.bind, numpyEigvalsh]

/-- For a space without states the eigenvectors come as an array of shape `(1, 0)` instead of `(0, 0)`; `eigh` with `eigvals_only=True` and
`quantum_operator.eigsh` with `return_eigenvectors=False` return two arrays instead of one, unlike `hamiltonian.eigsh`. -/
theorem C109_fails_empty {T : Type} (S : Solvers 0) (H : Typed T) (t : T) (q : QObj) (d : Coup) :
    hamEigh S H t {} = .ok (.empty 1) ∧ hamEigh S H t { eigvalsOnly := some true } = .ok (.empty 1) ∧
      qopEigsh S q d { returnVectors := some false } = .ok (.empty 1) ∧
      hamEigsh S H t { returnVectors := some false } = .ok (.values 0 Fin.elim0) := ⟨rfl, rfl, rfl, rfl⟩

/-- `quantum_operator.eigh(eigvals_only=True)` unpacks the array of eigenvalues: an error, except for two states, where it returns two numbers;
`hamiltonian.eigh` returns the array. -/
theorem C109_fails_unpack {N : ℕ} (S : Solvers N) (hN : 0 < N) (q : QObj) (d : Coup) (A : Matrix (Fin N) (Fin N) ℂ) (hq : qopMatrix N q d = .ok A) :
    (N ≠ 2 → qopEigh S q d { eigvalsOnly := some true } = .error .unpack) ∧
      (∀ h : N = 2, qopEigh S q d { eigvalsOnly := some true } = .ok (.numbers ((S.heev true A).1 ⟨0, by omega⟩) ((S.heev true A).1 ⟨1, by omega⟩))) ∧
      ∀ (T : Type) (H : Typed T) (t : T), H.real = false →
        hamEigh S H t { eigvalsOnly := some true } = .ok (.values N (S.heev true (toMatrix N H.ham t)).1) := by
  refine ⟨fun h2 => ?_, fun h2 => ?_, fun T H t hr => ?_⟩
  · simp only [qopEigh, hN.ne', ite_false, hq, Except.bind, scipyEigh]
    simp only [Option.isSome_none, Bool.or_self, Bool.false_eq_true, ite_false, Option.getD_some, if_true, Option.getD_none]
    obtain ⟨F, hF⟩ : ∃ F, F = (S.heev true A).1 := ⟨_, rfl⟩
    rw [← hF]
    match N, h2, F with
    | 0, _, _ => rfl
    | 1, _, _ => rfl
    | 2, h, _ => exact absurd rfl h
    | _ + 3, _, _ => rfl
  · subst h2
    simp [qopEigh, hq, Except.bind, scipyEigh, unpackPair]
  · simp [hamEigh, hN.ne', todense, hr, Except.bind, scipyEigh]

/-- A real hamiltonian with a function of time that returns complex numbers (of zero imaginary part, say) can be diagonalised by `eigsh`, while
`eigh`, `eigvalsh` and, for a dense operator, the call `H(time)` raise. -/
theorem C109_fails_complex {N : ℕ} {T : Type} (S : Solvers N) (hN : 1 < N) (H : Typed T) (t : T) (h1 : H.real = true) (h2 : H.complexDrive = true) :
    hamEigh S H t {} = .error .casting ∧ hamEigvalsh S H t {} = .error .casting ∧ call N H true t = .error .casting ∧
      ∃ r, hamEigsh S H t { k := 1 } = .ok r := by
  have h0 : N ≠ 0 := by omega
  refine ⟨?_, ?_, ?_, ?_⟩
  · simp [hamEigh, h0, todense, h1, h2, Except.bind]
  · simp [hamEigvalsh, h0, todense, h1, h2, Except.bind]
  · simp [call, todense, h1, h2]
  · simp [hamEigsh, h0, scipyEigsh, Nat.not_le.2 hN]

/-- The raising operator of a spin: `eigh` reads one triangle and returns the numbers of another matrix without a message: those of 0 for the lower
and of the hermitian part, twice, for the upper triangle (the characteristic polynomials are those of the completed matrices). -/
theorem C109_fails_triangle (S : Solvers 2) (hS : Lapack S) (H : Typed ℝ)
    (hH : H = ⟨⟨.dense fun i j => if i = 0 ∧ j = 1 then 1 else 0, []⟩, false, false⟩) :
    ∃ E V F W, hamEigh S H 0 { lower := some true } = .ok (.pair 2 E V) ∧ hamEigh S H 0 { lower := some false } = .ok (.pair 2 F W) ∧
      (∀ i, E i = 0) ∧ F 0 = -1 ∧ F 1 = 1 := by
  subst hH
  have hm : ∀ low, todense 2 (⟨⟨.dense fun i j => if i = 0 ∧ j = 1 then 1 else 0, []⟩, false, false⟩ : Typed ℝ) 0 = .ok !![0, 1; 0, 0] ∧
      completed low !![0, 1; 0, 0] = (if low then 0 else !![0, 1; 1, 0] : Matrix (Fin 2) (Fin 2) ℂ) := by
    intro low
    constructor
    · unfold todense
      rw [toMatrix_ok, Proof.Eval.instantOf_eq]
      simp only [Bool.false_and, Bool.false_eq_true, ite_false]
      congr 1
      ext i j
      fin_cases i <;> fin_cases j <;> simp [Proof.Eval.drivenOf, Stored.mat, Stored.entry]
    · ext i j
      cases low <;> fin_cases i <;> fin_cases j <;> simp [completed]
  have hl := hS true !![0, 1; 0, 0]
  have hu := hS false !![0, 1; 0, 0]
  rw [(hm _).2] at hl hu
  have h0 : Diagonalises (0 : Matrix (Fin 2) (Fin 2) ℂ) (fun _ => 0) 1 := ⟨fun _ _ _ => le_rfl, by simp, by ext; simp⟩
  have hs : ((Real.sqrt 2 : ℝ) : ℂ) * (Real.sqrt 2 : ℝ) = 2 := by
    rw [← Complex.ofReal_mul, Real.mul_self_sqrt (by norm_num)]; norm_num
  have hx : Diagonalises (!![0, 1; 1, 0] : Matrix (Fin 2) (Fin 2) ℂ) ![-1, 1]
      (((Real.sqrt 2 / 2 : ℝ) : ℂ) • !![1, 1; -1, 1]) := by
    refine ⟨?_, ?_, ?_⟩
    · intro i j hij
      fin_cases i <;> fin_cases j <;> simp at hij ⊢
    · have : (((Real.sqrt 2 / 2 : ℝ) : ℂ)) * ((Real.sqrt 2 / 2 : ℝ) : ℂ) = 1 / 2 := by
        push_cast; linear_combination hs / 4
      ext i j
      fin_cases i <;> fin_cases j <;> simp [Matrix.mul_apply, Fin.sum_univ_two, -Complex.ofReal_div] <;>
        linear_combination 2 * this
    · ext i j
      fin_cases i <;> fin_cases j <;> simp [Matrix.mul_apply, Fin.sum_univ_two, Matrix.diagonal]
  have el := diagonalises_unique hl h0
  have eu := diagonalises_unique hu hx
  refine ⟨(S.heev true !![0, 1; 0, 0]).1, (S.heev true !![0, 1; 0, 0]).2, (S.heev false !![0, 1; 0, 0]).1, (S.heev false !![0, 1; 0, 0]).2, ?_, ?_,
    fun i => congrFun el i, congrFun eu 0, congrFun eu 1⟩
  · simp [hamEigh, (hm true).1, Except.bind, scipyEigh]
  · simp [hamEigh, (hm true).1, Except.bind, scipyEigh]

end Props
