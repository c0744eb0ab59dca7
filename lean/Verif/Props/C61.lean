import Verif.Proof.LanczosThermal
import Verif.Props.C39

/-!
C61: matrix exponentials and thermal averages from a Lanczos basis.

`Q`, `a`, `b` is a Lanczos basis with `k + 1` vectors for the start vector `v`, `T` its tridiagonal matrix, `E`, `V` are what
`eigh_tridiagonal` returns for it.  `Closed`: the iteration stopped without a residual.
-/

namespace Props
open Matrix Model.LanczosThermal Proof.Lanczos Proof.LanczosThermal
open Spec.Lanczos (ip tridiagonal IsLanczos triMatrix Closed IsEigh)

section
variable {n : Type} [Fintype n] [DecidableEq n] {k : ℕ} {A : Matrix n n ℂ} {v : n → ℂ} {Q : List (n → ℂ)} {a b : List ℝ}
  {E : Fin (k + 1) → ℝ} {V : Matrix (Fin (k + 1)) (Fin (k + 1)) ℝ}

/-- `expm_lanczos(E, V, Q_T, c)` is `exp(cA)` applied to the normalised start vector if there is no residual. -/
theorem C61_expm (h : IsLanczos A v Q a b) (hk : Q.length = k + 1) (hc : Closed A Q a b) (hE : IsEigh (triMatrix k a b) E V) (c : ℂ) :
    ∃ x, expm E V Q c = some x ∧ (Spec.Lanczos.norm v : ℂ) • x = NormedSpace.exp (c • A) *ᵥ v := by
  refine ⟨_, linComb_comb hk (coeff E V c), ?_⟩
  rw [← exp_first h hk hc hE c, ← Matrix.mulVec_smul, h.first]

omit [DecidableEq n] in
/-- In general it is `Q exp(cT) e_0`. -/
theorem C61_expm_projected (hk : Q.length = k + 1) (hE : IsEigh (triMatrix k a b) E V) (c : ℂ) :
    expm E V Q c = some (∑ i : Fin (k + 1), (NormedSpace.exp (c • (triMatrix k a b).map fun x : ℝ => (x : ℂ)) i 0) • Q.getD i 0) := by
  classical
  have hcol (j : Fin (k + 1)) : NormedSpace.exp (c • (triMatrix k a b).map fun x : ℝ => (x : ℂ)) *ᵥ (fun i => (V i j : ℂ)) =
      Complex.exp (c * E j) • fun i => (V i j : ℂ) := by
    apply exp_eigen
    rw [Matrix.smul_mulVec]
    funext i
    have := congrFun (congrFun hE.eigen i) j
    rw [Matrix.mul_diagonal, Matrix.mul_apply] at this
    have h2 := congrArg (fun x : ℝ => (x : ℂ)) this
    simp only [Complex.ofReal_sum, Complex.ofReal_mul] at h2
    simp only [Matrix.mulVec, dotProduct, Matrix.map_apply, Pi.smul_apply, smul_eq_mul]
    rw [h2]
    ring
  have hV : V * Vᵀ = 1 := mul_eq_one_comm.mp hE.orthogonal
  have h0 : (Pi.single 0 1 : Fin (k + 1) → ℂ) = ∑ j, (V 0 j : ℂ) • fun i => (V i j : ℂ) := by
    funext i
    have hs := congrFun (congrFun hV 0) i
    rw [Matrix.mul_apply] at hs
    simp only [Matrix.transpose_apply, Matrix.one_apply] at hs
    have h2 := congrArg (fun x : ℝ => (x : ℂ)) hs
    simp only [Complex.ofReal_sum, Complex.ofReal_mul] at h2
    rw [Finset.sum_apply]
    simp only [Pi.smul_apply, smul_eq_mul]
    rw [h2, Pi.single_apply]
    by_cases hi : i = 0
    · simp [hi]
    · rw [if_neg hi, if_neg (fun h => hi h.symm)]; simp
  have he (i : Fin (k + 1)) : NormedSpace.exp (c • (triMatrix k a b).map fun x : ℝ => (x : ℂ)) i 0 = coeff E V c i := by
    have h1 : NormedSpace.exp (c • (triMatrix k a b).map fun x : ℝ => (x : ℂ)) *ᵥ (Pi.single 0 1) =
        (NormedSpace.exp (c • (triMatrix k a b).map fun x : ℝ => (x : ℂ))).col 0 := Matrix.mulVec_single_one _ _
    have h2 := congrFun h1 i
    rw [Matrix.col_apply, h0, Matrix.mulVec_sum] at h2
    rw [← h2, Finset.sum_apply]
    unfold coeff
    refine Finset.sum_congr rfl fun j _ => ?_
    rw [Matrix.mulVec_smul, hcol]
    simp only [Pi.smul_apply, smul_eq_mul]
    ring
  simp only [he]
  exact linComb_comb hk (coeff E V c)

/-- With or without a residual: the first `k` powers of `A` act on the start vector as the powers of `T`. -/
theorem C61_moments (h : IsLanczos A v Q a b) (hk : Q.length = k + 1) (j : ℕ) (hj : j ≤ k) :
    (A ^ j) *ᵥ Q.getD 0 0 = ∑ i : Fin (k + 1), ((triMatrix k a b ^ j) i 0 : ℂ) • Q.getD i 0 := by
  -- a power of `T` in column zero ends `j` places below the diagonal
  have hband : ∀ j : ℕ, ∀ i : Fin (k + 1), j < i → (triMatrix k a b ^ j) i 0 = 0 := by
    intro j
    induction j with
    | zero =>
      intro i hi
      rw [pow_zero, Matrix.one_apply, if_neg]
      rintro rfl
      simp at hi
    | succ j ih =>
      intro i hi
      rw [pow_succ', Matrix.mul_apply]
      refine Finset.sum_eq_zero fun l _ => ?_
      rcases Nat.lt_or_ge j l with hl | hl
      · rw [ih l hl, mul_zero]
      · have : triMatrix k a b i l = 0 := by
          simp only [triMatrix, Matrix.of_apply, tridiagonal]
          rw [if_neg (by omega), if_neg (by omega), if_neg (by omega)]
        rw [this, zero_mul]
  induction j with
  | zero =>
    rw [pow_zero, pow_zero, Matrix.one_mulVec, Finset.sum_eq_single 0]
    · simp
    · intro i _ hi
      simp [hi]
    · simp
  | succ j ih =>
    have ih := ih (by omega)
    rw [pow_succ', ← Matrix.mulVec_mulVec, ih]
    have hm := mulVec_comb_closed (A := A) (Q := Q) (a := a) (b := b) (fun i : Fin (k + 1) => ((triMatrix k a b ^ j) i 0 : ℂ))
      (fun i hi => mul_basis h hk i (by
        by_contra hc
        apply hi
        rw [hband j i (by omega), Complex.ofReal_zero]))
    unfold comb at hm
    rw [hm]
    refine Finset.sum_congr rfl fun i _ => ?_
    congr 1
    rw [pow_succ' (triMatrix k a b), Matrix.mul_apply]
    simp only [Matrix.mulVec, dotProduct, Matrix.map_apply, Complex.ofReal_sum, Complex.ofReal_mul]

theorem coeff_weights (beta : ℝ) (i : Fin (k + 1)) : coeff E V (-(beta : ℂ)) i = (weights E V beta i : ℂ) := by
  unfold coeff weights
  push_cast
  refine Finset.sum_congr rfl fun j _ => ?_
  rw [neg_mul]
  ring

omit [DecidableEq n] in
theorem ip_sum_left {ι : Type} (s : Finset ι) (f : ι → n → ℂ) (z : n → ℂ) : ip (∑ i ∈ s, f i) z = ∑ i ∈ s, ip (f i) z := by
  classical
  induction s using Finset.induction_on with
  | empty => simp [ip]
  | insert i s hi ih => rw [Finset.sum_insert hi, Finset.sum_insert hi, ip_add_left, ih]

omit [DecidableEq n] in
theorem ip_sum_right {ι : Type} (s : Finset ι) (f : ι → n → ℂ) (z : n → ℂ) : ip z (∑ i ∈ s, f i) = ∑ i ∈ s, ip z (f i) := by
  classical
  induction s using Finset.induction_on with
  | empty => simp [ip]
  | insert i s hi ih => rw [Finset.sum_insert hi, Finset.sum_insert hi, ip_add_right, ih]

theorem exp_hermitian (hA : A.IsHermitian) (x : ℝ) : (NormedSpace.exp ((x : ℂ) • A)).IsHermitian := by
  apply Matrix.IsHermitian.exp
  unfold Matrix.IsHermitian
  rw [Matrix.conjTranspose_smul, hA]
  simp

omit [DecidableEq n] in
theorem ip_start (h : IsLanczos A v Q a b) (M : Matrix n n ℂ) :
    (Spec.Lanczos.norm v : ℂ) ^ 2 * ip (Q.getD 0 0) (M *ᵥ Q.getD 0 0) = ip v (M *ᵥ v) := by
  conv_rhs => rw [← h.first]
  rw [Matrix.mulVec_smul, ip_smul_left, ip_smul_right]
  have : star (Spec.Lanczos.norm v : ℂ) = Spec.Lanczos.norm v := Complex.conj_ofReal _
  rw [this]
  ring

/-- `FTLM_static_iteration`: up to the squared norm of the start vector `r`, the results are `⟨r| exp(-βA) O |r⟩` and
`⟨r| exp(-βA) |r⟩` if there is no residual. -/
theorem C61_ftlm (hA : A.IsHermitian) (h : IsLanczos A v Q a b) (hk : Q.length = k + 1) (hc : Closed A Q a b)
    (hE : IsEigh (triMatrix k a b) E V) (O : Matrix n n ℂ) (beta : ℝ) :
    (Spec.Lanczos.norm v : ℂ) ^ 2 * (ftlm O E V Q beta).1 = ip v ((NormedSpace.exp ((-beta : ℂ) • A) * O) *ᵥ v) ∧
      (Spec.Lanczos.norm v : ℂ) ^ 2 * ((ftlm O E V Q beta).2 : ℂ) = ip v (NormedSpace.exp ((-beta : ℂ) • A) *ᵥ v) := by
  have hx := exp_first h hk hc hE (-(beta : ℂ))
  have hH : (NormedSpace.exp ((-beta : ℂ) • A)).IsHermitian := by
    have := exp_hermitian hA (-beta)
    push_cast at this
    exact this
  constructor
  · rw [← ip_start h, ← Matrix.mulVec_mulVec, ip_herm hH, hx]
    congr 1
    unfold ftlm comb
    dsimp only
    rw [ip_sum_left]
    refine Finset.sum_congr rfl fun i _ => ?_
    rw [ip_smul_left, coeff_weights]
    congr 1
    exact (Complex.conj_ofReal _).symm
  · rw [← ip_start h, hx]
    congr 1
    unfold ftlm comb
    dsimp only
    rw [ip_sum_right, Finset.sum_eq_single 0]
    · rw [ip_smul_right, coeff_weights]
      have := h.orthonormal 0 h.nonempty 0 h.nonempty
      simp only [Fin.val_zero]
      rw [this]
      simp
    · intro i _ hi
      rw [ip_smul_right]
      have := h.orthonormal 0 h.nonempty i (by omega)
      rw [this, if_neg, mul_zero]
      intro h0
      exact hi (Fin.ext h0.symm)
    · simp

end

/-! ### Non-vacuity -/

/-- The start of an eigenbasis of the two coupled levels of `C39`. -/
theorem coupled_lanczos : IsLanczos coupled level0 [level0, ![0, 1, 0, 0]] [0, 0] [1] ∧ Closed coupled [level0, ![0, 1, 0, 0]] [0, 0] [1] := by
  constructor
  · obtain ⟨Q, hQ, hl, -⟩ := C39_iter_partial coupled_hermitian level0 3 (1 / 2 ^ 52) (1 / 2 ^ 52) (Or.inl level0_norm) [0, 0] [1]
      (C39_fails_levels _ (by norm_num)).1
    have hq : Model.Lanczos.normalize (1 / 2 ^ 52) level0 = some level0 := normalize_one _ _ level0_norm
    have hr : coupled *ᵥ level0 = ![0, 1, 0, 0] := by
      funext i; fin_cases i <;> simp [coupled, level0, Matrix.mulVec, dotProduct, Fin.sum_univ_four]
    have hd : Model.Lanczos.divide (![0, 1, 0, 0] : Fin 4 → ℂ) 1 = ![0, 1, 0, 0] := by funext i; simp [Model.Lanczos.divide]
    have : Q = [level0, ![0, 1, 0, 0]] := by
      simp only [Model.Lanczos.vectors, hq, Option.bind_some, Complex.ofReal_zero, zero_smul, sub_zero, hr, List.zip_cons_cons, List.zip_nil_left,
        Model.Lanczos.vecLoop, hd, one_ne_zero, if_false, Option.map_some] at hQ
      exact (Option.some.inj hQ).symm
    rwa [this] at hl
  · intro k hk
    have : k = 1 := by simpa using hk
    subst this
    funext i
    fin_cases i <;> simp [coupled, level0, Matrix.mulVec, dotProduct, Fin.sum_univ_four]

/-- The square root of one half. -/
noncomputable def half2 : ℝ := Real.sqrt 2 / 2

theorem half2_sq : half2 * half2 = 1 / 2 := by
  unfold half2
  have : Real.sqrt 2 * Real.sqrt 2 = 2 := Real.mul_self_sqrt (by norm_num)
  nlinarith

/-- Non-vacuity: `eigh_tridiagonal` of the example. -/
example : IsEigh (triMatrix 1 [0, 0] [1]) ![-1, 1] !![half2, half2; -half2, half2] := by
  constructor
  · ext i j
    fin_cases i <;> fin_cases j <;> simp [Matrix.mul_apply, Fin.sum_univ_two, half2_sq] <;> norm_num
  · ext i j
    fin_cases i <;> fin_cases j <;> simp [Matrix.mul_apply, Fin.sum_univ_two, triMatrix, tridiagonal]

end Props
