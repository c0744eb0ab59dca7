import Verif.Model.LanczosThermal
import Verif.Proof.Lanczos
import Mathlib.Analysis.Normed.Algebra.MatrixExponential
import Mathlib.Analysis.SpecialFunctions.Exponential

/-! Lemmas on what is computed from a Lanczos basis. -/

namespace Proof.LanczosThermal
open Matrix Model.LanczosThermal Proof.Lanczos
open Spec.Lanczos (ip norm tridiagonal IsLanczos triMatrix Closed IsEigh)

variable {n : Type} [Fintype n] [DecidableEq n] {k : ℕ}

/-- The exponential of a matrix on an eigenvector. -/
theorem exp_eigen (M : Matrix n n ℂ) (x : n → ℂ) (e : ℂ) (h : M *ᵥ x = e • x) : NormedSpace.exp M *ᵥ x = Complex.exp e • x := by
  rcases isEmpty_or_nonempty n with hn | ⟨⟨i0⟩⟩
  · exact Subsingleton.elim _ _
  let X : Matrix n n ℂ := Matrix.of fun i _ => x i
  have hs : SemiconjBy X (Matrix.diagonal fun _ => e) M := by
    ext i j
    rw [Matrix.mul_diagonal]
    have := congrFun h i
    simp only [Matrix.mulVec, dotProduct, Pi.smul_apply, smul_eq_mul] at this
    simp only [X, Matrix.mul_apply, Matrix.of_apply, this]
    ring
  have he : X * NormedSpace.exp (Matrix.diagonal fun _ => e) = NormedSpace.exp M * X := by
    letI : SeminormedRing (Matrix n n ℂ) := Matrix.linftyOpSemiNormedRing
    letI : NormedRing (Matrix n n ℂ) := Matrix.linftyOpNormedRing
    letI : NormedAlgebra ℂ (Matrix n n ℂ) := Matrix.linftyOpNormedAlgebra
    letI : NormedAlgebra ℚ (Matrix n n ℂ) := NormedAlgebra.restrictScalars ℚ ℂ (Matrix n n ℂ)
    exact hs.exp_right
  rw [Matrix.exp_diagonal] at he
  funext i
  have := congrFun (congrFun he i) i0
  rw [Matrix.mul_diagonal] at this
  simp only [X, Matrix.mul_apply, Matrix.of_apply] at this
  simp only [Matrix.mulVec, dotProduct, Pi.smul_apply, smul_eq_mul]
  rw [← this, mul_comm]
  congr 1
  rw [Complex.exp_eq_exp_ℂ, Pi.coe_exp]

/-! ### The basis -/

section
variable {A : Matrix n n ℂ} {v : n → ℂ} {Q : List (n → ℂ)} {a b : List ℝ}

theorem sum_tri (f : ℕ → n → ℂ) (j : Fin (k + 1)) :
    ∑ i : Fin (k + 1), (triMatrix k a b i j : ℂ) • f i =
      (if (j : ℕ) = 0 then 0 else (b.getD (j - 1) 0 : ℂ) • f (j - 1)) + (a.getD j 0 : ℂ) • f j +
        (if (j : ℕ) = k then 0 else (b.getD j 0 : ℂ) • f (j + 1)) := by
  have e : ∑ i : Fin (k + 1), (triMatrix k a b i j : ℂ) • f i =
      ∑ i ∈ Finset.range (k + 1), ((if h : i < k + 1 then triMatrix k a b ⟨i, h⟩ j else 0 : ℝ) : ℂ) • f i := by
    rw [Finset.sum_range]
    exact Finset.sum_congr rfl fun i _ => by rw [dif_pos i.2]
  rw [e]
  have h1 : ∀ i ∈ Finset.range (k + 1), (((if h : i < k + 1 then triMatrix k a b ⟨i, h⟩ j else 0 : ℝ) : ℂ) • f i) =
      (if i + 1 = j then (b.getD i 0 : ℂ) • f i else 0) + (if i = j then (a.getD i 0 : ℂ) • f i else 0) +
        (if i = j + 1 then (b.getD j 0 : ℂ) • f i else 0) := by
    intro i hi
    rw [dif_pos (Finset.mem_range.mp hi)]
    simp only [triMatrix, Matrix.of_apply, tridiagonal]
    by_cases h1 : i = j
    · rw [if_pos h1, if_neg (by omega), if_pos h1, if_neg (by omega)]; simp
    · rw [if_neg h1, if_neg h1]
      by_cases h2 : (j : ℕ) = i + 1
      · rw [if_pos h2, if_pos h2.symm, if_neg (by omega)]; simp
      · rw [if_neg h2, if_neg (show ¬i + 1 = (j : ℕ) by omega)]
        by_cases h3 : i = j + 1
        · rw [if_pos h3, if_pos h3]; simp
        · rw [if_neg h3, if_neg h3]; simp
  rw [Finset.sum_congr rfl h1, Finset.sum_add_distrib, Finset.sum_add_distrib]
  have hj := j.2
  congr 1
  · congr 1
    · split_ifs with h0
      · exact Finset.sum_eq_zero fun i _ => if_neg (by omega)
      · rw [Finset.sum_eq_single ((j : ℕ) - 1), if_pos (by omega)]
        · intro i _ hi; exact if_neg (by omega)
        · intro hi; exact absurd (Finset.mem_range.mpr (by omega)) hi
    · rw [Finset.sum_ite_eq', if_pos (Finset.mem_range.mpr hj)]
  · split_ifs with h0
    · refine Finset.sum_eq_zero fun i hi => if_neg ?_
      have := Finset.mem_range.mp hi
      omega
    · rw [Finset.sum_ite_eq', if_pos (Finset.mem_range.mpr (by omega))]

/-- The matrix on a vector that is not the last one. -/
theorem mul_basis (h : IsLanczos A v Q a b) (hk : Q.length = k + 1) (j : Fin (k + 1)) (hj : (j : ℕ) < k) :
    A *ᵥ Q.getD j 0 = ∑ i : Fin (k + 1), (triMatrix k a b i j : ℂ) • Q.getD i 0 := by
  rw [sum_tri (fun i => Q.getD i 0) j, h.recurrence j (by omega), if_neg (show ¬(j : ℕ) = k by omega)]

/-- The matrix on all vectors if there is no residual. -/
theorem mul_closed (h : IsLanczos A v Q a b) (hk : Q.length = k + 1) (hc : Closed A Q a b) (j : Fin (k + 1)) :
    A *ᵥ Q.getD j 0 = ∑ i : Fin (k + 1), (triMatrix k a b i j : ℂ) • Q.getD i 0 := by
  rcases Nat.lt_or_ge (j : ℕ) k with hj | hj
  · exact mul_basis h hk j hj
  · have hjk : (j : ℕ) = k := by omega
    rw [sum_tri (fun i => Q.getD i 0) j, hc j (by omega), if_pos hjk, add_zero]

/-- Linear combination of the basis vectors. -/
def comb (Q : List (n → ℂ)) (y : Fin (k + 1) → ℂ) : n → ℂ := ∑ i, y i • Q.getD i 0

theorem mulVec_comb (y : Fin (k + 1) → ℂ) : A *ᵥ comb Q y = ∑ i, y i • (A *ᵥ Q.getD i 0) := by
  unfold comb
  rw [Matrix.mulVec_sum]
  exact Finset.sum_congr rfl fun i _ => Matrix.mulVec_smul _ _ _

/-- `A Q y = Q T y`. -/
theorem mulVec_comb_closed (y : Fin (k + 1) → ℂ)
    (h : ∀ j, y j ≠ 0 → A *ᵥ Q.getD j 0 = ∑ i : Fin (k + 1), (triMatrix k a b i j : ℂ) • Q.getD i 0) :
    A *ᵥ comb Q y = comb Q ((triMatrix k a b).map (fun x : ℝ => (x : ℂ)) *ᵥ y) := by
  rw [mulVec_comb]
  have : ∀ j ∈ Finset.univ, y j • (A *ᵥ Q.getD j 0) = ∑ i : Fin (k + 1), (y j * triMatrix k a b i j : ℂ) • Q.getD i 0 := by
    intro j _
    by_cases hj : y j = 0
    · simp [hj]
    · rw [h j hj, Finset.smul_sum]
      exact Finset.sum_congr rfl fun i _ => smul_smul _ _ _
  rw [Finset.sum_congr rfl this, Finset.sum_comm]
  unfold comb
  refine Finset.sum_congr rfl fun i _ => ?_
  rw [← Finset.sum_smul]
  congr 1
  simp only [Matrix.mulVec, dotProduct, Matrix.map_apply]
  exact Finset.sum_congr rfl fun j _ => mul_comm _ _

/-! ### Exponentials -/

variable {E : Fin (k + 1) → ℝ} {V : Matrix (Fin (k + 1)) (Fin (k + 1)) ℝ}

/-- Coefficients of `exp(aA) q_0`. -/
noncomputable def coeff (E : Fin (k + 1) → ℝ) (V : Matrix (Fin (k + 1)) (Fin (k + 1)) ℝ) (c : ℂ) (i : Fin (k + 1)) : ℂ :=
  ∑ j, (V i j : ℂ) * (Complex.exp (c * E j) * V 0 j)

/-- A Ritz vector is an eigenvector. -/
theorem ritz (h : IsLanczos A v Q a b) (hk : Q.length = k + 1) (hc : Closed A Q a b) (hE : IsEigh (triMatrix k a b) E V) (j : Fin (k + 1)) :
    A *ᵥ comb Q (fun i => (V i j : ℂ)) = (E j : ℂ) • comb Q (fun i => (V i j : ℂ)) := by
  rw [mulVec_comb_closed _ fun i _ => mul_closed h hk hc i]
  have : ((triMatrix k a b).map (fun x : ℝ => (x : ℂ)) *ᵥ fun i => (V i j : ℂ)) = (E j : ℂ) • fun i => (V i j : ℂ) := by
    funext i
    have := congrFun (congrFun hE.eigen i) j
    rw [Matrix.mul_diagonal, Matrix.mul_apply] at this
    have h2 := congrArg (fun x : ℝ => (x : ℂ)) this
    simp only [Complex.ofReal_sum, Complex.ofReal_mul] at h2
    simp only [Matrix.mulVec, dotProduct, Matrix.map_apply, Pi.smul_apply, smul_eq_mul]
    rw [h2, mul_comm]
  rw [this]
  unfold comb
  rw [Finset.smul_sum]
  exact Finset.sum_congr rfl fun i _ => by simp only [Pi.smul_apply, smul_eq_mul, smul_smul]

theorem first_ritz (hE : IsEigh (triMatrix k a b) E V) : Q.getD 0 0 = ∑ j, (V 0 j : ℂ) • comb Q (fun i => (V i j : ℂ)) := by
  have hV : V * Vᵀ = 1 := mul_eq_one_comm.mp hE.orthogonal
  unfold comb
  simp only [Finset.smul_sum, smul_smul]
  rw [Finset.sum_comm]
  have : ∀ i ∈ Finset.univ, ∑ j, ((V 0 j : ℂ) * (V i j : ℂ)) • Q.getD (i : Fin (k + 1)) 0 = if i = 0 then Q.getD 0 0 else 0 := by
    intro i _
    rw [← Finset.sum_smul]
    have hs := congrFun (congrFun hV 0) i
    rw [Matrix.mul_apply] at hs
    simp only [Matrix.transpose_apply, Matrix.one_apply] at hs
    have h2 := congrArg (fun x : ℝ => (x : ℂ)) hs
    simp only [Complex.ofReal_sum, Complex.ofReal_mul] at h2
    rw [h2]
    by_cases hi : i = 0
    · subst hi; simp
    · rw [if_neg hi, if_neg (fun h => hi h.symm)]; simp
  rw [Finset.sum_congr rfl this]
  simp

theorem comb_coeff (c : ℂ) :
    comb Q (coeff E V c) = ∑ j, (V 0 j : ℂ) • Complex.exp (c * E j) • comb Q (fun i => (V i j : ℂ)) := by
  unfold comb coeff
  simp only [Finset.smul_sum, smul_smul, Finset.sum_smul]
  rw [Finset.sum_comm]
  exact Finset.sum_congr rfl fun j _ => Finset.sum_congr rfl fun i _ => by ring_nf

/-- `exp(cA) q_0` in the basis. -/
theorem exp_first (h : IsLanczos A v Q a b) (hk : Q.length = k + 1) (hc : Closed A Q a b) (hE : IsEigh (triMatrix k a b) E V) (c : ℂ) :
    NormedSpace.exp (c • A) *ᵥ Q.getD 0 0 = comb Q (coeff E V c) := by
  conv_lhs => rw [first_ritz (Q := Q) hE]
  rw [comb_coeff, Matrix.mulVec_sum]
  refine Finset.sum_congr rfl fun j _ => ?_
  rw [Matrix.mulVec_smul, exp_eigen (c • A) _ (c * E j)]
  rw [Matrix.smul_mulVec, ritz h hk hc hE, smul_smul]

theorem linComb_comb (hk : Q.length = k + 1) (y : Fin (k + 1) → ℂ) : Model.Lanczos.linComb (List.ofFn y) Q = some (comb Q y) := by
  have key : ∀ (l : List (ℂ × (n → ℂ))) (out : n → ℂ), Model.Lanczos.combLoop out l = out + (l.map fun p => p.1 • p.2).sum := by
    intro l
    induction l with
    | nil => intro out; simp [Model.Lanczos.combLoop]
    | cons p l ih => intro out; rw [Model.Lanczos.combLoop, ih]; simp [add_assoc]
  have hQ : Q = List.ofFn fun i : Fin (k + 1) => Q.getD i 0 := by
    apply List.ext_getElem
    · simp [hk]
    · intro i h1 h2
      rw [List.getElem_ofFn]
      simp [List.getD_eq_getElem?_getD, h1]
  have hs : ∀ (l : List ℂ) (R : List (n → ℂ)), l ≠ [] → R ≠ [] →
      Model.Lanczos.linComb l R = some ((l.zip R).map fun p => p.1 • p.2).sum := by
    intro l R hl hR
    cases l with
    | nil => exact absurd rfl hl
    | cons x l =>
      cases R with
      | nil => exact absurd rfl hR
      | cons q R => simp [Model.Lanczos.linComb, key]
  rw [hs _ _ (by simp) (by intro h; simp [h] at hk)]
  unfold comb
  conv_lhs => rw [hQ]
  have hz : (List.ofFn y).zip (List.ofFn fun i : Fin (k + 1) => Q.getD i 0) = List.ofFn fun i : Fin (k + 1) => (y i, Q.getD i 0) := by
    apply List.ext_getElem
    · simp
    · intro i h1 h2
      rw [List.getElem_zip, List.getElem_ofFn, List.getElem_ofFn, List.getElem_ofFn]
  rw [hz, List.map_ofFn, List.sum_ofFn]
  rfl

end

end Proof.LanczosThermal
