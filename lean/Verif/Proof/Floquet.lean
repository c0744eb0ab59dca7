import Verif.Model.Floquet
import Verif.Spec.Floquet
import Verif.Proof.Evolution
import Mathlib.Analysis.Normed.Algebra.MatrixExponential
import Mathlib.LinearAlgebra.Matrix.Block
import Mathlib.Analysis.Complex.Order
import Mathlib.LinearAlgebra.Matrix.DotProduct
import Mathlib.LinearAlgebra.Matrix.Charpoly.Coeff
import Mathlib.Analysis.SpecialFunctions.Exponential

/-! Proofs for C79. -/

namespace Proof.Floquet
open Matrix Model.Floquet Spec.Floquet Spec.Reads

open scoped ComplexOrder

variable {n : Nat}

abbrev M (n : Nat) := Matrix (Fin n) (Fin n) ℂ

/-! ### The evolution over steps -/

theorem foldl_steps (l : List (ℝ × M n)) (v : Fin n → ℂ) :
    l.foldl (fun psi p => (NormedSpace.exp ((-Complex.I * p.1) • p.2)).mulVec psi) v = (steps l).mulVec v := by
  induction l generalizing v with
  | nil => simp [steps]
  | cons p r ih => rw [List.foldl_cons, ih, steps, ← Matrix.mulVec_mulVec]; rfl

theorem step2_eq (H : ℝ → M n) (ts dts : List ℝ) (v : Fin n → ℂ) :
    (ts.zip dts).foldl (fun psi p => (NormedSpace.exp ((-Complex.I * p.2) • H p.1)).mulVec psi) v =
      (steps ((ts.zip dts).map fun p => (p.2, H p.1))).mulVec v := by
  rw [← foldl_steps, List.foldl_map]

theorem mulVec_unit (U : M n) (i j : Fin n) : U.mulVec (unit i) j = U j i := by
  simp [Matrix.mulVec, dotProduct, unit]

theorem vstack_eq (U : M n) : vstack (fun i => U.mulVec (unit i)) = Uᵀ := by
  ext i j
  exact mulVec_unit U i j

theorem expo_unitary (H : M n) (hH : H.IsHermitian) (dt : ℝ) : (expo (-Complex.I * dt) H)ᴴ * expo (-Complex.I * dt) H = 1 := by
  unfold expo
  rw [← Matrix.exp_conjTranspose, Matrix.conjTranspose_smul, hH.eq]
  have : star (-Complex.I * (dt : ℂ)) = -(-Complex.I * dt) := by simp
  rw [this, neg_smul, ← Matrix.exp_add_of_commute _ _ (Commute.neg_left (Commute.refl ((-Complex.I * (dt : ℂ)) • H))), neg_add_cancel, NormedSpace.exp_zero]

theorem steps_unitary (l : List (ℝ × M n)) (hl : ∀ p ∈ l, p.2.IsHermitian) : (steps l)ᴴ * steps l = 1 := by
  induction l with
  | nil => simp [steps]
  | cons p r ih =>
    rw [steps, Matrix.conjTranspose_mul, Matrix.mul_assoc, ← Matrix.mul_assoc (steps r)ᴴ, ih fun q hq => hl q (List.mem_cons_of_mem _ hq),
      Matrix.one_mul]
    exact expo_unitary _ (hl p List.mem_cons_self) _

theorem steps_append (l r : List (ℝ × M n)) : steps (l ++ r) = steps r * steps l := by
  induction l with
  | nil => simp [steps]
  | cons p l ih => rw [List.cons_append, steps, steps, ih, Matrix.mul_assoc]

theorem steps_transpose (l : List (ℝ × M n)) : (steps l)ᵀ = steps (l.reverse.map fun p => (p.1, p.2ᵀ)) := by
  induction l with
  | nil => simp [steps]
  | cons p r ih =>
    rw [steps, Matrix.transpose_mul, ih, List.reverse_cons, List.map_append, steps_append]
    congr 1
    simp only [List.map_cons, List.map_nil, steps, Matrix.one_mul, expo]
    rw [← Matrix.exp_transpose, Matrix.transpose_smul]

theorem steps_palindrome (l : List (ℝ × M n)) (hp : l.reverse = l) (hs : ∀ p ∈ l, p.2ᵀ = p.2) : (steps l)ᵀ = steps l := by
  rw [steps_transpose, hp]
  congr 1
  conv_rhs => rw [← List.map_id l]
  exact List.map_congr_left fun p hp => Prod.ext rfl (hs p hp)

theorem unitary_transpose {U : M n} (h : Uᴴ * U = 1) : Uᵀᴴ * Uᵀ = 1 := by
  have h1 : U * Uᴴ = 1 := mul_eq_one_comm.1 h
  have h2 := congrArg Matrix.transpose h1
  rwa [Matrix.transpose_mul, Matrix.transpose_one] at h2

/-! ### Continuous drives -/

theorem column_unique (H : ℝ → M n) (hH : ∀ t, (H t).IsHermitian) {W : ℝ → M n} (hW : Evolution H W) (i : Fin n)
    (ψ : ℝ → Matrix (Fin n) (Fin 1) ℂ) (hψ : Spec.Motion.Solves (Spec.Motion.schroedinger H) ψ) (h0 : ∀ j, ψ 0 j 0 = unit i j) (t : ℝ) (j : Fin n) :
    ψ t j 0 = W t j i := by
  have hd : Spec.Motion.Solves (Spec.Motion.schroedinger H) fun t => ψ t - Matrix.of fun j (_ : Fin 1) => W t j i := by
    intro t j k
    have h1 := (hψ t j k).sub (hW.2 t j i)
    refine h1.congr_deriv ?_
    simp only [Spec.Motion.schroedinger, Matrix.smul_apply, Matrix.mul_apply, Matrix.sub_apply, Matrix.of_apply, smul_eq_mul]
    rw [← mul_sub, ← Finset.sum_sub_distrib]
    congr 1
    exact Finset.sum_congr rfl fun k _ => by ring
  have hc := Proof.Evolution.overlap_constant H hH _ hd 0 0 t 0
  have hz : ∀ j, (ψ 0 - Matrix.of fun j (_ : Fin 1) => W 0 j i) j 0 = 0 := by
    intro j
    rw [Matrix.sub_apply, h0, Matrix.of_apply, hW.1, Matrix.one_apply]
    simp [unit]
  replace hc := hc.trans (Finset.sum_eq_zero fun j _ => by
    change _ * (ψ 0 - Matrix.of fun j (_ : Fin 1) => W 0 j i) j 0 = 0
    rw [hz j, mul_zero])
  have hn : ∑ j, ‖(ψ t - Matrix.of fun j (_ : Fin 1) => W t j i) j 0‖ ^ 2 = 0 := by
    have : ((∑ j, ‖(ψ t - Matrix.of fun j (_ : Fin 1) => W t j i) j 0‖ ^ 2 : ℝ) : ℂ) = 0 := by
      rw [← hc]
      push_cast
      refine Finset.sum_congr rfl fun j _ => ?_
      rw [← Complex.conj_mul']
      rfl
    exact_mod_cast this
  have := (Finset.sum_eq_zero_iff_of_nonneg fun j _ => by positivity).1 hn j (Finset.mem_univ _)
  have := norm_eq_zero.1 (pow_eq_zero_iff (two_ne_zero) |>.1 this)
  rw [Matrix.sub_apply, Matrix.of_apply, sub_eq_zero] at this
  exact this

theorem evolution_unitary (H : ℝ → M n) (hH : ∀ t, (H t).IsHermitian) {W : ℝ → M n} (hW : Evolution H W) (t : ℝ) : (W t)ᴴ * W t = 1 := by
  ext i j
  have := Proof.Evolution.overlap_constant H hH W hW.2 i j t 0
  rw [hW.1] at this
  rw [Matrix.mul_apply]
  refine Eq.trans this ?_
  have h2 : ((1 : Matrix (Fin n) (Fin n) ℂ)ᴴ * (1 : Matrix (Fin n) (Fin n) ℂ)) i j = (1 : Matrix (Fin n) (Fin n) ℂ) i j := by
    rw [Matrix.mul_one, Matrix.conjTranspose_one]
  rw [← h2, Matrix.mul_apply]
  rfl

theorem attempts_some {run : List ℝ → Option (List (Fin n → ℂ))} {T : ℝ} : ∀ {fuel nsteps : Nat} {r}, 0 < nsteps → attempts run T fuel nsteps = some r →
    ∃ ts, run ts ≠ none ∧ ts.getLast? = some T ∧ ∀ psi, run ts = some psi → psi.getLast? = some r
  | 0, _, _, _, h => by simp [attempts] at h
  | fuel + 1, nsteps, r, h0, h => by
    rw [attempts] at h
    split at h
    · split at h
      · rename_i psi hr
        refine ⟨_, by rw [hr]; simp, ?_, fun q hq => ?_⟩
        · split
          · simp
          · rw [times, List.getLast?_map, List.range_succ, List.getLast?_append]
            have : (nsteps : ℝ) ≠ 0 := by exact_mod_cast h0.ne'
            simp [this]
        · rw [hr] at hq; cases hq; exact h
      · exact attempts_some (by omega) h
    · cases h

/-! ### Linear algebra -/

/-- An upper triangular unitary matrix is diagonal. -/
theorem triangular_unitary {A : M n} (ht : A.BlockTriangular id) (hu : Aᴴ * A = 1) (i j : Fin n) (h : i ≠ j) : A i j = 0 := by
  rcases lt_or_gt_of_ne h with h | h
  · have : Invertible A := ⟨Aᴴ, hu, mul_eq_one_comm.1 hu⟩
    have h1 := Matrix.blockTriangular_inv_of_blockTriangular ht
    have h2 : A⁻¹ = Aᴴ := Matrix.inv_eq_left_inv hu
    rw [h2] at h1
    have h3 : Aᴴ j i = 0 := h1 h
    rw [Matrix.conjTranspose_apply, star_eq_zero] at h3
    exact h3
  · exact ht h

/-- Orthonormalising the eigenvectors of a unitary matrix column by column gives eigenvectors for the same eigenvalues. -/
theorem qr_eigen {U V Q R : M n} {θ : Fin n → ℂ} (hU : Uᴴ * U = 1) (hV : U * V = V * diagonal θ) (hd : IsUnit V.det) (hQ : Qᴴ * Q = 1)
    (hR : R.BlockTriangular id) (h : V = Q * R) : U * Q = Q * diagonal θ := by
  have hQ' : Q * Qᴴ = 1 := mul_eq_one_comm.1 hQ
  have hRd : IsUnit R.det := by
    rw [h, Matrix.det_mul] at hd
    exact isUnit_of_mul_isUnit_right hd
  have hRi : R * R⁻¹ = 1 := Matrix.mul_nonsing_inv R hRd
  have : Invertible R := Matrix.invertibleOfIsUnitDet R hRd
  have hRt := Matrix.blockTriangular_inv_of_blockTriangular hR
  have e1 : Qᴴ * U * Q = R * diagonal θ * R⁻¹ := by
    have : Qᴴ * U * Q = Qᴴ * (U * V) * R⁻¹ := by
      rw [h, Matrix.mul_assoc, Matrix.mul_assoc, Matrix.mul_assoc, Matrix.mul_assoc, hRi, Matrix.mul_one]
    rw [this, hV, h]
    have : Qᴴ * (Q * R * diagonal θ) * R⁻¹ = (Qᴴ * Q) * (R * diagonal θ * R⁻¹) := by simp only [Matrix.mul_assoc]
    rw [this, hQ, Matrix.one_mul]
  have ht : (Qᴴ * U * Q).BlockTriangular id := by
    rw [e1]
    exact (hR.mul (blockTriangular_diagonal θ)).mul hRt
  have hun : (Qᴴ * U * Q)ᴴ * (Qᴴ * U * Q) = 1 := by
    rw [Matrix.conjTranspose_mul, Matrix.conjTranspose_mul, Matrix.conjTranspose_conjTranspose]
    have : Qᴴ * (Uᴴ * Q) * (Qᴴ * U * Q) = Qᴴ * (Uᴴ * (Q * Qᴴ) * U) * Q := by simp only [Matrix.mul_assoc]
    rw [this, hQ', Matrix.mul_one, hU, Matrix.mul_one, hQ]
  have hz := triangular_unitary ht hun
  have hdiag : Qᴴ * U * Q = diagonal θ := by
    ext i j
    by_cases hij : i = j
    · subst hij
      have e2 : (Qᴴ * U * Q) * R = R * diagonal θ := by
        rw [e1, Matrix.mul_assoc, Matrix.nonsing_inv_mul R hRd, Matrix.mul_one]
      have e3 := congrFun (congrFun e2 i) i
      rw [Matrix.mul_apply, Finset.sum_eq_single i (fun k _ hk => by rw [hz i k (Ne.symm hk), zero_mul]) (by simp), Matrix.mul_diagonal] at e3
      have hRii : R i i ≠ 0 := by
        have := hRd.ne_zero
        rw [Matrix.det_of_upperTriangular hR] at this
        exact (Finset.prod_ne_zero_iff.1 this) i (Finset.mem_univ _)
      rw [Matrix.diagonal_apply_eq]
      exact mul_right_cancel₀ hRii (e3.trans (mul_comm _ _))
    · rw [hz i j hij, Matrix.diagonal_apply_ne _ hij]
  rw [← hdiag]
  have : Q * (Qᴴ * U * Q) = (Q * Qᴴ) * (U * Q) := by simp only [Matrix.mul_assoc]
  rw [this, hQ', Matrix.one_mul]

theorem gram {U V : M n} {θ : Fin n → ℂ} (hU : Uᴴ * U = 1) (hV : U * V = V * diagonal θ) (i j : Fin n) :
    (Vᴴ * V) i j = star (θ i) * (Vᴴ * V) i j * θ j := by
  have h1 : Vᴴ * V = (diagonal θ)ᴴ * (Vᴴ * V) * diagonal θ := by
    have : (U * V)ᴴ * (U * V) = Vᴴ * V := by
      rw [Matrix.conjTranspose_mul, Matrix.mul_assoc, ← Matrix.mul_assoc Uᴴ, hU, Matrix.one_mul]
    rw [← this, hV, Matrix.conjTranspose_mul]
    simp only [Matrix.mul_assoc]
    rw [← Matrix.mul_assoc Vᴴ V, ← this, hV, Matrix.conjTranspose_mul]
    simp only [Matrix.mul_assoc]
  conv_lhs => rw [h1]
  rw [Matrix.mul_diagonal, Matrix.diagonal_conjTranspose, Matrix.diagonal_mul]
  rfl

/-- Eigenvalues of a unitary matrix have modulus one. -/
theorem modulus {U V : M n} {θ : Fin n → ℂ} (hU : Uᴴ * U = 1) (hV : U * V = V * diagonal θ) (k : Fin n) (hk : (Vᴴ * V) k k ≠ 0) : star (θ k) * θ k = 1 := by
  have h := gram hU hV k k
  have : (star (θ k) * θ k - 1) * (Vᴴ * V) k k = 0 := by linear_combination -h
  rcases mul_eq_zero.1 this with h | h
  · exact sub_eq_zero.1 h
  · exact absurd h hk

/-- Normalised eigenvectors of a unitary matrix for distinct eigenvalues are orthonormal. -/
theorem distinct_orthonormal {U V : M n} {θ : Fin n → ℂ} (hU : Uᴴ * U = 1) (hV : U * V = V * diagonal θ) (hn : ∀ k, (Vᴴ * V) k k = 1)
    (hi : Function.Injective θ) : Vᴴ * V = 1 := by
  ext i j
  by_cases hij : i = j
  · rw [hij, hn, Matrix.one_apply_eq]
  · rw [Matrix.one_apply_ne hij]
    by_contra h
    have h1 := gram hU hV i j
    have h2 := modulus hU hV i (by rw [hn]; exact one_ne_zero)
    have h3 : (θ i - θ j) * (Vᴴ * V) i j = 0 := by linear_combination θ i * h1 + θ j * (Vᴴ * V) i j * h2
    rcases mul_eq_zero.1 h3 with h3 | h3
    · exact hij (hi (sub_eq_zero.1 h3))
    · exact h h3

theorem spectrum_of {U V : M n} {θ : Fin n → ℂ} (hV : U * V = V * diagonal θ) (hd : IsUnit V.det) : Spectrum U θ := by
  obtain ⟨v, hv⟩ := (Matrix.isUnit_iff_isUnit_det V).2 hd
  have : U = v.val * diagonal θ * v⁻¹.val := by
    rw [hv, ← hV, ← hv, Matrix.mul_assoc, Units.mul_inv, Matrix.mul_one]
  rw [Spectrum, this, Matrix.coe_units_inv, Matrix.charpoly_units_conj, Matrix.charpoly_diagonal]

theorem spectrum_reorder {U : M n} {θ : Fin n → ℂ} (h : Spectrum U θ) {ind : Fin n → Fin n} (hi : Function.Bijective ind) :
    Spectrum U fun k => θ (ind k) := by
  rw [Spectrum, h]
  exact (Function.Bijective.prod_comp hi fun k => Polynomial.X - Polynomial.C (θ k)).symm

theorem spectrum_transpose {U : M n} {θ : Fin n → ℂ} (h : Spectrum Uᵀ θ) : Spectrum U θ := by
  rw [Spectrum, ← Matrix.charpoly_transpose]
  exact h

/-- Every number of the spectrum is an eigenvalue. -/
theorem spectrum_vector {U : M n} {θ : Fin n → ℂ} (h : Spectrum U θ) (k : Fin n) : ∃ v ≠ 0, U.mulVec v = θ k • v := by
  have h1 : (scalar (Fin n) (θ k) - U).det = 0 := by
    rw [← Matrix.eval_charpoly, h, Polynomial.eval_prod]
    exact Finset.prod_eq_zero (Finset.mem_univ k) (by simp)
  obtain ⟨v, hv, h2⟩ := Matrix.exists_mulVec_eq_zero_iff.2 h1
  refine ⟨v, hv, ?_⟩
  rw [Matrix.sub_mulVec, sub_eq_zero] at h2
  rw [← h2]
  simp [Matrix.scalar_apply]

theorem spectrum_modulus {U : M n} {θ : Fin n → ℂ} (hU : Uᴴ * U = 1) (h : Spectrum U θ) (k : Fin n) : ‖θ k‖ = 1 := by
  obtain ⟨v, hv, h1⟩ := spectrum_vector h k
  have h2 : star (U.mulVec v) ⬝ᵥ U.mulVec v = star v ⬝ᵥ v := by
    rw [Matrix.star_mulVec, ← Matrix.dotProduct_mulVec, Matrix.mulVec_mulVec, hU, Matrix.one_mulVec]
  rw [h1, star_smul, smul_dotProduct, dotProduct_smul, smul_smul] at h2
  have h3 : star v ⬝ᵥ v ≠ 0 := fun h => hv (dotProduct_star_self_eq_zero.1 h)
  have h4 : star (θ k) * θ k = 1 := by
    have : (star (θ k) * θ k) * (star v ⬝ᵥ v) = 1 * (star v ⬝ᵥ v) := by rw [one_mul]; exact h2
    exact mul_right_cancel₀ h3 this
  have h5 : (‖θ k‖ : ℂ) ^ 2 = 1 := by rw [← Complex.conj_mul']; exact h4
  have h6 : ‖θ k‖ ^ 2 = 1 := by exact_mod_cast h5
  nlinarith [norm_nonneg (θ k)]

/-! ### Order of the phases -/

theorem lexLe_total (a b : ℂ) : lexLe a b ∨ lexLe b a := by
  unfold lexLe
  rcases lt_trichotomy a.re b.re with h | h | h
  · exact Or.inl (Or.inl h)
  · rcases le_total a.im b.im with h' | h'
    · exact Or.inl (Or.inr ⟨h, h'⟩)
    · exact Or.inr (Or.inr ⟨h.symm, h'⟩)
  · exact Or.inr (Or.inl h)

theorem lexLe_trans (a b c : ℂ) (h1 : lexLe a b) (h2 : lexLe b c) : lexLe a c := by
  unfold lexLe at *
  rcases h1 with h1 | ⟨h1, h1'⟩ <;> rcases h2 with h2 | ⟨h2, h2'⟩
  · exact Or.inl (h1.trans h2)
  · exact Or.inl (h2 ▸ h1)
  · exact Or.inl (h1 ▸ h2)
  · exact Or.inr ⟨h1.trans h2, h1'.trans h2'⟩

theorem lexLe_antisymm (a b : ℂ) (h1 : lexLe a b) (h2 : lexLe b a) : a = b := by
  unfold lexLe at *
  apply Complex.ext
  · rcases h1 with h1 | h1 <;> rcases h2 with h2 | h2 <;> linarith [h1, h2]
  · rcases h1 with h1 | h1 <;> rcases h2 with h2 | h2
    · linarith
    · linarith [h2.1]
    · linarith [h1.1]
    · exact le_antisymm h1.2 h2.2

theorem nodup_of_far {eps : ℝ} (he : 0 < eps) : ∀ {l : List ℂ}, l.Pairwise lexLe → ¬anyClose eps l → l.Nodup
  | [], _, _ => List.nodup_nil
  | [a], _, _ => List.nodup_singleton a
  | a :: b :: r, hp, hc => by
    rw [anyClose] at hc
    push Not at hc
    have ih := nodup_of_far he (List.pairwise_cons.1 hp).2 hc.2
    refine List.nodup_cons.2 ⟨fun hm => ?_, ih⟩
    rcases List.mem_cons.1 hm with h | h
    · apply hc.1
      rw [h, sub_self]
      exact Or.inl he
    · have h1 : lexLe a b := (List.pairwise_cons.1 hp).1 b List.mem_cons_self
      have h2 : lexLe b a := (List.pairwise_cons.1 (List.pairwise_cons.1 hp).2).1 a h
      have := lexLe_antisymm a b h1 h2
      apply hc.1
      rw [this, sub_self]
      exact Or.inl he

/-- If the test does not report degenerate phases, the phases are distinct. -/
theorem distinct_of_test {eps : ℝ} (he : 0 < eps) {θ : Fin n → ℂ} (h : ¬degenerate eps θ) : Function.Injective θ := by
  classical
  have : Std.Total lexLe := ⟨lexLe_total⟩
  have : IsTrans ℂ lexLe := ⟨lexLe_trans⟩
  have h1 := nodup_of_far he (List.pairwise_insertionSort lexLe (List.ofFn θ)) h
  rw [(List.perm_insertionSort lexLe (List.ofFn θ)).nodup_iff, List.nodup_ofFn] at h1
  exact h1

/-! ### Quasienergies -/

theorem energies_eq (T : ℝ) (θ : Fin n → ℂ) (k : Fin n) : energies T θ k = -(θ k).arg / T := by
  unfold energies
  have : Complex.I / T * Complex.log (θ k) = ((T⁻¹ : ℝ) : ℂ) * (Complex.I * Complex.log (θ k)) := by
    push_cast; ring
  rw [this, Complex.re_ofReal_mul]
  simp [Complex.mul_re, Complex.log_im]
  ring

theorem energies_phase {T : ℝ} (hT : T ≠ 0) {θ : Fin n → ℂ} {k : Fin n} (h : ‖θ k‖ = 1) : Complex.exp (-Complex.I * (T * energies T θ k)) = θ k := by
  rw [energies_eq]
  have hT' : (T : ℂ) ≠ 0 := by exact_mod_cast hT
  have : -Complex.I * (T * ((-(θ k).arg / T : ℝ) : ℂ)) = (θ k).arg * Complex.I := by
    push_cast
    field_simp
  rw [this]
  have := Complex.norm_mul_exp_arg_mul_I (θ k)
  rwa [h, Complex.ofReal_one, one_mul] at this

theorem energies_zone {T : ℝ} (hT : T ≠ 0) (θ : Fin n → ℂ) (k : Fin n) : -Real.pi ≤ T * energies T θ k ∧ T * energies T θ k < Real.pi := by
  rw [energies_eq]
  have : T * (-(θ k).arg / T) = -(θ k).arg := by field_simp
  rw [this]
  constructor
  · linarith [Complex.arg_le_pi (θ k)]
  · linarith [Complex.neg_pi_lt_arg (θ k)]

/-! ### The logarithm -/

theorem eigenbasis_modulus {U V : M n} {θ : Fin n → ℂ} (hU : Uᴴ * U = 1) (h : Eigenbasis U θ V) (k : Fin n) : ‖θ k‖ = 1 :=
  spectrum_modulus hU (spectrum_of h.1 (Matrix.isUnit_iff_isUnit_det V |>.1 (IsUnit.of_mul_eq_one_right _ h.2))) k

/-- The principal logarithm has the eigenvectors of the matrix. -/
theorem log_vector {U L : M n} (h : PrincipalLog U L) {v : Fin n → ℂ} {μ : ℂ} (hv : U.mulVec v = μ • v) : L.mulVec v = Complex.log μ • v := by
  obtain ⟨θ, V, hV, rfl⟩ := h
  have hV' : V * Vᴴ = 1 := mul_eq_one_comm.1 hV.2
  have h1 : Vᴴ * U = diagonal θ * Vᴴ := by
    have : Vᴴ * (U * V) * Vᴴ = Vᴴ * (V * diagonal θ) * Vᴴ := by rw [hV.1]
    rw [← Matrix.mul_assoc, Matrix.mul_assoc (Vᴴ * U), hV', Matrix.mul_one, ← Matrix.mul_assoc, hV.2, Matrix.one_mul] at this
    exact this
  have h2 : ∀ k, θ k * (Vᴴ.mulVec v) k = μ * (Vᴴ.mulVec v) k := by
    intro k
    have := congrFun (congrArg (Vᴴ.mulVec) hv) k
    rw [Matrix.mulVec_mulVec, h1, ← Matrix.mulVec_mulVec, Matrix.mulVec_diagonal, Matrix.mulVec_smul] at this
    exact this
  have h3 : (diagonal fun k => Complex.log (θ k)).mulVec (Vᴴ.mulVec v) = Complex.log μ • Vᴴ.mulVec v := by
    ext k
    rw [Matrix.mulVec_diagonal, Pi.smul_apply, smul_eq_mul]
    by_cases hk : (Vᴴ.mulVec v) k = 0
    · rw [hk, mul_zero, mul_zero]
    · rw [mul_right_cancel₀ hk (h2 k)]
  rw [Matrix.mul_assoc, ← Matrix.mulVec_mulVec, ← Matrix.mulVec_mulVec, h3, Matrix.mulVec_smul, Matrix.mulVec_mulVec, hV', Matrix.one_mulVec]

theorem log_exp {U L : M n} (hU : Uᴴ * U = 1) (h : PrincipalLog U L) : NormedSpace.exp L = U := by
  obtain ⟨θ, V, hV, rfl⟩ := h
  have hV' : V * Vᴴ = 1 := mul_eq_one_comm.1 hV.2
  have hi : Vᴴ = V⁻¹ := (Matrix.inv_eq_left_inv hV.2).symm
  rw [hi, Matrix.exp_conj V _ (IsUnit.of_mul_eq_one_right _ hV.2), Matrix.exp_diagonal]
  have : NormedSpace.exp (fun k => Complex.log (θ k)) = θ := by
    ext k
    rw [Pi.coe_exp, ← Complex.exp_eq_exp_ℂ, Complex.exp_log]
    intro h0
    have := eigenbasis_modulus hU hV k
    rw [h0, norm_zero] at this
    exact zero_ne_one this
  rw [this, ← hV.1, ← hi, Matrix.mul_assoc, hV', Matrix.mul_one]

theorem log_hermitian {U L : M n} (hU : Uᴴ * U = 1) (h : PrincipalLog U L) (T : ℝ) : ((Complex.I / T) • L).IsHermitian := by
  obtain ⟨θ, V, hV, rfl⟩ := h
  unfold Matrix.IsHermitian
  rw [Matrix.conjTranspose_smul, Matrix.conjTranspose_mul, Matrix.conjTranspose_mul, Matrix.conjTranspose_conjTranspose, Matrix.diagonal_conjTranspose,
    ← Matrix.mul_assoc]
  have key : ∀ (a : ℂ) (D : M n), a • (V * D * Vᴴ) = V * (a • D) * Vᴴ := fun a D => by rw [Matrix.mul_smul, Matrix.smul_mul]
  refine (key _ _).trans (Eq.trans ?_ (key _ _).symm)
  congr 2
  ext i j
  rw [Matrix.smul_apply, Matrix.smul_apply]
  by_cases hij : i = j
  · subst hij
    rw [Matrix.diagonal_apply_eq, Matrix.diagonal_apply_eq, smul_eq_mul, smul_eq_mul, Pi.star_apply]
    have : (Complex.log (θ i)).re = 0 := by rw [Complex.log_re, eigenbasis_modulus hU hV i, Real.log_one]
    have hl : Complex.log (θ i) = (Complex.log (θ i)).im * Complex.I := by
      apply Complex.ext <;> simp [this]
    rw [hl]
    simp only [star_div₀, star_mul', Complex.star_def, Complex.conj_I, Complex.conj_ofReal]
    ring
  · rw [Matrix.diagonal_apply_ne _ hij, Matrix.diagonal_apply_ne _ hij, smul_zero, smul_zero]

end Proof.Floquet
