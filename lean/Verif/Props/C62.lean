import Verif.Props.C61
import Mathlib.Analysis.Complex.ExponentialBounds

/-!
C62: thermal averages of the low-temperature Lanczos method.

Notation of C61; `feps` is the precision of the dtype, below which Ritz values are cut off.
-/

namespace Props
open Matrix Model.LanczosThermal Proof.Lanczos Proof.LanczosThermal
open Spec.Lanczos (ip tridiagonal IsLanczos triMatrix Closed IsEigh)

section
variable {n : Type} [Fintype n] [DecidableEq n] {k : ℕ} {A : Matrix n n ℂ} {v : n → ℂ} {Q : List (n → ℂ)} {a b : List ℝ}
  {E : Fin (k + 1) → ℝ} {V : Matrix (Fin (k + 1)) (Fin (k + 1)) ℝ}

omit [Fintype n] [DecidableEq n] in
/-- A quadratic form in another basis. -/
theorem quadratic (c : Fin (k + 1) → ℂ) (W M : Matrix (Fin (k + 1)) (Fin (k + 1)) ℂ) :
    ∑ j, ∑ l, c j * c l * ∑ i, W i j * ∑ p, M i p * W p l = ∑ p, ∑ i, (∑ l, W p l * c l) * (∑ j, W i j * c j) * M i p := by
  have h1 : ∑ j, ∑ l, c j * c l * ∑ i, W i j * ∑ p, M i p * W p l = c ⬝ᵥ ((Wᵀ * (M * W)) *ᵥ c) := by
    simp only [dotProduct, Matrix.mulVec, Matrix.mul_apply, Matrix.transpose_apply, Finset.mul_sum]
    refine Finset.sum_congr rfl fun j _ => Finset.sum_congr rfl fun l _ => ?_
    simp only [Finset.sum_mul, Finset.mul_sum]
    refine Finset.sum_congr rfl fun i _ => Finset.sum_congr rfl fun p _ => ?_
    ring
  have h2 : c ⬝ᵥ ((Wᵀ * (M * W)) *ᵥ c) = (W *ᵥ c) ⬝ᵥ (M *ᵥ (W *ᵥ c)) := by
    rw [← Matrix.mulVec_mulVec, ← Matrix.mulVec_mulVec, Matrix.dotProduct_mulVec, Matrix.vecMul_transpose]
  rw [h1, h2, Finset.sum_comm]
  simp only [dotProduct, Matrix.mulVec, Finset.mul_sum]
  refine Finset.sum_congr rfl fun i _ => Finset.sum_congr rfl fun p _ => ?_
  simp only [Finset.sum_mul, Finset.mul_sum]
  rw [Finset.sum_comm]
  refine Finset.sum_congr rfl fun l _ => Finset.sum_congr rfl fun j _ => ?_
  ring

/-- `LTLM_static_iteration`: up to the squared norm of the start vector `r`, the results are `⟨r| exp(-βA/2) O exp(-βA/2) |r⟩` and
`⟨r| exp(-βA) |r⟩` if there is no residual.  Partial: nothing may be cut off (`C62_fails_identity`). -/
theorem C62_partial (hA : A.IsHermitian) (h : IsLanczos A v Q a b) (hk : Q.length = k + 1) (hc : Closed A Q a b)
    (hE : IsEigh (triMatrix k a b) E V) (O : Matrix n n ℂ) (beta feps : ℝ) (hcut : cut E V beta feps = k + 1) :
    ∃ x z, ltlm O E V Q beta feps = some (x, z) ∧
      (Spec.Lanczos.norm v : ℂ) ^ 2 * x =
        ip v ((NormedSpace.exp ((-(beta / 2) : ℂ) • A) * O * NormedSpace.exp ((-(beta / 2) : ℂ) • A)) *ᵥ v) ∧
      (Spec.Lanczos.norm v : ℂ) ^ 2 * (z : ℂ) = ip v (NormedSpace.exp ((-beta : ℂ) • A) *ᵥ v) := by
  have hK : (Finset.univ.filter fun i : Fin (k + 1) => (i : ℕ) < k + 1) = Finset.univ := by
    ext i; simp only [Finset.mem_filter, Finset.mem_univ, true_and, iff_true]; exact i.2
  have hx := exp_first h hk hc hE (-((beta / 2 : ℝ) : ℂ))
  have hH : (NormedSpace.exp ((-(beta / 2) : ℂ) • A)).IsHermitian := by
    have := exp_hermitian hA (-(beta / 2))
    push_cast at this
    exact this
  refine ⟨_, _, by simp only [ltlm, hcut, hK]; rw [if_neg (by omega)], ?_, ?_⟩
  · rw [← ip_start h, Matrix.mul_assoc, ← Matrix.mulVec_mulVec, ip_herm hH, ← Matrix.mulVec_mulVec]
    push_cast at hx
    rw [hx]
    congr 1
    have hw (i : Fin (k + 1)) : coeff E V (-((beta : ℂ) / 2)) i = ∑ j, (V i j : ℂ) * ((V 0 j * Real.exp (-(E j * (beta / 2))) : ℝ) : ℂ) := by
      unfold coeff
      refine Finset.sum_congr rfl fun j _ => ?_
      push_cast
      rw [show -((beta : ℂ) / 2) * (E j : ℂ) = -((E j : ℂ) * ((beta : ℂ) / 2)) by ring]
      ring
    have hreal (i : Fin (k + 1)) : star (coeff E V (-((beta : ℂ) / 2)) i) = coeff E V (-((beta : ℂ) / 2)) i := by
      have := coeff_weights (E := E) (V := V) (beta / 2) i
      push_cast at this
      rw [this]
      exact Complex.conj_ofReal _
    have hR : ip (comb Q (coeff E V (-((beta : ℂ) / 2)))) (O *ᵥ comb Q (coeff E V (-((beta : ℂ) / 2)))) =
        ∑ p : Fin (k + 1), ∑ i : Fin (k + 1), coeff E V (-((beta : ℂ) / 2)) p * coeff E V (-((beta : ℂ) / 2)) i *
          ip (Q.getD p 0) (O *ᵥ Q.getD i 0) := by
      rw [mulVec_comb, comb, ip_sum_left]
      refine Finset.sum_congr rfl fun p _ => ?_
      rw [ip_smul_left, hreal, ip_sum_right, Finset.mul_sum]
      refine Finset.sum_congr rfl fun i _ => ?_
      rw [ip_smul_right, mul_assoc]
    rw [hR]
    simp only [hw]
    exact quadratic _ _ _
  · rw [← ip_start h]
    have hx' := exp_first h hk hc hE (-(beta : ℂ))
    rw [hx']
    congr 1
    have hone : ip (Q.getD 0 0) (comb Q (coeff E V (-(beta : ℂ)))) = (weights E V beta 0 : ℂ) := by
      unfold comb
      rw [ip_sum_right, Finset.sum_eq_single 0]
      · rw [ip_smul_right, coeff_weights]
        have := h.orthonormal 0 h.nonempty 0 h.nonempty
        simp only [Fin.val_zero]
        rw [this, if_pos rfl, mul_one]
      · intro i _ hi
        rw [ip_smul_right]
        have := h.orthonormal 0 h.nonempty i (by omega)
        rw [this, if_neg, mul_zero]
        intro h0
        exact hi (Fin.ext h0.symm)
      · simp
    rw [hone]
    congr 1
    unfold weights
    refine Finset.sum_congr rfl fun j _ => ?_
    rw [mul_comm (E j)]
    ring

/-- Adding a constant to the Hamiltonian changes no thermal average.  But for every input there is a constant, such that the iteration for the
shifted Hamiltonian, with shifted Ritz values and the same vectors, ends with an `IndexError`. -/
theorem C62_fails_shift (hE : IsEigh (triMatrix k a b) E V) (O : Matrix n n ℂ) (beta feps : ℝ) (hb : 0 < beta) (hf : 0 < feps) :
    ∃ s : ℝ, IsEigh (triMatrix k a b + s • 1) (fun j => E j + s) V ∧ ltlm O (fun j => E j + s) V Q beta feps = none := by
  have hV : V * Vᵀ = 1 := mul_eq_one_comm.mp hE.orthogonal
  have h1 : ∀ j, |V 0 j| ≤ 1 := by
    intro j
    have hs := congrFun (congrFun hV 0) 0
    rw [Matrix.mul_apply, Matrix.one_apply_eq] at hs
    have := Finset.single_le_sum (f := fun j => V 0 j * Vᵀ j 0) (fun i _ => by
      simp only [Matrix.transpose_apply]; exact mul_self_nonneg _) (Finset.mem_univ j)
    simp only [Matrix.transpose_apply] at this hs
    rw [hs] at this
    rw [abs_le]
    constructor <;> nlinarith
  refine ⟨(1 - Real.log feps) / beta - E 0, ⟨hE.orthogonal, ?_⟩, ?_⟩
  · rw [Matrix.add_mul, hE.eigen]
    ext i j
    simp only [Matrix.add_apply, Matrix.mul_diagonal, Matrix.smul_mul, Matrix.one_mul, Matrix.smul_apply, smul_eq_mul]
    ring
  · have hc : cut (fun j => E j + ((1 - Real.log feps) / beta - E 0)) V beta feps = 0 := by
      unfold cut
      rw [List.finRange_succ, List.findIdx?_cons]
      rw [if_pos]
      · rfl
      · rw [decide_eq_true_eq]
        have he : -((E 0 + ((1 - Real.log feps) / beta - E 0)) * beta) = Real.log feps - 1 := by
          field_simp
          ring
        rw [he, Real.exp_sub, Real.exp_log hf]
        have h2 : Finset.univ.sup' Finset.univ_nonempty (fun j => |V 0 j|) ≤ 1 := Finset.sup'_le _ _ fun j _ => h1 j
        have h3 : feps / Real.exp 1 < feps := div_lt_self hf (by
          have := Real.add_one_lt_exp (x := 1) (by norm_num)
          linarith)
        have h4 : 0 ≤ feps / Real.exp 1 := div_nonneg hf.le (Real.exp_pos 1).le
        nlinarith
    simp [ltlm, hc]

end

/-! ### The cut mixes Ritz values with Lanczos vectors -/

/-- Two levels with energies 0 and 40. -/
noncomputable def split40 : Matrix (Fin 2) (Fin 2) ℂ := !![20, 20; 20, 20]

theorem split40_lanczos : IsLanczos split40 ![1, 0] [![1, 0], ![0, 1]] [20, 20] [20] ∧ Closed split40 [![1, 0], ![0, 1]] [20, 20] [20] ∧
    IsEigh (triMatrix 1 [20, 20] [20]) ![0, 40] !![half2, half2; -half2, half2] := by
  refine ⟨?_, ?_, ?_⟩
  · constructor
    · simp
    · simp
    · have : Spec.Lanczos.norm (![1, 0] : Fin 2 → ℂ) = 1 := by simp [Spec.Lanczos.norm]
      rw [this]; simp
    · intro i hi j hj
      simp only [List.length_cons, List.length_nil] at hi hj
      interval_cases i <;> interval_cases j <;> simp [ip, Fin.sum_univ_two]
    · intro x hx
      simp only [List.mem_singleton] at hx
      subst hx; norm_num
    · intro i hi
      have : i = 0 := by simpa using hi
      subst this
      funext l
      fin_cases l <;> simp [split40, Matrix.mulVec, dotProduct, Fin.sum_univ_two]
    · intro i hi j hj
      simp only [List.length_cons, List.length_nil] at hi hj
      interval_cases i <;> interval_cases j <;> simp [ip, Fin.sum_univ_two, split40, Matrix.mulVec, dotProduct, tridiagonal]
  · intro i hi
    have : i = 1 := by simpa using hi
    subst this
    funext l
    fin_cases l <;> simp [split40, Matrix.mulVec, dotProduct, Fin.sum_univ_two]
  · constructor
    · ext i j
      fin_cases i <;> fin_cases j <;> simp [Matrix.mul_apply, Fin.sum_univ_two, half2_sq] <;> norm_num
    · ext i j
      fin_cases i <;> fin_cases j <;> simp [Matrix.mul_apply, Fin.sum_univ_two, triMatrix, tridiagonal] <;> ring

theorem half2_pos : 0 < half2 := by unfold half2; positivity

theorem half2_lt : half2 < 1 := by
  have := half2_sq
  have := half2_pos
  nlinarith

theorem half2_max : (Finset.univ : Finset (Fin (1 + 1))).sup' Finset.univ_nonempty
    (fun j => |(!![half2, half2; -half2, half2] : Matrix (Fin (1 + 1)) (Fin (1 + 1)) ℝ) 0 j|) = half2 := by
  apply le_antisymm
  · refine Finset.sup'_le _ _ fun j _ => ?_
    fin_cases j <;> simp [abs_of_pos half2_pos]
  · refine le_trans ?_ (Finset.le_sup' _ (Finset.mem_univ 0))
    simp [abs_of_pos half2_pos]

/-- The Ritz value 40 is cut off, and with it the second Lanczos vector: the thermal average of the identity comes out as one half. -/
theorem C62_fails_identity :
    ltlm (1 : Matrix (Fin 2) (Fin 2) ℂ) ![0, 40] !![half2, half2; -half2, half2] [![1, 0], ![0, 1]] 1 (1 / 2 ^ 52) =
      some (1 / 4, 1 / 2) := by
  have hcut : cut (k := 1) ![0, 40] !![half2, half2; -half2, half2] 1 (1 / 2 ^ 52) = 1 := by
    unfold cut
    rw [half2_max]
    have h0 : ¬ Real.exp (-(0 * 1)) * half2 < 1 / 2 ^ 52 := by
      have : Real.exp (-(0 * 1)) = 1 := by simp
      rw [this]
      have := half2_sq
      have := half2_pos
      nlinarith
    have h1 : Real.exp (-(40 * 1)) * half2 < 1 / 2 ^ 52 := by
      have he : (2 : ℝ) ^ 52 < Real.exp 40 := by
        have h27 : (2.7 : ℝ) ^ 40 < Real.exp 1 ^ 40 := by
          apply pow_lt_pow_left₀ _ (by norm_num) (by norm_num)
          have := Real.exp_one_gt_d9
          linarith
        rw [← Real.exp_nat_mul] at h27
        norm_num at h27 ⊢
        linarith
      rw [mul_one, Real.exp_neg]
      have h2 : (Real.exp 40)⁻¹ < 1 / 2 ^ 52 := by
        rw [one_div]
        exact inv_strictAnti₀ (by positivity) he
      have h3 : 0 < (Real.exp 40)⁻¹ := inv_pos.mpr (Real.exp_pos _)
      have := half2_lt
      have := half2_pos
      nlinarith
    have hl : List.finRange (1 + 1) = [0, 1] := by decide
    rw [hl]
    simp only [List.findIdx?_cons, Matrix.cons_val_zero, Matrix.cons_val_one, h0, h1, decide_false, decide_true]
    simp
  have hK : (Finset.univ.filter fun i : Fin (1 + 1) => (i : ℕ) < 1) = {0} := by decide
  unfold ltlm
  simp only [hcut, hK]
  have hs : (half2 : ℂ) * half2 = 1 / 2 := by
    have := congrArg (fun x : ℝ => (x : ℂ)) half2_sq
    push_cast at this
    exact this
  have h2 : half2 ^ 2 = 1 / 2 := by rw [sq, half2_sq]
  have h4 : (half2 : ℂ) * half2 * (half2 * half2) = 1 / 4 := by rw [hs]; norm_num
  simp [ip, Fin.sum_univ_two] 
  constructor
  · rw [h4]; norm_num
  · rw [h2]; norm_num

/-- Non-vacuity of `C62_partial`: at infinite temperature nothing is cut off. -/
example : cut (k := 1) ![0, 40] !![half2, half2; -half2, half2] 0 (1 / 2 ^ 52) = 1 + 1 := by
  unfold cut
  rw [half2_max]
  have h0 : ∀ x : ℝ, ¬ Real.exp (-(x * 0)) * half2 < 1 / 2 ^ 52 := by
    intro x
    rw [mul_zero, neg_zero, Real.exp_zero]
    have := half2_sq
    have := half2_pos
    nlinarith
  simp only [h0, decide_false]
  rfl

end Props
