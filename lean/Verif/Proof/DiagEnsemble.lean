import Verif.Spec.DiagEnsemble
import Verif.Model.DiagEnsemble
import Mathlib.Analysis.Calculus.MeanValue
import Mathlib.MeasureTheory.Integral.IntervalIntegral.Basic
import Mathlib.LinearAlgebra.Matrix.NonsingularInverse
import Mathlib.Analysis.Calculus.Deriv.Star
import Mathlib.Tactic.LinearCombination
/-! Averages over infinite time of trigonometric polynomials, and evolution in an eigenbasis. -/
namespace Proof.DiagEns
open Matrix Filter Topology Spec.Quench Model.DiagEns

variable {n m : ℕ}

theorem exp_average (w : ℝ) (hw : w ≠ 0) :
    Tendsto (fun T : ℝ => (∫ t in (0 : ℝ)..T, Complex.exp (Complex.I * w * t)) / (T : ℂ)) atTop (𝓝 0) := by
  have hc : Complex.I * (w : ℂ) ≠ 0 := mul_ne_zero Complex.I_ne_zero (by exact_mod_cast hw)
  rw [tendsto_zero_iff_norm_tendsto_zero]
  have hb : Tendsto (fun T : ℝ => (2 / ‖Complex.I * (w : ℂ)‖) / T) atTop (𝓝 0) := tendsto_const_nhds.div_atTop tendsto_id
  refine squeeze_zero' (Eventually.of_forall fun _ => norm_nonneg _) ?_ hb
  filter_upwards [eventually_gt_atTop 0] with T hT
  rw [integral_exp_mul_complex hc, norm_div, norm_div, Complex.norm_real, Real.norm_of_nonneg hT.le]
  gcongr
  refine (norm_sub_le _ _).trans ?_
  rw [show Complex.I * (w : ℂ) * (T : ℂ) = ((w * T : ℝ) : ℂ) * Complex.I by push_cast; ring, Complex.norm_exp_ofReal_mul_I]
  simp
  norm_num

theorem trig_average {ι : Type} (s : Finset ι) (a : ι → ℂ) (w : ι → ℝ) :
    Tendsto (fun T : ℝ => (∫ t in (0 : ℝ)..T, ∑ k ∈ s, a k * Complex.exp (Complex.I * w k * t)) / (T : ℂ)) atTop
      (𝓝 (∑ k ∈ s, if w k = 0 then a k else 0)) := by
  have e : ∀ T : ℝ, (∫ t in (0 : ℝ)..T, ∑ k ∈ s, a k * Complex.exp (Complex.I * w k * t)) / (T : ℂ)
      = ∑ k ∈ s, a k * ((∫ t in (0 : ℝ)..T, Complex.exp (Complex.I * w k * t)) / (T : ℂ)) := by
    intro T
    rw [intervalIntegral.integral_finset_sum, Finset.sum_div]
    · refine Finset.sum_congr rfl fun k _ => ?_
      rw [intervalIntegral.integral_const_mul, mul_div_assoc]
    · intro k _
      exact Continuous.intervalIntegrable (by fun_prop) _ _
  simp only [e]
  refine tendsto_finset_sum _ fun k _ => ?_
  by_cases hk : w k = 0
  · rw [if_pos hk]
    have : Tendsto (fun _ : ℝ => a k) atTop (𝓝 (a k)) := tendsto_const_nhds
    refine this.congr' ?_
    filter_upwards [eventually_gt_atTop 0] with T hT
    have hT' : (T : ℂ) ≠ 0 := by exact_mod_cast hT.ne'
    simp [hk, hT']
  · rw [if_neg hk]
    simpa using (exp_average (w k) hk).const_mul (a k)

theorem re_average {ι : Type} (s : Finset ι) (a : ι → ℂ) (w : ι → ℝ) (f : ℝ → ℝ)
    (hf : ∀ t, f t = (∑ k ∈ s, a k * Complex.exp (Complex.I * w k * t)).re) :
    TimeAverage f (∑ k ∈ s, if w k = 0 then a k else 0).re := by
  have h := (Complex.continuous_re.tendsto _).comp (trig_average s a w)
  refine h.congr fun T => ?_
  have e : ∫ t in (0 : ℝ)..T, f t = (∫ t in (0 : ℝ)..T, ∑ k ∈ s, a k * Complex.exp (Complex.I * w k * t)).re := by
    have := Complex.reCLM.intervalIntegral_comp_comm (μ := MeasureTheory.volume) (a := 0) (b := T)
      (f := fun t => ∑ k ∈ s, a k * Complex.exp (Complex.I * w k * t)) (Continuous.intervalIntegrable (by fun_prop) _ _)
    simp only [Complex.reCLM_apply] at this
    rw [← this]
    exact intervalIntegral.integral_congr fun t _ => hf t
  simp only [Function.comp]
  rw [e, Complex.div_ofReal_re]

/-! ### Evolution -/

section
variable {H V : Matrix (Fin n) (Fin n) ℂ} {E : Fin n → ℝ}

theorem diag_eq (h : Eigenbasis H V E) : H * V = V * diagonal fun k => (E k : ℂ) := by
  ext i k
  rw [h.eigen, mul_diagonal]

theorem unit_right (h : Eigenbasis H V E) : V * Vᴴ = 1 := mul_eq_one_comm.1 h.unitary

theorem ham_eq (h : Eigenbasis H V E) : H = V * diagonal (fun k => (E k : ℂ)) * Vᴴ := by
  rw [← diag_eq h, Matrix.mul_assoc, unit_right h, Matrix.mul_one]

theorem ham_hermitian (h : Eigenbasis H V E) : Hᴴ = H := by
  rw [ham_eq h]
  simp only [conjTranspose_mul, conjTranspose_conjTranspose, diagonal_conjTranspose, Matrix.mul_assoc]
  congr 3
  ext k
  simp

/-- The density matrix in the eigenbasis. -/
theorem evolve (h : Eigenbasis H V E) (rho : ℝ → Matrix (Fin n) (Fin n) ℂ) (hr : VonNeumann H rho) (t : ℝ) (k l : Fin n) :
    (Vᴴ * (rho t * V)) k l = (Vᴴ * (rho 0 * V)) k l * Complex.exp (Complex.I * ((E l - E k : ℝ) : ℂ) * t) := by
  have hd : ∀ t, HasDerivAt (fun t => (Vᴴ * (rho t * V)) k l) (-Complex.I * ((E k - E l : ℝ) : ℂ) * (Vᴴ * (rho t * V)) k l) t := by
    intro t
    have e1 : (fun t => (Vᴴ * (rho t * V)) k l) = fun t => ∑ i, Vᴴ k i * ∑ j, rho t i j * V j l := by
      ext t; simp only [Matrix.mul_apply]
    rw [e1]
    have h1 : HasDerivAt (fun t => ∑ i, Vᴴ k i * ∑ j, rho t i j * V j l)
        (∑ i, Vᴴ k i * ∑ j, (-Complex.I * ((H * rho t) i j - (rho t * H) i j)) * V j l) t :=
      HasDerivAt.fun_sum fun i _ => (HasDerivAt.fun_sum fun j _ => (hr t i j).mul_const _).const_mul _
    convert h1 using 1
    have e2 : ∑ i, Vᴴ k i * ∑ j, (-Complex.I * ((H * rho t) i j - (rho t * H) i j)) * V j l
        = -Complex.I * (Vᴴ * ((H * rho t - rho t * H) * V)) k l := by
      simp only [Matrix.mul_apply, Matrix.sub_apply, Finset.mul_sum]
      refine Finset.sum_congr rfl fun i _ => Finset.sum_congr rfl fun j _ => ?_
      ring
    rw [e2]
    have e3 : Vᴴ * H = diagonal (fun k => (E k : ℂ)) * Vᴴ := by
      rw [ham_eq h, ← Matrix.mul_assoc, ← Matrix.mul_assoc, h.unitary, Matrix.one_mul]
    have e4 : Vᴴ * ((H * rho t - rho t * H) * V)
        = diagonal (fun k => (E k : ℂ)) * (Vᴴ * (rho t * V)) - (Vᴴ * (rho t * V)) * diagonal (fun k => (E k : ℂ)) := by
      rw [Matrix.sub_mul, Matrix.mul_sub]
      congr 1
      · rw [Matrix.mul_assoc, ← Matrix.mul_assoc Vᴴ, e3, Matrix.mul_assoc]
      · rw [Matrix.mul_assoc (rho t), diag_eq h, ← Matrix.mul_assoc, ← Matrix.mul_assoc, Matrix.mul_assoc Vᴴ (rho t)]
    rw [e4, Matrix.sub_apply, diagonal_mul, mul_diagonal]
    push_cast
    ring
  have hconst : ∀ t, (Vᴴ * (rho t * V)) k l * Complex.exp (Complex.I * ((E k - E l : ℝ) : ℂ) * t)
      = (Vᴴ * (rho 0 * V)) k l * Complex.exp (Complex.I * ((E k - E l : ℝ) : ℂ) * (0 : ℝ)) := by
    intro t
    refine is_const_of_deriv_eq_zero (f := fun t : ℝ => (Vᴴ * (rho t * V)) k l * Complex.exp (Complex.I * ((E k - E l : ℝ) : ℂ) * t))
      ?_ ?_ t 0
    · intro s
      exact ((hd s).mul
        ((hasDerivAt_id (s : ℂ)).const_mul (Complex.I * ((E k - E l : ℝ) : ℂ))).cexp.comp_ofReal).differentiableAt
    · intro s
      have := (hd s).mul ((hasDerivAt_id (s : ℂ)).const_mul (Complex.I * ((E k - E l : ℝ) : ℂ))).cexp.comp_ofReal
      refine (this.deriv).trans ?_
      simp
      ring
  have := hconst t
  simp only [Complex.ofReal_zero, mul_zero, Complex.exp_zero, mul_one] at this
  rw [← this, mul_assoc, ← Complex.exp_add]
  push_cast
  rw [show Complex.I * ((E k : ℂ) - E l) * t + Complex.I * ((E l : ℂ) - E k) * t = 0 by ring, Complex.exp_zero, mul_one]

theorem mean_eigen (h : Eigenbasis H V E) (O rho : Matrix (Fin n) (Fin n) ℂ) :
    mean O rho = (∑ p : Fin n × Fin n, (Vᴴ * (rho * V)) p.1 p.2 * rotated V O p.2 p.1).re := by
  unfold mean rotated
  rw [Fintype.sum_prod_type]
  have : (rho * O).trace = ((Vᴴ * (rho * V)) * (Vᴴ * (O * V))).trace := by
    rw [show (Vᴴ * (rho * V)) * (Vᴴ * (O * V)) = Vᴴ * (rho * (V * Vᴴ) * (O * V)) by simp only [Matrix.mul_assoc], unit_right h,
      Matrix.mul_one, Matrix.trace_mul_comm Vᴴ, ← Matrix.mul_assoc, Matrix.mul_assoc, unit_right h, Matrix.mul_one]
  rw [this]
  rfl

/-- The mean value in time. -/
theorem mean_time (h : Eigenbasis H V E) (O : Matrix (Fin n) (Fin n) ℂ) (rho : ℝ → Matrix (Fin n) (Fin n) ℂ)
    (hr : VonNeumann H rho) (t : ℝ) :
    mean O (rho t) = (∑ p : Fin n × Fin n, ((Vᴴ * (rho 0 * V)) p.1 p.2 * rotated V O p.2 p.1)
      * Complex.exp (Complex.I * ((E p.2 - E p.1 : ℝ) : ℂ) * t)).re := by
  rw [mean_eigen h]
  congr 1
  refine Finset.sum_congr rfl fun p _ => ?_
  rw [evolve h rho hr t]
  ring

theorem mean_average (h : Eigenbasis H V E) (hE : Function.Injective E) (O : Matrix (Fin n) (Fin n) ℂ)
    (rho : ℝ → Matrix (Fin n) (Fin n) ℂ) (hr : VonNeumann H rho) :
    TimeAverage (fun t => mean O (rho t)) (∑ k, (Vᴴ * (rho 0 * V)) k k * rotated V O k k).re := by
  have := re_average Finset.univ (fun p : Fin n × Fin n => (Vᴴ * (rho 0 * V)) p.1 p.2 * rotated V O p.2 p.1)
    (fun p => E p.2 - E p.1) _ (mean_time h O rho hr)
  convert this using 2
  rw [Fintype.sum_prod_type]
  refine Finset.sum_congr rfl fun k _ => ?_
  rw [Finset.sum_eq_single k]
  · simp
  · intro l _ hl
    rw [if_neg]
    intro h0
    exact hl (hE (sub_eq_zero.1 h0))
  · simp

theorem mean_continuous (h : Eigenbasis H V E) (O : Matrix (Fin n) (Fin n) ℂ) (rho : ℝ → Matrix (Fin n) (Fin n) ℂ)
    (hr : VonNeumann H rho) : Continuous fun t => mean O (rho t) := by
  rw [show (fun t => mean O (rho t)) = _ from funext (mean_time h O rho hr)]
  fun_prop

theorem rotated_conj (V O : Matrix (Fin n) (Fin n) ℂ) (hO : Oᴴ = O) (k l : Fin n) :
    star (rotated V O k l) = rotated V O l k := by
  have : (rotated V O)ᴴ = rotated V O := by
    unfold rotated
    rw [conjTranspose_mul, conjTranspose_mul, conjTranspose_conjTranspose, hO, Matrix.mul_assoc]
  rw [← conjTranspose_apply, this]

theorem variance (h : Eigenbasis H V E) (hres : NoResonance E) (O : Matrix (Fin n) (Fin n) ℂ) (hO : Oᴴ = O)
    (rho : ℝ → Matrix (Fin n) (Fin n) ℂ) (hr : VonNeumann H rho) (h0 : (rho 0)ᴴ = rho 0) :
    TimeAverage (fun t => (mean O (rho t) - (∑ k, (Vᴴ * (rho 0 * V)) k k * rotated V O k k).re) ^ 2)
      (∑ k, ∑ l, if k = l then 0 else
        (Vᴴ * (rho 0 * V)) k l * (Vᴴ * (rho 0 * V)) l k * (rotated V O k l * rotated V O l k)).re := by
  set s := Vᴴ * (rho 0 * V) with hs
  set A := rotated V O with hA
  have cs : ∀ k l, star (s k l) = s l k := fun k l => rotated_conj V (rho 0) h0 k l
  have cA : ∀ k l, star (A k l) = A l k := fun k l => rotated_conj V O hO k l
  -- the part that depends on time
  let off := (Finset.univ : Finset (Fin n × Fin n)).filter fun p => p.1 ≠ p.2
  let g : ℝ → ℂ := fun t => ∑ p ∈ off, (s p.1 p.2 * A p.2 p.1) * Complex.exp (Complex.I * ((E p.2 - E p.1 : ℝ) : ℂ) * t)
  have greal : ∀ t, (g t).im = 0 := by
    intro t
    rw [← Complex.conj_eq_iff_im]
    simp only [g, map_sum]
    refine Finset.sum_bij' (fun p _ => (p.2, p.1)) (fun p _ => (p.2, p.1)) ?_ ?_ (fun _ _ => rfl) (fun _ _ => rfl) ?_
    · intro p hp; simp only [off, Finset.mem_filter, Finset.mem_univ, true_and] at hp ⊢; exact hp.symm
    · intro p hp; simp only [off, Finset.mem_filter, Finset.mem_univ, true_and] at hp ⊢; exact hp.symm
    · intro p _
      rw [map_mul, map_mul, ← Complex.exp_conj]
      have e1 := cs p.1 p.2
      have e2 := cA p.2 p.1
      simp only [← starRingEnd_apply] at e1 e2
      rw [e1, e2]
      simp only [map_mul, Complex.conj_I, Complex.conj_ofReal]
      congr 2
      push_cast
      ring
  have hf : ∀ t, mean O (rho t) - (∑ k, s k k * A k k).re = (g t).re := by
    intro t
    rw [mean_time h O rho hr t, ← Complex.sub_re]
    congr 1
    rw [← Finset.sum_filter_add_sum_filter_not Finset.univ (fun p : Fin n × Fin n => p.1 ≠ p.2), add_sub_assoc]
    convert add_zero (g t)
    rw [sub_eq_zero, Finset.sum_filter, Fintype.sum_prod_type]
    refine Finset.sum_congr rfl fun k _ => ?_
    rw [Finset.sum_eq_single k]
    · simp [hs, hA]
    · intro l _ hl
      simp [hl.symm]
    · simp
  have hsq : ∀ t, (mean O (rho t) - (∑ k, s k k * A k k).re) ^ 2
      = (∑ q ∈ off ×ˢ off, (s q.1.1 q.1.2 * A q.1.2 q.1.1 * (s q.2.1 q.2.2 * A q.2.2 q.2.1))
        * Complex.exp (Complex.I * ((E q.1.2 - E q.1.1 + (E q.2.2 - E q.2.1) : ℝ) : ℂ) * t)).re := by
    intro t
    rw [hf t]
    have e : (∑ q ∈ off ×ˢ off, (s q.1.1 q.1.2 * A q.1.2 q.1.1 * (s q.2.1 q.2.2 * A q.2.2 q.2.1))
        * Complex.exp (Complex.I * ((E q.1.2 - E q.1.1 + (E q.2.2 - E q.2.1) : ℝ) : ℂ) * t)) = g t * g t := by
      rw [Finset.sum_product, Finset.sum_mul_sum]
      refine Finset.sum_congr rfl fun p _ => Finset.sum_congr rfl fun q _ => ?_
      rw [show Complex.I * ((E p.2 - E p.1 + (E q.2 - E q.1) : ℝ) : ℂ) * t
        = Complex.I * ((E p.2 - E p.1 : ℝ) : ℂ) * t + Complex.I * ((E q.2 - E q.1 : ℝ) : ℂ) * t by push_cast; ring, Complex.exp_add]
      ring
    rw [e, Complex.mul_re, greal t]
    ring
  have := re_average (off ×ˢ off) _ (fun q => E q.1.2 - E q.1.1 + (E q.2.2 - E q.2.1)) _ hsq
  convert this using 2
  rw [Finset.sum_product]
  have e1 : ∀ p ∈ off, (∑ q ∈ off, if E p.2 - E p.1 + (E q.2 - E q.1) = 0 then
      s p.1 p.2 * A p.2 p.1 * (s q.1 q.2 * A q.2 q.1) else 0) = s p.1 p.2 * s p.2 p.1 * (A p.1 p.2 * A p.2 p.1) := by
    intro p hp
    have hp' : p.1 ≠ p.2 := by simpa [off] using hp
    rw [Finset.sum_eq_single (p.2, p.1)]
    · rw [if_pos (by ring)]; ring
    · intro q _ hne
      rw [if_neg]
      intro hz
      obtain ⟨h1, h2⟩ := hres p.2 p.1 q.1 q.2 hp'.symm (by linarith)
      exact hne (Prod.ext h1.symm h2.symm)
    · intro hn
      exact absurd (by simp only [off, Finset.mem_filter, Finset.mem_univ, true_and]; exact hp'.symm) hn
  rw [Finset.sum_congr rfl e1, Finset.sum_filter, Fintype.sum_prod_type]
  refine Finset.sum_congr rfl fun k _ => Finset.sum_congr rfl fun l _ => ?_
  by_cases hkl : k = l <;> simp [hkl]

end

/-! ### Averages -/

theorem average_add {f g : ℝ → ℝ} {a b : ℝ} (hf : Continuous f) (hg : Continuous g) (ha : TimeAverage f a)
    (hb : TimeAverage g b) : TimeAverage (fun t => f t + g t) (a + b) := by
  refine (Filter.Tendsto.add ha hb).congr fun T => ?_
  rw [intervalIntegral.integral_add (hf.intervalIntegrable _ _) (hg.intervalIntegrable _ _), add_div]

theorem average_mul {f : ℝ → ℝ} {a : ℝ} (c : ℝ) (ha : TimeAverage f a) : TimeAverage (fun t => c * f t) (c * a) := by
  refine (Filter.Tendsto.const_mul c ha).congr fun T => ?_
  rw [intervalIntegral.integral_const_mul, mul_div_assoc]

theorem average_const (c : ℝ) : TimeAverage (fun _ => c) c := by
  have : Tendsto (fun _ : ℝ => c) atTop (𝓝 c) := tendsto_const_nhds
  refine this.congr' ?_
  filter_upwards [eventually_gt_atTop 0] with T hT
  simp [hT.ne']

/-! ### Pure states -/

/-- `|ψ⟩⟨ψ|` -/
def proj (psi : Fin n → ℂ) : Matrix (Fin n) (Fin n) ℂ := fun i j => psi i * star (psi j)

theorem proj_apply (psi : Fin n → ℂ) (i j : Fin n) : proj psi i j = psi i * star (psi j) := rfl

theorem mean_proj (O : Matrix (Fin n) (Fin n) ℂ) (psi : Fin n → ℂ) : mean O (proj psi) = expectation O psi := by
  unfold mean expectation
  rw [Matrix.trace]
  congr 1
  simp only [Matrix.diag_apply, Matrix.mul_apply, proj_apply]
  rw [Finset.sum_comm]
  refine Finset.sum_congr rfl fun i _ => Finset.sum_congr rfl fun j _ => ?_
  ring

theorem proj_evolves {H V : Matrix (Fin n) (Fin n) ℂ} {E : Fin n → ℝ} (h : Eigenbasis H V E) (psi : ℝ → Fin n → ℂ)
    (hs : Schroedinger H psi) : VonNeumann H fun t => proj (psi t) := by
  intro t i j
  refine ((hs t i).mul (hs t j).star).congr_deriv ?_
  simp only [Matrix.mul_apply, proj_apply, Finset.mul_sum, Finset.sum_mul, star_sum, star_mul', star_neg, mul_sub]
  rw [sub_eq_add_neg, ← Finset.sum_neg_distrib]
  congr 1
  · refine Finset.sum_congr rfl fun k _ => ?_
    ring
  · refine Finset.sum_congr rfl fun k _ => ?_
    have : star (H j k) = H k j := by rw [← conjTranspose_apply, ham_hermitian h]
    rw [this, show star Complex.I = -Complex.I from Complex.conj_I]
    ring

theorem proj_hermitian (psi : Fin n → ℂ) : (proj psi)ᴴ = proj psi := by
  ext i j
  simp [conjTranspose_apply, proj, mul_comm]

theorem proj_rotated (V : Matrix (Fin n) (Fin n) ℂ) (psi : Fin n → ℂ) (k l : Fin n) :
    (Vᴴ * (proj psi * V)) k l = star (∑ i, star (psi i) * V i k) * ∑ i, star (psi i) * V i l := by
  simp only [Matrix.mul_apply, proj, conjTranspose_apply, star_sum, star_mul', star_star, Finset.mul_sum, Finset.sum_mul]
  rw [Finset.sum_comm]
  refine Finset.sum_congr rfl fun i _ => Finset.sum_congr rfl fun j _ => ?_
  ring

theorem proj_diag (V : Matrix (Fin n) (Fin n) ℂ) (psi : Fin n → ℂ) (k : Fin n) :
    (Vᴴ * (proj psi * V)) k k = (rhoPure V psi k : ℂ) := by
  rw [proj_rotated, rhoPure, show star (∑ i, star (psi i) * V i k) = (starRingEnd ℂ) (∑ i, star (psi i) * V i k) from rfl,
    Complex.conj_mul']
  push_cast
  rfl

theorem proj_off (V : Matrix (Fin n) (Fin n) ℂ) (psi : Fin n → ℂ) (k l : Fin n) :
    (Vᴴ * (proj psi * V)) k l * (Vᴴ * (proj psi * V)) l k = (rhoPure V psi k : ℂ) * (rhoPure V psi l : ℂ) := by
  rw [← proj_diag, ← proj_diag]
  simp only [proj_rotated]
  ring

end Proof.DiagEns
