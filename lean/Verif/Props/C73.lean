import Verif.Proof.DiagEnsembleCode
import Mathlib.LinearAlgebra.Matrix.PosDef
import Mathlib.LinearAlgebra.Matrix.Notation
/-!
C73  `diag_ensemble` returns averages over infinite time.

`Spec.Quench.TimeAverage f a`: `a = lim 1/T ∫₀ᵀ f(t) dt`.  `Schroedinger H ψ`, `VonNeumann H ρ`: solutions of the equations
of motion.  `Eigenbasis H V E`: the columns of `V` are orthonormal eigenvectors of `H` with energies `E`.  `out.vals`
lists the results with their names; a state given as an array gives one number for every quantity.
-/
namespace Props
open Matrix Spec.Quench Model.DiagEns Proof.DiagEns
open scoped ComplexOrder

variable {n m : ℕ}

/-- The number results are divided by. -/
def perSite (N : ℕ) (fl : Flags) : ℝ := if fl.density then N else 1

/-- Energies closer than `1000·2⁻⁵²` raise `TypeError`, no others do. -/
theorem C73_degenerate (N : ℕ) (st : State n m) (E : Fin n → ℝ) (V : Matrix (Fin n) (Fin n) ℂ) (fl : Flags) (obs : ObsArg n)
    (h : ∃ i j, i ≠ j ∧ |E i - E j| < 1000 / 2 ^ 52) : diagEnsemble N st E V fl obs = .error .typeError := by
  unfold diagEnsemble
  rw [if_pos]
  rw [degenerate_iff]
  simpa [eps, div_eq_mul_inv] using h

theorem gaps_eps {E : Fin n → ℝ} (h : ∀ i j, i ≠ j → 1000 / 2 ^ 52 ≤ |E i - E j|) : ∀ i j, i ≠ j → 1000 * eps ≤ |E i - E j| := by
  simpa [eps, div_eq_mul_inv] using h

/-- The call for one array. -/
theorem ensemble_array (N : ℕ) (E : Fin n → ℝ) (V : Matrix (Fin n) (Fin n) ℂ) (fl : Flags) (obs : ObsArg n)
    (hgap : ∀ i j, i ≠ j → 1000 / 2 ^ 52 ≤ |E i - E j|) (hok : checkObs fl.deltaT fl.deltaQ obs = .ok ())
    (ha : 0 ≤ fl.alpha) (st : State n m) (r : Fin n → ℝ)
    (hst : (∃ psi, st = .pure psi ∧ r = rhoPure V psi) ∨ ∃ rho, st = .dm rho ∧ r = rhoDM V rho) :
    ∃ out, diagEnsemble N st E V fl obs = .ok out ∧
      out.vals = (keys fl obs.matrix.isSome).map (fun q => (q, [val N fl V (obs.matrix.getD 0) (fun k => clip (r k)) q])) ∧
      out.rho = if fl.rhoD then some [fun k => clip (r k)] else none := by
  unfold diagEnsemble
  rw [if_neg (not_degenerate (gaps_eps hgap)), hok]
  simp only [infTime_eq, List.map_map, not_lt.2 ha, if_false]
  rcases hst with ⟨psi, rfl, rfl⟩ | ⟨rho, rfl, rfl⟩ <;> exact ⟨_, rfl, rfl, rfl⟩

theorem obs_key (fl : Flags) : Quantity.obs ∈ keys fl true := by
  unfold keys; simp

theorem obs_value (N : ℕ) (fl : Flags) (V O : Matrix (Fin n) (Fin n) ℂ) (r : Fin n → ℝ) :
    val N fl V O r .obs = some (obsD (rotated V O) r / perSite N fl) := by
  unfold val scaled perSite
  by_cases h : fl.density <;> simp [h]

theorem perSite_pos (N : ℕ) (hN : 0 < N) (fl : Flags) : 0 < perSite N fl := by
  unfold perSite
  split <;> [exact_mod_cast hN; norm_num]

/-- **Density matrix.**  The expectation value returned is the average over infinite time of `Tr ρ(t)O`, up to `2⁻⁵²`
times the diagonal elements of `O` on those eigenstates whose weight is at most `10⁻¹⁶`. -/
theorem C73_observable_dm (H V : Matrix (Fin n) (Fin n) ℂ) (E : Fin n → ℝ) (h : Eigenbasis H V E)
    (hgap : ∀ i j, i ≠ j → 1000 / 2 ^ 52 ≤ |E i - E j|) (rho : ℝ → Matrix (Fin n) (Fin n) ℂ) (hr : VonNeumann H rho)
    (hpos : (rho 0).PosSemidef) (N : ℕ) (hN : 0 < N) (fl : Flags) (ha : 0 ≤ fl.alpha) (obs : ObsArg n)
    (O : Matrix (Fin n) (Fin n) ℂ) (hobs : obs.matrix = some O)
    (hok : fl.deltaT = false ∧ fl.deltaQ = false ∨ obs = .hamiltonian O) :
    ∃ out x a, diagEnsemble (m := m) N (.dm (rho 0)) E V fl obs = .ok out ∧ out.vals.lookup .obs = some [some x] ∧
      TimeAverage (fun t => mean O (rho t)) a ∧
      |x - a / perSite N fl| ≤ (∑ k, if ((Vᴴ * rho 0 * V) k k).re ≤ 1 / 10 ^ 16 then 1 / 2 ^ 52 * |((Vᴴ * O * V) k k).re| else 0)
        / perSite N fl := by
  have hck : checkObs fl.deltaT fl.deltaQ obs = .ok () := by
    rcases hok with ⟨h1, h2⟩ | rfl
    · simp [checkObs, h1, h2]
    · simp [checkObs]
  obtain ⟨out, h1, h2, -⟩ := ensemble_array (m := m) N E V fl obs hgap hck ha (.dm (rho 0)) _ (.inr ⟨_, rfl, rfl⟩)
  have hd : ∀ k, (Vᴴ * (rho 0 * V)) k k = (rhoDM V (rho 0) k : ℂ) := by
    intro k
    have hre : (Vᴴ * (rho 0 * V)) k k = ∑ j, Vᴴ k j * (rho 0 * V) j k := rfl
    unfold rhoDM
    rw [← hre]
    have hs : (starRingEnd ℂ) ((Vᴴ * (rho 0 * V)) k k) = (Vᴴ * (rho 0 * V)) k k := rotated_conj V (rho 0) hpos.1 k k
    exact (Complex.conj_eq_iff_re.1 hs).symm
  have hp : ∀ k, 0 ≤ rhoDM V (rho 0) k := by
    intro k
    have hps : (Vᴴ * rho 0 * V).PosSemidef := hpos.conjTranspose_mul_mul_same V
    have := hps.diag_nonneg (i := k)
    rw [Matrix.mul_assoc, hd k] at this
    exact_mod_cast this
  refine ⟨out, obsD (rotated V O) (fun k => clip (rhoDM V (rho 0) k)) / perSite N fl, _, h1, ?_,
    mean_average h (gaps_injective (gaps_eps hgap)) O rho hr, ?_⟩
  · rw [h2, lookup_keys, if_pos (by rw [hobs]; exact obs_key fl), hobs, Option.getD_some, obs_value]
  · rw [← sub_div, abs_div, abs_of_pos (perSite_pos N hN fl)]
    apply div_le_div_of_nonneg_right _ (perSite_pos N hN fl).le
    have e : (∑ k, (Vᴴ * (rho 0 * V)) k k * rotated V O k k).re = ∑ k, obsDiag (rotated V O) k * rhoDM V (rho 0) k := by
      rw [Complex.re_sum]
      refine Finset.sum_congr rfl fun k _ => ?_
      rw [hd k, Complex.re_ofReal_mul, mul_comm]
      rfl
    rw [e]
    refine (obs_close (rotated V O) _ hp).trans (le_of_eq ?_)
    refine Finset.sum_congr rfl fun k _ => ?_
    rw [Matrix.mul_assoc, Matrix.mul_assoc, hd k, Complex.ofReal_re]
    rfl

theorem proj_posSemidef (psi : Fin n → ℂ) : (proj psi).PosSemidef := by
  have : proj psi = Matrix.vecMulVec psi (star psi) := by
    ext i j; simp [proj, Matrix.vecMulVec_apply]
  rw [this]
  exact Matrix.posSemidef_vecMulVec_self_star psi

theorem rhoDM_proj (V : Matrix (Fin n) (Fin n) ℂ) (psi : Fin n → ℂ) : rhoDM V (proj psi) = rhoPure V psi := by
  ext k
  have : ∑ j, Vᴴ k j * (proj psi * V) j k = (Vᴴ * (proj psi * V)) k k := rfl
  rw [rhoDM, this, proj_diag, Complex.ofReal_re]

/-- **Pure state.**  The same for the solution of the Schroedinger equation. -/
theorem C73_observable_pure (H V : Matrix (Fin n) (Fin n) ℂ) (E : Fin n → ℝ) (h : Eigenbasis H V E)
    (hgap : ∀ i j, i ≠ j → 1000 / 2 ^ 52 ≤ |E i - E j|) (psi : ℝ → Fin n → ℂ) (hs : Schroedinger H psi)
    (N : ℕ) (hN : 0 < N) (fl : Flags) (ha : 0 ≤ fl.alpha) (obs : ObsArg n)
    (O : Matrix (Fin n) (Fin n) ℂ) (hobs : obs.matrix = some O)
    (hok : fl.deltaT = false ∧ fl.deltaQ = false ∨ obs = .hamiltonian O) :
    ∃ out x a, diagEnsemble (m := m) N (.pure (psi 0)) E V fl obs = .ok out ∧ out.vals.lookup .obs = some [some x] ∧
      TimeAverage (fun t => expectation O (psi t)) a ∧
      |x - a / perSite N fl| ≤ (∑ k, if ‖∑ i, star (V i k) * psi 0 i‖ ^ 2 ≤ 1 / 10 ^ 16 then
        1 / 2 ^ 52 * |((Vᴴ * O * V) k k).re| else 0) / perSite N fl := by
  obtain ⟨out, x, a, h1, h2, h3, h4⟩ := C73_observable_dm (m := m) H V E h hgap (fun t => proj (psi t)) (proj_evolves h psi hs)
    (proj_posSemidef _) N hN fl ha obs O hobs hok
  refine ⟨out, x, a, ?_, h2, ?_, ?_⟩
  · rw [← h1]
    unfold diagEnsemble
    simp only [rhoDM_proj]
  · simpa only [mean_proj] using h3
  · refine h4.trans (le_of_eq ?_)
    congr 1
    refine Finset.sum_congr rfl fun k _ => ?_
    have : ((Vᴴ * proj (psi 0) * V) k k).re = ‖∑ i, star (V i k) * psi 0 i‖ ^ 2 := by
      rw [Matrix.mul_assoc, proj_diag, Complex.ofReal_re, rhoPure, ← norm_star]
      congr 2
      simp only [star_sum, star_mul', star_star]
      exact Finset.sum_congr rfl fun i _ => mul_comm _ _
    rw [this]

theorem rotated_mul (H V O : Matrix (Fin n) (Fin n) ℂ) (E : Fin n → ℝ) (h : Eigenbasis H V E) :
    rotated V (O * O) = rotated V O * rotated V O := by
  unfold rotated
  rw [show Vᴴ * (O * V) * (Vᴴ * (O * V)) = Vᴴ * (O * (V * Vᴴ) * (O * V)) by simp only [Matrix.mul_assoc], unit_right h,
    Matrix.mul_one, Matrix.mul_assoc]

theorem weights_sum (H V : Matrix (Fin n) (Fin n) ℂ) (E : Fin n → ℝ) (h : Eigenbasis H V E) (psi : Fin n → ℂ)
    (hn : ∑ i, ‖psi i‖ ^ 2 = 1) : ∑ k, rhoPure V psi k = 1 := by
  have e : ((∑ k, rhoPure V psi k : ℝ) : ℂ) = 1 := by
    push_cast
    simp only [← proj_diag]
    have : ∑ k, (Vᴴ * (proj psi * V)) k k = (Vᴴ * (proj psi * V)).trace := rfl
    rw [this, Matrix.trace_mul_comm, Matrix.mul_assoc, unit_right h, Matrix.mul_one, Matrix.trace]
    simp only [Matrix.diag_apply, proj_apply]
    have e2 : ∀ i, psi i * star (psi i) = ((‖psi i‖ ^ 2 : ℝ) : ℂ) := by
      intro i
      rw [show star (psi i) = (starRingEnd ℂ) (psi i) from rfl, Complex.mul_conj']
      push_cast; rfl
    simp only [e2]
    rw [← Complex.ofReal_sum, hn, Complex.ofReal_one]
  exact_mod_cast e

/-- A variance is not negative. -/
theorem variance_nonneg (A : Fin n → Fin n → ℝ) (r : Fin n → ℝ) (hr : ∀ k, 0 ≤ r k) (h1 : ∑ k, r k = 1) :
    0 ≤ ∑ k, r k * ∑ l, A k l ^ 2 - (∑ k, ∑ l, if k = l then 0 else r k * A k l ^ 2 * r l) - (∑ k, A k k * r k) ^ 2 := by
  have hj : (∑ k, A k k * r k) ^ 2 ≤ ∑ k, r k * A k k ^ 2 := by
    have := Finset.sum_sq_le_sum_mul_sum_of_sq_le_mul Finset.univ (r := fun k => A k k * r k) (f := r)
      (g := fun k => r k * A k k ^ 2) (fun k _ => hr k) (fun k _ => mul_nonneg (hr k) (sq_nonneg _)) (fun k _ => le_of_eq (by ring))
    rwa [h1, one_mul] at this
  have hle : ∀ l, r l ≤ 1 := fun l => h1 ▸ Finset.single_le_sum (fun k _ => hr k) (Finset.mem_univ l)
  have ho : (∑ k, ∑ l, if k = l then 0 else r k * A k l ^ 2 * r l) + ∑ k, r k * A k k ^ 2 ≤ ∑ k, r k * ∑ l, A k l ^ 2 := by
    rw [← Finset.sum_add_distrib]
    refine Finset.sum_le_sum fun k _ => ?_
    have e : r k * A k k ^ 2 = ∑ l, if k = l then r k * A k l ^ 2 else 0 := by simp
    rw [Finset.mul_sum, e, ← Finset.sum_add_distrib]
    refine Finset.sum_le_sum fun l _ => ?_
    by_cases hkl : k = l
    · simp [hkl]
    · simp only [hkl, if_false, add_zero]
      exact mul_le_of_le_one_right (mul_nonneg (hr k) (sq_nonneg _)) (hle l)
  linarith

/-- **Fluctuations.**  For a Hermitian observable, given as `hamiltonian`, whose matrix in the eigenbasis is real, a pure
state with all weights above `10⁻¹⁶` and energies without resonances, `delta_t_Obs` is the standard deviation in time of
the expectation value and `delta_q_Obs` the square root of the average over time of the variance of the observable.
Partial: complex matrices and resonances (`C73_fails_complex`, `C73_fails_resonance`), mixed states (`C73_fails_dm`),
observables given as arrays (`C73_fails_array`). -/
theorem C73_fluctuations_partial (H V : Matrix (Fin n) (Fin n) ℂ) (E : Fin n → ℝ) (h : Eigenbasis H V E)
    (hgap : ∀ i j, i ≠ j → 1000 / 2 ^ 52 ≤ |E i - E j|) (hres : NoResonance E)
    (psi : ℝ → Fin n → ℂ) (hs : Schroedinger H psi) (hnorm : ∑ i, ‖psi 0 i‖ ^ 2 = 1)
    (hw : ∀ k, 1 / 10 ^ 16 < ‖∑ i, star (V i k) * psi 0 i‖ ^ 2)
    (N : ℕ) (fl : Flags) (ha : 0 ≤ fl.alpha) (O : Matrix (Fin n) (Fin n) ℂ) (hO : Oᴴ = O)
    (hreal : ∀ k l, ((Vᴴ * O * V) k l).im = 0) (hq : fl.deltaQ = true) :
    ∃ out a v w, diagEnsemble (m := m) N (.pure (psi 0)) E V fl (.hamiltonian O) = .ok out ∧
      TimeAverage (fun t => expectation O (psi t)) a ∧
      TimeAverage (fun t => (expectation O (psi t) - a) ^ 2) v ∧
      TimeAverage (fun t => expectation (O * O) (psi t) - expectation O (psi t) ^ 2) w ∧
      out.vals.lookup .deltaT = some [some (Real.sqrt v / perSite N fl)] ∧
      out.vals.lookup .deltaQ = some [some (Real.sqrt w / perSite N fl)] := by
  have hck : checkObs fl.deltaT fl.deltaQ (.hamiltonian O) = .ok () := by simp [checkObs]
  obtain ⟨out, h1, h2, -⟩ := ensemble_array (m := m) N E V fl (.hamiltonian O) hgap hck ha (.pure (psi 0)) _ (.inl ⟨_, rfl, rfl⟩)
  have hvn := proj_evolves h psi hs
  set r := rhoPure V (psi 0) with hrdef
  set A := rotated V O with hA
  have hr0 : ∀ k, 0 ≤ r k := fun k => by rw [hrdef]; unfold rhoPure; positivity
  have hclip : (fun k => clip (r k)) = r := by
    ext k
    apply clip_eq
    refine lt_of_lt_of_eq (hw k) ?_
    rw [hrdef, rhoPure, ← norm_star]
    congr 2
    simp only [star_sum, star_mul', star_star]
    exact Finset.sum_congr rfl fun i _ => mul_comm _ _
  have hAe : Vᴴ * O * V = A := by rw [hA, rotated, Matrix.mul_assoc]
  have hAre : ∀ k l, A k l = ((A k l).re : ℂ) := by
    intro k l
    rw [← hAe]
    exact Complex.ext (by simp) (by simp [hreal k l])
  have hsym : ∀ k l, A l k = A k l := by
    intro k l
    have e := rotated_conj V O hO k l
    rw [← hA] at e
    rw [← e, hAre k l]
    exact Complex.conj_ofReal _
  have hinj := gaps_injective (gaps_eps hgap)
  have a1 := mean_average h hinj O _ hvn
  have a2 := variance h hres O hO _ hvn (proj_hermitian _)
  have a3 := mean_average h hinj (O * O) _ hvn
  have c1 := mean_continuous h O _ hvn
  have c2 := mean_continuous h (O * O) _ hvn
  simp only [mean_proj] at a1 a2 a3 c1 c2
  set a := (∑ k, (Vᴴ * (proj (psi 0) * V)) k k * rotated V O k k).re with hadef
  have ea : a = obsD A r := by
    rw [hadef, Complex.re_sum]
    refine Finset.sum_congr rfl fun k _ => ?_
    rw [proj_diag, Complex.re_ofReal_mul, mul_comm]
    rfl
  have ev : (∑ k, ∑ l, if k = l then 0 else (Vᴴ * (proj (psi 0) * V)) k l * (Vᴴ * (proj (psi 0) * V)) l k *
      (rotated V O k l * rotated V O l k)).re = deltaTSq A r := by
    unfold deltaTSq offSquare
    congr 1
    refine Finset.sum_congr rfl fun k _ => Finset.sum_congr rfl fun l _ => ?_
    by_cases hkl : k = l
    · simp [hkl]
    · rw [if_neg hkl, if_neg hkl, proj_off, ← hA, hsym k l]
      ring
  have evr : deltaTSq A r = ∑ k, ∑ l, if k = l then 0 else r k * (A k l).re ^ 2 * r l := by
    unfold deltaTSq offSquare
    rw [Complex.re_sum]
    refine Finset.sum_congr rfl fun k _ => ?_
    rw [Complex.re_sum]
    refine Finset.sum_congr rfl fun l _ => ?_
    by_cases hkl : k = l
    · simp [hkl]
    · rw [if_neg hkl, if_neg hkl, hAre k l]
      norm_cast
  have e3 : (∑ k, (Vᴴ * (proj (psi 0) * V)) k k * rotated V (O * O) k k).re = ∑ k, r k * squareDiag A k := by
    rw [Complex.re_sum, rotated_mul H V O E h]
    refine Finset.sum_congr rfl fun k _ => ?_
    rw [proj_diag, Complex.re_ofReal_mul]
    rfl
  have esq : ∀ k, squareDiag A k = ∑ l, (A k l).re ^ 2 := by
    intro k
    unfold squareDiag
    rw [Matrix.mul_apply, Complex.re_sum]
    refine Finset.sum_congr rfl fun l _ => ?_
    rw [hsym k l, hAre k l]
    norm_cast
    ring
  rw [ev] at a2
  rw [e3] at a3
  have hv0 : 0 ≤ deltaTSq A r := by
    rw [evr]
    refine Finset.sum_nonneg fun k _ => Finset.sum_nonneg fun l _ => ?_
    split
    · rfl
    · exact mul_nonneg (mul_nonneg (hr0 k) (sq_nonneg _)) (hr0 l)
  have hw0 : 0 ≤ deltaQSq A r := by
    have := variance_nonneg (fun k l => (A k l).re) r hr0 (weights_sum H V E h _ hnorm)
    unfold deltaQSq
    rw [evr]
    simp only [esq]
    exact this
  refine ⟨out, a, deltaTSq A r, deltaQSq A r, h1, a1, a2, ?_, ?_, ?_⟩
  · have f2 : ∀ t, expectation (O * O) (psi t) - expectation O (psi t) ^ 2
        = expectation (O * O) (psi t) + ((-1) * (expectation O (psi t) - a) ^ 2 + ((-2 * a) * expectation O (psi t) + a ^ 2)) := by
      intro t; ring
    have := average_add c2 (by fun_prop) a3 (average_add (by fun_prop) (by fun_prop) (average_mul (-1) a2)
      (average_add (by fun_prop) (by fun_prop) (average_mul (-2 * a) a1) (average_const (a ^ 2))))
    simp only [← f2] at this
    convert this using 1
    unfold deltaQSq
    rw [← ea]
    ring
  · rw [h2, lookup_keys, if_pos (by unfold keys; simp [ObsArg.matrix, hq])]
    simp only [ObsArg.matrix, Option.getD_some, hclip, val, scaled, sqrtNan, ← hA, not_lt.2 hv0, if_false, perSite]
    by_cases hd : fl.density <;> simp [hd]
  · rw [h2, lookup_keys, if_pos (by unfold keys; simp [ObsArg.matrix, hq])]
    simp only [ObsArg.matrix, Option.getD_some, hclip, val, scaled, sqrtNan, ← hA, not_lt.2 hw0, if_false, perSite]
    by_cases hd : fl.density <;> simp [hd]

/-- **Diagonal entropy** and weights: with all weights above `10⁻¹⁶`, `rho_d` has the weights `|⟨k|ψ⟩|²` and `Sd` is the
Renyi entropy of this distribution. -/
theorem C73_entropy (E : Fin n → ℝ) (V : Matrix (Fin n) (Fin n) ℂ)
    (hgap : ∀ i j, i ≠ j → 1000 / 2 ^ 52 ≤ |E i - E j|) (psi : Fin n → ℂ)
    (hw : ∀ k, 1 / 10 ^ 16 < ‖∑ i, star (V i k) * psi i‖ ^ 2) (N : ℕ) (fl : Flags) (ha : 0 ≤ fl.alpha)
    (hsd : fl.sd = true) (hrho : fl.rhoD = true) (obs : ObsArg n) (hok : checkObs fl.deltaT fl.deltaQ obs = .ok ()) :
    ∃ out, diagEnsemble (m := m) N (.pure psi) E V fl obs = .ok out ∧
      out.rho = some [fun k => ‖∑ i, star (V i k) * psi i‖ ^ 2] ∧
      out.vals.lookup .sd = some [some (Spec.Quench.entropy fl.alpha (fun k => ‖∑ i, star (V i k) * psi i‖ ^ 2) / perSite N fl)] := by
  obtain ⟨out, h1, h2, h3⟩ := ensemble_array (m := m) N E V fl obs hgap hok ha (.pure psi) _ (.inl ⟨_, rfl, rfl⟩)
  have hr : (fun k => clip (rhoPure V psi k)) = fun k => ‖∑ i, star (V i k) * psi i‖ ^ 2 := by
    ext k
    have e : rhoPure V psi k = ‖∑ i, star (V i k) * psi i‖ ^ 2 := by
      rw [rhoPure, ← norm_star]
      congr 2
      simp only [star_sum, star_mul', star_star]
      exact Finset.sum_congr rfl fun i _ => mul_comm _ _
    rw [e, clip_eq (hw k)]
  refine ⟨out, h1, ?_, ?_⟩
  · rw [h3, hrho, hr]; rfl
  · rw [h2, lookup_keys, if_pos (by unfold keys; simp [hsd]), hr]
    have hne : ∀ k, ‖∑ i, star (V i k) * psi i‖ ^ 2 ≠ 0 := fun k h0 => by
      have := hw k; rw [h0] at this; norm_num at this
    have e : Model.DiagEns.entropy fl.alpha (fun k => ‖∑ i, star (V i k) * psi i‖ ^ 2)
        = Spec.Quench.entropy fl.alpha (fun k => ‖∑ i, star (V i k) * psi i‖ ^ 2) := by
      unfold Model.DiagEns.entropy Spec.Quench.entropy
      simp only [hne, if_false]
      split
      · rfl
      · rw [one_div, mul_comm, div_eq_mul_inv]
    simp only [val, scaled, e, perSite]
    by_cases hd : fl.density <;> simp [hd]

theorem checkStates_ok {m : ℕ} {l : List ℤ} (hne : l ≠ []) (h : ∀ i ∈ l, 0 ≤ i ∧ i < m) : checkStates m (some l) = .ok () := by
  obtain ⟨a, t, rfl⟩ := List.exists_cons_of_ne_nil hne
  refine (if_pos ?_ : (if (a :: t).all fun i => decide (0 ≤ i) && decide (i < (m : ℤ)) then _ else _) = _)
  simpa [List.all_eq_true] using h

/-- **Mixed and thermal states.**  For a dictionary, every quantity is the average of the values of the states of `V1`
over the distribution (normalised unless `f_norm=False`), for every argument of the distribution; the values of the
states listed in `V1_state` are those of the pure states.  Partial: the arguments of the distribution are not integers
(`C73_fails_integer`). -/
theorem C73_mixed_partial (E : Fin n → ℝ) (V : Matrix (Fin n) (Fin n) ℂ)
    (hgap : ∀ i j, i ≠ j → 1000 / 2 ^ 52 ≤ |E i - E j|) (N : ℕ) (fl : Flags) (ha : 0 ≤ fl.alpha) (obs : ObsArg n)
    (hok : checkObs fl.deltaT fl.deltaQ obs = .ok ()) (d : Dict n m) (hm : 0 < m) (hE1 : Monotone d.E1)
    (hint : d.intArgs = false) (hstates : ∀ l, d.states = some l → l ≠ [] ∧ ∀ i ∈ l, 0 ≤ i ∧ i < m) :
    ∃ out, diagEnsemble N (.dict d) E V fl obs = .ok out ∧
      ∃ outs : Fin m → Out n, (∀ p, diagEnsemble (m := m) N (.pure fun i => d.V1 i p) E V fl obs = .ok (outs p)) ∧
      (∀ q (x : Fin m → ℝ), (∀ p, (outs p).vals.lookup q = some [some (x p)]) →
        out.vals.lookup q = some (d.args.map fun a =>
          some (∑ p, x p * if d.norm then d.dist a p / ∑ p', d.dist a p' else d.dist a p)) ∧
        ∀ l, d.states = some l → ∃ ys, out.states.lookup q = some ys ∧ ys.length = l.length ∧
          ∀ (j : Nat) (p : Fin m), l[j]? = some (p : ℤ) → ys[j]? = some (some (x p))) ∧
      out.norms = if d.norm then none else some (d.args.map fun a => ∑ p, d.dist a p) := by
  have hsorted : (List.ofFn d.E1).Pairwise (· ≤ ·) := by
    rw [List.pairwise_ofFn]; intro i j hij; exact hE1 hij.le
  have hst : checkStates m d.states = .ok () := by
    cases hs : d.states with
    | none => rfl
    | some l => exact checkStates_ok (hstates l hs).1 (hstates l hs).2
  have hpure := fun p => ensemble_array (m := m) N E V fl obs hgap hok ha (.pure fun i => d.V1 i p) _ (.inl ⟨_, rfl, rfl⟩)
  choose outs ho hv _ using hpure
  have hdict : diagEnsemble N (.dict d) E V fl obs = ensembleDict N fl V obs.matrix d := by
    unfold diagEnsemble
    rw [if_neg (not_degenerate (gaps_eps hgap)), hok]
  set cols : List (Fin n → ℝ) := List.ofFn fun p k => clip (rhoDict V d.V1 p k) with hcols
  have hne : cols ≠ [] := by
    intro h0
    have := congrArg List.length h0
    simp [hcols] at this
    omega
  have hg : grouped (cols.map (infTime N fl V obs.matrix))
      = (keys fl obs.matrix.isSome).map fun q => (q, cols.map fun r => val N fl V (obs.matrix.getD 0) r q) := by
    rw [← grouped_eq _ _ hne]
    congr 1
    refine List.map_congr_left fun r _ => ?_
    exact infTime_eq N fl V obs.matrix r
  rw [hdict]
  unfold ensembleDict
  rw [if_neg (not_not.2 hsorted), hst]
  simp only [not_lt.2 ha, if_false]
  refine ⟨_, rfl, outs, ho, ?_, ?_⟩
  · intro q x hx
    have hq : q ∈ keys fl obs.matrix.isSome ∧ ∀ p, val N fl V (obs.matrix.getD 0) (fun k => clip (rhoDict V d.V1 p k)) q = some (x p) := by
      have h1 : ∀ p, q ∈ keys fl obs.matrix.isSome ∧ val N fl V (obs.matrix.getD 0) (fun k => clip (rhoDict V d.V1 p k)) q = some (x p) := by
        intro p
        have h1 := hx p
        rw [hv p, lookup_keys] at h1
        by_cases hq : q ∈ keys fl obs.matrix.isSome
        · rw [if_pos hq] at h1
          refine ⟨hq, ?_⟩
          rw [rhoDict_eq]
          simpa using h1
        · rw [if_neg hq] at h1; simp at h1
      exact ⟨(h1 ⟨0, hm⟩).1, fun p => (h1 p).2⟩
    have hvals : (cols.map fun r => val N fl V (obs.matrix.getD 0) r q) = List.ofFn fun p => some (x p) := by
      rw [hcols, List.map_ofFn]
      congr 1
      ext1 p
      exact hq.2 p
    rw [← hcols, hg]
    constructor
    · rw [List.map_map]
      refine (lookup_keys (fun q => d.args.map fun a => dotNan (cols.map fun r => val N fl V (obs.matrix.getD 0) r q)
        (List.ofFn (d.weight a))) q _).trans ?_
      rw [if_pos hq.1, hvals]
      congr 1
      refine List.map_congr_left fun a _ => ?_
      rw [dotNan_ofFn]
      simp [Dict.weight, store, hint]
    · intro l hl
      rw [hl]
      simp only [List.map_map]
      refine ⟨_, (lookup_keys (fun q => l.map fun i => ((cols.map fun r => val N fl V (obs.matrix.getD 0) r q)[i.toNat]?).getD none) q _).trans
        (if_pos hq.1), by simp, ?_⟩
      intro j p hj
      rw [List.getElem?_map, hj, hvals]
      simp
  · by_cases hn : d.norm <;> simp [hn, store, hint]

/-- The statement of `C73_thermal_partial` in terms of the distribution of the model. -/
theorem thermal_dist (H V : Matrix (Fin n) (Fin n) ℂ) (E : Fin n → ℝ) (h : Eigenbasis H V E)
    (hgap : ∀ i j, i ≠ j → 1000 / 2 ^ 52 ≤ |E i - E j|) (N : ℕ) (hN : 0 < N) (fl : Flags) (ha : 0 ≤ fl.alpha)
    (obs : ObsArg n) (O : Matrix (Fin n) (Fin n) ℂ) (hobs : obs.matrix = some O)
    (hok : fl.deltaT = false ∧ fl.deltaQ = false ∨ obs = .hamiltonian O)
    (d : Dict n m) (hm : 0 < m) (hE1 : Monotone d.E1) (hint : d.intArgs = false) (hnorm : d.norm = true)
    (hstates : ∀ l, d.states = some l → l ≠ [] ∧ ∀ i ∈ l, 0 ≤ i ∧ i < m) (i : Nat) (beta : ℝ) (hi : d.args[i]? = some beta)
    (rho : ℝ → Matrix (Fin n) (Fin n) ℂ) (hr : VonNeumann H rho)
    (h0 : ∀ j k, rho 0 j k = ∑ p, ((d.dist beta p / ∑ p', d.dist beta p' : ℝ) : ℂ) * (d.V1 j p * star (d.V1 k p))) :
    ∃ out ys x a, diagEnsemble N (.dict d) E V fl obs = .ok out ∧ out.vals.lookup .obs = some ys ∧ ys[i]? = some (some x) ∧
      TimeAverage (fun t => mean O (rho t)) a ∧
      |x - a / perSite N fl| ≤ (∑ p, |d.dist beta p / ∑ p', d.dist beta p'|) * (∑ k, 1 / 2 ^ 52 * |((Vᴴ * O * V) k k).re|)
        / perSite N fl := by
  have hck : checkObs fl.deltaT fl.deltaQ obs = .ok () := by
    rcases hok with ⟨h1, h2⟩ | rfl
    · simp [checkObs, h1, h2]
    · simp [checkObs]
  obtain ⟨out, o1, outs, o2, o3, -⟩ := C73_mixed_partial E V hgap N fl ha obs hck d hm hE1 hint hstates
  have hx : ∀ p, (outs p).vals.lookup .obs
      = some [some (obsD (rotated V O) (fun k => clip (rhoPure V (fun i => d.V1 i p) k)) / perSite N fl)] := by
    intro p
    obtain ⟨out', p1, p2, -⟩ := ensemble_array (m := m) N E V fl obs hgap hck ha (.pure fun i => d.V1 i p) _ (.inl ⟨_, rfl, rfl⟩)
    rw [o2 p] at p1
    injection p1 with p1
    rw [p1, p2, lookup_keys, if_pos (by rw [hobs]; exact obs_key fl), hobs, Option.getD_some, obs_value]
  have hval := (o3 _ _ hx).1
  set w : Fin m → ℝ := fun p => d.dist beta p / ∑ p', d.dist beta p' with hw
  set A := rotated V O with hA
  refine ⟨out, _, ∑ p, obsD A (fun k => clip (rhoPure V (fun i => d.V1 i p) k)) / perSite N fl * w p, _, o1, hval, ?_,
    mean_average h (gaps_injective (gaps_eps hgap)) O rho hr, ?_⟩
  · rw [List.getElem?_map, hi]
    simp [hnorm, hw]
  · have hrot : ∀ k, (Vᴴ * (rho 0 * V)) k k = ∑ p, (w p : ℂ) * (rhoPure V (fun i => d.V1 i p) k : ℂ) := by
      intro k
      have e : rho 0 = ∑ p, (w p : ℂ) • proj (fun i => d.V1 i p) := by
        ext j k
        rw [h0, Matrix.sum_apply]
        rfl
      rw [e, Matrix.sum_mul, Matrix.mul_sum, Matrix.sum_apply]
      refine Finset.sum_congr rfl fun p _ => ?_
      rw [Matrix.smul_mul, Matrix.mul_smul, Matrix.smul_apply, proj_diag, smul_eq_mul]
    have ea : (∑ k, (Vᴴ * (rho 0 * V)) k k * A k k).re = ∑ p, w p * ∑ k, obsDiag A k * rhoPure V (fun i => d.V1 i p) k := by
      simp only [hrot, Finset.mul_sum, Finset.sum_mul, Complex.re_sum]
      rw [Finset.sum_comm]
      refine Finset.sum_congr rfl fun p _ => Finset.sum_congr rfl fun k _ => ?_
      rw [← Complex.ofReal_mul, Complex.re_ofReal_mul]
      unfold obsDiag
      ring
    rw [ea, ← hA] at *
    have e2 : (∑ p, obsD A (fun k => clip (rhoPure V (fun i => d.V1 i p) k)) / perSite N fl * w p)
        - (∑ p, w p * ∑ k, obsDiag A k * rhoPure V (fun i => d.V1 i p) k) / perSite N fl
        = (∑ p, w p * (obsD A (fun k => clip (rhoPure V (fun i => d.V1 i p) k)) - ∑ k, obsDiag A k * rhoPure V (fun i => d.V1 i p) k))
          / perSite N fl := by
      rw [Finset.sum_div, Finset.sum_div, ← Finset.sum_sub_distrib]
      refine Finset.sum_congr rfl fun p _ => ?_
      ring
    rw [e2, abs_div, abs_of_pos (perSite_pos N hN fl)]
    apply div_le_div_of_nonneg_right _ (perSite_pos N hN fl).le
    rw [Finset.sum_mul]
    refine (Finset.abs_sum_le_sum_abs _ _).trans (Finset.sum_le_sum fun p _ => ?_)
    rw [abs_mul]
    refine mul_le_mul_of_nonneg_left ?_ (abs_nonneg _)
    refine (obs_close A _ (fun k => by unfold rhoPure; positivity)).trans (Finset.sum_le_sum fun k _ => ?_)
    rw [Matrix.mul_assoc]
    split
    · rfl
    · positivity

/-- **Thermal states.**  `Obs` for a distribution is the average over infinite time of `Tr ρ(t)O`, where `ρ(0)` has the
weights `W/∑ W` on the states of `V1`, up to `2⁻⁵²` times the diagonal elements of `O`; `W` are the values of the given
distribution, or `exp(-β E1)` if none is given.  Partial as `C73_mixed_partial`. -/
theorem C73_thermal_partial (H V : Matrix (Fin n) (Fin n) ℂ) (E : Fin n → ℝ) (h : Eigenbasis H V E)
    (hgap : ∀ i j, i ≠ j → 1000 / 2 ^ 52 ≤ |E i - E j|) (N : ℕ) (hN : 0 < N) (fl : Flags) (ha : 0 ≤ fl.alpha)
    (obs : ObsArg n) (O : Matrix (Fin n) (Fin n) ℂ) (hobs : obs.matrix = some O)
    (hok : fl.deltaT = false ∧ fl.deltaQ = false ∨ obs = .hamiltonian O)
    (d : Dict n m) (hm : 0 < m) (hE1 : Monotone d.E1) (hint : d.intArgs = false) (hnorm : d.norm = true)
    (hstates : ∀ l, d.states = some l → l ≠ [] ∧ ∀ i ∈ l, 0 ≤ i ∧ i < m) (i : Nat) (beta : ℝ) (hi : d.args[i]? = some beta)
    (W : Fin m → ℝ) (hW : (∃ f, d.f = some f ∧ W = f d.E1 beta) ∨ (d.f = none ∧ W = fun p => Real.exp (-beta * d.E1 p)))
    (rho : ℝ → Matrix (Fin n) (Fin n) ℂ) (hr : VonNeumann H rho)
    (h0 : ∀ j k, rho 0 j k = ∑ p, ((W p / ∑ p', W p' : ℝ) : ℂ) * (d.V1 j p * star (d.V1 k p))) :
    ∃ out ys x a, diagEnsemble N (.dict d) E V fl obs = .ok out ∧ out.vals.lookup .obs = some ys ∧ ys[i]? = some (some x) ∧
      TimeAverage (fun t => mean O (rho t)) a ∧
      |x - a / perSite N fl| ≤ (∑ p, |W p / ∑ p', W p'|) * (∑ k, 1 / 2 ^ 52 * |((Vᴴ * O * V) k k).re|)
        / perSite N fl := by
  have e : ∀ p, d.dist beta p / ∑ p', d.dist beta p' = W p / ∑ p', W p' := by
    intro p
    rcases hW with ⟨f, hf, rfl⟩ | ⟨hf, rfl⟩
    · unfold Dict.dist; simp only [hf]
    · have hd : ∀ q, d.dist beta q = Real.exp (beta * d.E1 ⟨0, hm⟩) * Real.exp (-beta * d.E1 q) := by
        intro q
        unfold Dict.dist
        simp only [hf, dif_pos hm]
        rw [← Real.exp_add]
        congr 1
        ring
      simp only [hd]
      rw [← Finset.mul_sum, mul_div_mul_left _ _ (Real.exp_ne_zero _)]
  have key := thermal_dist H V E h hgap N hN fl ha obs O hobs hok d hm hE1 hint hnorm hstates i beta hi rho hr (by
    intro j k; rw [h0]; refine Finset.sum_congr rfl fun p _ => ?_; rw [e])
  simp only [e] at key
  exact key

/-- **Weights.**  The returned `rho_d` of a pure state holds the squared overlaps with the eigenstates, except that those up to
`10⁻¹⁶` are replaced by `2⁻⁵²`. -/
theorem C73_weights (E : Fin n → ℝ) (V : Matrix (Fin n) (Fin n) ℂ) (hgap : ∀ i j, i ≠ j → 1000 / 2 ^ 52 ≤ |E i - E j|) (N : ℕ) (fl : Flags)
    (ha : 0 ≤ fl.alpha) (hrho : fl.rhoD = true) (obs : ObsArg n) (hok : fl.deltaT = false ∧ fl.deltaQ = false ∨ ∃ O, obs = .hamiltonian O) (psi : Fin n → ℂ) :
    ∃ out, diagEnsemble (m := m) N (.pure psi) E V fl obs = .ok out ∧
      out.rho = some [fun k => if ‖∑ i, star (V i k) * psi i‖ ^ 2 ≤ 1 / 10 ^ 16 then 1 / 2 ^ 52 else ‖∑ i, star (V i k) * psi i‖ ^ 2] := by
  have hck : checkObs fl.deltaT fl.deltaQ obs = .ok () := by
    rcases hok with ⟨h1, h2⟩ | ⟨O, rfl⟩
    · simp [checkObs, h1, h2]
    · simp [checkObs]
  obtain ⟨out, h1, -, h2⟩ := ensemble_array (m := m) N E V fl obs hgap hck ha (.pure psi) _ (.inl ⟨_, rfl, rfl⟩)
  refine ⟨out, h1, ?_⟩
  rw [h2, if_pos hrho]
  congr 2
  funext k
  have e : rhoPure V psi k = ‖∑ i, star (V i k) * psi i‖ ^ 2 := by
    rw [rhoPure, ← norm_star]
    congr 2
    simp only [star_sum, star_mul', star_star]
    exact Finset.sum_congr rfl fun i _ => mul_comm _ _
  rw [e]
  unfold clip eps
  split_ifs <;> norm_num

/-! ### The hypotheses are met -/

theorem eigenbasis_one (E : Fin n → ℝ) : Eigenbasis (diagonal fun k => (E k : ℂ)) 1 E where
  unitary := by simp
  eigen i k := by
    by_cases h : i = k
    · subst h; simp
    · simp [h]

theorem schroedinger_diag (E : Fin n → ℝ) (c : Fin n → ℂ) :
    Schroedinger (diagonal fun k => (E k : ℂ)) fun t i => c i * Complex.exp (-Complex.I * E i * t) := by
  intro t i
  have e : ∑ j, (diagonal fun k => (E k : ℂ)) i j * (c j * Complex.exp (-Complex.I * E j * t))
      = E i * (c i * Complex.exp (-Complex.I * E i * t)) := by
    rw [Finset.sum_eq_single i]
    · simp
    · intro j _ hj; simp [hj.symm]
    · simp
  rw [e]
  have h1 : HasDerivAt (fun t : ℝ => -Complex.I * E i * (t : ℂ)) (-Complex.I * E i) t := by
    simpa using (Complex.ofRealCLM.hasDerivAt (x := t)).const_mul (-Complex.I * E i)
  refine (h1.cexp.const_mul (c i)).congr_deriv ?_
  ring

theorem vonNeumann_const (E : Fin n → ℝ) (p : Fin n → ℂ) : VonNeumann (diagonal fun k => (E k : ℂ)) fun _ => diagonal p := by
  intro t i j
  refine (hasDerivAt_const t _).congr_deriv ?_
  by_cases h : i = j
  · subst h; simp [mul_comm]
  · simp [h]

/-- Two levels at 0 and 1. -/
noncomputable def twoLevels : Fin 2 → ℝ := ![0, 1]

theorem twoLevels_gap : ∀ i j, i ≠ j → 1000 / 2 ^ 52 ≤ |twoLevels i - twoLevels j| := by
  intro i j h
  fin_cases i <;> fin_cases j <;> simp [twoLevels] at h ⊢ <;> norm_num

theorem twoLevels_resonance : NoResonance twoLevels := by
  intro i j k l h
  fin_cases i <;> fin_cases j <;> fin_cases k <;> fin_cases l <;> simp [twoLevels] at h ⊢ <;> norm_num

/-- `(1, e^{-it})/√2`. -/
noncomputable def twoWave (t : ℝ) (i : Fin 2) : ℂ := ((Real.sqrt 2 / 2 : ℝ) : ℂ) * Complex.exp (-Complex.I * twoLevels i * t)

theorem twoWave_solves : Schroedinger (diagonal fun k => (twoLevels k : ℂ)) twoWave :=
  schroedinger_diag twoLevels fun _ => ((Real.sqrt 2 / 2 : ℝ) : ℂ)

theorem half_norm : ‖((Real.sqrt 2 / 2 : ℝ) : ℂ)‖ ^ 2 = 1 / 2 := by
  rw [Complex.norm_real, Real.norm_eq_abs, sq_abs, div_pow, Real.sq_sqrt (by norm_num)]
  norm_num

theorem twoWave_weight (k : Fin 2) : ‖∑ i, star ((1 : Matrix (Fin 2) (Fin 2) ℂ) i k) * twoWave 0 i‖ ^ 2 = 1 / 2 := by
  have : ∑ i, star ((1 : Matrix (Fin 2) (Fin 2) ℂ) i k) * twoWave 0 i = ((Real.sqrt 2 / 2 : ℝ) : ℂ) := by
    simp [twoWave, Matrix.one_apply]
  rw [this, half_norm]

/-- `σˣ`. -/
def flipX : Matrix (Fin 2) (Fin 2) ℂ := !![0, 1; 1, 0]

/-- All quantities. -/
noncomputable def allFlags : Flags := ⟨true, 1, true, true, true, true⟩

example : ∃ out a v w, diagEnsemble (m := 0) 1 (.pure (twoWave 0)) twoLevels 1 allFlags (.hamiltonian flipX) = .ok out ∧
      TimeAverage (fun t => expectation flipX (twoWave t)) a ∧
      TimeAverage (fun t => (expectation flipX (twoWave t) - a) ^ 2) v ∧
      TimeAverage (fun t => expectation (flipX * flipX) (twoWave t) - expectation flipX (twoWave t) ^ 2) w ∧
      out.vals.lookup .deltaT = some [some (Real.sqrt v / perSite 1 allFlags)] ∧
      out.vals.lookup .deltaQ = some [some (Real.sqrt w / perSite 1 allFlags)] :=
  C73_fluctuations_partial _ _ _ (eigenbasis_one _) twoLevels_gap twoLevels_resonance _ twoWave_solves
    (by simp only [Fin.sum_univ_two, twoWave, Complex.ofReal_zero, mul_zero, Complex.exp_zero, mul_one, half_norm]; norm_num)
    (fun k => by rw [twoWave_weight]; norm_num)
    1 _ (by norm_num [allFlags]) _ (by ext i j; fin_cases i <;> fin_cases j <;> simp [flipX])
    (by intro k l; fin_cases k <;> fin_cases l <;> simp [flipX]) rfl

example := C73_observable_pure (m := 0) _ _ _ (eigenbasis_one _) twoLevels_gap _ twoWave_solves 1 (by norm_num) allFlags
  (by norm_num [allFlags]) (.hamiltonian flipX) flipX rfl (.inr rfl)

example := C73_entropy (m := 0) twoLevels 1 twoLevels_gap (twoWave 0) (fun k => by rw [twoWave_weight]; norm_num) 1 allFlags
  (by norm_num [allFlags]) rfl rfl (.hamiltonian flipX) (by simp [checkObs])

/-- Thermal state of two levels at three inverse temperatures. -/
noncomputable def thermalTwo : Dict 2 2 := ⟨1, twoLevels, none, [0.5, 1.0, 2.0], false, some [0], true⟩

theorem thermalTwo_sorted : Monotone thermalTwo.E1 := by
  intro i j h
  fin_cases i <;> fin_cases j <;> simp [thermalTwo, twoLevels] at h ⊢

theorem thermalTwo_states : ∀ l, thermalTwo.states = some l → l ≠ [] ∧ ∀ i ∈ l, 0 ≤ i ∧ i < ((2 : ℕ) : ℤ) := by
  intro l hl
  have : l = [0] := by simpa [thermalTwo] using hl.symm
  subst this
  simp

example := C73_thermal_partial (n := 2) (m := 2) _ _ _ (eigenbasis_one _) twoLevels_gap 1 (by norm_num) allFlags
  (by norm_num [allFlags]) (.hamiltonian flipX) flipX rfl (.inr rfl) thermalTwo (by norm_num) thermalTwo_sorted rfl rfl
  thermalTwo_states 1 1.0 rfl (fun p => Real.exp (-1.0 * twoLevels p)) (.inr ⟨rfl, rfl⟩) _
  (vonNeumann_const twoLevels fun j => ((Real.exp (-1.0 * twoLevels j) / ∑ p', Real.exp (-1.0 * twoLevels p') : ℝ) : ℂ))
  (by
    intro j k
    fin_cases j <;> fin_cases k <;> simp [thermalTwo, Fin.sum_univ_two])

example := C73_weights (m := 0) twoLevels 1 twoLevels_gap 1 allFlags (by norm_num [allFlags]) rfl (.hamiltonian flipX) (.inr ⟨_, rfl⟩) (twoWave 0)

/-! ### Defects -/

theorem deltaT_value (N : ℕ) (fl : Flags) (V O : Matrix (Fin n) (Fin n) ℂ) (r : Fin n → ℝ) (h : 0 ≤ deltaTSq (rotated V O) r) :
    val N fl V O r .deltaT = some (Real.sqrt (deltaTSq (rotated V O) r) / perSite N fl) := by
  unfold val scaled perSite sqrtNan
  by_cases hd : fl.density <;> simp [hd, h]

theorem deltaT_nan (N : ℕ) (fl : Flags) (V O : Matrix (Fin n) (Fin n) ℂ) (r : Fin n → ℝ) (h : deltaTSq (rotated V O) r < 0) :
    val N fl V O r .deltaT = none := by
  unfold val scaled sqrtNan
  by_cases hd : fl.density <;> simp [hd, h]

/-- `σʸ`. -/
noncomputable def turnY : Matrix (Fin 2) (Fin 2) ℂ := !![0, -Complex.I; Complex.I, 0]

theorem twoWave_rho : rhoPure (1 : Matrix (Fin 2) (Fin 2) ℂ) (twoWave 0) = fun _ => 1 / 2 := by
  ext k
  rw [← twoWave_weight k, rhoPure, ← norm_star]
  congr 2
  simp only [star_sum, star_mul', star_star]
  exact Finset.sum_congr rfl fun i _ => mul_comm _ _

/-- **Defect.**  `_np.square(Obs)` (375) squares the matrix elements instead of their absolute values.  For two levels, the
state `(1,1)/√2` and `σʸ`, whose variance in time is 1/2, `delta_t_Obs` is NaN. -/
theorem C73_fails_complex : ∃ out a v, diagEnsemble (m := 0) 1 (.pure (twoWave 0)) twoLevels 1 allFlags (.hamiltonian turnY) = .ok out ∧
    TimeAverage (fun t => expectation turnY (twoWave t)) a ∧
    TimeAverage (fun t => (expectation turnY (twoWave t) - a) ^ 2) v ∧ v = 1 / 2 ∧
    out.vals.lookup .deltaT = some [none] := by
  obtain ⟨out, h1, h2, -⟩ := ensemble_array (m := 0) 1 twoLevels 1 allFlags (.hamiltonian turnY) twoLevels_gap (by simp [checkObs])
    (by norm_num [allFlags]) (.pure (twoWave 0)) _ (.inl ⟨_, rfl, rfl⟩)
  have hvn := proj_evolves (eigenbasis_one twoLevels) _ twoWave_solves
  have hY : turnYᴴ = turnY := by ext i j; fin_cases i <;> fin_cases j <;> simp [turnY]
  have a1 := mean_average (eigenbasis_one twoLevels) (gaps_injective (gaps_eps twoLevels_gap)) turnY _ hvn
  have a2 := variance (eigenbasis_one twoLevels) twoLevels_resonance turnY hY _ hvn (proj_hermitian _)
  simp only [mean_proj] at a1 a2
  refine ⟨out, _, _, h1, a1, a2, ?_, ?_⟩
  · simp only [proj_off, twoWave_rho]
    simp [Fin.sum_univ_two, rotated, turnY]
    norm_num
  · rw [h2, lookup_keys, if_pos (by decide +kernel), twoWave_rho]
    have : (fun _ : Fin 2 => clip (1 / 2)) = fun _ => 1 / 2 := by ext; exact clip_eq (by norm_num)
    rw [this]
    have : deltaTSq (rotated 1 turnY) (fun _ => 1 / 2) < 0 := by
      simp [deltaTSq, offSquare, Fin.sum_univ_two, rotated, turnY]
    exact congrArg some (congrArg (fun x => [x]) (deltaT_nan 1 allFlags 1 turnY _ this))

/-- **Defect.**  Equal mixture of two levels and `σˣ`: the expectation value is 0 at all times, `delta_t_Obs` is `√(1/2)`. -/
theorem C73_fails_dm : ∃ out a, diagEnsemble (m := 0) 1 (.dm (diagonal fun _ => 1 / 2)) twoLevels 1 allFlags (.hamiltonian flipX) = .ok out ∧
    VonNeumann (diagonal fun k => (twoLevels k : ℂ)) (fun _ => diagonal fun _ => 1 / 2) ∧
    mean flipX (diagonal fun _ => 1 / 2) = a ∧
    TimeAverage (fun _ => (mean flipX (diagonal fun _ => 1 / 2) - a) ^ 2) 0 ∧
    out.vals.lookup .deltaT = some [some (Real.sqrt (1 / 2))] := by
  obtain ⟨out, h1, h2, -⟩ := ensemble_array (m := 0) 1 twoLevels 1 allFlags (.hamiltonian flipX) twoLevels_gap (by simp [checkObs])
    (by norm_num [allFlags]) (.dm (diagonal fun _ => 1 / 2)) _ (.inr ⟨_, rfl, rfl⟩)
  refine ⟨out, _, h1, vonNeumann_const _ _, rfl, by simpa using average_const 0, ?_⟩
  have hr : rhoDM (1 : Matrix (Fin 2) (Fin 2) ℂ) (diagonal fun _ => 1 / 2) = fun _ => 1 / 2 := by
    ext k
    fin_cases k <;> simp [rhoDM, Fin.sum_univ_two]
  rw [h2, lookup_keys, if_pos (by decide +kernel), hr]
  have : (fun _ : Fin 2 => clip (1 / 2)) = fun _ => 1 / 2 := by ext; exact clip_eq (by norm_num)
  rw [this]
  have : deltaTSq (rotated 1 flipX) (fun _ => 1 / 2) = 1 / 2 := by
    simp [deltaTSq, offSquare, Fin.sum_univ_two, rotated, flipX]
    norm_num
  refine congrArg some (congrArg (fun x => [x]) ((deltaT_value 1 allFlags 1 flipX _ (by rw [this]; norm_num)).trans ?_))
  rw [this]
  simp [perSite]

/-- **Defect.**  An observable given as an array, as documented, raises `ValueError` (the truth value of an array) when a
fluctuation is asked for. -/
theorem C73_fails_array (hn : 1 < n) (N : ℕ) (st : State n m) (E : Fin n → ℝ) (V O : Matrix (Fin n) (Fin n) ℂ) (fl : Flags)
    (hgap : ∀ i j, i ≠ j → 1000 / 2 ^ 52 ≤ |E i - E j|) (hfl : (fl.deltaT || fl.deltaQ) = true) :
    diagEnsemble N st E V fl (.array O) = .error .valueError := by
  unfold diagEnsemble
  rw [if_neg (not_degenerate (gaps_eps hgap))]
  have : checkObs fl.deltaT fl.deltaQ (.array O) = .error .valueError := by
    simp [checkObs, hfl, hn]
  rw [this]

/-- Three equally spaced levels. -/
noncomputable def threeLevels : Fin 3 → ℝ := ![0, 1, 2]

theorem threeLevels_gap : ∀ i j, i ≠ j → 1000 / 2 ^ 52 ≤ |threeLevels i - threeLevels j| := by
  intro i j h
  fin_cases i <;> fin_cases j <;> simp [threeLevels] at h ⊢ <;> norm_num

/-- `(1, e^{-it}, e^{-2it})/√3`. -/
noncomputable def threeWave (t : ℝ) (i : Fin 3) : ℂ := ((Real.sqrt 3 / 3 : ℝ) : ℂ) * Complex.exp (-Complex.I * threeLevels i * t)

/-- Hopping between neighbouring levels. -/
def hopThree : Matrix (Fin 3) (Fin 3) ℂ := !![0, 1, 0; 1, 0, 1; 0, 1, 0]

theorem third_norm : ‖((Real.sqrt 3 / 3 : ℝ) : ℂ)‖ ^ 2 = 1 / 3 := by
  rw [Complex.norm_real, Real.norm_eq_abs, sq_abs, div_pow, Real.sq_sqrt (by norm_num)]
  norm_num

theorem threeWave_cos (t : ℝ) : expectation hopThree (threeWave t) = 4 / 3 * Real.cos t := by
  have h3 : (Real.sqrt 3 / 3) * (Real.sqrt 3 / 3) = (1 / 3 : ℝ) := by
    rw [div_mul_div_comm, Real.mul_self_sqrt (by norm_num)]; norm_num
  have hre : ∀ x : ℝ, (-Complex.I * (x : ℂ) * (t : ℂ)) = ((-(x * t) : ℝ) : ℂ) * Complex.I := by
    intro x; push_cast; ring
  have e1 : ∀ i, (threeWave t i).re = Real.sqrt 3 / 3 * Real.cos (threeLevels i * t) := by
    intro i; rw [threeWave, hre, Complex.re_ofReal_mul, Complex.exp_ofReal_mul_I_re, Real.cos_neg]
  have e2 : ∀ i, (threeWave t i).im = -(Real.sqrt 3 / 3 * Real.sin (threeLevels i * t)) := by
    intro i; rw [threeWave, hre, Complex.im_ofReal_mul, Complex.exp_ofReal_mul_I_im, Real.sin_neg]; ring
  have hc : Real.cos (2 * t) * Real.cos t + Real.sin (2 * t) * Real.sin t = Real.cos t := by
    rw [← Real.cos_sub]; congr 1; ring
  unfold expectation
  simp [Fin.sum_univ_three, hopThree, e1, e2, threeLevels]
  linear_combination (2 * Real.cos t + 2 * (Real.cos (2 * t) * Real.cos t + Real.sin (2 * t) * Real.sin t)) * h3 + 2 / 3 * hc

/-- **Defect.**  Three equally spaced levels pass the test for degeneracies, which does not compare differences.  The
expectation value of a hopping in the state `(1,1,1)/√3` has variance `8/9` in time, `delta_t_Obs` is `√(4/9)`. -/
theorem C73_fails_resonance : ∃ out, diagEnsemble (m := 0) 1 (.pure (threeWave 0)) threeLevels 1 allFlags (.hamiltonian hopThree) = .ok out ∧
    Schroedinger (diagonal fun k => (threeLevels k : ℂ)) threeWave ∧
    TimeAverage (fun t => expectation hopThree (threeWave t)) 0 ∧
    TimeAverage (fun t => (expectation hopThree (threeWave t) - 0) ^ 2) (8 / 9) ∧
    out.vals.lookup .deltaT = some [some (Real.sqrt (4 / 9))] := by
  obtain ⟨out, h1, h2, -⟩ := ensemble_array (m := 0) 1 threeLevels 1 allFlags (.hamiltonian hopThree) threeLevels_gap
    (by simp [checkObs]) (by norm_num [allFlags]) (.pure (threeWave 0)) _ (.inl ⟨_, rfl, rfl⟩)
  refine ⟨out, h1, schroedinger_diag threeLevels fun _ => ((Real.sqrt 3 / 3 : ℝ) : ℂ), ?_, ?_, ?_⟩
  · have := re_average {()} (fun _ => 4 / 3) (fun _ => 1) (fun t => expectation hopThree (threeWave t)) (by
      intro t
      have : Complex.I * ((1 : ℝ) : ℂ) * (t : ℂ) = (t : ℂ) * Complex.I := by push_cast; ring
      rw [threeWave_cos, Finset.sum_singleton, this, show (4 / 3 : ℂ) = ((4 / 3 : ℝ) : ℂ) by push_cast; rfl,
        Complex.re_ofReal_mul, Complex.exp_ofReal_mul_I_re])
    simpa using this
  · have := re_average Finset.univ (fun _ : Bool => 8 / 9) (fun b => if b then 2 else 0)
      (fun t => (expectation hopThree (threeWave t) - 0) ^ 2) (by
      intro t
      have : Complex.I * ((2 : ℝ) : ℂ) * (t : ℂ) = ((2 * t : ℝ) : ℂ) * Complex.I := by push_cast; ring
      rw [threeWave_cos, Fintype.sum_bool]
      simp only [if_true, Bool.false_eq_true, if_false, this]
      rw [show (8 / 9 : ℂ) = ((8 / 9 : ℝ) : ℂ) by push_cast; rfl, Complex.add_re, Complex.re_ofReal_mul, Complex.re_ofReal_mul,
        Complex.exp_ofReal_mul_I_re, Real.cos_two_mul]
      simp
      ring)
    simpa using this
  · have hr : rhoPure (1 : Matrix (Fin 3) (Fin 3) ℂ) (threeWave 0) = fun _ => 1 / 3 := by
      ext k
      rw [← third_norm, rhoPure]
      congr 2
      simp [threeWave, Matrix.one_apply]
    rw [h2, lookup_keys, if_pos (by decide +kernel), hr]
    have : (fun _ : Fin 3 => clip (1 / 3)) = fun _ => 1 / 3 := by ext; exact clip_eq (by norm_num)
    rw [this]
    have : deltaTSq (rotated 1 hopThree) (fun _ => 1 / 3) = 4 / 9 := by
      simp [deltaTSq, offSquare, Fin.sum_univ_three, rotated, hopThree]
      norm_num
    refine congrArg some (congrArg (fun x => [x]) ((deltaT_value 1 allFlags 1 hopThree _ (by rw [this]; norm_num)).trans ?_))
    rw [this]
    simp [perSite]

/-- **Defect.**  The array of weights has the type of the first argument (343): for an integer inverse temperature and two
or more states every weight `e^{-βE}/Z` is truncated to 0, and all thermal values are 0. -/
theorem C73_fails_integer (E : Fin n → ℝ) (V : Matrix (Fin n) (Fin n) ℂ)
    (hgap : ∀ i j, i ≠ j → 1000 / 2 ^ 52 ≤ |E i - E j|) (N : ℕ) (fl : Flags) (ha : 0 ≤ fl.alpha)
    (O : Matrix (Fin n) (Fin n) ℂ) (d : Dict n m) (hm : 2 ≤ m) (hE1 : Monotone d.E1) (hf : d.f = none)
    (hint : d.intArgs = true) (hnorm : d.norm = true) (hstates : d.states = none) :
    ∃ out, diagEnsemble N (.dict d) E V fl (.hamiltonian O) = .ok out ∧
      out.vals.lookup .obs = some (d.args.map fun _ => some 0) := by
  have hsorted : (List.ofFn d.E1).Pairwise (· ≤ ·) := by
    rw [List.pairwise_ofFn]; intro i j hij; exact hE1 hij.le
  have hdict : diagEnsemble N (.dict d) E V fl (.hamiltonian O) = ensembleDict N fl V (some O) d := by
    unfold diagEnsemble
    rw [if_neg (not_degenerate (gaps_eps hgap)), show checkObs fl.deltaT fl.deltaQ (.hamiltonian O) = .ok () by simp [checkObs]]
    rfl
  set cols : List (Fin n → ℝ) := List.ofFn fun p k => clip (rhoDict V d.V1 p k) with hcols
  have hne : cols ≠ [] := by
    intro h0
    have := congrArg List.length h0
    simp [hcols] at this
    omega
  have hg : grouped (cols.map (infTime N fl V (some O)))
      = (keys fl true).map fun q => (q, cols.map fun r => val N fl V O r q) := by
    rw [← grouped_eq _ _ hne]
    congr 1
    refine List.map_congr_left fun r _ => ?_
    exact infTime_eq N fl V (some O) r
  rw [hdict]
  unfold ensembleDict
  rw [if_neg (not_not.2 hsorted), hstates]
  simp only [checkStates, not_lt.2 ha, if_false]
  refine ⟨_, rfl, ?_⟩
  simp only
  rw [← hcols, hg, List.map_map]
  refine (lookup_keys (fun q => d.args.map fun a => dotNan (cols.map fun r => val N fl V O r q)
    (List.ofFn (d.weight a))) .obs _).trans ?_
  rw [if_pos (obs_key fl)]
  congr 1
  refine List.map_congr_left fun a _ => ?_
  have hv : (cols.map fun r => val N fl V O r .obs)
      = List.ofFn fun p => some (obsD (rotated V O) (fun k => clip (rhoDict V d.V1 p k)) / perSite N fl) := by
    rw [hcols, List.map_ofFn]
    congr 1
    ext1 p
    exact obs_value N fl V O _
  rw [hv, dotNan_ofFn]
  congr 1
  refine Finset.sum_eq_zero fun p _ => ?_
  have hpos : ∀ q, 0 < d.dist a q := by
    intro q
    unfold Dict.dist
    rw [hf]
    simp only
    rw [dif_pos (by omega)]
    exact Real.exp_pos _
  have hlt : d.dist a p < ∑ q, d.dist a q := by
    obtain ⟨q, hq⟩ : ∃ q : Fin m, q ≠ p := by
      by_cases h0 : p.val = 0
      · exact ⟨⟨1, by omega⟩, fun h => by rw [← h] at h0; simp at h0⟩
      · exact ⟨⟨0, by omega⟩, fun h => by rw [← h] at h0; simp at h0⟩
    exact Finset.single_lt_sum hq (Finset.mem_univ p) (Finset.mem_univ q) (hpos q) fun k _ _ => (hpos k).le
  have hw : d.weight a p = 0 := by
    have hs : 0 < ∑ q, d.dist a q := (hpos p).trans hlt
    unfold Dict.weight store
    rw [hint, hnorm, if_pos rfl, if_pos rfl, if_pos (div_nonneg (hpos p).le hs.le)]
    have : ⌊d.dist a p / ∑ q, d.dist a q⌋ = 0 := by
      rw [Int.floor_eq_zero_iff]
      exact ⟨div_nonneg (hpos p).le hs.le, (div_lt_one hs).2 hlt⟩
    rw [this]; simp
  rw [hw, mul_zero]

example := C73_fails_integer twoLevels 1 twoLevels_gap 1 allFlags (by norm_num [allFlags]) flipX
  ⟨1, twoLevels, none, [1], true, none, true⟩ (by norm_num) thermalTwo_sorted rfl rfl rfl rfl

end Props
