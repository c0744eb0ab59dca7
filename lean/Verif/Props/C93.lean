import Verif.Model.Oscillator
import Mathlib.Analysis.SpecialFunctions.Exponential
import Mathlib.Data.Nat.Choose.Sum
import Mathlib.Data.Fintype.Powerset

/-!
C93: `coherent_state` and `photon_Hspace_dim`.

The amplitudes of a coherent state are `exp(-|a|²/2) aᵏ/√k!`; it is an eigenstate of the annihilation operator up to the cutoff, and its norm
tends to one.  `photon_Hspace_dim` counts the states of a spin-photon space.
-/

namespace Props
open Model.Oscillator Finset

theorem halfLogs_exp (k : ℕ) : Real.exp (halfLogs k) = Real.sqrt (k.factorial : ℝ) := by
  have h : ∀ k : ℕ, halfLogs k = Real.log (k.factorial : ℝ) / 2 := by
    intro k
    cases k with
    | zero => simp [halfLogs]
    | succ k =>
      have e : ∀ m : ℕ, ((List.range m).map fun (j : ℕ) => Real.log ((j + 1 : ℕ) : ℝ)).sum = Real.log (m.factorial : ℝ) := by
        intro m
        induction m with
        | zero => simp
        | succ m ih =>
          rw [List.range_succ, List.map_append, List.sum_append, ih, Nat.factorial_succ, Nat.cast_mul,
            Real.log_mul (by positivity) (by positivity)]
          simp [add_comm]
      show 0.5 * ((List.range (k + 1)).map fun (j : ℕ) => Real.log ((j + 1 : ℕ) : ℝ)).sum = _
      rw [e (k + 1)]
      norm_num
      ring
  rw [h, Real.exp_half, Real.exp_log (by positivity)]

/-- The coherent state with the amplitude `a`. -/
noncomputable def coherent (a : ℂ) (k : ℕ) : ℂ := Complex.exp (-(‖a‖ ^ 2 / 2 : ℝ)) * a ^ k / (Real.sqrt (k.factorial : ℝ) : ℂ)

/-- For every complex `a ≠ 0` and every cutoff `n > 0`.
Missing: zero and negative real numbers (`C93_fails_vacuum`, `C93_fails_negative`). -/
theorem C93_coherent_complex_partial (a : ℂ) (ha : a ≠ 0) (n : ℕ) (hn : 0 < n) : coherentComplex a n = some ((List.range n).map (coherent a)) := by
  unfold coherentComplex
  rw [if_neg (by omega)]
  congr 1
  refine List.map_congr_left fun k _ => ?_
  unfold coherent
  rw [Complex.exp_sub, Complex.exp_add, ← Complex.ofReal_exp (halfLogs k), halfLogs_exp, mul_comm (Complex.log a), Complex.exp_nat_mul,
    Complex.exp_log ha]
  have e : (((-‖a‖ ^ 2 / 2.0 : ℝ) : ℝ) : ℂ) = -((‖a‖ ^ 2 / 2 : ℝ) : ℂ) := by
    rw [← Complex.ofReal_neg]
    congr 1
    norm_num
    ring
  rw [e]

/-- For every real `a > 0`.
Missing: zero and negative real numbers (`C93_fails_vacuum`, `C93_fails_negative`). -/
theorem C93_coherent_real_partial (a : ℝ) (ha : 0 < a) (n : ℕ) (hn : 0 < n) : ∃ c : ℕ → ℝ,
    coherentReal a n = some ((List.range n).map fun k => .fin (c k)) ∧ ∀ k, (c k : ℂ) = coherent a k := by
  refine ⟨fun k => Real.exp (-|a| ^ 2 / 2.0 - halfLogs k + Real.log a * k), ?_, fun k => ?_⟩
  · unfold coherentReal
    rw [if_neg (by omega)]
    congr 1
    refine List.map_congr_left fun k _ => ?_
    rw [log, if_neg (by linarith), if_neg (by linarith)]
    rfl
  · show ((Real.exp (-|a| ^ 2 / 2.0 - halfLogs k + Real.log a * k) : ℝ) : ℂ) = _
    unfold coherent
    have e : -|a| ^ 2 / 2.0 = -(|a| ^ 2 / 2) := by
      norm_num
      ring
    rw [e, Real.exp_add, Real.exp_sub, halfLogs_exp, mul_comm (Real.log a), Real.exp_nat_mul, Real.exp_log ha, Complex.norm_real, Real.norm_eq_abs]
    push_cast
    ring

/-- `a` acting on the coherent state multiplies it with the amplitude: `√(k+1) c_(k+1) = a c_k`. -/
theorem C93_eigenstate (a : ℂ) (k : ℕ) : (Real.sqrt ((k + 1 : ℕ) : ℝ) : ℂ) * coherent a (k + 1) = a * coherent a k := by
  unfold coherent
  rw [Nat.factorial_succ, Nat.cast_mul, Real.sqrt_mul (by positivity)]
  have h1 : (Real.sqrt ((k + 1 : ℕ) : ℝ) : ℂ) ≠ 0 := by
    rw [Complex.ofReal_ne_zero]
    exact (Real.sqrt_pos.2 (by positivity)).ne'
  have h2 : (Real.sqrt ((k.factorial : ℕ) : ℝ) : ℂ) ≠ 0 := by
    rw [Complex.ofReal_ne_zero]
    exact (Real.sqrt_pos.2 (by positivity)).ne'
  push_cast at h1 h2 ⊢
  field_simp
  ring

/-- The squared norm of all amplitudes together is one. -/
theorem C93_norm (a : ℂ) : HasSum (fun k => ‖coherent a k‖ ^ 2) 1 := by
  have h : ∀ k, ‖coherent a k‖ ^ 2 = Real.exp (-‖a‖ ^ 2) * ((‖a‖ ^ 2) ^ k / k.factorial) := by
    intro k
    unfold coherent
    rw [norm_div, norm_mul, norm_pow, Complex.norm_real, Real.norm_of_nonneg (Real.sqrt_nonneg _), div_pow, Real.sq_sqrt (by positivity), mul_pow,
      ← Complex.ofReal_neg, ← Complex.ofReal_exp, Complex.norm_real, Real.norm_of_nonneg (Real.exp_pos _).le, ← Real.exp_nat_mul, mul_div_assoc]
    congr 2
    · push_cast
      ring
    · rw [← pow_mul, ← pow_mul, mul_comm]
  have h1 : HasSum (fun k : ℕ => (‖a‖ ^ 2) ^ k / (k.factorial : ℝ)) (Real.exp (‖a‖ ^ 2)) := by
    rw [Real.exp_eq_exp_ℝ]
    exact NormedSpace.expSeries_div_hasSum_exp (‖a‖ ^ 2)
  have h2 := h1.mul_left (Real.exp (-‖a‖ ^ 2))
  rw [← Real.exp_add, neg_add_cancel, Real.exp_zero] at h2
  exact h2.congr_fun h

example : ∃ l, coherentComplex Complex.I 3 = some l := ⟨_, C93_coherent_complex_partial Complex.I Complex.I_ne_zero 3 (by norm_num)⟩

/-! ### The dimension of the space -/

/-- The configurations of `N` spins with at most `t` of them up. -/
def upTo (N t : ℕ) : Finset (Finset (Fin N)) := Finset.univ.filter fun s => s.card ≤ t

theorem card_upTo (N t : ℕ) : (upTo N t).card = ∑ k ∈ range (t + 1), N.choose k := by
  have h : upTo N t = (range (t + 1)).biUnion fun k => (Finset.univ : Finset (Fin N)).powersetCard k := by
    ext s
    simp [upTo]
  rw [h, Finset.card_biUnion]
  · exact Finset.sum_congr rfl fun k _ => by rw [Finset.card_powersetCard, Finset.card_univ, Fintype.card_fin]
  · intro i _ j _ hij
    rw [Function.onFun, Finset.disjoint_left]
    intro s hs hs'
    rw [Finset.mem_powersetCard] at hs hs'
    exact hij (hs.2.symm.trans hs'.2)

theorem hyp_binom (N t : ℕ) (h : t + 1 ≤ N) : binom N (t + 1) * hyp (N - 1 - t) (2 + t) = ∑ j ∈ range (N - t), (N.choose (t + 1 + j) : ℝ) := by
  have e : ∀ j, j ≤ N - 1 - t → binom N (t + 1) * ((List.range j).map fun (i : ℕ) => (((N - 1 - t : ℕ) : ℝ) - i) / (((2 + t : ℕ) : ℝ) + i)).prod =
      (N.choose (t + 1 + j) : ℝ) := by
    intro j
    induction j with
    | zero => intro _; simp [binom]
    | succ j ih =>
      intro hj
      rw [List.range_succ, List.map_append, List.prod_append, ← mul_assoc, ih (by omega), List.map_singleton, List.prod_singleton]
      have key := Nat.choose_succ_right_eq N (t + 1 + j)
      have key' : (N.choose (t + 1 + j + 1) : ℝ) * ((t + 1 + j + 1 : ℕ) : ℝ) = N.choose (t + 1 + j) * ((N - (t + 1 + j) : ℕ) : ℝ) := by exact_mod_cast key
      have e1 : (((N - 1 - t : ℕ) : ℝ) - j) = ((N - (t + 1 + j) : ℕ) : ℝ) := by
        rw [← Nat.cast_sub (by omega)]
        congr 1
        omega
      have e2 : (((2 + t : ℕ) : ℝ) + j) = ((t + 1 + j + 1 : ℕ) : ℝ) := by
        push_cast
        ring
      rw [e1, e2, ← mul_div_assoc, ← key', ← add_assoc, mul_div_assoc, div_self (by positivity), mul_one]
  unfold hyp
  rw [← List.sum_map_mul_left]
  have : N - t = N - 1 - t + 1 := by omega
  rw [this, Finset.sum_range, ← List.sum_ofFn, List.ofFn_eq_map, ← List.map_coe_finRange_eq_range, List.map_map]
  congr 1
  refine List.map_congr_left fun j _ => ?_
  exact e j (by omega)

/-- With `Ntot` quanta there is one state for every configuration of the spins with at most `Ntot` of them up, whatever `Nph` is given; without, one
for every pair of a configuration and a photon number up to `Nph`; without both the call raises. -/
theorem C93_dimension (other : ℝ) (N : ℕ) :
    (∀ t Nph, spaceDim other N (some t) Nph = some ((upTo N t).card : ℝ)) ∧
    (∀ m, spaceDim other N none (some m) = some (Fintype.card (Finset (Fin N) × Fin (m + 1)) : ℝ)) ∧
    spaceDim other N none none = none := by
  refine ⟨fun t Nph => ?_, fun m => ?_, rfl⟩
  · have hall : (2 : ℝ) ^ N = ∑ k ∈ range (N + 1), (N.choose k : ℝ) := by exact_mod_cast (Nat.sum_range_choose N).symm
    have hd : spaceDim other N (some t) Nph = some (2 ^ N - binom N (t + 1) * if t + 1 ≤ N then hyp (N - 1 - t) (2 + t) else other) := by
      cases Nph <;> rfl
    rw [hd, card_upTo]
    congr 1
    by_cases h : t + 1 ≤ N
    · rw [if_pos h, hyp_binom N t h, hall]
      have : N + 1 = t + 1 + (N - t) := by omega
      rw [this, Finset.sum_range_add]
      push_cast
      ring
    · rw [if_neg h, binom, Nat.choose_eq_zero_of_lt (by omega), Nat.cast_zero, zero_mul, sub_zero, hall]
      have : t + 1 = N + 1 + (t - N) := by omega
      rw [this, Finset.sum_range_add (fun k => N.choose k)]
      have h0 : ∑ j ∈ range (t - N), N.choose (N + 1 + j) = 0 := Finset.sum_eq_zero fun j _ => Nat.choose_eq_zero_of_lt (by omega)
      rw [h0, add_zero]
      push_cast
      rfl
  · simp [spaceDim]

example : spaceDim 0 3 (some 1) none = some 4 := by
  rw [(C93_dimension 0 3).1]
  have : (upTo 3 1).card = 4 := by decide
  rw [this]
  norm_num

/-! ### Defects -/

/-- For `a = 0` the amplitude of the vacuum, which is one, is not a number. -/
theorem C93_fails_vacuum (n : ℕ) (hn : 0 < n) : (∃ l, coherentReal 0 n = some l ∧ l[0]? = some .nan) ∧ coherent 0 0 = 1 := by
  refine ⟨⟨_, by unfold coherentReal; rw [if_neg (by omega)], ?_⟩, by simp [coherent]⟩
  rw [List.getElem?_map, List.getElem?_range hn]
  simp [log, times, plus, exp]

/-- For a negative real `a` no amplitude is a number. -/
theorem C93_fails_negative (a : ℝ) (ha : a < 0) (n : ℕ) (hn : 0 < n) : coherentReal a n = some (List.replicate n .nan) := by
  unfold coherentReal
  rw [if_neg (by omega), log, if_pos ha]
  congr 1
  simp [times, plus, exp]

/-- A cutoff of no states raises. -/
theorem C93_fails_empty (a : ℝ) : coherentReal a 0 = none := rfl

end Props
