import Verif.Proof.SemiKeep
import Verif.Proof.SemiList
/-! The semi-momentum states are a basis of the block, and matrix elements between them. -/
namespace Proof.Semi
open Spec Spec.Semi Model.Chain Proof.Chain
open scoped BigOperators ComplexConjugate Matrix

variable {N : ℕ} {Tr Z : BitOp} {n k T : ℕ} {p : Int}

/-- the semi-momentum state -/
noncomputable def st (N : ℕ) (Tr Z : BitOp) (n k : ℕ) (p σ : Int) (s : ℕ) : Fin N → ℂ :=
  bMat (opMat N Tr) (opMat N Z) n (om n k) p σ *ᵥ basisVec N s

theorem waves_eq (hn : 0 < n) (U : Matrix (Fin N) (Fin N) ℂ) :
    cosW U n (om n k) = ∑ j ∈ Finset.range n, ((Real.cos (2 * Real.pi * k / n * j) : ℝ) : ℂ) • U ^ j ∧
    sinW U n (om n k) = ∑ j ∈ Finset.range n, ((Real.sin (2 * Real.pi * k / n * j) : ℝ) : ℂ) • U ^ j := by
  have hj : ∀ j : ℕ, om n k ^ j = (Real.cos (2 * Real.pi * k / n * j) : ℝ) + (Real.sin (2 * Real.pi * k / n * j) : ℝ) * Complex.I := by
    intro j
    have := om_cos (k := k) (T := 1) one_pos hn j
    rw [wave_eq one_pos hn] at this
    exact this
  have hc : ∀ j : ℕ, (conj (om n k)) ^ j = (Real.cos (2 * Real.pi * k / n * j) : ℝ) - (Real.sin (2 * Real.pi * k / n * j) : ℝ) * Complex.I := by
    intro j
    rw [← map_pow, hj]
    simp only [map_add, map_mul, Complex.conj_ofReal, Complex.conj_I, mul_neg, sub_eq_add_neg]
  have hI : Complex.I * Complex.I = -1 := Complex.I_mul_I
  unfold cosW sinW proj
  rw [Complex.conj_conj]
  refine ⟨?_, ?_⟩
  · rw [← Finset.sum_add_distrib, Finset.smul_sum]
    apply Finset.sum_congr rfl
    intro j _
    rw [← add_smul, smul_smul, hj, hc]
    congr 1
    ring
  · rw [← Finset.sum_sub_distrib, Finset.smul_sum]
    apply Finset.sum_congr rfl
    intro j _
    rw [← sub_smul, smul_smul, hj, hc]
    congr 1
    linear_combination (-(Real.sin (2 * Real.pi * k / n * j) : ℝ) : ℂ) * hI

theorem state_eq (hn : 0 < n) (σ : Int) (s : ℕ) : state (opMat N Tr) (opMat N Z) n (2 * Real.pi * k / n) p σ s = st N Tr Z n k p σ s := by
  obtain ⟨a, b⟩ := waves_eq (k := k) hn (opMat N Tr)
  unfold state st bMat bPlus bMinus
  rw [Matrix.mulVec_mulVec]
  by_cases hσ : 0 < σ
  · simp only [if_pos hσ, mul_one, a]
  · simp only [if_neg hσ, mul_one, b]

section
variable (h : Dihedral (· < N) Tr Z n) (hp : p = 1 ∨ p = -1)
include h hp

omit h in
theorem p_facts : (p : ℂ) * p = 1 ∧ conj (p : ℂ) = p := by
  rcases hp with rfl | rfl <;> simp

theorem st_block (σ : Int) (s : ℕ) : InBlock (opMat N Tr) (opMat N Z) (2 * Real.pi * k / n) p (st N Tr Z n k p σ s) := by
  obtain ⟨h1, h2⟩ := p_facts hp
  have hn := h.cyc.pos
  obtain ⟨b1, b2, b3, b4⟩ := b_block (K := 1) (dih h) (om_unit n k) (om_order hn) h1
  have hs : om n k + conj (om n k) = ((2 * Real.cos (2 * Real.pi * k / n) : ℝ) : ℂ) := by
    have := om_cos (k := k) (T := 1) one_pos hn 1
    rw [pow_one, wave_eq one_pos hn, Nat.cast_one, mul_one] at this
    rw [this]
    simp only [map_add, map_mul, Complex.conj_ofReal, Complex.conj_I]
    push_cast
    ring
  rw [hs] at b3 b4
  rw [Matrix.star_eq_conjTranspose] at b3 b4
  unfold st bMat
  split_ifs
  · refine ⟨?_, ?_⟩
    · rw [← Matrix.add_mulVec, Matrix.mulVec_mulVec, b3, Matrix.smul_mulVec]
    · rw [Matrix.mulVec_mulVec, b1, Matrix.smul_mulVec]
  · refine ⟨?_, ?_⟩
    · rw [← Matrix.add_mulVec, Matrix.mulVec_mulVec, b4, Matrix.smul_mulVec]
    · rw [Matrix.mulVec_mulVec, b2, Matrix.smul_mulVec]

/-- the factor 2 for momenta 0 and π -/
noncomputable def kappa (n k : ℕ) : ℝ := open Classical in if om n k ^ 2 = 1 then 2 else 1

omit h hp in
theorem kappa_pos (n k : ℕ) : 0 < kappa n k := by unfold kappa; split_ifs <;> norm_num

/-- overlaps of the states made from one configuration -/
theorem gram_state {s r : ℕ} {γ δ : ℝ} (hs : s < N) (hr : Least Tr s r) (hf : (conj (om n k)) ^ r * (tr Tr s r).2 = 1)
    (hh : Hit Tr Z (om n k) s r γ δ) :
    ip (st N Tr Z n k p 1 s) (st N Tr Z n k p 1 s) = ((kappa n k * n ^ 2 * ((1 + p * γ) / r) : ℝ) : ℂ) ∧
    (om n k ^ 2 ≠ 1 →
      ip (st N Tr Z n k p (-1) s) (st N Tr Z n k p (-1) s) = ((n ^ 2 * ((1 - p * γ) / r) : ℝ) : ℂ) ∧
      ip (st N Tr Z n k p 1 s) (st N Tr Z n k p (-1) s) = ((-(n ^ 2 * (p * δ / r)) : ℝ) : ℂ) ∧
      ip (st N Tr Z n k p (-1) s) (st N Tr Z n k p 1 s) = ((-(n ^ 2 * (p * δ / r)) : ℝ) : ℂ)) := by
  obtain ⟨h1, h2⟩ := p_facts hp
  have hn := h.cyc.pos
  have hu := om_unit n k
  have ho := om_order (k := k) hn
  obtain ⟨w1, w2, w3, w4⟩ := wave_entries h hu ho hs hr hf hh
  have hr0 : (r : ℂ) ≠ 0 := by exact_mod_cast Nat.pos_iff_ne_zero.1 hr.pos
  have e1 : ∀ t, st N Tr Z n k p 1 t = bPlus (opMat N Tr) (opMat N Z) 1 n (om n k) p *ᵥ basisVec N t := fun t => rfl
  have e2 : ∀ t, st N Tr Z n k p (-1) t = bMinus (opMat N Tr) (opMat N Z) 1 n (om n k) p *ᵥ basisVec N t := fun t => rfl
  by_cases hre : om n k ^ 2 = 1
  · refine ⟨?_, fun hx => absurd hre hx⟩
    obtain ⟨g1, _⟩ := ip_waves_real h hu ho h1 h2 hre s s
    rw [e1, g1, w1, w3]
    unfold kappa
    rw [if_pos hre]
    push_cast
    field_simp
  · obtain ⟨g1, g2, g3, g4⟩ := ip_waves h hu ho h1 h2 hre s s
    rw [w1, w3] at g1 g2
    rw [w2, w4] at g3 g4
    rw [e1, e2]
    refine ⟨?_, fun _ => ⟨?_, ?_, ?_⟩⟩
    · rw [g1]; unfold kappa; rw [if_neg hre]; push_cast; field_simp
    · rw [g2]; push_cast; field_simp
    · rw [g3]; push_cast; field_simp; ring
    · rw [g4]; push_cast; field_simp; ring

/-- different orbits -/
theorem st_orthogonal {s t : ℕ} (hs : s < N) (ht : t < N) (ho : ¬ InOrbit Tr Z t s) (σ σ' : Int) :
    ip (st N Tr Z n k p σ s) (st N Tr Z n k p σ' t) = 0 := by
  obtain ⟨h1, h2⟩ := p_facts hp
  have hn := h.cyc.pos
  have hu := om_unit n k
  have hon := om_order (k := k) hn
  obtain ⟨w1, w2, w3, w4⟩ := orbit_zero h hu hon hs ht ho
  unfold st bMat
  by_cases hre : om n k ^ 2 = 1
  · obtain ⟨g1, g2⟩ := ip_waves_real h hu hon h1 h2 hre s t
    rw [g2]
    rw [w1, w3] at g1
    split_ifs
    · rw [g1]; ring
    · rw [Matrix.zero_mulVec, ip_zero]
    · rw [Matrix.zero_mulVec, ip_eq]; simp
    · rw [Matrix.zero_mulVec, ip_eq]; simp
  · obtain ⟨g1, g2, g3, g4⟩ := ip_waves h hu hon h1 h2 hre s t
    rw [w1, w3] at g1 g2
    rw [w2, w4] at g3 g4
    split_ifs
    · rw [g1]; ring
    · rw [g3]; ring
    · rw [g4]; ring
    · rw [g2]; ring

/-- the wave of a configuration in terms of those of its representative -/
theorem st_move (hT : 0 < T) (σ : Int) (hσ : σ = 1 ∨ σ = -1) (x : ℕ) (hx : x < N) (b : Ref)
    (hb : b.g = 0 ∧ (step Tr)^[b.l] (x, 1) = (b.r, b.sign) ∨ b.g = 1 ∧ (step Tr)^[b.l] (step Z (x, 1)) = (b.r, b.sign)) :
    st N Tr Z n k p σ x = ((b.sign : ℂ) * ((σ * p : Int) : ℂ) ^ b.g) •
      (((Real.cos (wave k (T * n) T * b.l) : ℝ) : ℂ) • st N Tr Z n k p σ b.r
        - ((σ * Real.sin (wave k (T * n) T * b.l) : ℝ) : ℂ) • st N Tr Z n k p (-σ) b.r) := by
  obtain ⟨h1, h2⟩ := p_facts hp
  have hn := h.cyc.pos
  have hu := om_unit n k
  have hon := om_order (k := k) hn
  have hd := dih h
  have hb1 : b.sign = 1 ∨ b.sign = -1 := by
    rcases hb with ⟨_, e⟩ | ⟨_, e⟩
    · have := h.cyc.sign_iter hx b.l
      unfold tr at this
      rw [e] at this; exact this
    · rw [semi_step_scale, iter_step_scale] at e
      have e2 := (Prod.ext_iff.1 e).2
      simp only at e2
      rw [← e2, one_mul]
      exact pm_mul (h.sign x hx) (h.cyc.sign_iter (h.closed x hx) b.l)
  have hs2 : (b.sign : ℂ) * b.sign = 1 := by rcases hb1 with e | e <;> rw [e] <;> norm_num
  -- the configuration is obtained from the representative
  have hback : ∀ v w : Fin N → ℂ, opMat N Tr ^ b.l *ᵥ v = w → v = star (opMat N Tr) ^ b.l *ᵥ w := by
    intro v w e
    rw [← e, Matrix.mulVec_mulVec]
    have : ∀ j, star (opMat N Tr) ^ j * opMat N Tr ^ j = 1 := by
      intro j
      induction j with
      | zero => simp
      | succ j ih => rw [pow_succ, pow_succ', mul_assoc, ← mul_assoc (star _), hd.left, one_mul, ih]
    rw [this, Matrix.one_mulVec]
  have hturn := b_turn (p := (p : ℂ)) hd hu hon (central_one (U := opMat N Tr) (R := opMat N Z)) b.l _ _ (om_cos (k := k) hT hn b.l)
  have hrefl := b_refl hd hu hon (central_one (U := opMat N Tr) (R := opMat N Z)) h1
  have key : bMat (opMat N Tr) (opMat N Z) n (om n k) p σ * star (opMat N Tr) ^ b.l
      = ((Real.cos (wave k (T * n) T * b.l) : ℝ) : ℂ) • bMat (opMat N Tr) (opMat N Z) n (om n k) p σ
        - ((σ * Real.sin (wave k (T * n) T * b.l) : ℝ) : ℂ) • bMat (opMat N Tr) (opMat N Z) n (om n k) p (-σ) := by
    rcases hσ with rfl | rfl
    · unfold bMat
      rw [if_pos (by norm_num), if_neg (by norm_num), hturn.1]
      push_cast
      rw [one_mul]
    · unfold bMat
      rw [if_neg (by norm_num), if_pos (by norm_num), hturn.2]
      push_cast
      rw [neg_mul, one_mul, neg_smul, sub_neg_eq_add]
  have keyR : bMat (opMat N Tr) (opMat N Z) n (om n k) p σ * opMat N Z = ((σ * p : Int) : ℂ) • bMat (opMat N Tr) (opMat N Z) n (om n k) p σ := by
    rcases hσ with rfl | rfl
    · unfold bMat
      rw [if_pos (by norm_num), hrefl.1]; push_cast; rw [one_mul]
    · unfold bMat
      rw [if_neg (by norm_num), hrefl.2]; push_cast; rw [neg_mul, one_mul, neg_smul]
  have move : ∀ v : Fin N → ℂ, opMat N Tr ^ b.l *ᵥ v = vec N (b.r, b.sign) →
      bMat (opMat N Tr) (opMat N Z) n (om n k) p σ *ᵥ v = (b.sign : ℂ) • (((Real.cos (wave k (T * n) T * b.l) : ℝ) : ℂ) • st N Tr Z n k p σ b.r
        - ((σ * Real.sin (wave k (T * n) T * b.l) : ℝ) : ℂ) • st N Tr Z n k p (-σ) b.r) := by
    intro v hv
    rw [hback v _ hv, Matrix.mulVec_mulVec, key, vec_scale, Matrix.mulVec_smul, Matrix.sub_mulVec, Matrix.smul_mulVec, Matrix.smul_mulVec]
    rfl
  rcases hb with ⟨g0, e⟩ | ⟨g1, e⟩
  · rw [g0, pow_zero, mul_one]
    have := move (basisVec N x) (by rw [← vec_one, pow_vec h.cyc _ _ (by exact hx), e])
    exact this
  · rw [g1, pow_one]
    have := move (opMat N Z *ᵥ basisVec N x) (by
      rw [← vec_one, opMat_vec _ _ (by exact hx), pow_vec h.cyc _ (step Z (x, 1)) (h.closed x hx), e])
    rw [Matrix.mulVec_mulVec, keyR, Matrix.smul_mulVec] at this
    have hsp : ((σ * p : Int) : ℂ) * ((σ * p : Int) : ℂ) = 1 := by
      rcases hσ with rfl | rfl <;> rcases hp with rfl | rfl <;> norm_num
    have e2 : st N Tr Z n k p σ x = ((σ * p : Int) : ℂ) • (((σ * p : Int) : ℂ) • st N Tr Z n k p σ x) := by
      rw [smul_smul, hsp, one_smul]
    rw [e2]
    refine (congrArg (fun v => ((σ * p : Int) : ℂ) • v) this).trans ?_
    rw [smul_smul, mul_comm]

/-! ### matrix elements -/

omit h hp in
/-- the factor of the code without the norms -/
noncomputable def bracket (p : Int) (k L T l q : ℕ) (σ : Int) (dr : Int × ℕ) : ℝ :=
  ((σ * p : Int) : ℝ) ^ q *
  (if sigmaOf dr = σ then
    (if mmOf L dr < 0 then Real.cos (wave k L T * l)
     else (Real.cos (wave k L T * l) + (fOf L dr : ℝ) * σ * p * Real.cos (((l : Int) - mmOf L dr : Int) * wave k L T)) /
       (1 + (fOf L dr : ℝ) * σ * p * Real.cos (wave k L T * mmOf L dr)))
   else
    (if mmOf L dr < 0 then -(σ : ℝ) * Real.sin (wave k L T * l)
     else (-(σ : ℝ) * Real.sin (wave k L T * l) + (fOf L dr : ℝ) * p * Real.sin (((l : Int) - mmOf L dr : Int) * wave k L T)) /
       (1 - (fOf L dr : ℝ) * σ * p * Real.cos (wave k L T * mmOf L dr))))

omit h hp in
theorem element_eq (p : Int) (k L T l q : ℕ) (dc dr : Int × ℕ) : elementT_P p k L T l q dc dr
    = Real.sqrt (weightT_P p k L T dr / weightT_P p k L T dc) * bracket p k L T l q (sigmaOf dc) dr := by
  unfold elementT_P bracket
  rw [mul_assoc]

omit h hp in
theorem bracket_eq {s r : ℕ} {d : Int × ℕ} {γ δ : ℝ} (hk : Kept N Tr Z n k T p s d r γ δ) (l q : ℕ) (σ : Int) :
    bracket p k (T * n) T l q σ d = ((σ * p : Int) : ℝ) ^ q *
      (if sigmaOf d = σ then (Real.cos (wave k (T * n) T * l) + σ * p * (γ * Real.cos (wave k (T * n) T * l) + δ * Real.sin (wave k (T * n) T * l)))
         / (1 + σ * p * γ)
       else (-(σ : ℝ) * Real.sin (wave k (T * n) T * l) + p * (γ * Real.sin (wave k (T * n) T * l) - δ * Real.cos (wave k (T * n) T * l)))
         / (1 - σ * p * γ)) := by
  unfold bracket
  congr 1
  have e : ((((l : Int) - mmOf (T * n) d : Int) : ℝ) * wave k (T * n) T) = wave k (T * n) T * l - wave k (T * n) T * mmOf (T * n) d := by
    push_cast; ring
  rw [e]
  rcases hk.code with ⟨h1, h2, h3⟩ | ⟨h1, h2, h3⟩
  · simp only [if_neg (show ¬ mmOf (T * n) d < 0 by omega)]
    rw [Real.cos_sub, Real.sin_sub, h2, h3]
    split_ifs
    · congr 1 <;> ring
    · congr 1 <;> ring
  · rw [if_pos h1, if_pos h1, h2, h3]
    split_ifs <;> simp

/-- overlap of an entry with the two waves of its configuration -/
theorem overlap_at (hT : 0 < T) {s r : ℕ} {d : Int × ℕ} {γ δ : ℝ} (hk : Kept N Tr Z n k T p s d r γ δ) (σ : Int) (hσ : σ = 1 ∨ σ = -1)
    (hre : 2 * k * T % (T * n) = 0 → σ = 1 ∧ sigmaOf d = 1) (b : Ref) :
    (b.sign : ℂ) * ((σ * p : Int) : ℂ) ^ b.g *
      (((Real.cos (wave k (T * n) T * b.l) : ℝ) : ℂ) * ip (st N Tr Z n k p (sigmaOf d) s) (st N Tr Z n k p σ s)
        - ((σ * Real.sin (wave k (T * n) T * b.l) : ℝ) : ℂ) * ip (st N Tr Z n k p (sigmaOf d) s) (st N Tr Z n k p (-σ) s))
      = (((kappa n k * n ^ 2 * weightT_P p k (T * n) T d) * (b.sign * bracket p k (T * n) T b.l b.g σ d) : ℝ) : ℂ) := by
  obtain ⟨g1, g2⟩ := gram_state h hp hk.lt hk.least hk.fit hk.hit
  rw [bracket_eq hk b.l b.g σ, weight_eq hk]
  have hr0 : (r : ℂ) ≠ 0 := by exact_mod_cast Nat.pos_iff_ne_zero.1 hk.least.pos
  have hrr : (r : ℝ) ≠ 0 := by exact_mod_cast Nat.pos_iff_ne_zero.1 hk.least.pos
  have hok := hk.ok
  have hn := h.cyc.pos
  by_cases hreal : 2 * k * T % (T * n) = 0
  · obtain ⟨s1, s2⟩ := hre hreal
    have hsin : Real.sin (wave k (T * n) T * b.l) = 0 := by
      have e1 : (om n k ^ b.l) ^ 2 = 1 := by rw [← pow_mul, mul_comm, pow_mul, (om_real hT hn).2 hreal, one_pow]
      rw [om_cos hT hn] at e1
      have e2 := congrArg Complex.im e1
      have e3 := congrArg Complex.re e1
      simp [sq, Complex.add_re, Complex.add_im, Complex.mul_re, Complex.mul_im, -Complex.ofReal_cos, -Complex.ofReal_sin] at e2 e3
      have e4 := Real.sin_sq_add_cos_sq (wave k (T * n) T * b.l)
      nlinarith
    rw [s2] at hok
    rw [s1, s2, g1, hsin, if_pos rfl]
    norm_cast
    push_cast
    have hok' : 1 + (p : ℝ) * γ ≠ 0 := by intro h0; apply hok; push_cast; rw [one_mul]; exact h0
    simp only [mul_zero, zero_mul, sub_zero, one_mul, add_zero]
    have e5 : (Real.cos (wave k (T * n) T * b.l) + p * (γ * Real.cos (wave k (T * n) T * b.l))) / (1 + p * γ) = Real.cos (wave k (T * n) T * b.l) := by
      rw [div_eq_iff hok']; ring
    rw [← Complex.ofReal_one]
    norm_cast
    rw [e5]
    push_cast
    ring
  · have hne : om n k ^ 2 ≠ 1 := fun e => hreal ((om_real hT hn).1 e)
    obtain ⟨q2, q3, q4⟩ := g2 hne
    have hka : kappa n k = 1 := by unfold kappa; rw [if_neg hne]
    rw [hka] at g1 ⊢
    rcases hσ with rfl | rfl <;> rcases hk.sig with e | e <;> rw [e] at hok ⊢
    · rw [g1, q3, if_pos rfl]
      norm_cast
      push_cast at hok ⊢
      have hok' : 1 + (p : ℝ) * γ ≠ 0 := by intro h0; apply hok; linear_combination h0
      rw [show 1 + 1 * (p : ℝ) * γ = 1 + p * γ by ring]
      field_simp
      ring
    · rw [if_neg (by norm_num), q4, q2]
      norm_cast
      push_cast at hok ⊢
      have hok' : 1 - (p : ℝ) * γ ≠ 0 := by intro h0; apply hok; linear_combination h0
      rw [show 1 + -1 * (p : ℝ) * γ = 1 - p * γ by ring, show 1 - 1 * (p : ℝ) * γ = 1 - p * γ by ring]
      field_simp
      ring
    · rw [if_neg (by norm_num), neg_neg, q3, g1]
      norm_cast
      push_cast at hok ⊢
      have hok' : 1 + (p : ℝ) * γ ≠ 0 := by intro h0; apply hok; linear_combination h0
      rw [show 1 - -1 * (p : ℝ) * γ = 1 + p * γ by ring, show 1 + 1 * (p : ℝ) * γ = 1 + p * γ by ring]
      field_simp
      ring
    · rw [if_pos rfl, neg_neg, q2, q4]
      norm_cast
      push_cast at hok ⊢
      have hok' : 1 - (p : ℝ) * γ ≠ 0 := by intro h0; apply hok; linear_combination h0
      rw [show 1 + -1 * (p : ℝ) * γ = 1 - p * γ by ring]
      field_simp
      ring

/-- overlap of an entry with the wave of a configuration -/
theorem overlap (hT : 0 < T) {s r : ℕ} {d : Int × ℕ} {γ δ : ℝ} (hk : Kept N Tr Z n k T p s d r γ δ) (σ : Int) (hσ : σ = 1 ∨ σ = -1)
    (hre : 2 * k * T % (T * n) = 0 → σ = 1 ∧ sigmaOf d = 1) (x : ℕ) (hx : x < N) :
    ip (st N Tr Z n k p (sigmaOf d) s) (st N Tr Z n k p σ x) =
      if (refT_Z Tr Z (T * n) T x).r = s then (((kappa n k * n ^ 2 * weightT_P p k (T * n) T d) *
        ((refT_Z Tr Z (T * n) T x).sign * bracket p k (T * n) T (refT_Z Tr Z (T * n) T x).l (refT_Z Tr Z (T * n) T x).g σ d) : ℝ) : ℂ) else 0 := by
  obtain ⟨b1, b2, b3⟩ := h.ref_spec (L := T * n) (T := T) (Nat.mul_div_cancel_left n hT) x hx
  generalize refT_Z Tr Z (T * n) T x = b at b1 b2 b3 ⊢
  rw [st_move h hp hT σ hσ x hx b b1, ip_smul, ip_sub, ip_smul, ip_smul]
  by_cases hb : b.r = s
  swap
  · have ho : ¬ InOrbit Tr Z b.r s := fun ho => hb (h.top_unique b2 b3 hk.top ho)
    rw [if_neg hb, st_orthogonal h hp hk.lt b2 ho, st_orthogonal h hp hk.lt b2 ho]
    ring
  rw [if_pos hb, hb]
  exact overlap_at h hp hT hk σ hσ hre b

end
end Proof.Semi
