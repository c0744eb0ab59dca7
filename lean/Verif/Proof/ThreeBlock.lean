import Verif.Proof.ThreeKeep
import Verif.Proof.SemiBasis
/-! The states of a block of momentum, reflection and inversion: `1 + z Z` applied to the states of the block of momentum and reflection. -/
namespace Proof.Semi
open Spec Spec.Semi Model.Chain Proof.Chain Model
open scoped BigOperators ComplexConjugate Matrix

variable {N : ℕ} {Tr P Z R : BitOp} {n k T : ℕ} {p z pR : Int}

/-- `1 + z Z` -/
noncomputable def kMat (N : ℕ) (Z : BitOp) (z : Int) : Matrix (Fin N) (Fin N) ℂ := 1 + (z : ℂ) • opMat N Z

/-- the state of a configuration -/
noncomputable def st3 (N : ℕ) (Tr P Z : BitOp) (n k : ℕ) (p z σ : Int) (s : ℕ) : Fin N → ℂ := kMat N Z z *ᵥ st N Tr P n k p σ s

section
variable (h : Triad (· < N) Tr P Z n)
include h

theorem opZ_sq : opMat N Z * opMat N Z = 1 := by
  apply ext_basis
  intro s hs
  rw [← Matrix.mulVec_mulVec, ← vec_one, opMat_vec _ (s, 1) hs, opMat_vec _ (step Z (s, 1)) (h.closed s hs), h.square s hs, Matrix.one_mulVec]

theorem opZ_herm : (opMat N Z)ᴴ = opMat N Z := by
  have h1 : (opMat N Z)ᴴ * opMat N Z = 1 := by
    apply unitary_of h.closed h.sign
    intro s t hs ht e
    have := h.inv_inv hs
    rw [e, h.inv_inv ht] at this
    exact this.symm
  calc (opMat N Z)ᴴ = (opMat N Z)ᴴ * (opMat N Z * opMat N Z) := by rw [opZ_sq h, Matrix.mul_one]
    _ = opMat N Z := by rw [← Matrix.mul_assoc, h1, Matrix.one_mul]

theorem opZ_tr : opMat N Z * opMat N Tr = opMat N Tr * opMat N Z := by
  apply ext_basis
  intro s hs
  rw [← Matrix.mulVec_mulVec, ← Matrix.mulVec_mulVec, ← vec_one, opMat_vec _ (s, 1) hs, opMat_vec _ (s, 1) hs,
    opMat_vec _ (step Z (s, 1)) (h.closed s hs), opMat_vec _ (step Tr (s, 1)) (h.dih.cyc.closed s hs), h.commT s hs]

theorem opZ_refl : opMat N Z * opMat N P = opMat N P * opMat N Z := by
  apply ext_basis
  intro s hs
  rw [← Matrix.mulVec_mulVec, ← Matrix.mulVec_mulVec, ← vec_one, opMat_vec _ (s, 1) hs, opMat_vec _ (s, 1) hs,
    opMat_vec _ (step Z (s, 1)) (h.closed s hs), opMat_vec _ (step P (s, 1)) (h.dih.closed s hs), h.commP s hs]

theorem opProd : opMat N (andThen P Z) = opMat N Z * opMat N P := opMat_comp h.dih.closed

theorem k_sq (hz : z = 1 ∨ z = -1) : kMat N Z z * kMat N Z z = (2 : ℂ) • kMat N Z z := by
  have e := opZ_sq h
  have e2 : (z : ℂ) * z = 1 := by rcases hz with rfl | rfl <;> norm_num
  unfold kMat
  simp only [add_mul, mul_add, one_mul, mul_one, smul_mul_assoc, mul_smul_comm, e]
  rw [smul_add, smul_smul, e2, one_smul, two_smul]
  abel

theorem k_herm : (kMat N Z z)ᴴ = kMat N Z z := by
  unfold kMat
  rw [Matrix.conjTranspose_add, Matrix.conjTranspose_one, Matrix.conjTranspose_smul, opZ_herm h]
  simp

theorem k_z (hz : z = 1 ∨ z = -1) : kMat N Z z * opMat N Z = (z : ℂ) • kMat N Z z := by
  have e2 : (z : ℂ) * z = 1 := by rcases hz with rfl | rfl <;> norm_num
  unfold kMat
  rw [add_mul, one_mul, smul_mul_assoc, opZ_sq h, smul_add, smul_smul, e2, one_smul, add_comm]

theorem z_k (hz : z = 1 ∨ z = -1) : opMat N Z * kMat N Z z = (z : ℂ) • kMat N Z z := by
  have e2 : (z : ℂ) * z = 1 := by rcases hz with rfl | rfl <;> norm_num
  unfold kMat
  rw [mul_add, mul_one, mul_smul_comm, opZ_sq h, smul_add, smul_smul, e2, one_smul, add_comm]

/-- the reflections that give the same block -/
def Choice (P Z : BitOp) (p z : Int) (R : BitOp) (pR : Int) : Prop := R = P ∧ pR = p ∨ R = andThen P Z ∧ pR = p * z

theorem choice_dih (hR : Choice P Z p z R pR) : Dihedral (· < N) Tr R n := by
  rcases hR with ⟨rfl, _⟩ | ⟨rfl, _⟩
  · exact h.dih
  · exact h.prodDih

omit h in
theorem choice_pm (hp : p = 1 ∨ p = -1) (hz : z = 1 ∨ z = -1) (hR : Choice P Z p z R pR) : pR = 1 ∨ pR = -1 := by
  rcases hR with ⟨_, rfl⟩ | ⟨_, rfl⟩
  · exact hp
  · exact pm_mul hp hz

theorem choice_comm (hR : Choice P Z p z R pR) : opMat N Z * opMat N R = opMat N R * opMat N Z := by
  rcases hR with ⟨rfl, _⟩ | ⟨rfl, _⟩
  · exact opZ_refl h
  · rw [opProd h, Matrix.mul_assoc, ← opZ_refl h]

theorem z_bMat (hR : Choice P Z p z R pR) (σ : Int) : opMat N Z * bMat (opMat N Tr) (opMat N R) n (om n k) pR σ
    = bMat (opMat N Tr) (opMat N R) n (om n k) pR σ * opMat N Z := by
  obtain ⟨c1, c2⟩ := b_commute (n := n) (ω := om n k) (p := (pR : ℂ)) (K := 1) (opZ_tr h) (choice_comm h hR) (by rw [mul_one, one_mul])
  unfold bMat
  split_ifs
  · exact c1
  · exact c2

theorem k_choice (hz : z = 1 ∨ z = -1) (hR : Choice P Z p z R pR) (σ : Int) (s : ℕ) : st3 N Tr P Z n k p z σ s = kMat N Z z *ᵥ st N Tr R n k pR σ s := by
  rcases hR with ⟨rfl, rfl⟩ | ⟨rfl, rfl⟩
  · rfl
  have key : kMat N Z z * (1 + (p : ℂ) • opMat N P) = kMat N Z z * (1 + ((p * z : Int) : ℂ) • opMat N (andThen P Z)) := by
    rw [opProd h, mul_add, mul_add, mul_smul_comm, mul_smul_comm, ← Matrix.mul_assoc, k_z h hz, smul_mul_assoc, smul_smul]
    have e2 : (z : ℂ) * z = 1 := by rcases hz with rfl | rfl <;> norm_num
    congr 2
    push_cast
    linear_combination -(p : ℂ) * e2
  unfold st3 st bMat bPlus bMinus
  split_ifs <;> simp only [mul_one, Matrix.mulVec_mulVec, ← Matrix.mul_assoc, key]

/-- the inversion of a state -/
theorem z_st (hR : Choice P Z p z R pR) (σ : Int) {s : ℕ} (hs : s < N) : opMat N Z *ᵥ st N Tr R n k pR σ s = ((Z s).2 : ℂ) • st N Tr R n k pR σ (Z s).1 := by
  unfold st
  rw [Matrix.mulVec_mulVec, z_bMat h hR, ← Matrix.mulVec_mulVec, opMat_basis Z s hs, vec, Matrix.mulVec_smul]

theorem ip_k (hz : z = 1 ∨ z = -1) (v w : Fin N → ℂ) : ip (kMat N Z z *ᵥ v) (kMat N Z z *ᵥ w) = 2 * (ip v w + z * ip v (opMat N Z *ᵥ w)) := by
  rw [ip_adjoint, k_herm h, k_sq h hz, Matrix.smul_mulVec, ip_smul]
  unfold kMat
  rw [Matrix.add_mulVec, Matrix.one_mulVec, Matrix.smul_mulVec, ip_add, ip_smul]

/-- `1 + z Z` on a configuration: the inverted one -/
theorem st3_inv (hz : z = 1 ∨ z = -1) (σ : Int) {s : ℕ} (hs : s < N) :
    st3 N Tr P Z n k p z σ s = ((z : ℂ) * (Z s).2) • st3 N Tr P Z n k p z σ (Z s).1 := by
  have hR : Choice P Z p z P p := Or.inl ⟨rfl, rfl⟩
  have e2 : (z : ℂ) * z = 1 := by rcases hz with rfl | rfl <;> norm_num
  have e1 : st3 N Tr P Z n k p z σ s = (z : ℂ) • ((kMat N Z z * opMat N Z) *ᵥ st N Tr P n k p σ s) := by
    rw [k_z h hz, Matrix.smul_mulVec, smul_smul, e2, one_smul]; rfl
  rw [e1, ← Matrix.mulVec_mulVec, z_st h hR σ hs, Matrix.mulVec_smul, smul_smul]
  rfl

/-- a configuration and its representative -/
theorem st3_move (hp : p = 1 ∨ p = -1) (hz : z = 1 ∨ z = -1) (hT : 0 < T) (σ : Int) (hσ : σ = 1 ∨ σ = -1) {x : ℕ} (hx : x < N) (b : Ref)
    (hb : ∃ y : ℕ × Int, (b.g / 2 = 0 ∧ y = (x, 1) ∨ b.g / 2 = 1 ∧ y = step Z (x, 1)) ∧
      (b.g % 2 = 0 ∧ (step Tr)^[b.l] y = (b.r, b.sign) ∨ b.g % 2 = 1 ∧ (step Tr)^[b.l] (step P y) = (b.r, b.sign))) :
    st3 N Tr P Z n k p z σ x = ((b.sign : ℂ) * (z : ℂ) ^ (b.g / 2) * ((σ * p : Int) : ℂ) ^ (b.g % 2)) •
      (((Real.cos (wave k (T * n) T * b.l) : ℝ) : ℂ) • st3 N Tr P Z n k p z σ b.r
        - ((σ * Real.sin (wave k (T * n) T * b.l) : ℝ) : ℂ) • st3 N Tr P Z n k p z (-σ) b.r) := by
  obtain ⟨y, hy, hb⟩ := hb
  -- the representative of y
  have hyN : y.1 < N := by
    rcases hy with ⟨_, rfl⟩ | ⟨_, rfl⟩
    · exact hx
    · exact h.closed x hx
  have hy2 : y.2 = 1 ∨ y.2 = -1 := by
    rcases hy with ⟨_, rfl⟩ | ⟨_, rfl⟩
    · left; rfl
    · have : (step Z (x, 1)).2 = (Z x).2 := by unfold step; simp
      rw [this]; exact h.sign x hx
  have hyy : y.2 * y.2 = 1 := by rcases hy2 with e | e <;> rw [e] <;> norm_num
  have hm := st_move (k := k) h.dih hp hT σ hσ y.1 hyN ⟨b.r, y.2 * b.sign, b.l, b.g % 2⟩ (by
    rcases hb with ⟨h1, h2⟩ | ⟨h1, h2⟩
    · left
      refine ⟨h1, ?_⟩
      rw [show y = (y.1, y.2) from rfl, iter_step_scale, Prod.mk.injEq] at h2
      simp only
      rw [show (step Tr)^[b.l] (y.1, 1) = (tr Tr y.1 b.l) from rfl]
      refine Prod.ext h2.1 ?_
      simp only
      rw [← h2.2, ← mul_assoc, hyy, one_mul]
    · right
      refine ⟨h1, ?_⟩
      rw [show y = (y.1, y.2) from rfl, semi_step_scale, iter_step_scale, Prod.mk.injEq] at h2
      simp only
      rw [semi_step_scale, iter_step_scale]
      refine Prod.ext h2.1 ?_
      simp only
      rw [← h2.2]
      linear_combination -(P y.1).2 * (tr Tr (P y.1).1 b.l).2 * hyy)
  simp only at hm
  have hm3 : st3 N Tr P Z n k p z σ y.1 = (((y.2 * b.sign : Int) : ℂ) * ((σ * p : Int) : ℂ) ^ (b.g % 2)) •
      (((Real.cos (wave k (T * n) T * b.l) : ℝ) : ℂ) • st3 N Tr P Z n k p z σ b.r
        - ((σ * Real.sin (wave k (T * n) T * b.l) : ℝ) : ℂ) • st3 N Tr P Z n k p z (-σ) b.r) := by
    unfold st3
    rw [hm, Matrix.mulVec_smul, Matrix.mulVec_sub, Matrix.mulVec_smul, Matrix.mulVec_smul]
  rcases hy with ⟨hg, rfl⟩ | ⟨hg, rfl⟩
  · simp only at hm3
    rw [hm3, hg, pow_zero, mul_one, one_mul]
  · have e1 : (step Z (x, 1)).1 = (Z x).1 := rfl
    have e2 : (step Z (x, 1)).2 = (Z x).2 := by unfold step; simp
    rw [e1, e2] at hm3
    rw [e2] at hyy
    rw [st3_inv h hz σ hx, hm3, hg, pow_one, smul_smul]
    congr 1
    have : ((Z x).2 : ℂ) * (Z x).2 = 1 := by exact_mod_cast hyy
    push_cast
    linear_combination (z : ℂ) * b.sign * ((σ : ℂ) * p) ^ (b.g % 2) * this

/-- different representatives -/
theorem st3_orthogonal (hp : p = 1 ∨ p = -1) (hz : z = 1 ∨ z = -1) {s t : ℕ} (hs : s < N) (ht : t < N) (h1 : Top3 Tr P Z s) (h2 : Top3 Tr P Z t) (hne : s ≠ t) (σ σ' : Int) :
    ip (st3 N Tr P Z n k p z σ s) (st3 N Tr P Z n k p z σ' t) = 0 := by
  have hR : Choice P Z p z P p := Or.inl ⟨rfl, rfl⟩
  unfold st3
  rw [ip_k h hz, z_st h hR σ' ht, ip_smul]
  rw [st_orthogonal h.dih hp hs ht, st_orthogonal h.dih hp hs (h.closed t ht)]
  · ring
  · rintro (⟨j, e⟩ | ⟨j, e⟩)
    · exact hne (h.top_unique ht h1 h2 j (by right; right; left; exact e))
    · refine hne (h.top_unique ht h1 h2 j (by
        right; right; right
        have e2 : (P (Z t).1).1 = (andThen P Z t).1 := by have := congrArg Prod.fst (h.prod_step (t, 1) ht); exact this
        rw [← e2]; exact e))
  · rintro (⟨j, e⟩ | ⟨j, e⟩)
    · exact hne (h.top_unique ht h1 h2 j (Or.inl e))
    · exact hne (h.top_unique ht h1 h2 j (Or.inr (Or.inl e)))

/-- the inversion returns to a translate -/
theorem k_return (hp : p = 1 ∨ p = -1) (hz : z = 1 ∨ z = -1) (hR : Choice P Z p z R pR) (hT : 0 < T) {s : ℕ} (hs : s < N) {i : ℕ} {f : Int}
    (hi : (step Tr)^[i] (step Z (s, 1)) = (s, f)) (hsin : Real.sin (wave k (T * n) T * i) = 0) (σ : Int) (hσ : σ = 1 ∨ σ = -1) :
    kMat N Z z *ᵥ st N Tr R n k pR σ s = ((1 + (z : ℝ) * f * Real.cos (wave k (T * n) T * i) : ℝ) : ℂ) • st N Tr R n k pR σ s := by
  have hd := choice_dih h hR
  have hpR := choice_pm hp hz hR
  have hzz : (Z s).2 * (Z s).2 = 1 := by rcases h.sign s hs with e | e <;> rw [e] <;> norm_num
  rw [semi_step_scale, iter_step_scale, Prod.mk.injEq] at hi
  have hm := st_move (k := k) hd hpR hT σ hσ (Z s).1 (h.closed s hs) ⟨s, (Z s).2 * f, i, 0⟩ (by
    left
    refine ⟨rfl, ?_⟩
    simp only
    rw [show (step Tr)^[i] ((Z s).1, 1) = (tr Tr (Z s).1 i) from rfl]
    refine Prod.ext hi.1 ?_
    simp only
    rw [← hi.2, one_mul, ← mul_assoc, hzz, one_mul])
  simp only [hsin, mul_zero, Complex.ofReal_zero, zero_smul, sub_zero, pow_zero, mul_one] at hm
  unfold kMat
  rw [Matrix.add_mulVec, Matrix.one_mulVec, Matrix.smul_mulVec, z_st h hR σ hs, hm, smul_smul, smul_smul, smul_smul]
  nth_rewrite 1 [← one_smul ℂ (st N Tr R n k pR σ s)]
  rw [← add_smul]
  congr 1
  have : ((Z s).2 : ℂ) * (Z s).2 = 1 := by exact_mod_cast hzz
  push_cast
  linear_combination (z : ℂ) * f * Complex.cos (wave k (T * n) T * i) * this

/-- the factor `c` of the states of one configuration -/
theorem ip_same (hp : p = 1 ∨ p = -1) (hz : z = 1 ∨ z = -1) (hR : Choice P Z p z R pR) (hT : 0 < T) {s : ℕ} (hs : s < N) {c : ℝ}
    (hc : c = 1 ∧ ¬ InOrbit Tr R (Z s).1 s ∨ c = 2 ∧ ∃ (i : ℕ) (f : Int), (step Tr)^[i] (step Z (s, 1)) = (s, f) ∧ Real.sin (wave k (T * n) T * i) = 0 ∧
      1 + (z : ℝ) * f * Real.cos (wave k (T * n) T * i) = 2) (σ σ' : Int) (hσ : σ = 1 ∨ σ = -1) (hσ' : σ' = 1 ∨ σ' = -1) :
    ip (st3 N Tr P Z n k p z σ s) (st3 N Tr P Z n k p z σ' s) = 2 * c * ip (st N Tr R n k pR σ s) (st N Tr R n k pR σ' s) := by
  rw [k_choice h hz hR, k_choice h hz hR]
  rcases hc with ⟨rfl, ho⟩ | ⟨rfl, i, f, hi, hsin, he⟩
  · rw [ip_k h hz, z_st h hR σ' hs, ip_smul, st_orthogonal (choice_dih h hR) (choice_pm hp hz hR) hs (h.closed s hs) ho]
    push_cast; ring
  · rw [k_return h hp hz hR hT hs hi hsin σ hσ, k_return h hp hz hR hT hs hi hsin σ' hσ', he, ip_smul, ip_smul_left, Complex.conj_ofReal]
    push_cast; ring

end

/-- what is known of an entry of the list of a configuration -/
structure Kept3 (N : ℕ) (Tr P Z : BitOp) (n k T : ℕ) (p z : Int) (s : ℕ) (d3 : Int × ℕ) : Prop where
  lt : s < N
  top : Top3 Tr P Z s
  ex : ∃ (R : BitOp) (pR : Int) (c : ℝ) (d : Int × ℕ) (r : ℕ) (γ δ : ℝ), Choice P Z p z R pR ∧ 0 < c ∧ Kept N Tr R n k T pR s d r γ δ ∧ Agree p z pR k (T * n) T c d d3 ∧
    (c = 1 ∧ ¬ InOrbit Tr R (Z s).1 s ∨ c = 2 ∧ ∃ (i : ℕ) (f : Int), (step Tr)^[i] (step Z (s, 1)) = (s, f) ∧ Real.sin (wave k (T * n) T * i) = 0 ∧
      1 + (z : ℝ) * f * Real.cos (wave k (T * n) T * i) = 2) ∧ 0 < weightT_P pR k (T * n) T d
  sig : sigmaOf d3 = 1 ∨ sigmaOf d3 = -1
  real : 2 * k * T % (T * n) = 0 → sigmaOf d3 = 1

section
variable (h : Triad (· < N) Tr P Z n) (hp : p = 1 ∨ p = -1) (hz : z = 1 ∨ z = -1) (hT : 0 < T)
include h hp hz hT

theorem kept3_of_mem {s : ℕ} (hs : s < N) {d3 : Int × ℕ} (hd : d3 ∈ keepT_P_Z Tr P Z p z k (T * n) T s) : Kept3 N Tr P Z n k T p z s d3 := by
  obtain ⟨r, hr, _⟩ := exists_least h.dih.cyc hs
  obtain ⟨a1, a2⟩ := three_cases (k := k) (p := p) h hT hz hs hr
  by_cases hg : Top3 Tr P Z s ∧ (conj (om n k)) ^ r * (tr Tr s r).2 = 1
  swap
  · rw [a1 hg] at hd; simp at hd
  have build : ∀ (R : BitOp) (pR : Int) (M : ℕ) (c : ℝ), Choice P Z p z R pR → 0 < c →
      (c = 1 ∧ ¬ InOrbit Tr R (Z s).1 s ∨ c = 2 ∧ ∃ (i : ℕ) (f : Int), (step Tr)^[i] (step Z (s, 1)) = (s, f) ∧ Real.sin (wave k (T * n) T * i) = 0 ∧
      1 + (z : ℝ) * f * Real.cos (wave k (T * n) T * i) = 2) →
      keepT_P_Z Tr P Z p z k (T * n) T s = (keepT_P (checkT_Z Tr R k (T * n) T) pR k (T * n) T s).map (fun d => (d.1, M)) →
      (∀ d ∈ keepT_P (checkT_Z Tr R k (T * n) T) pR k (T * n) T s, Agree p z pR k (T * n) T c d (d.1, M)) → Kept3 N Tr P Z n k T p z s d3 := by
    intro R pR M c hR hc0 hc hk ha
    rw [hk, List.mem_map] at hd
    obtain ⟨d, hd, rfl⟩ := hd
    obtain ⟨r', γ, δ, hkept, hre⟩ := kept_of_mem (choice_dih h hR) hT (choice_pm hp hz hR) hs hd
    have e : sigmaOf (d.1, M) = sigmaOf d := sigmaOf_fst rfl
    exact ⟨hs, hg.1, ⟨R, pR, c, d, r', γ, δ, hR, hc0, hkept, ha d hd, hc, weight_pos (choice_pm hp hz hR) hkept (hkept.sq (choice_dih h hR))⟩,
      by rw [e]; exact hkept.sig, fun hx => by rw [e]; exact hre hx⟩
  obtain ⟨R, pR, M, hR, hc⟩ := a2 hg
  rcases hc with ⟨ho, hk, ha⟩ | ⟨i, f, hi, hsin, ⟨_, hk⟩ | ⟨he, hk, ha⟩⟩
  · exact build R pR M 1 hR one_pos (Or.inl ⟨rfl, ho⟩) hk ha
  · rw [hk] at hd; simp at hd
  · exact build R pR M 2 hR two_pos (Or.inr ⟨rfl, i, f, hi, hsin, he⟩) hk ha

theorem keep3_list {s : ℕ} (hs : s < N) :
    let keep := keepT_P_Z Tr P Z p z k (T * n) T s
    keep.Nodup ∧ keep.length ≤ 2 ∧ (2 * k * T % (T * n) = 0 → keep.length ≤ 1) ∧
    ∀ d ∈ keep, ∀ d' ∈ keep, d ≠ d' → ∀ l : ℕ, l = 0 → bracket3 p z k (T * n) T l (sigmaOf d) d' = 0 := by
  intro keep
  obtain ⟨r, hr, _⟩ := exists_least h.dih.cyc hs
  obtain ⟨a1, a2⟩ := three_cases (k := k) (p := p) h hT hz hs hr
  have nil : keep = [] → keep.Nodup ∧ keep.length ≤ 2 ∧ (2 * k * T % (T * n) = 0 → keep.length ≤ 1) ∧
    ∀ d ∈ keep, ∀ d' ∈ keep, d ≠ d' → ∀ l : ℕ, l = 0 → bracket3 p z k (T * n) T l (sigmaOf d) d' = 0 := by
    intro e; rw [e]; simp
  by_cases hg : Top3 Tr P Z s ∧ (conj (om n k)) ^ r * (tr Tr s r).2 = 1
  swap
  · exact nil (a1 hg)
  have build : ∀ (R : BitOp) (pR : Int) (M : ℕ) (c : ℝ), Choice P Z p z R pR →
      keep = (keepT_P (checkT_Z Tr R k (T * n) T) pR k (T * n) T s).map (fun d => (d.1, M)) →
      (∀ d ∈ keepT_P (checkT_Z Tr R k (T * n) T) pR k (T * n) T s, Agree p z pR k (T * n) T c d (d.1, M)) →
      keep.Nodup ∧ keep.length ≤ 2 ∧ (2 * k * T % (T * n) = 0 → keep.length ≤ 1) ∧
    ∀ d ∈ keep, ∀ d' ∈ keep, d ≠ d' → ∀ l : ℕ, l = 0 → bracket3 p z k (T * n) T l (sigmaOf d) d' = 0 := by
    intro R pR M c hR hk ha
    obtain ⟨l1, l2, l3, l4⟩ := keep_list (k := k) (choice_dih h hR) hT (choice_pm hp hz hR) hs
    have hsg : ∀ d ∈ keepT_P (checkT_Z Tr R k (T * n) T) pR k (T * n) T s, sigmaOf d = 1 ∨ sigmaOf d = -1 := by
      intro d hd
      obtain ⟨_, _, _, hkept, _⟩ := kept_of_mem (choice_dih h hR) hT (choice_pm hp hz hR) hs hd
      exact hkept.sig
    refine ⟨?_, ?_, ?_, ?_⟩
    · rw [hk]
      refine List.Nodup.map_on ?_ l1
      intro d hd d' hd' e
      by_contra hne
      obtain ⟨_, _, c3⟩ := l4 d hd d' hd' hne
      rw [← sigmaOf_fst (show d.1 = d'.1 from (Prod.ext_iff.1 e).1)] at c3
      rcases hsg d hd with e | e <;> rw [e] at c3 <;> norm_num at c3
    · rw [hk, List.length_map]; exact l2
    · intro hx; rw [hk, List.length_map]; exact l3 hx
    · intro x hx y hy hne l hl
      subst hl
      rw [hk, List.mem_map] at hx hy
      obtain ⟨d, hd, rfl⟩ := hx
      obtain ⟨d', hd', rfl⟩ := hy
      have hdd : d ≠ d' := fun e => hne (by rw [e])
      obtain ⟨_, c2, c3⟩ := l4 d hd d' hd' hdd
      rw [(ha d' hd').bracket, sigmaOf_fst (show (d.1, M).1 = d.1 from rfl)]
      unfold bracket
      rw [if_neg (by rw [c3]; rcases hsg d hd with e | e <;> rw [e] <;> norm_num), if_pos c2]
      simp
  obtain ⟨R, pR, M, hR, hc⟩ := a2 hg
  rcases hc with ⟨ho, hk, ha⟩ | ⟨i, f, hi, hsin, ⟨_, hk⟩ | ⟨he, hk, ha⟩⟩
  · exact build R pR M 1 hR hk ha
  · exact nil hk
  · exact build R pR M 2 hR hk ha

/-- overlap of an entry with the state of a configuration -/
theorem overlap3 {s : ℕ} {d : Int × ℕ} (hk : Kept3 N Tr P Z n k T p z s d) (σ : Int) (hσ : σ = 1 ∨ σ = -1)
    (hre : 2 * k * T % (T * n) = 0 → σ = 1) {x : ℕ} (hx : x < N) :
    ip (st3 N Tr P Z n k p z (sigmaOf d) s) (st3 N Tr P Z n k p z σ x) =
      if (refT_P_Z Tr P Z (T * n) T x).r = s then (((2 * (kappa n k * n ^ 2) * weightT_P_Z p z k (T * n) T d) *
        ((refT_P_Z Tr P Z (T * n) T x).sign * (((σ * p : Int) : ℝ) ^ ((refT_P_Z Tr P Z (T * n) T x).g % 2) * (z : ℝ) ^ ((refT_P_Z Tr P Z (T * n) T x).g / 2) *
          bracket3 p z k (T * n) T (refT_P_Z Tr P Z (T * n) T x).l σ d)) : ℝ) : ℂ) else 0 := by
  obtain ⟨b1, b2, b3⟩ := h.ref_spec (L := T * n) (T := T) (Nat.mul_div_cancel_left n hT) x hx
  generalize refT_P_Z Tr P Z (T * n) T x = b at b1 b2 b3 ⊢
  rw [st3_move (k := k) h hp hz hT σ hσ hx b b1, ip_smul, ip_sub, ip_smul, ip_smul]
  by_cases hb : b.r = s
  swap
  · rw [if_neg hb, st3_orthogonal h hp hz hk.lt b2 hk.top b3 (Ne.symm hb), st3_orthogonal h hp hz hk.lt b2 hk.top b3 (Ne.symm hb)]
    ring
  rw [if_pos hb, hb]
  have hmσ : -σ = 1 ∨ -σ = -1 := by rcases hσ with rfl | rfl <;> norm_num
  obtain ⟨R, pR, c, d', r, γ, δ, hR, hc0, hkept, hag, hc, _⟩ := hk.ex
  have e : sigmaOf d = sigmaOf d' := sigmaOf_fst hag.num
  rw [ip_same h hp hz hR hT hk.lt hc _ _ hk.sig hσ, ip_same h hp hz hR hT hk.lt hc _ _ hk.sig hmσ, hag.weight, hag.bracket]
  have ho := overlap_at (k := k) (choice_dih h hR) (choice_pm hp hz hR) hT hkept σ hσ (fun hx => ⟨hre hx, by rw [← e]; exact hk.real hx⟩) ⟨s, 1, b.l, 0⟩
  simp only [pow_zero, mul_one, Int.cast_one, one_mul] at ho
  rw [← e] at ho
  generalize ip (st N Tr R n k pR (sigmaOf d) s) (st N Tr R n k pR σ s) = A at ho ⊢
  generalize ip (st N Tr R n k pR (sigmaOf d) s) (st N Tr R n k pR (-σ) s) = B at ho ⊢
  generalize bracket pR k (T * n) T b.l 0 σ d' = C at ho ⊢
  generalize weightT_P pR k (T * n) T d' = W at ho ⊢
  generalize Real.cos (wave k (T * n) T * b.l) = u at ho ⊢
  generalize Real.sin (wave k (T * n) T * b.l) = v at ho ⊢
  push_cast at ho ⊢
  linear_combination (2 * c : ℂ) * (b.sign * (z : ℂ) ^ (b.g / 2) * ((σ : ℂ) * p) ^ (b.g % 2)) * ho

/-- an entry with itself -/
theorem self3 {s : ℕ} {d : Int × ℕ} (hk : Kept3 N Tr P Z n k T p z s d) : 0 < weightT_P_Z p z k (T * n) T d ∧ bracket3 p z k (T * n) T 0 (sigmaOf d) d = 1 ∧
    refT_P_Z Tr P Z (T * n) T s = ⟨s, 1, 0, 0⟩ := by
  obtain ⟨R, pR, c, d', r, γ, δ, hR, hc0, hkept, hag, hc, hw⟩ := hk.ex
  have e : sigmaOf d = sigmaOf d' := sigmaOf_fst hag.num
  refine ⟨by rw [hag.weight]; exact mul_pos hc0 hw, ?_, hk.top.ref⟩
  rw [hag.bracket, bracket_eq hkept, if_pos e.symm, e]
  have hok := hkept.ok
  simp only [pow_zero, Nat.cast_zero, mul_zero, Real.cos_zero, Real.sin_zero, mul_one, add_zero, one_mul]
  exact div_self hok

end
end Proof.Semi
