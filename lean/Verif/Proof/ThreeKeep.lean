import Verif.Proof.ThreeOrbit
/-! What is kept of a state in a block of momentum, reflection and inversion, compared with the blocks of momentum and one reflection. -/
namespace Proof.Semi
open Spec Spec.Semi Model.Chain Proof.Chain
open scoped BigOperators ComplexConjugate

set_option linter.unusedSimpArgs false

variable {N : ℕ} {Tr P Z : BitOp} {n k T : ℕ} {p z : Int}

/-- the factor of the code without norms and signs -/
noncomputable def bracket3 (p z : Int) (k L T l : ℕ) (σ : Int) (dr : Int × ℕ) : ℝ :=
  if sigmaOf dr = σ then
    (if caseOf3 L dr = 1 ∨ caseOf3 L dr = 3 then Real.cos (wave k L T * l)
     else if caseOf3 L dr = 2 ∨ caseOf3 L dr = 5 then
      (Real.cos (wave k L T * l) + (fOf3 L dr : ℝ) * σ * p * Real.cos (((l : Int) - (mmOf3 L dr : Int) : Int) * wave k L T)) /
        (1 + (fOf3 L dr : ℝ) * σ * p * Real.cos (wave k L T * ((mmOf3 L dr : Int) : ℝ)))
     else (Real.cos (wave k L T * l) + (fOf3 L dr : ℝ) * σ * p * z * Real.cos (((l : Int) - (mmOf3 L dr : Int) : Int) * wave k L T)) /
        (1 + (fOf3 L dr : ℝ) * σ * p * z * Real.cos (wave k L T * ((mmOf3 L dr : Int) : ℝ))))
  else
    (if caseOf3 L dr = 1 ∨ caseOf3 L dr = 3 then -(σ : ℝ) * Real.sin (wave k L T * l)
     else if caseOf3 L dr = 2 ∨ caseOf3 L dr = 5 then
      (-(σ : ℝ) * Real.sin (wave k L T * l) + (fOf3 L dr : ℝ) * p * Real.sin (((l : Int) - (mmOf3 L dr : Int) : Int) * wave k L T)) /
        (1 - (fOf3 L dr : ℝ) * σ * p * Real.cos (wave k L T * ((mmOf3 L dr : Int) : ℝ)))
     else (-(σ : ℝ) * Real.sin (wave k L T * l) + (fOf3 L dr : ℝ) * p * z * Real.sin (((l : Int) - (mmOf3 L dr : Int) : Int) * wave k L T)) /
        (1 - (fOf3 L dr : ℝ) * σ * p * z * Real.cos (wave k L T * ((mmOf3 L dr : Int) : ℝ))))

theorem element3_eq (p z : Int) (k L T l q g : ℕ) (dc dr : Int × ℕ) : elementT_P_Z p z k L T l q g dc dr
    = Real.sqrt (weightT_P_Z p z k L T dr / weightT_P_Z p z k L T dc) * (((sigmaOf dc * p : Int) : ℝ) ^ q * (z : ℝ) ^ g * bracket3 p z k L T l (sigmaOf dc) dr) := by
  unfold elementT_P_Z bracket3
  simp only [mul_assoc]

theorem decode3 (L a b e : ℕ) (ha : a ≤ L) (hb : b ≤ L) (x : Int) :
    mmOf3 L (x, a + (L + 1) * b + e * (L + 1) ^ 2) = a ∧ nnOf3 L (x, a + (L + 1) * b + e * (L + 1) ^ 2) = b ∧
    codeOf3 L (x, a + (L + 1) * b + e * (L + 1) ^ 2) = e := by
  have e1 : a + (L + 1) * b + e * (L + 1) ^ 2 = a + (L + 1) * (b + (L + 1) * e) := by ring
  have e2 : (a + (L + 1) * (b + (L + 1) * e)) / (L + 1) = b + (L + 1) * e := by
    rw [Nat.add_mul_div_left _ _ (by omega), Nat.div_eq_of_lt (by omega), Nat.zero_add]
  unfold mmOf3 nnOf3 codeOf3
  simp only [e1, e2]
  refine ⟨?_, ?_, ?_⟩
  · rw [Nat.add_mul_mod_self_left, Nat.mod_eq_of_lt (by omega)]
  · rw [Nat.add_mul_mod_self_left, Nat.mod_eq_of_lt (by omega)]
  · rw [Nat.add_mul_div_left _ _ (by omega), Nat.div_eq_of_lt (by omega), Nat.zero_add]

/-- an entry with all three operations and the entry with one reflection have the same factors, up to `c` in the norm -/
structure Agree (p z pR : Int) (k L T : ℕ) (c : ℝ) (d d3 : Int × ℕ) : Prop where
  num : d3.1 = d.1
  weight : weightT_P_Z p z k L T d3 = c * weightT_P pR k L T d
  bracket : ∀ l σ, bracket3 p z k L T l σ d3 = bracket pR k L T l 0 σ d

theorem sigmaOf_fst {d d' : Int × ℕ} (h : d.1 = d'.1) : sigmaOf d = sigmaOf d' := by unfold sigmaOf; rw [h]

/-- no return -/
theorem agree_none (p z pR : Int) (k L T : ℕ) (a : Int) : Agree p z pR k L T 1 (a, 0) (a, 0) := by
  have hc : codeOf3 L (a, 0) = 0 := by unfold codeOf3; simp
  have hcase : caseOf3 L (a, 0) = 1 := by unfold caseOf3; simp [hc]
  refine ⟨rfl, ?_, ?_⟩
  · unfold weightT_P_Z weightT_P
    simp only [hc, if_true]
    rw [if_neg (by rw [mmOf_zero]; norm_num), one_mul]
  · intro l σ
    unfold bracket3 bracket
    simp only [hcase, true_or, if_true, mmOf_zero]
    norm_num

/-- only the inversion returns -/
theorem agree_inv (p z pR : Int) (k L T : ℕ) (a : Int) (i : ℕ) (f : Int) (hi : i ≤ L) (hf : f = 1 ∨ f = -1)
    (hfit : (z : ℝ) * f * Real.cos (wave k L T * i) = 1) :
    Agree p z pR k L T 2 (a, 0) (a, ((i : Int) * (L + 1) + (3 + (f + 1) / 2) * (L + 1) ^ 2).toNat) := by
  obtain ⟨e, he, hfe⟩ : ∃ e : ℕ, (e = 3 ∧ f = -1 ∨ e = 4 ∧ f = 1) ∧ ((i : Int) * (L + 1) + (3 + (f + 1) / 2) * (L + 1) ^ 2).toNat = 0 + (L + 1) * i + e * (L + 1) ^ 2 := by
    rcases hf with rfl | rfl
    · refine ⟨4, by simp, ?_⟩
      have : ((i : Int) * (L + 1) + (3 + (1 + 1) / 2) * (L + 1) ^ 2) = ((0 + (L + 1) * i + 4 * (L + 1) ^ 2 : ℕ) : Int) := by push_cast; norm_num; ring
      rw [this, Int.toNat_natCast]
    · refine ⟨3, by simp, ?_⟩
      have : ((i : Int) * (L + 1) + (3 + (-1 + 1) / 2) * (L + 1) ^ 2) = ((0 + (L + 1) * i + 3 * (L + 1) ^ 2 : ℕ) : Int) := by push_cast; norm_num; ring
      rw [this, Int.toNat_natCast]
  rw [hfe]
  obtain ⟨d1, d2, d3⟩ := decode3 L 0 i e (Nat.zero_le _) hi a
  have hf3 : fOf3 L (a, 0 + (L + 1) * i + e * (L + 1) ^ 2) = f := by
    unfold fOf3
    simp only [d3]
    rcases he with ⟨rfl, rfl⟩ | ⟨rfl, rfl⟩ <;> norm_num
  have hc3 : caseOf3 L (a, 0 + (L + 1) * i + e * (L + 1) ^ 2) = 3 := by
    unfold caseOf3
    simp only [d3]
    rcases he with ⟨rfl, rfl⟩ | ⟨rfl, rfl⟩ <;> norm_num
  refine ⟨rfl, ?_, ?_⟩
  · unfold weightT_P_Z weightT_P
    simp only [d3, hf3, d2]
    have hs : sigmaOf (a, 0 + (L + 1) * i + e * (L + 1) ^ 2) = sigmaOf (a, 0) := sigmaOf_fst rfl
    rw [show mmOf L (a, 0) = -1 from mmOf_zero L a, if_neg (show ¬ ((-1 : Int) ≥ 0) by norm_num), hs]
    rw [if_neg (by rcases he with ⟨rfl, _⟩ | ⟨rfl, _⟩ <;> norm_num), if_neg (by rcases he with ⟨rfl, _⟩ | ⟨rfl, _⟩ <;> norm_num),
      if_pos (by rcases he with ⟨rfl, _⟩ | ⟨rfl, _⟩ <;> norm_num)]
    rw [show (f : ℝ) * z * Real.cos (wave k L T * i) = 1 by rw [← hfit]; ring]
    ring
  · intro l σ
    unfold bracket3 bracket
    have hs : sigmaOf (a, 0 + (L + 1) * i + e * (L + 1) ^ 2) = sigmaOf (a, 0) := sigmaOf_fst rfl
    simp only [hc3, or_true, if_true, mmOf_zero, hs]
    norm_num

/-- the code of a block with one reflection -/
theorem code_facts (L i : ℕ) (f a : Int) (hi : i < L) (hf : f = 1 ∨ f = -1) :
    mmOf L (a, ((i : Int) + 1 + (L + 1) * ((f + 1) / 2)).toNat) = i ∧ ¬ mmOf L (a, ((i : Int) + 1 + (L + 1) * ((f + 1) / 2)).toNat) < 0 ∧
    mmOf L (a, ((i : Int) + 1 + (L + 1) * ((f + 1) / 2)).toNat) ≥ 0 ∧
    fOf L (a, ((i : Int) + 1 + (L + 1) * ((f + 1) / 2)).toNat) = f := by
  obtain ⟨c1, c2⟩ := code_eq L i f a hi hf
  exact ⟨c1, by rw [c1]; omega, by rw [c1]; omega, c2⟩

/-- only the reflection returns -/
theorem agree_refl (p z : Int) (k L T : ℕ) (a : Int) (i : ℕ) (f : Int) (hi : i < L) (hf : f = 1 ∨ f = -1) :
    Agree p z p k L T 1 (a, ((i : Int) + 1 + (L + 1) * ((f + 1) / 2)).toNat) (a, ((i : Int) + (1 + (f + 1) / 2) * (L + 1) ^ 2).toNat) := by
  obtain ⟨c1, c1', c1'', c2⟩ := code_facts L i f a hi hf
  obtain ⟨e, he, hfe⟩ : ∃ e : ℕ, (e = 1 ∧ f = -1 ∨ e = 2 ∧ f = 1) ∧ ((i : Int) + (1 + (f + 1) / 2) * (L + 1) ^ 2).toNat = i + (L + 1) * 0 + e * (L + 1) ^ 2 := by
    rcases hf with rfl | rfl
    · refine ⟨2, by simp, ?_⟩
      have : ((i : Int) + (1 + (1 + 1) / 2) * (L + 1) ^ 2) = ((i + (L + 1) * 0 + 2 * (L + 1) ^ 2 : ℕ) : Int) := by push_cast; norm_num
      rw [this, Int.toNat_natCast]
    · refine ⟨1, by simp, ?_⟩
      have : ((i : Int) + (1 + (-1 + 1) / 2) * (L + 1) ^ 2) = ((i + (L + 1) * 0 + 1 * (L + 1) ^ 2 : ℕ) : Int) := by push_cast; norm_num
      rw [this, Int.toNat_natCast]
  rw [hfe]
  generalize hE : ((i : Int) + 1 + (L + 1) * ((f + 1) / 2)).toNat = E at c1 c1' c1'' c2
  obtain ⟨d1, d2, d3⟩ := decode3 L i 0 e hi.le (Nat.zero_le _) a
  generalize hM : i + (L + 1) * 0 + e * (L + 1) ^ 2 = M at d1 d2 d3
  have hf3 : fOf3 L (a, M) = f := by
    unfold fOf3
    simp only [d3]
    rcases he with ⟨rfl, rfl⟩ | ⟨rfl, rfl⟩ <;> norm_num
  have hc3 : caseOf3 L (a, M) = 2 := by
    unfold caseOf3
    simp only [d3]
    rcases he with ⟨rfl, rfl⟩ | ⟨rfl, rfl⟩ <;> norm_num
  have hs : sigmaOf (a, M) = sigmaOf (a, E) := sigmaOf_fst rfl
  refine ⟨rfl, ?_, ?_⟩
  · unfold weightT_P_Z weightT_P
    simp only [d3, hf3, d1, c2, hs]
    rw [if_pos c1'', c1]
    rw [if_neg (by rcases he with ⟨rfl, _⟩ | ⟨rfl, _⟩ <;> norm_num), if_pos (by rcases he with ⟨rfl, _⟩ | ⟨rfl, _⟩ <;> norm_num)]
    push_cast
    ring
  · intro l σ
    have hi0 : ¬ (i : Int) < 0 := by omega
    unfold bracket3 bracket
    simp only [hc3, hs, hf3, d1, c2, c1, if_neg hi0, pow_zero, one_mul]
    norm_num

/-- only the product returns -/
theorem agree_prod (p z : Int) (k L T : ℕ) (a : Int) (i : ℕ) (f : Int) (hi : i < L) (hf : f = 1 ∨ f = -1) :
    Agree p z (p * z) k L T 1 (a, ((i : Int) + 1 + (L + 1) * ((f + 1) / 2)).toNat) (a, ((i : Int) + (5 + (f + 1) / 2) * (L + 1) ^ 2).toNat) := by
  obtain ⟨c1, c1', c1'', c2⟩ := code_facts L i f a hi hf
  obtain ⟨e, he, hfe⟩ : ∃ e : ℕ, (e = 5 ∧ f = -1 ∨ e = 6 ∧ f = 1) ∧ ((i : Int) + (5 + (f + 1) / 2) * (L + 1) ^ 2).toNat = i + (L + 1) * 0 + e * (L + 1) ^ 2 := by
    rcases hf with rfl | rfl
    · refine ⟨6, by simp, ?_⟩
      have : ((i : Int) + (5 + (1 + 1) / 2) * (L + 1) ^ 2) = ((i + (L + 1) * 0 + 6 * (L + 1) ^ 2 : ℕ) : Int) := by push_cast; norm_num
      rw [this, Int.toNat_natCast]
    · refine ⟨5, by simp, ?_⟩
      have : ((i : Int) + (5 + (-1 + 1) / 2) * (L + 1) ^ 2) = ((i + (L + 1) * 0 + 5 * (L + 1) ^ 2 : ℕ) : Int) := by push_cast; norm_num
      rw [this, Int.toNat_natCast]
  rw [hfe]
  generalize hE : ((i : Int) + 1 + (L + 1) * ((f + 1) / 2)).toNat = E at c1 c1' c1'' c2
  obtain ⟨d1, d2, d3⟩ := decode3 L i 0 e hi.le (Nat.zero_le _) a
  generalize hM : i + (L + 1) * 0 + e * (L + 1) ^ 2 = M at d1 d2 d3
  have hf3 : fOf3 L (a, M) = f := by
    unfold fOf3
    simp only [d3]
    rcases he with ⟨rfl, rfl⟩ | ⟨rfl, rfl⟩ <;> norm_num
  have hc3 : caseOf3 L (a, M) = 4 := by
    unfold caseOf3
    simp only [d3]
    rcases he with ⟨rfl, rfl⟩ | ⟨rfl, rfl⟩ <;> norm_num
  have hs : sigmaOf (a, M) = sigmaOf (a, E) := sigmaOf_fst rfl
  refine ⟨rfl, ?_, ?_⟩
  · unfold weightT_P_Z weightT_P
    simp only [d3, hf3, d1, c2, hs]
    rw [if_pos c1'', c1]
    rw [if_neg (by rcases he with ⟨rfl, _⟩ | ⟨rfl, _⟩ <;> norm_num), if_neg (by rcases he with ⟨rfl, _⟩ | ⟨rfl, _⟩ <;> norm_num),
      if_neg (by rcases he with ⟨rfl, _⟩ | ⟨rfl, _⟩ <;> norm_num), if_pos (by rcases he with ⟨rfl, _⟩ | ⟨rfl, _⟩ <;> norm_num)]
    push_cast
    ring
  · intro l σ
    have hi0 : ¬ (i : Int) < 0 := by omega
    unfold bracket3 bracket
    simp only [hc3, hs, hf3, d1, c2, c1, if_neg hi0, pow_zero, one_mul]
    push_cast
    norm_num
    split_ifs <;> (congr 1 <;> ring)

/-- all of them return -/
theorem agree_all (p z : Int) (k L T : ℕ) (a : Int) (i j : ℕ) (f g : Int) (hi : i < L) (hf : f = 1 ∨ f = -1) (hj : j ≤ L) (hg : g = 1 ∨ g = -1)
    (hfit : (z : ℝ) * g * Real.cos (wave k L T * j) = 1) :
    Agree p z p k L T 2 (a, ((i : Int) + 1 + (L + 1) * ((f + 1) / 2)).toNat)
      (a, ((i : Int) + (L + 1) * j + (7 + (f + 1) / 2 + 2 * ((g + 1) / 2)) * (L + 1) ^ 2).toNat) := by
  obtain ⟨c1, c1', c1'', c2⟩ := code_facts L i f a hi hf
  obtain ⟨e, he, hfe⟩ : ∃ e : ℕ, (e = 7 ∧ f = -1 ∧ g = -1 ∨ e = 8 ∧ f = 1 ∧ g = -1 ∨ e = 9 ∧ f = -1 ∧ g = 1 ∨ e = 10 ∧ f = 1 ∧ g = 1) ∧
      ((i : Int) + (L + 1) * j + (7 + (f + 1) / 2 + 2 * ((g + 1) / 2)) * (L + 1) ^ 2).toNat = i + (L + 1) * j + e * (L + 1) ^ 2 := by
    rcases hf with rfl | rfl <;> rcases hg with rfl | rfl
    · refine ⟨10, by simp, ?_⟩
      have : ((i : Int) + (L + 1) * j + (7 + (1 + 1) / 2 + 2 * ((1 + 1) / 2)) * (L + 1) ^ 2) = ((i + (L + 1) * j + 10 * (L + 1) ^ 2 : ℕ) : Int) := by push_cast; norm_num
      rw [this, Int.toNat_natCast]
    · refine ⟨8, by simp, ?_⟩
      have : ((i : Int) + (L + 1) * j + (7 + (1 + 1) / 2 + 2 * ((-1 + 1) / 2)) * (L + 1) ^ 2) = ((i + (L + 1) * j + 8 * (L + 1) ^ 2 : ℕ) : Int) := by push_cast; norm_num
      rw [this, Int.toNat_natCast]
    · refine ⟨9, by simp, ?_⟩
      have : ((i : Int) + (L + 1) * j + (7 + (-1 + 1) / 2 + 2 * ((1 + 1) / 2)) * (L + 1) ^ 2) = ((i + (L + 1) * j + 9 * (L + 1) ^ 2 : ℕ) : Int) := by push_cast; norm_num
      rw [this, Int.toNat_natCast]
    · refine ⟨7, by simp, ?_⟩
      have : ((i : Int) + (L + 1) * j + (7 + (-1 + 1) / 2 + 2 * ((-1 + 1) / 2)) * (L + 1) ^ 2) = ((i + (L + 1) * j + 7 * (L + 1) ^ 2 : ℕ) : Int) := by push_cast; norm_num
      rw [this, Int.toNat_natCast]
  rw [hfe]
  generalize hE : ((i : Int) + 1 + (L + 1) * ((f + 1) / 2)).toNat = E at c1 c1' c1'' c2
  obtain ⟨d1, d2, d3⟩ := decode3 L i j e hi.le hj a
  generalize hM : i + (L + 1) * j + e * (L + 1) ^ 2 = M at d1 d2 d3
  have hf3 : fOf3 L (a, M) = f := by
    unfold fOf3
    simp only [d3]
    rcases he with ⟨rfl, rfl, _⟩ | ⟨rfl, rfl, _⟩ | ⟨rfl, rfl, _⟩ | ⟨rfl, rfl, _⟩ <;> norm_num
  have hg3 : gOf3 L (a, M) = g := by
    unfold gOf3
    simp only [d3]
    rcases he with ⟨rfl, _, rfl⟩ | ⟨rfl, _, rfl⟩ | ⟨rfl, _, rfl⟩ | ⟨rfl, _, rfl⟩ <;> norm_num
  have hc3 : caseOf3 L (a, M) = 5 := by
    unfold caseOf3
    simp only [d3]
    rcases he with ⟨rfl, _⟩ | ⟨rfl, _⟩ | ⟨rfl, _⟩ | ⟨rfl, _⟩ <;> norm_num
  have hs : sigmaOf (a, M) = sigmaOf (a, E) := sigmaOf_fst rfl
  refine ⟨rfl, ?_, ?_⟩
  · unfold weightT_P_Z weightT_P
    simp only [d3, hf3, hg3, d1, d2, c2, hs]
    rw [if_pos c1'', c1]
    rw [if_neg (by rcases he with ⟨rfl, _⟩ | ⟨rfl, _⟩ | ⟨rfl, _⟩ | ⟨rfl, _⟩ <;> norm_num), if_neg (by rcases he with ⟨rfl, _⟩ | ⟨rfl, _⟩ | ⟨rfl, _⟩ | ⟨rfl, _⟩ <;> norm_num),
      if_neg (by rcases he with ⟨rfl, _⟩ | ⟨rfl, _⟩ | ⟨rfl, _⟩ | ⟨rfl, _⟩ <;> norm_num), if_neg (by rcases he with ⟨rfl, _⟩ | ⟨rfl, _⟩ | ⟨rfl, _⟩ | ⟨rfl, _⟩ <;> norm_num),
      if_pos (by rcases he with ⟨rfl, _⟩ | ⟨rfl, _⟩ | ⟨rfl, _⟩ | ⟨rfl, _⟩ <;> norm_num)]
    rw [show (g : ℝ) * z * Real.cos (wave k L T * j) = 1 by rw [← hfit]; ring]
    push_cast
    ring
  · intro l σ
    have hi0 : ¬ (i : Int) < 0 := by omega
    unfold bracket3 bracket
    simp only [hc3, hs, hf3, d1, c2, c1, if_neg hi0, pow_zero, one_mul]
    norm_num

/-! ### the list of entries of one state -/

theorem checkT_Z_scanned {Q : BitOp} (h : Dihedral (· < N) Tr Q n) (hT : 0 < T) {s r : ℕ} {m f : Int} (hs : s < N) (hr : Least Tr s r) (ht : Top Tr Q s)
    (hf : momentumFits k (T * n) T r (tr Tr s r).2 = true) (hsc : Scanned Tr Q s r m f) : checkT_Z Tr Q k (T * n) T s = ((r : Int), m, f) := by
  have lq := h.least hs hr
  obtain ⟨_, v⟩ := checkT_Z_of h.cyc h.sign lq hs hr T k hT
  rcases v ⟨fun j _ => ht.1 j, hf, fun j _ => ht.2 j⟩ with ⟨i, hi, e, hc⟩ | ⟨hno, hc⟩
  · rcases hsc with ⟨i', hi', e', rfl, rfl⟩ | ⟨hno, _⟩
    · have := (hit_mod_of lq hr hi e i').1 e'
      rw [Nat.mod_eq_of_lt hi'] at this
      subst this
      exact hc
    · exact absurd e (hno i)
  · rcases hsc with ⟨i', hi', e', _⟩ | ⟨_, rfl, rfl⟩
    · exact absurd e' (hno i')
    · exact hc

/-- the entries of one reflection, renamed -/
theorem kept_hit (check : ℕ → Int × Int × Int) (pR : Int) (k L T s r i : ℕ) (f M : Int) (hc : check s = ((r : Int), (i : Int), f)) (hr : 0 < r)
    (refused : Int → Prop) (href : ∀ σ, refused σ ↔ (1 + (f : ℝ) * σ * pR * Real.cos (((i : Int) : ℝ) * wave k L T) = 0 ∨
      (σ = -1 ∧ 1 - (f : ℝ) * σ * pR * Real.cos (((i : Int) : ℝ) * wave k L T) ≠ 0))) :
    keptSigmas k L T r refused M = (keepT_P check pR k L T s).map (fun d => (d.1, M.toNat)) ∧
    ∀ d ∈ keepT_P check pR k L T s, d.2 = ((i : Int) + 1 + (L + 1) * ((f + 1) / 2)).toNat := by
  unfold keptSigmas keepT_P
  simp only [hc]
  rw [if_pos (by omega), if_pos (by omega)]
  constructor
  · rw [List.map_filterMap]
    apply List.filterMap_congr
    intro σ _
    by_cases hx : refused σ
    · rw [if_pos hx, if_pos ((href σ).1 hx)]; rfl
    · rw [if_neg hx, if_neg (fun hy => hx ((href σ).2 hy))]; rfl
  · intro d hd
    rw [List.mem_filterMap] at hd
    obtain ⟨σ, _, e⟩ := hd
    split_ifs at e
    rw [Option.some.injEq] at e
    rw [← e]

theorem kept_none (check : ℕ → Int × Int × Int) (pR : Int) (k L T s r : ℕ) (f M : Int) (hc : check s = ((r : Int), -1, f)) (hr : 0 < r)
    (refused : Int → Prop) (href : ∀ σ, ¬ refused σ) :
    keptSigmas k L T r refused M = (keepT_P check pR k L T s).map (fun d => (d.1, M.toNat)) ∧ ∀ d ∈ keepT_P check pR k L T s, d.2 = 0 := by
  unfold keptSigmas keepT_P
  simp only [hc]
  rw [if_pos (by omega), if_neg (by simp)]
  constructor
  · rw [List.map_map, ← List.filterMap_eq_map]
    apply List.filterMap_congr
    intro σ _
    rw [if_neg (href σ)]; rfl
  · intro d hd
    rw [List.mem_map] at hd
    obtain ⟨σ, _, e⟩ := hd
    rw [← e]

theorem kept_refused (k L T r : ℕ) (M : Int) (refused : Int → Prop) (href : ∀ σ, refused σ) : keptSigmas k L T r refused M = [] := by
  unfold keptSigmas
  rw [List.filterMap_eq_nil_iff]
  intro σ _
  rw [if_pos (href σ)]

/-- when the inversion returns, it does so with phase 1 or -1 -/
theorem inv_phase (h : Triad (· < N) Tr P Z n) (hT : 0 < T) (hz : z = 1 ∨ z = -1) {s r i : ℕ} (hs : s < N) (hr : Least Tr s r)
    (hf : (conj (om n k)) ^ r * (tr Tr s r).2 = 1) (hi : (tr Tr (Z s).1 i).1 = s) (f : Int) (hfe : f = (Z s).2 * (tr Tr (Z s).1 i).2) :
    Real.sin (wave k (T * n) T * i) = 0 ∧ ((z : ℝ) * f * Real.cos (wave k (T * n) T * i) = 1 ∨ (z : ℝ) * f * Real.cos (wave k (T * n) T * i) = -1) ∧
    (f = 1 ∨ f = -1) := by
  have hn := h.dih.cyc.pos
  have hfs : f = 1 ∨ f = -1 := by
    rw [hfe]; exact pm_mul (h.sign s hs) (h.dih.cyc.sign_iter (h.closed s hs) i)
  have e1 : (step Tr)^[i] (step Z (s, 1)) = (s, f) := by
    rw [semi_step_scale, iter_step_scale, one_mul]
    exact Prod.ext hi hfe.symm
  have e2 : (step Tr)^[i] ((step Tr)^[i] (s, 1)) = (s, 1) := by
    have a := congrArg (step Z) e1
    rw [h.commT' _ (by exact hs), h.invol _ (iter_closed h.dih.cyc (s, 1) hs i)] at a
    rw [a]
    have b : step Z (s, f) = ((step Z (s, 1)).1, f * (step Z (s, 1)).2) := by unfold step; simp
    have c : (step Z (s, 1)) = ((Z s).1, (Z s).2) := by unfold step; simp
    rw [c, iter_step_scale] at e1
    rw [b, c, iter_step_scale]
    rw [Prod.mk.injEq] at e1
    refine Prod.ext e1.1 ?_
    simp only
    rw [mul_assoc, e1.2]
    rcases hfs with rfl | rfl <;> norm_num
  rw [← Function.iterate_add_apply] at e2
  change tr Tr s (i + i) = (s, 1) at e2
  obtain ⟨q, hq⟩ := (hr.iff_dvd (i + i)).1 (by rw [e2])
  have e3 : (om n k ^ i) ^ 2 = 1 := by
    have a := tr_multiple hr.tr_eq q
    rw [← hq, e2, Prod.mk.injEq] at a
    have b := congrArg (· ^ q) hf
    simp only [mul_pow, one_pow, ← pow_mul, ← hq] at b
    have c : ((tr Tr s r).2 : ℂ) ^ q = 1 := by
      have : ((tr Tr s r).2) ^ q = 1 := a.2.symm
      exact_mod_cast this
    rw [c, mul_one] at b
    have d := congrArg conj b
    rw [map_pow, Complex.conj_conj, map_one] at d
    rw [← pow_mul, mul_comm, two_mul] 
    rw [mul_comm] at *
    exact d
  rw [om_cos hT hn] at e3
  have e4 := congrArg Complex.im e3
  have e5 := congrArg Complex.re e3
  simp [sq, Complex.add_re, Complex.add_im, Complex.mul_re, Complex.mul_im, -Complex.ofReal_cos, -Complex.ofReal_sin] at e4 e5
  have e6 := Real.sin_sq_add_cos_sq (wave k (T * n) T * i)
  have hsin : Real.sin (wave k (T * n) T * i) = 0 := by nlinarith
  have hcos : Real.cos (wave k (T * n) T * i) = 1 ∨ Real.cos (wave k (T * n) T * i) = -1 := by
    rw [hsin] at e6
    have : (Real.cos (wave k (T * n) T * i) - 1) * (Real.cos (wave k (T * n) T * i) + 1) = 0 := by linear_combination e6
    rcases mul_eq_zero.1 this with e | e
    · left; linarith
    · right; linarith
  refine ⟨hsin, ?_, hfs⟩
  rcases hz with rfl | rfl <;> rcases hfs with rfl | rfl <;> rcases hcos with e | e <;> rw [e] <;> norm_num

/-- the entries of a state: those of a block with one reflection, with a factor in the norm, or nothing -/
theorem three_cases (h : Triad (· < N) Tr P Z n) (hT : 0 < T) (hz : z = 1 ∨ z = -1) {s r : ℕ} (hs : s < N) (hr : Least Tr s r) :
    let keep := keepT_P_Z Tr P Z p z k (T * n) T s
    let good := Top3 Tr P Z s ∧ (conj (om n k)) ^ r * (tr Tr s r).2 = 1
    (¬ good → keep = []) ∧
    (good → ∃ (R : BitOp) (pR : Int) (M : ℕ), (R = P ∧ pR = p ∨ R = andThen P Z ∧ pR = p * z) ∧
      ((¬ InOrbit Tr R (Z s).1 s ∧ keep = (keepT_P (checkT_Z Tr R k (T * n) T) pR k (T * n) T s).map (fun d => (d.1, M)) ∧
          ∀ d ∈ keepT_P (checkT_Z Tr R k (T * n) T) pR k (T * n) T s, Agree p z pR k (T * n) T 1 d (d.1, M)) ∨
       ∃ (i : ℕ) (f : Int), (step Tr)^[i] (step Z (s, 1)) = (s, f) ∧ Real.sin (wave k (T * n) T * i) = 0 ∧
        ((1 + (z : ℝ) * f * Real.cos (wave k (T * n) T * i) = 0 ∧ keep = []) ∨
         (1 + (z : ℝ) * f * Real.cos (wave k (T * n) T * i) = 2 ∧ keep = (keepT_P (checkT_Z Tr R k (T * n) T) pR k (T * n) T s).map (fun d => (d.1, M)) ∧
          ∀ d ∈ keepT_P (checkT_Z Tr R k (T * n) T) pR k (T * n) T s, Agree p z pR k (T * n) T 2 d (d.1, M))))) := by
  intro keep good
  have hn := h.dih.cyc.pos
  have hrn : r ≤ n := Nat.le_of_dvd hn ((hr.iff_dvd n).1 (by rw [h.dih.cyc.period s hs]))
  have hrL : r ≤ T * n := hrn.trans (Nat.le_mul_of_pos_left _ hT)
  have hsg := h.dih.cyc.sign_iter hs r
  have hfit : momentumFits k (T * n) T r (tr Tr s r).2 = true ↔ (conj (om n k)) ^ r * (tr Tr s r).2 = 1 := by
    rw [show T * n = n * T by ring, momentumFits_iff n T k r hn hT _ hsg, ← om_pow, map_pow]
  obtain ⟨v1, v2⟩ := h.check_of hs hr T k hT
  refine ⟨fun hng => ?_, fun hg => ?_⟩
  · have := v1 (fun hx => hng ⟨hx.1, hfit.1 hx.2⟩)
    show keepT_P_Z _ _ _ _ _ _ _ _ _ = _
    unfold keepT_P_Z
    rw [this]
  obtain ⟨R, hR, hRr, sP, sZ, sQ⟩ := v2 ⟨hg.1, hfit.2 hg.2⟩
  obtain ⟨Rr, mp, mz, mpz, signp, signz, signpz⟩ := R
  simp only at hRr sP sZ sQ
  subst hRr
  have hmf := hfit.2 hg.2
  have cP := checkT_Z_scanned (k := k) h.dih hT hs hr ⟨hg.1.self, hg.1.refl⟩ hmf sP
  have cQ := checkT_Z_scanned (k := k) h.prodDih hT hs hr ⟨hg.1.self, hg.1.prod⟩ hmf sQ
  have nP := sP.none_iff
  have nZ := sZ.none_iff
  have nQ := sQ.none_iff
  have hkeep : keep = keepT_P_Z Tr P Z p z k (T * n) T s := rfl
  unfold keepT_P_Z at hkeep
  rw [hR] at hkeep
  simp only at hkeep
  have hpos := hr.pos
  -- orbits of the inverted state
  have orbP : ¬ Returning Tr Z s → ¬ Returning Tr (andThen P Z) s → ¬ InOrbit Tr P (Z s).1 s := by
    rintro h1 h2 (⟨j, e⟩ | ⟨j, e⟩)
    · exact h1 ⟨j, e⟩
    · have e2 : (P (Z s).1).1 = (andThen P Z s).1 := by have := congrArg Prod.fst (h.prod_step (s, 1) hs); exact this
      exact h2 ⟨j, by rw [← e2]; exact e⟩
  have orbQ : ¬ Returning Tr Z s → ¬ Returning Tr P s → ¬ InOrbit Tr (andThen P Z) (Z s).1 s := by
    rintro h1 h2 (⟨j, e⟩ | ⟨j, e⟩)
    · exact h1 ⟨j, e⟩
    · have a : step (andThen P Z) (step Z (s, 1)) = step P (s, 1) := by
        rw [step_andThen, h.commP' _ (by exact hs), h.invol (step P (s, 1)) (h.dih.closed s hs)]
      have e2 : (andThen P Z (Z s).1).1 = (P s).1 := by have := congrArg Prod.fst a; exact this
      exact h2 ⟨j, by rw [← e2]; exact e⟩
  have signs : ∀ Q : BitOp, Dihedral (· < N) Tr Q n → ∀ i : ℕ, (Q s).2 * (tr Tr (Q s).1 i).2 = 1 ∨ (Q s).2 * (tr Tr (Q s).1 i).2 = -1 :=
    fun Q hQ i => pm_mul (hQ.sign s hs) (hQ.cyc.sign_iter (hQ.closed s hs) i)
  by_cases hZ : Returning Tr Z s
  · -- the inversion returns
    have mz1 : mz ≠ -1 := fun e => (nZ.1 e) hZ
    rcases sZ with ⟨j, hj, ej, rfl, hfj⟩ | ⟨_, e, _⟩
    swap
    · exact absurd e mz1
    obtain ⟨hsin, hph, hfs⟩ := inv_phase (z := z) h hT hz hs hr hg.2 ej signz hfj
    have ejs : (step Tr)^[j] (step Z (s, 1)) = (s, signz) := by
      rw [semi_step_scale, iter_step_scale, one_mul]
      exact Prod.ext ej hfj.symm
    have ec : Real.cos (((j : Int) : ℝ) * wave k (T * n) T) = Real.cos (wave k (T * n) T * j) := by rw [mul_comm]; simp
    have ec' : Real.cos (wave k (T * n) T * ((j : Int) : ℝ)) = Real.cos (wave k (T * n) T * j) := by simp
    by_cases hP : Returning Tr P s
    · -- and the reflection
      have mp1 : mp ≠ -1 := fun e => (nP.1 e) hP
      rcases sP with ⟨i, hi, ei, rfl, hfi⟩ | ⟨_, e, _⟩
      swap
      · exact absurd e mp1
      simp only [mp1, mz1, ne_eq, not_true_eq_false, not_false_eq_true, false_and, and_false, true_and, if_true, if_false, List.nil_append, List.append_nil, and_self] at hkeep
      rw [ec] at hkeep
      refine ⟨P, p, ((i : Int) + ((T * n : ℕ) + 1) * (j : Int) + (7 + (signp + 1) / 2 + 2 * ((signz + 1) / 2)) * ((T * n : ℕ) + 1) ^ 2).toNat, Or.inl ⟨rfl, rfl⟩, Or.inr ⟨j, signz, ejs, hsin, ?_⟩⟩
      rcases hph with hph | hph
      · right
        have k1 := kept_hit (checkT_Z Tr P k (T * n) T) p k (T * n) T s Rr i signp ((i : Int) + ((T * n : ℕ) + 1) * (j : Int) + (7 + (signp + 1) / 2 + 2 * ((signz + 1) / 2)) * ((T * n : ℕ) + 1) ^ 2)
          cP hpos (fun σ => (1 + (σ : ℝ) * signp * p * Real.cos (((i : Int) : ℝ) * wave k (T * n) T) = 0 ∨ 1 + (z : ℝ) * signz * Real.cos (wave k (T * n) T * j) = 0) ∨
            (σ = -1 ∧ (1 - (σ : ℝ) * signp * p * Real.cos (((i : Int) : ℝ) * wave k (T * n) T) ≠ 0 ∨ 1 - (z : ℝ) * signz * Real.cos (wave k (T * n) T * j) ≠ 0))) (by
            intro σ
            rw [hph]
            rw [show (σ : ℝ) * signp = signp * σ by ring]
            norm_num)
        refine ⟨by rw [hph]; norm_num, hkeep.trans k1.1, ?_⟩
        intro d hd
        have := agree_all p z k (T * n) T d.1 i j signp signz (lt_of_lt_of_le hi hrL) (by rw [hfi]; exact signs P h.dih i) (hj.le.trans hrL) hfs hph
        rw [← k1.2 d hd] at this
        exact this
      · left
        refine ⟨by rw [hph]; norm_num, hkeep.trans (kept_refused _ _ _ _ _ _ ?_)⟩
        intro σ
        left; right
        rw [hph]; norm_num
    · -- only the inversion
      have mp1 : mp = -1 := nP.2 hP
      have mq1 : mpz = -1 := nQ.2 fun hq => hP (h.returning_refl hs hq hZ)
      subst mp1
      subst mq1
      simp only [mz1, ne_eq, not_true_eq_false, not_false_eq_true, false_and, and_false, true_and, if_true, if_false, List.nil_append, List.append_nil, and_self] at hkeep
      rw [ec'] at hkeep
      refine ⟨P, p, ((j : Int) * ((T * n : ℕ) + 1) + (3 + (signz + 1) / 2) * ((T * n : ℕ) + 1) ^ 2).toNat, Or.inl ⟨rfl, rfl⟩, Or.inr ⟨j, signz, ejs, hsin, ?_⟩⟩
      rcases hph with hph | hph
      · right
        have k1 := kept_none (checkT_Z Tr P k (T * n) T) p k (T * n) T s Rr signp ((j : Int) * ((T * n : ℕ) + 1) + (3 + (signz + 1) / 2) * ((T * n : ℕ) + 1) ^ 2) cP hpos
          (fun _ => 1 + (z : ℝ) * signz * Real.cos (wave k (T * n) T * j) = 0) (by intro σ; rw [hph]; norm_num)
        refine ⟨by rw [hph]; norm_num, hkeep.trans k1.1, ?_⟩
        intro d hd
        have := agree_inv p z p k (T * n) T d.1 j signz (hj.le.trans hrL) hfs hph
        rw [show ((d.1, 0) : Int × ℕ) = d from Prod.ext rfl (k1.2 d hd).symm] at this
        exact this
      · left
        refine ⟨by rw [hph]; norm_num, hkeep.trans (kept_refused _ _ _ _ _ _ ?_)⟩
        intro σ
        rw [hph]; norm_num
  · have mz1 : mz = -1 := nZ.2 hZ
    subst mz1
    by_cases hP : Returning Tr P s
    · -- only the reflection
      have mp1 : mp ≠ -1 := fun e => (nP.1 e) hP
      have hQ : ¬ Returning Tr (andThen P Z) s := fun hq => hZ (h.returning_inv hs hq hP)
      have mq1 : mpz = -1 := nQ.2 hQ
      subst mq1
      rcases sP with ⟨i, hi, ei, rfl, hfi⟩ | ⟨_, e, _⟩
      swap
      · exact absurd e mp1
      simp only [mp1, ne_eq, not_true_eq_false, not_false_eq_true, false_and, and_false, true_and, if_true, if_false, List.nil_append, List.append_nil, and_self] at hkeep
      have k1 := kept_hit (checkT_Z Tr P k (T * n) T) p k (T * n) T s Rr i signp ((i : Int) + (1 + (signp + 1) / 2) * ((T * n : ℕ) + 1) ^ 2)
        cP hpos (fun σ => 1 + (σ : ℝ) * signp * p * Real.cos (((i : Int) : ℝ) * wave k (T * n) T) = 0 ∨
          (σ = -1 ∧ 1 - (σ : ℝ) * signp * p * Real.cos (((i : Int) : ℝ) * wave k (T * n) T) ≠ 0)) (by
          intro σ
          rw [show (σ : ℝ) * signp = signp * σ by ring])
      refine ⟨P, p, _, Or.inl ⟨rfl, rfl⟩, Or.inl ⟨orbP hZ hQ, hkeep.trans k1.1, ?_⟩⟩
      intro d hd
      have := agree_refl p z k (T * n) T d.1 i signp (lt_of_lt_of_le hi hrL) (by rw [hfi]; exact signs P h.dih i)
      rw [← k1.2 d hd] at this
      exact this
    · have mp1 : mp = -1 := nP.2 hP
      subst mp1
      by_cases hQ : Returning Tr (andThen P Z) s
      · -- only the product
        have mq1 : mpz ≠ -1 := fun e => (nQ.1 e) hQ
        rcases sQ with ⟨i, hi, ei, rfl, hfi⟩ | ⟨_, e, _⟩
        swap
        · exact absurd e mq1
        simp only [mq1, ne_eq, not_true_eq_false, not_false_eq_true, false_and, and_false, true_and, if_true, if_false, List.nil_append, List.append_nil, and_self] at hkeep
        have k1 := kept_hit (checkT_Z Tr (andThen P Z) k (T * n) T) (p * z) k (T * n) T s Rr i signpz ((i : Int) + (5 + (signpz + 1) / 2) * ((T * n : ℕ) + 1) ^ 2)
          cQ hpos (fun σ => 1 + (σ : ℝ) * signpz * p * z * Real.cos (((i : Int) : ℝ) * wave k (T * n) T) = 0 ∨
            (σ = -1 ∧ 1 - (σ : ℝ) * signpz * p * z * Real.cos (((i : Int) : ℝ) * wave k (T * n) T) ≠ 0)) (by
            intro σ
            push_cast
            rw [show (σ : ℝ) * signpz * p * z = signpz * σ * (p * z) by ring])
        refine ⟨andThen P Z, p * z, _, Or.inr ⟨rfl, rfl⟩, Or.inl ⟨orbQ hZ hP, hkeep.trans k1.1, ?_⟩⟩
        intro d hd
        have := agree_prod p z k (T * n) T d.1 i signpz (lt_of_lt_of_le hi hrL) (by rw [hfi]; exact signs _ h.prodDih i)
        rw [← k1.2 d hd] at this
        exact this
      · -- none
        have mq1 : mpz = -1 := nQ.2 hQ
        subst mq1
        simp only [ne_eq, not_true_eq_false, not_false_eq_true, false_and, and_false, true_and, if_true, if_false, List.nil_append, List.append_nil, and_self] at hkeep
        have k1 := kept_none (checkT_Z Tr P k (T * n) T) p k (T * n) T s Rr signp 0 cP hpos (fun _ => False) (by simp)
        refine ⟨P, p, _, Or.inl ⟨rfl, rfl⟩, Or.inl ⟨orbP hZ hQ, hkeep.trans k1.1, ?_⟩⟩
        intro d hd
        have := agree_none p z p k (T * n) T d.1
        have e : d = (d.1, 0) := Prod.ext rfl (k1.2 d hd)
        rw [← e] at this
        rw [e]
        rw [e] at this
        exact this

end Proof.Semi
