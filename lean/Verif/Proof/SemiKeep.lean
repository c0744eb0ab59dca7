import Verif.Proof.SemiMatrix
import Verif.Proof.ChainColumns
/-! What is kept of a state in a semi-momentum block. -/
namespace Proof.Semi
open Spec Spec.Semi Model.Chain Proof.Chain
open scoped BigOperators ComplexConjugate

variable {N : ℕ} {Tr Z : BitOp} {n k T : ℕ} {p : Int}

/-- the phase of the translation -/
noncomputable abbrev om (n k : ℕ) : ℂ := root n (k : Int) 1

theorem om_pow (n k j : ℕ) : om n k ^ j = root n k j := by rw [← root_mul, Nat.one_mul]

theorem wave_eq (hT : 0 < T) (hn : 0 < n) : wave k (T * n) T = 2 * Real.pi * k / n := by
  have h1 : (T : ℝ) ≠ 0 := by exact_mod_cast Nat.pos_iff_ne_zero.1 hT
  have h2 : (n : ℝ) ≠ 0 := by exact_mod_cast Nat.pos_iff_ne_zero.1 hn
  unfold wave
  push_cast
  field_simp

theorem om_cos (hT : 0 < T) (hn : 0 < n) (j : ℕ) :
    om n k ^ j = (Real.cos (wave k (T * n) T * j) : ℝ) + (Real.sin (wave k (T * n) T * j) : ℝ) * Complex.I := by
  rw [om_pow, wave_eq hT hn]
  unfold root
  rw [mul_comm Complex.I, Complex.exp_mul_I]
  push_cast
  rfl

theorem om_unit (n k : ℕ) : om n k * conj (om n k) = 1 := by
  unfold om root
  rw [← Complex.exp_conj, ← Complex.exp_add, map_mul, Complex.conj_ofReal, Complex.conj_I, neg_mul, add_neg_cancel, Complex.exp_zero]

theorem om_order (hn : 0 < n) : om n k ^ n = 1 := by
  rw [om_pow]
  exact (root_eq_one n hn k n).2 ⟨k, by ring⟩

theorem om_real (hT : 0 < T) (hn : 0 < n) : om n k ^ 2 = 1 ↔ 2 * k * T % (T * n) = 0 := by
  rw [om_pow, root_eq_one n hn k 2, ← Nat.dvd_iff_mod_eq_zero, show 2 * k * T = T * (k * 2) by ring]
  exact (Nat.mul_dvd_mul_iff_left hT).symm

/-- an entry of the basis: period, phase of the reflected return -/
structure Kept (N : ℕ) (Tr Z : BitOp) (n k T : ℕ) (p : Int) (s : ℕ) (d : Int × ℕ) (r : ℕ) (γ δ : ℝ) : Prop where
  lt : s < N
  top : Top Tr Z s
  least : Least Tr s r
  fit : (conj (om n k)) ^ r * (tr Tr s r).2 = 1
  num : d.1 = sigmaOf d * r
  hit : Hit Tr Z (om n k) s r γ δ
  code : (0 ≤ mmOf (T * n) d ∧ γ = fOf (T * n) d * Real.cos (wave k (T * n) T * mmOf (T * n) d) ∧
      δ = fOf (T * n) d * Real.sin (wave k (T * n) T * mmOf (T * n) d)) ∨ (mmOf (T * n) d < 0 ∧ γ = 0 ∧ δ = 0)
  ok : 1 + (sigmaOf d : ℝ) * p * γ ≠ 0
  sig : sigmaOf d = 1 ∨ sigmaOf d = -1

theorem sigmaOf_pos {r e : ℕ} (hr : 0 < r) : sigmaOf ((r : Int), e) = 1 := by
  unfold sigmaOf; rw [if_pos (by simp only; omega)]

theorem sigmaOf_neg {r e : ℕ} : sigmaOf (-(r : Int), e) = -1 := by
  unfold sigmaOf; rw [if_neg (by simp only; omega)]

theorem mmOf_zero (L : ℕ) (a : Int) : mmOf L (a, 0) = -1 := by unfold mmOf; simp

/-- the stored number -/
theorem code_eq (L m : ℕ) (f a : Int) (hm : m < L) (hf : f = 1 ∨ f = -1) :
    mmOf L (a, ((m : Int) + 1 + (L + 1) * ((f + 1) / 2)).toNat) = m ∧ fOf L (a, ((m : Int) + 1 + (L + 1) * ((f + 1) / 2)).toNat) = f := by
  obtain ⟨e, he, hfe⟩ : ∃ e : ℕ, (f + 1) / 2 = e ∧ f = 2 * e - 1 := by
    rcases hf with rfl | rfl
    · exact ⟨1, by norm_num, by norm_num⟩
    · exact ⟨0, by norm_num, by norm_num⟩
  have e1 : ((m : Int) + 1 + (L + 1) * ((f + 1) / 2)).toNat = m + 1 + e * (L + 1) := by
    rw [he]
    have : ((m : Int) + 1 + (L + 1) * e) = ((m + 1 + e * (L + 1) : ℕ) : Int) := by push_cast; ring
    rw [this, Int.toNat_natCast]
  obtain ⟨d1, d2⟩ := decode L m hm e
  rw [e1]
  unfold fOf mmOf
  simp only [d1, d2]
  refine ⟨by push_cast; ring, ?_⟩
  rw [if_pos (by push_cast; omega)]
  exact hfe.symm

/-- fitting state that is the largest of its orbit, or nothing kept -/
theorem keep_cases (h : Dihedral (· < N) Tr Z n) (hT : 0 < T) (hp : p = 1 ∨ p = -1) {s r : ℕ} (hs : s < N) (hr : Least Tr s r) :
    let keep := keepT_P (checkT_Z Tr Z k (T * n) T) p k (T * n) T s
    let good := Top Tr Z s ∧ (conj (om n k)) ^ r * (tr Tr s r).2 = 1
    (¬ good → keep = []) ∧
    (good → (∃ γ δ, Hit Tr Z (om n k) s r γ δ ∧ γ ^ 2 + δ ^ 2 = 1 ∧ ∃ e, mmOf (T * n) (r, e) ≥ 0 ∧ (∀ a, mmOf (T * n) (a, e) = mmOf (T * n) (r, e)) ∧
        (∀ a, fOf (T * n) (a, e) = fOf (T * n) (r, e)) ∧
        γ = fOf (T * n) (r, e) * Real.cos (wave k (T * n) T * mmOf (T * n) (r, e)) ∧
        δ = fOf (T * n) (r, e) * Real.sin (wave k (T * n) T * mmOf (T * n) (r, e)) ∧
        ((1 + p * γ = 0 ∧ keep = if 2 * k * T % (T * n) = 0 then [] else [(-(r : Int), e)]) ∨
         (1 + p * γ ≠ 0 ∧ keep = [((r : Int), e)]))) ∨
      (Hit Tr Z (om n k) s r 0 0 ∧ keep = if 2 * k * T % (T * n) = 0 then [((r : Int), 0)] else [(-(r : Int), 0), ((r : Int), 0)])) := by
  intro keep good
  have hn := h.cyc.pos
  have hrn : r ≤ n := Nat.le_of_dvd hn ((hr.iff_dvd n).1 (by rw [h.cyc.period s hs]))
  have hsg := h.cyc.sign_iter hs r
  have hz := h.least hs hr
  obtain ⟨v1, v2⟩ := checkT_Z_of h.cyc h.sign hz hs hr T k hT
  have hgood : good ↔ (∀ j, j < r → (tr Tr s j).1 ≤ s) ∧ momentumFits k (T * n) T r (tr Tr s r).2 = true ∧
      ∀ j, j < r → (tr Tr (Z s).1 j).1 ≤ s := by
    rw [show T * n = n * T by ring, momentumFits_iff n T k r hn hT _ hsg, ← om_pow, map_pow]
    constructor
    · rintro ⟨⟨t1, t2⟩, f⟩
      exact ⟨fun j _ => t1 j, f, fun j _ => t2 j⟩
    · rintro ⟨t1, f, t2⟩
      refine ⟨⟨fun j => ?_, fun j => ?_⟩, f⟩
      · rw [hr.mod]; exact t1 _ (Nat.mod_lt _ hr.pos)
      · rw [hz.mod]; exact t2 _ (Nat.mod_lt _ hr.pos)
  refine ⟨fun hng => ?_, fun hg => ?_⟩
  · have := v1 (fun hx => hng (hgood.2 hx))
    show keepT_P _ _ _ _ _ _ = _
    unfold keepT_P
    rw [this]
    simp
  have hr0 : (r : Int) > 0 := by have := hr.pos; omega
  rcases v2 (hgood.1 hg) with ⟨m, hm, he, hc⟩ | ⟨hno, hc⟩
  · left
    generalize hf : (Z s).2 * (tr Tr (Z s).1 m).2 = f at hc
    have hfs : f = 1 ∨ f = -1 := by
      rw [← hf]; exact pm_mul (h.sign s hs) (h.cyc.sign_iter (h.closed s hs) m)
    have hmL : m < T * n := lt_of_lt_of_le hm (hrn.trans (Nat.le_mul_of_pos_left _ hT))
    obtain ⟨c1, c2⟩ := code_eq (T * n) m f r hmL hfs
    generalize hee : ((m : Int) + 1 + ((T * n : ℕ) + 1) * ((f + 1) / 2)).toNat = e at c1 c2
    have hw : om n k ^ m = _ := om_cos (k := k) hT hn m
    refine ⟨f * Real.cos (wave k (T * n) T * m), f * Real.sin (wave k (T * n) T * m), ⟨Or.inl ⟨m, f, hm, he, hf.symm, ?_⟩⟩, ?_, e, ?_, ?_, ?_, ?_, ?_, ?_⟩
    · rw [hw]; push_cast; ring
    · have h1 := Real.sin_sq_add_cos_sq (wave k (T * n) T * m)
      have h2 : (f : ℝ) ^ 2 = 1 := by rcases hfs with rfl | rfl <;> norm_num
      linear_combination (f : ℝ) ^ 2 * h1 + h2
    · rw [c1]; exact Int.natCast_nonneg m
    · intro a; unfold mmOf; rfl
    · intro a; unfold fOf mmOf; rfl
    · rw [c1, c2]; simp
    · rw [c1, c2]; simp
    · show (_ ∧ keepT_P _ _ _ _ _ _ = _) ∨ (_ ∧ keepT_P _ _ _ _ _ _ = _)
      unfold keepT_P
      rw [hc]
      simp only [if_pos hr0]
      rw [if_pos (show (m : Int) ≠ -1 by omega)]
      unfold sigmas
      have ec : Real.cos (((m : Int) : ℝ) * wave k (T * n) T) = Real.cos (wave k (T * n) T * m) := by rw [mul_comm]; simp
      rw [ec]
      have hpR : (p : ℝ) = 1 ∨ (p : ℝ) = -1 := by rcases hp with rfl | rfl <;> simp
      have hfR : (f : ℝ) = 1 ∨ (f : ℝ) = -1 := by rcases hfs with rfl | rfl <;> simp
      have hee' : ((m : Int) + 1 + (((T * n : ℕ) : Int) + 1) * ((f + 1) / 2)).toNat = e := hee
      by_cases h0 : 1 + (p : ℝ) * (f * Real.cos (wave k (T * n) T * m)) = 0
      · left
        refine ⟨h0, ?_⟩
        have h0' : 1 + (f : ℝ) * ((1 : Int) : ℝ) * p * Real.cos (wave k (T * n) T * m) = 0 := by push_cast; linear_combination h0
        have h1 : 1 + (f : ℝ) * ((-1 : Int) : ℝ) * p * Real.cos (wave k (T * n) T * m) ≠ 0 := by
          intro h2; push_cast at h2; linarith
        have h2 : ¬ (1 - (f : ℝ) * ((-1 : Int) : ℝ) * p * Real.cos (wave k (T * n) T * m) ≠ 0) := by
          intro h3; apply h3; push_cast; linear_combination h0
        by_cases hk : 2 * k * T % (T * n) = 0
        · rw [if_pos hk, if_pos hk, List.filterMap_cons, if_pos (Or.inl h0')]; rfl
        · rw [if_neg hk, if_neg hk, List.filterMap_cons, if_neg (by rintro (h3 | ⟨_, h3⟩); exacts [h1 h3, h2 h3])]
          simp only [List.filterMap_cons, List.filterMap_nil]
          rw [if_pos (Or.inl h0'), hee']
          simp
      · right
        refine ⟨h0, ?_⟩
        have h0' : 1 + (f : ℝ) * ((1 : Int) : ℝ) * p * Real.cos (wave k (T * n) T * m) ≠ 0 := by
          intro h1; apply h0; push_cast at h1; linear_combination h1
        have h2 : (1 - (f : ℝ) * ((-1 : Int) : ℝ) * p * Real.cos (wave k (T * n) T * m) ≠ 0) := by
          intro h3; apply h0; push_cast at h3; linear_combination h3
        have h4 : ¬ (1 + (f : ℝ) * ((1 : Int) : ℝ) * p * Real.cos (wave k (T * n) T * m) = 0 ∨
            ((1 : Int) = -1 ∧ 1 - (f : ℝ) * ((1 : Int) : ℝ) * p * Real.cos (wave k (T * n) T * m) ≠ 0)) := by
          rintro (h3 | ⟨h3, _⟩)
          · exact h0' h3
          · omega
        by_cases hk : 2 * k * T % (T * n) = 0
        · rw [if_pos hk, List.filterMap_cons, if_neg h4, hee']; simp
        · rw [if_neg hk, List.filterMap_cons, if_pos (Or.inr ⟨rfl, h2⟩)]
          simp only [List.filterMap_cons, List.filterMap_nil]
          rw [if_neg h4, hee']
          simp
  · right
    refine ⟨⟨Or.inr ⟨hno, rfl, rfl⟩⟩, ?_⟩
    show keepT_P _ _ _ _ _ _ = _
    unfold keepT_P
    rw [hc]
    simp only [if_pos hr0]
    rw [if_neg (by simp)]
    unfold sigmas
    split_ifs <;> simp

/-- what is kept is an entry -/
theorem kept_of_mem (h : Dihedral (· < N) Tr Z n) (hT : 0 < T) (hp : p = 1 ∨ p = -1) {s : ℕ} (hs : s < N) {d : Int × ℕ}
    (hd : d ∈ keepT_P (checkT_Z Tr Z k (T * n) T) p k (T * n) T s) :
    ∃ r γ δ, Kept N Tr Z n k T p s d r γ δ ∧ (2 * k * T % (T * n) = 0 → sigmaOf d = 1) := by
  obtain ⟨r, hr, _⟩ := exists_least h.cyc hs
  obtain ⟨a1, a2⟩ := keep_cases (k := k) h hT hp hs hr
  by_cases hg : Top Tr Z s ∧ (conj (om n k)) ^ r * (tr Tr s r).2 = 1
  swap
  · rw [a1 hg] at hd; simp at hd
  have hr0 := hr.pos
  have hpR : (p : ℝ) * p = 1 := by rcases hp with rfl | rfl <;> norm_num
  rcases a2 hg with ⟨γ, δ, hh, hsq, e, m0, m1, m2, hγ, hδ, hk⟩ | ⟨hh, hk⟩
  · refine ⟨r, γ, δ, ?_⟩
    rcases hk with ⟨h0, hk⟩ | ⟨h0, hk⟩ <;> rw [hk] at hd
    · split_ifs at hd with hreal
      · simp at hd
      · rw [List.mem_singleton] at hd
        subst hd
        refine ⟨⟨hs, hg.1, hr, hg.2, by rw [sigmaOf_neg]; ring, hh, Or.inl ?_, ?_, Or.inr sigmaOf_neg⟩, fun hx => absurd hx hreal⟩
        · rw [m1, m2]; exact ⟨m0, hγ, hδ⟩
        · rw [sigmaOf_neg]
          push_cast
          intro h1
          have : (2 : ℝ) = 0 := by linear_combination h0 + h1
          norm_num at this
    · rw [List.mem_singleton] at hd
      subst hd
      refine ⟨⟨hs, hg.1, hr, hg.2, by rw [sigmaOf_pos hr0]; ring, hh, Or.inl ⟨m0, hγ, hδ⟩, ?_, Or.inl (sigmaOf_pos hr0)⟩, fun _ => sigmaOf_pos hr0⟩
      rw [sigmaOf_pos hr0]
      push_cast
      rw [one_mul]
      exact h0
  · refine ⟨r, 0, 0, ?_⟩
    rw [hk] at hd
    have hkp : ∀ d : Int × ℕ, d.2 = 0 → d.1 = sigmaOf d * r → (sigmaOf d = 1 ∨ sigmaOf d = -1) → Kept N Tr Z n k T p s d r 0 0 := by
      rintro ⟨a, b⟩ h1 h2 h3
      obtain rfl : b = 0 := h1
      refine ⟨hs, hg.1, hr, hg.2, h2, hh, Or.inr ⟨by rw [mmOf_zero]; norm_num, rfl, rfl⟩, by simp, h3⟩
    split_ifs at hd with hreal
    · rw [List.mem_singleton] at hd
      subst hd
      exact ⟨hkp _ rfl (by rw [sigmaOf_pos hr0]; ring) (Or.inl (sigmaOf_pos hr0)), fun _ => sigmaOf_pos hr0⟩
    · simp only [List.mem_cons, List.not_mem_nil, or_false] at hd
      rcases hd with rfl | rfl
      · exact ⟨hkp _ rfl (by rw [sigmaOf_neg]; ring) (Or.inr sigmaOf_neg), fun hx => absurd hx hreal⟩
      · exact ⟨hkp _ rfl (by rw [sigmaOf_pos hr0]; ring) (Or.inl (sigmaOf_pos hr0)), fun _ => sigmaOf_pos hr0⟩

theorem weight_eq {s r : ℕ} {d : Int × ℕ} {γ δ : ℝ} (hk : Kept N Tr Z n k T p s d r γ δ) :
    weightT_P p k (T * n) T d = (1 + sigmaOf d * p * γ) / r := by
  unfold weightT_P
  have hr : (r : ℝ) ≠ 0 := by exact_mod_cast Nat.pos_iff_ne_zero.1 hk.least.pos
  have hnum : (d.1 : ℝ) = sigmaOf d * r := by rw [hk.num]; push_cast; ring
  have hs2 : (sigmaOf d : ℝ) * sigmaOf d = 1 := by rcases hk.sig with e | e <;> rw [e] <;> norm_num
  have hs0 : (sigmaOf d : ℝ) ≠ 0 := by rcases hk.sig with e | e <;> rw [e] <;> norm_num
  rw [hnum]
  rcases hk.code with ⟨h1, h2, h3⟩ | ⟨h1, h2, h3⟩
  · rw [if_pos h1, h2]
    field_simp
  · rw [if_neg (by omega), h2]
    field_simp
    simp

theorem weight_pos {s r : ℕ} {d : Int × ℕ} {γ δ : ℝ} (hp : p = 1 ∨ p = -1) (hk : Kept N Tr Z n k T p s d r γ δ) (hγ : γ ^ 2 ≤ 1) :
    0 < weightT_P p k (T * n) T d := by
  rw [weight_eq hk]
  have hr : (0 : ℝ) < r := by exact_mod_cast hk.least.pos
  have h1 : (0 : ℝ) ≤ 1 + sigmaOf d * p * γ := by
    have hγ' := abs_le.1 (abs_le_of_sq_le_sq (a := γ) (b := 1) (by linarith) (by norm_num))
    rcases hk.sig with e | e <;> rcases hp with rfl | rfl <;> rw [e] <;> push_cast <;> linarith [hγ'.1, hγ'.2]
  exact div_pos (lt_of_le_of_ne h1 (Ne.symm hk.ok)) hr

theorem Kept.sq {s r : ℕ} {d : Int × ℕ} {γ δ : ℝ} (hk : Kept N Tr Z n k T p s d r γ δ) (h : Dihedral (· < N) Tr Z n) : γ ^ 2 ≤ 1 := by
  rcases hk.hit.cases with ⟨m, f, hm, e, ef, eg⟩ | ⟨_, h1, _⟩
  · have hs := congrArg Complex.normSq eg
    have hf : f = 1 ∨ f = -1 := by
      rw [ef]; exact pm_mul (h.sign s hk.lt) (h.cyc.sign_iter (h.closed s hk.lt) m)
    have hu : Complex.normSq (om n k) = 1 := by
      have := om_unit n k
      rw [Complex.mul_conj] at this
      exact_mod_cast this
    rw [map_mul, map_pow, hu, one_pow, Complex.normSq_add_mul_I] at hs
    have hf2 : Complex.normSq (f : ℂ) = 1 := by rcases hf with rfl | rfl <;> simp
    rw [hf2, one_mul] at hs
    nlinarith [sq_nonneg δ]
  · rw [h1]; norm_num

end Proof.Semi
