import Verif.Proof.SemiBlock
import Mathlib.LinearAlgebra.Finsupp.LinearCombination
/-! Completeness of the semi-momentum states and the matrix of an operator. -/
namespace Proof.Semi
open Spec Spec.Semi Model.Chain Proof.Chain Model
open scoped BigOperators ComplexConjugate Matrix

variable {N : ℕ} {Tr Z : BitOp} {n k T : ℕ} {p : Int}

/-! ### what is kept of one configuration -/

section
variable (h : Dihedral (· < N) Tr Z n) (hT : 0 < T) (hp : p = 1 ∨ p = -1)
include h hT hp

/-- at most two entries, and two only without reflected return -/
theorem keep_list {s : ℕ} (hs : s < N) :
    let keep := keepT_P (checkT_Z Tr Z k (T * n) T) p k (T * n) T s
    keep.Nodup ∧ keep.length ≤ 2 ∧ (2 * k * T % (T * n) = 0 → keep.length ≤ 1) ∧
    ∀ d ∈ keep, ∀ d' ∈ keep, d ≠ d' → mmOf (T * n) d < 0 ∧ mmOf (T * n) d' < 0 ∧ sigmaOf d' = -sigmaOf d := by
  intro keep
  obtain ⟨r, hr, _⟩ := exists_least h.cyc hs
  obtain ⟨a1, a2⟩ := keep_cases (k := k) h hT hp hs hr
  have hr0 := hr.pos
  by_cases hg : Top Tr Z s ∧ (conj (om n k)) ^ r * (tr Tr s r).2 = 1
  swap
  · rw [show keep = [] from a1 hg]; simp
  rcases a2 hg with ⟨γ, δ, hh, hsq, e, m0, m1, m2, hγ, hδ, hk⟩ | ⟨hh, hk⟩
  · rcases hk with ⟨h0, hk⟩ | ⟨h0, hk⟩
    · rw [show keep = _ from hk]
      split_ifs <;> simp
    · rw [show keep = _ from hk]; simp
  · rw [show keep = _ from hk]
    split_ifs with hre
    · simp
    · refine ⟨?_, by simp, fun hx => absurd hx hre, ?_⟩
      · simp only [List.nodup_cons, List.mem_cons, List.not_mem_nil, or_false, Prod.mk.injEq, and_true, not_false_eq_true, List.nodup_nil]
        omega
      · intro d hd d' hd' hne
        simp only [List.mem_cons, List.not_mem_nil, or_false] at hd hd'
        rcases hd with rfl | rfl <;> rcases hd' with rfl | rfl
        · exact absurd rfl hne
        · rw [mmOf_zero, mmOf_zero, sigmaOf_neg, sigmaOf_pos hr0]; norm_num
        · rw [mmOf_zero, mmOf_zero, sigmaOf_neg, sigmaOf_pos hr0]; norm_num
        · exact absurd rfl hne

/-- the waves of a representative are combinations of the kept ones -/
theorem st_span {s : ℕ} (hs : s < N) (htop : Top Tr Z s) (σ : Int) (hσ : σ = 1 ∨ σ = -1) (W : Submodule ℂ (Fin N → ℂ))
    (hW : ∀ d ∈ keepT_P (checkT_Z Tr Z k (T * n) T) p k (T * n) T s, st N Tr Z n k p (sigmaOf d) s ∈ W) : st N Tr Z n k p σ s ∈ W := by
  obtain ⟨r, hr, _⟩ := exists_least h.cyc hs
  obtain ⟨a1, a2⟩ := keep_cases (k := k) h hT hp hs hr
  have hr0 := hr.pos
  have hn := h.cyc.pos
  have hu := om_unit n k
  have hon := om_order (k := k) hn
  obtain ⟨p1, p2⟩ := p_facts hp
  by_cases hf : (conj (om n k)) ^ r * (tr Tr s r).2 = 1
  swap
  · -- the momentum does not fit
    have hf' : (conj (conj (om n k))) ^ r * (tr Tr s r).2 ≠ 1 := by
      intro e
      apply hf
      have e2 := congrArg conj e
      rw [map_mul, map_pow, map_one, Complex.conj_conj] at e2
      rcases h.cyc.sign_iter hs r with e3 | e3 <;> rw [e3] at e2 ⊢ <;> simpa using e2
    have z1 := no_fit h.cyc hs hr hu hon hf (dih h)
    have z2 := no_fit h.cyc hs hr (ω := conj (om n k)) (by rw [Complex.conj_conj, mul_comm]; exact hu) (by rw [← map_pow, hon, map_one]) hf' (dih h)
    have zc : (proj (opMat N Tr) n (om n k) + proj (opMat N Tr) n (conj (om n k))) *ᵥ basisVec N s = 0 := by
      rw [Matrix.add_mulVec, z1, z2, add_zero]
    have zs : (proj (opMat N Tr) n (om n k) - proj (opMat N Tr) n (conj (om n k))) *ᵥ basisVec N s = 0 := by
      rw [Matrix.sub_mulVec, z1, z2, sub_zero]
    have : st N Tr Z n k p σ s = 0 := by
      unfold st bMat bPlus bMinus cosW sinW
      split_ifs
      · rw [mul_one, ← Matrix.mulVec_mulVec, Matrix.smul_mulVec, zc]; simp
      · rw [mul_one, ← Matrix.mulVec_mulVec, Matrix.smul_mulVec, zs]; simp
    rw [this]; exact W.zero_mem
  have hrr : (r : ℝ) ≠ 0 := by exact_mod_cast Nat.pos_iff_ne_zero.1 hr0
  have hminus : om n k ^ 2 = 1 → st N Tr Z n k p (-1) s = 0 := by
    intro hre
    have := (ip_waves_real h hu hon p1 p2 hre s s).2
    unfold st bMat
    rw [if_neg (by norm_num), this, Matrix.zero_mulVec]
  have hpR : (p : ℝ) * p = 1 := by rcases hp with rfl | rfl <;> norm_num
  rcases a2 ⟨htop, hf⟩ with ⟨γ, δ, hh, hsq, e, m0, m1, m2, hγ, hδ, hk⟩ | ⟨hh, hk⟩
  · obtain ⟨g1, g2⟩ := gram_state h hp hs hr hf hh
    rcases hk with ⟨h0, hk⟩ | ⟨h0, hk⟩
    · have hplus : st N Tr Z n k p 1 s = 0 := by
        apply eq_zero_of_ip
        rw [g1, h0]; simp
      rcases hσ with rfl | rfl
      · rw [hplus]; exact W.zero_mem
      · by_cases hre : om n k ^ 2 = 1
        · rw [hminus hre]; exact W.zero_mem
        · have := hW (-(r : Int), e) (by rw [hk, if_neg (fun hx => hre ((om_real hT hn).2 hx))]; simp)
          rwa [sigmaOf_neg] at this
    · have hin := hW ((r : Int), e) (by rw [hk]; simp)
      rw [sigmaOf_pos hr0] at hin
      rcases hσ with rfl | rfl
      · exact hin
      · by_cases hre : om n k ^ 2 = 1
        · rw [hminus hre]; exact W.zero_mem
        · obtain ⟨q2, q3, q4⟩ := g2 hre
          have hka : kappa n k = 1 := by unfold kappa; rw [if_neg hre]
          rw [hka] at g1
          have hzero : ((1 + p * γ : ℝ) : ℂ) • st N Tr Z n k p (-1) s + ((p * δ : ℝ) : ℂ) • st N Tr Z n k p 1 s = 0 := by
            apply eq_zero_of_ip
            simp only [ip_add, ip_add_left, ip_smul, ip_smul_left, Complex.conj_ofReal, g1, q2, q3, q4]
            norm_cast
            field_simp
            have e2 : (p : ℝ) ^ 2 = 1 := by rw [sq]; exact hpR
            have e3 : γ ^ 2 = 1 - δ ^ 2 := by linear_combination hsq
            ring_nf
            have e4 : (p : ℝ) ^ 3 = p := by rw [pow_succ, e2, one_mul]
            rw [e4, e2]
            have e5 : γ ^ 3 = γ * (1 - δ ^ 2) := by rw [← e3]; ring
            rw [e5, e3]
            ring
          have hne : ((1 + p * γ : ℝ) : ℂ) ≠ 0 := by exact_mod_cast h0
          have : st N Tr Z n k p (-1) s = (((1 + p * γ : ℝ) : ℂ)⁻¹ * -((p * δ : ℝ) : ℂ)) • st N Tr Z n k p 1 s := by
            rw [← smul_smul, neg_smul, ← eq_neg_of_add_eq_zero_left hzero, smul_smul, inv_mul_cancel₀ hne, one_smul]
          rw [this]
          exact W.smul_mem _ hin
  · have hin := hW ((r : Int), 0) (by rw [hk]; split_ifs <;> simp)
    rw [sigmaOf_pos hr0] at hin
    rcases hσ with rfl | rfl
    · exact hin
    · by_cases hre : om n k ^ 2 = 1
      · rw [hminus hre]; exact W.zero_mem
      · have := hW (-(r : Int), 0) (by rw [hk, if_neg (fun hx => hre ((om_real hT hn).2 hx))]; simp)
        rwa [sigmaOf_neg] at this

end

/-! ### vectors of the block -/

section
variable (h : Dihedral (· < N) Tr Z n) (hp : p = 1 ∨ p = -1)
include h hp

omit h hp in
theorem om_re (n k : ℕ) (hn : 0 < n) (j : ℕ) : om n k ^ j + (conj (om n k)) ^ j = ((2 * Real.cos (2 * Real.pi * k / n * j) : ℝ) : ℂ) := by
  have := om_cos (k := k) (T := 1) one_pos hn j
  rw [wave_eq one_pos hn] at this
  rw [← map_pow, this]
  simp only [map_add, map_mul, Complex.conj_ofReal, Complex.conj_I]
  push_cast
  ring

omit hp in
/-- sums of a translation and its inverse on a vector of the block -/
theorem block_powers {v : Fin N → ℂ} (hv : InBlock (opMat N Tr) (opMat N Z) (2 * Real.pi * k / n) p v) (j : ℕ) :
    (opMat N Tr ^ j + star (opMat N Tr) ^ j) *ᵥ v = (om n k ^ j + (conj (om n k)) ^ j) • v := by
  have hn := h.cyc.pos
  have hd := dih h
  have hm : (opMat N Tr + star (opMat N Tr)) *ᵥ v = (om n k + conj (om n k)) • v := by
    have := om_re n k hn 1
    rw [pow_one, pow_one, Nat.cast_one, mul_one] at this
    rw [this, Matrix.add_mulVec, Matrix.star_eq_conjTranspose, hv.momentum]
  have hu := om_unit n k
  generalize opMat N Tr = U at hd hm
  generalize om n k = ω at hu hm
  induction j using Nat.strongRecOn with
  | _ j ih =>
    match j with
    | 0 => simp only [pow_zero]; rw [Matrix.add_mulVec, Matrix.one_mulVec, add_smul, one_smul]
    | 1 => simp only [pow_one]; exact hm
    | j + 2 =>
      have e1 : U ^ (j + 2) + star U ^ (j + 2) = (U ^ (j + 1) + star U ^ (j + 1)) * (U + star U) - (U ^ j + star U ^ j) := by
        have a1 : U ^ (j + 1) * star U = U ^ j := by rw [pow_succ, mul_assoc, hd.right, mul_one]
        have a2 : star U ^ (j + 1) * U = star U ^ j := by rw [pow_succ, mul_assoc, hd.left, mul_one]
        rw [add_mul, mul_add, mul_add, a1, a2, ← pow_succ, ← pow_succ]
        abel
      rw [e1, Matrix.sub_mulVec, ← Matrix.mulVec_mulVec, hm, Matrix.mulVec_smul, ih (j + 1) (by omega), ih j (by omega), smul_smul, ← sub_smul]
      congr 1
      linear_combination (ω ^ j + (conj ω) ^ j) * hu

theorem block_wave {v : Fin N → ℂ} (hv : InBlock (opMat N Tr) (opMat N Z) (2 * Real.pi * k / n) p v) :
    bPlus (opMat N Tr) (opMat N Z) 1 n (om n k) p *ᵥ v = ((kappa n k * n : ℝ) : ℂ) • v := by
  have hn := h.cyc.pos
  have hd := dih h
  have hu := om_unit n k
  have hon := om_order (k := k) hn
  obtain ⟨p1, p2⟩ := p_facts hp
  have hc : cosW (opMat N Tr) n (om n k) = (1 / 4 : ℂ) • ∑ j ∈ Finset.range n, (om n k ^ j + (conj (om n k)) ^ j) • (opMat N Tr ^ j + star (opMat N Tr) ^ j) := by
    have e1 : cosW (opMat N Tr) n (om n k) = (1 / 2 : ℂ) • ∑ j ∈ Finset.range n, (om n k ^ j + (conj (om n k)) ^ j) • opMat N Tr ^ j := by
      unfold cosW proj
      rw [Complex.conj_conj, ← Finset.sum_add_distrib]
      congr 1
      apply Finset.sum_congr rfl
      intro j _
      rw [add_smul, add_comm]
    have e2 : cosW (opMat N Tr) n (om n k) = (1 / 2 : ℂ) • ∑ j ∈ Finset.range n, (om n k ^ j + (conj (om n k)) ^ j) • star (opMat N Tr) ^ j := by
      rw [← star_cosW hd hu hon, e1, star_smul, star_sum]
      congr 1
      · simp
      · apply Finset.sum_congr rfl
        intro j _
        rw [star_smul, star_pow]
        congr 1
        simp only [star_add, star_pow, RCLike.star_def, Complex.conj_conj]
        ring
    have e3 : cosW (opMat N Tr) n (om n k) = (1 / 2 : ℂ) • (cosW (opMat N Tr) n (om n k) + cosW (opMat N Tr) n (om n k)) := by
      rw [← two_smul ℂ (cosW (opMat N Tr) n (om n k)), smul_smul]; norm_num
    rw [e3]
    conv_lhs => arg 2; arg 1; rw [e1]
    conv_lhs => arg 2; arg 2; rw [e2]
    rw [← smul_add, smul_smul, ← Finset.sum_add_distrib]
    congr 1
    · norm_num
    · apply Finset.sum_congr rfl
      intro j _
      rw [smul_add]
  have hsum : ∑ j ∈ Finset.range n, (om n k ^ j + (conj (om n k)) ^ j) * (om n k ^ j + (conj (om n k)) ^ j) = ((2 * (kappa n k * n) : ℝ) : ℂ) := by
    have e1 : ∀ j, (om n k ^ j + (conj (om n k)) ^ j) * (om n k ^ j + (conj (om n k)) ^ j) = (om n k ^ 2) ^ j + ((conj (om n k)) ^ 2) ^ j + 2 := by
      intro j
      have : om n k ^ j * (conj (om n k)) ^ j = 1 := by rw [← mul_pow, hu, one_pow]
      rw [← pow_mul, ← pow_mul, mul_comm 2 j, pow_mul, pow_mul]
      linear_combination 2 * this
    simp only [e1]
    rw [Finset.sum_add_distrib, Finset.sum_add_distrib]
    simp only [Finset.sum_const, Finset.card_range, nsmul_eq_mul]
    unfold kappa
    by_cases hre : om n k ^ 2 = 1
    · have hre' : (conj (om n k)) ^ 2 = 1 := by rw [← map_pow, hre, map_one]
      rw [if_pos hre, hre, hre']
      simp
      ring
    · have hre' : (conj (om n k)) ^ 2 ≠ 1 := by
        intro e
        apply hre
        have := congrArg conj e
        rw [map_pow, Complex.conj_conj, map_one] at this
        exact this
      rw [if_neg hre, geom_sum_eq hre, geom_sum_eq hre', ← pow_mul, ← pow_mul, mul_comm 2 n, pow_mul, pow_mul, hon, ← map_pow, hon]
      simp
      ring
  unfold bPlus
  rw [mul_one, ← Matrix.mulVec_mulVec, hc, Matrix.smul_mulVec, Matrix.sum_mulVec]
  have e4 : ∀ j ∈ Finset.range n, ((om n k ^ j + (conj (om n k)) ^ j) • (opMat N Tr ^ j + star (opMat N Tr) ^ j)) *ᵥ v
      = ((om n k ^ j + (conj (om n k)) ^ j) * (om n k ^ j + (conj (om n k)) ^ j)) • v := by
    intro j _
    rw [Matrix.smul_mulVec, block_powers h hv j, smul_smul]
  rw [Finset.sum_congr rfl e4, ← Finset.sum_smul, hsum, smul_smul, Matrix.mulVec_smul, Matrix.add_mulVec, Matrix.one_mulVec, Matrix.smul_mulVec,
    hv.reflection, smul_smul, p1, one_smul, ← two_smul ℂ v, smul_smul]
  congr 1
  push_cast
  ring

end

/-! ### the basis -/

/-- the entries for the configurations `es`, in decreasing order of the configurations -/
structure Listed {α : Type} (keep : ℕ → List α) (es : List ℕ) (basis : List (ℕ × α)) : Prop where
  sorted : (basis.map (·.1)).Pairwise (· ≥ ·)
  nodup : basis.Nodup
  mem : ∀ s d, (s, d) ∈ basis ↔ s ∈ es ∧ d ∈ keep s

theorem listed_block {α : Type} (keep : ℕ → List α) (next : ℕ → ℕ) (nosymm : ℕ → Bool) (MAX s0 : ℕ) (hinc : (visited next MAX s0).Pairwise (· < ·))
    (hnd : ∀ s ∈ (visited next MAX s0).filter nosymm, (keep s).Nodup) :
    Listed keep ((visited next MAX s0).filter nosymm) (blockBasisList next nosymm keep MAX s0) := by
  unfold blockBasisList
  generalize visited next MAX s0 = vs at hinc hnd
  have hfst : ∀ (t : ℕ) (x : ℕ × α), x ∈ (if nosymm t then (keep t).map fun d => (t, d) else []) → x.1 = t := by
    intro t x hx
    split_ifs at hx
    · rw [List.mem_map] at hx
      obtain ⟨d, _, rfl⟩ := hx; rfl
    · simp at hx
  refine ⟨?_, ?_, ?_⟩
  · rw [List.map_reverse, List.pairwise_reverse, List.pairwise_map, List.pairwise_flatMap]
    refine ⟨?_, ?_⟩
    · intro t _
      apply List.pairwise_of_forall_mem_list
      intro x hx y hy
      rw [hfst t x hx, hfst t y hy]
    · refine hinc.imp ?_
      intro a b hab x hx y hy
      rw [hfst a x hx, hfst b y hy]
      exact hab.le
  · rw [List.nodup_reverse, List.nodup_flatMap]
    refine ⟨?_, ?_⟩
    · intro t ht
      by_cases hn : nosymm t
      · rw [if_pos hn]
        refine List.Nodup.map ?_ (hnd t (List.mem_filter.2 ⟨ht, hn⟩))
        intro a b hab
        simpa using hab
      · rw [if_neg hn]; exact List.nodup_nil
    · refine hinc.imp ?_
      intro a b hab x hx hy
      have := hfst a x hx
      have := hfst b x hy
      omega
  · intro s d
    rw [List.mem_reverse, List.mem_flatMap, List.mem_filter]
    constructor
    · rintro ⟨t, ht, hx⟩
      have e := hfst t _ hx
      simp only at e
      subst e
      split_ifs at hx with hn
      · rw [List.mem_map] at hx
        obtain ⟨d', h1, h2⟩ := hx
        simp only [Prod.mk.injEq, true_and] at h2
        subst h2
        exact ⟨⟨ht, hn⟩, h1⟩
      · simp at hx
    · rintro ⟨⟨h1, h2⟩, h3⟩
      exact ⟨s, h1, by rw [if_pos h2]; exact List.mem_map.2 ⟨d, h3, rfl⟩⟩

theorem three_of_two {α : Type} {l : List α} (hl : l.length ≤ 2) {a b c : α} (ha : a ∈ l) (hb : b ∈ l) (hc : c ∈ l) : a = b ∨ b = c ∨ a = c := by
  match l, hl with
  | [], _ => simp at ha
  | [x], _ => simp only [List.mem_singleton] at ha hb; left; rw [ha, hb]
  | [x, y], _ =>
    simp only [List.mem_cons, List.not_mem_nil, or_false] at ha hb hc
    rcases ha with rfl | rfl <;> rcases hb with rfl | rfl <;> rcases hc with rfl | rfl <;> simp

/-- normalised state of an entry -/
noncomputable def ent (N : ℕ) (Tr Z : BitOp) (n k : ℕ) (p : Int) (x : ℕ × (Int × ℕ)) : Fin N → ℂ := normalized (st N Tr Z n k p (sigmaOf x.2) x.1)

section
variable (h : Dihedral (· < N) Tr Z n) (hT : 0 < T) (hp : p = 1 ∨ p = -1)
variable {es : List ℕ} (hbelow : ∀ s ∈ es, s < N) (hclT : ∀ s ∈ es, (Tr s).1 ∈ es) (hclZ : ∀ s ∈ es, (Z s).1 ∈ es)
variable {basis : List (ℕ × (Int × ℕ))} (hl : Listed (keepT_P (checkT_Z Tr Z k (T * n) T) p k (T * n) T) es basis)
include h hT hp hbelow hl

theorem twice_of : Twice basis := by
  refine ⟨hl.sorted, ?_⟩
  intro i s h1 h3
  have hlt := stateAt_lt h3
  obtain ⟨t, h2⟩ := stateAt_ex (basis := basis) (i := i + 1) (by omega)
  have ht : t = s := by
    have a1 := h1; have a2 := h2; have a3 := h3
    rw [stateAt_map] at a1 a2 a3
    have := Props.nonincreasing_get hl.sorted a1 a2 (by omega)
    have := Props.nonincreasing_get hl.sorted a2 a3 (by omega)
    omega
  rw [ht] at h2
  obtain ⟨d1, e1⟩ := stateAt_pair h1
  obtain ⟨d2, e2⟩ := stateAt_pair h2
  obtain ⟨d3, e3⟩ := stateAt_pair h3
  have m1 := (hl.mem s d1).1 (List.mem_of_getElem? e1)
  have m2 := (hl.mem s d2).1 (List.mem_of_getElem? e2)
  have m3 := (hl.mem s d3).1 (List.mem_of_getElem? e3)
  obtain ⟨_, hlen, _, _⟩ := keep_list (k := k) h hT hp (hbelow s m1.1)
  have hne : ∀ a b (ha : a < basis.length) (hb : b < basis.length), a ≠ b → basis[a] ≠ basis[b] := by
    intro a b ha hb hab e
    exact hab ((List.Nodup.getElem_inj_iff hl.nodup).1 e)
  obtain ⟨l1, e1⟩ := List.getElem?_eq_some_iff.1 e1
  obtain ⟨l2, e2⟩ := List.getElem?_eq_some_iff.1 e2
  obtain ⟨l3, e3⟩ := List.getElem?_eq_some_iff.1 e3
  rcases three_of_two hlen m1.2 m2.2 m3.2 with e | e | e
  · exact hne i (i + 1) l1 l2 (by omega) (by rw [e1, e2, e])
  · exact hne (i + 1) (i + 2) l2 l3 (by omega) (by rw [e2, e3, e])
  · exact hne i (i + 2) l1 l3 (by omega) (by rw [e1, e3, e])

theorem strict_of (hre : 2 * k * T % (T * n) = 0) : (basis.map (·.1)).Pairwise (· > ·) := by
  have h2 : (basis.map (·.1)).Nodup := by
    refine List.Nodup.map_on ?_ hl.nodup
    rintro ⟨s, d⟩ hx ⟨t, d'⟩ hy e
    simp only at e
    subst e
    have m1 := (hl.mem s d).1 hx
    have m2 := (hl.mem s d').1 hy
    obtain ⟨_, _, hlen, _⟩ := keep_list (k := k) h hT hp (hbelow s m1.1)
    have := hlen hre
    generalize keepT_P (checkT_Z Tr Z k (T * n) T) p k (T * n) T s = l at m1 m2 this
    match l, this with
    | [], _ => simp at m1
    | [x], _ =>
      have a := m1.2; have b := m2.2
      simp only [List.mem_singleton] at a b
      rw [a, b]
  rw [List.pairwise_iff_getElem]
  intro i j hi hj hij
  have h1 := List.pairwise_iff_getElem.1 hl.sorted i j hi hj hij
  have h3 : (basis.map (·.1))[i] ≠ (basis.map (·.1))[j] := fun e => by
    have := (List.Nodup.getElem_inj_iff h2).1 e
    omega
  omega

/-- the norm of an entry -/
theorem ent_norm {x : ℕ × (Int × ℕ)} (hx : x ∈ basis) : ∑ t, ‖st N Tr Z n k p (sigmaOf x.2) x.1 t‖ ^ 2 = kappa n k * n ^ 2 * weightT_P p k (T * n) T x.2 := by
  obtain ⟨s, d⟩ := x
  obtain ⟨m1, m2⟩ := (hl.mem s d).1 hx
  obtain ⟨r, γ, δ, hk, hre⟩ := kept_of_mem h hT hp (hbelow s m1) m2
  obtain ⟨g1, g2⟩ := gram_state h hp hk.lt hk.least hk.fit hk.hit
  have key : ip (st N Tr Z n k p (sigmaOf d) s) (st N Tr Z n k p (sigmaOf d) s) = ((kappa n k * n ^ 2 * weightT_P p k (T * n) T d : ℝ) : ℂ) := by
    rw [weight_eq hk]
    rcases hk.sig with e | e
    · rw [e, g1]; push_cast; rw [one_mul]
    · have hne : om n k ^ 2 ≠ 1 := by
        intro hx
        have := hre ((om_real hT h.cyc.pos).1 hx)
        rw [e] at this; norm_num at this
      rw [e, (g2 hne).1]
      unfold kappa
      rw [if_neg hne]
      push_cast
      rw [one_mul]
      congr 2
      ring
  rw [ip_self] at key
  exact_mod_cast key

theorem ent_weight {x : ℕ × (Int × ℕ)} (hx : x ∈ basis) : 0 < kappa n k * n ^ 2 * weightT_P p k (T * n) T x.2 := by
  obtain ⟨s, d⟩ := x
  obtain ⟨m1, m2⟩ := (hl.mem s d).1 hx
  obtain ⟨r, γ, δ, hk, hre⟩ := kept_of_mem h hT hp (hbelow s m1) m2
  have hn : (0 : ℝ) < n := by exact_mod_cast h.cyc.pos
  exact mul_pos (mul_pos (kappa_pos n k) (by positivity)) (weight_pos hp hk (hk.sq h))

theorem ent_orthonormal (i j : Fin basis.length) : ip (ent N Tr Z n k p basis[i]) (ent N Tr Z n k p basis[j]) = if i = j then 1 else 0 := by
  have hxi : basis[i] ∈ basis := List.getElem_mem _
  have hxj : basis[j] ∈ basis := List.getElem_mem _
  unfold ent normalized
  rw [ip_smul, ip_smul_left, Complex.conj_ofReal]
  by_cases hij : i = j
  · subst hij
    rw [if_pos rfl, ip_self]
    have hpos := ent_weight h hT hp hbelow hl hxi
    rw [← ent_norm h hT hp hbelow hl hxi] at hpos
    generalize ∑ t, ‖st N Tr Z n k p (sigmaOf basis[i].2) basis[i].1 t‖ ^ 2 = G at hpos ⊢
    have h1 : Real.sqrt G * Real.sqrt G = G := Real.mul_self_sqrt hpos.le
    have h2 : Real.sqrt G ≠ 0 := (Real.sqrt_pos.2 hpos).ne'
    norm_cast
    field_simp
    rw [sq, h1]
  · rw [if_neg hij]
    have hne : basis[i] ≠ basis[j] := fun e => hij (Fin.ext ((List.Nodup.getElem_inj_iff hl.nodup).1 e))
    generalize basis[i] = x at hxi hne ⊢
    generalize basis[j] = y at hxj hne ⊢
    obtain ⟨s, d⟩ := x
    obtain ⟨t, d'⟩ := y
    obtain ⟨m1, m2⟩ := (hl.mem s d).1 hxi
    obtain ⟨m3, m4⟩ := (hl.mem t d').1 hxj
    obtain ⟨r, γ, δ, hk, hre⟩ := kept_of_mem h hT hp (hbelow s m1) m2
    obtain ⟨r', γ', δ', hk', hre'⟩ := kept_of_mem h hT hp (hbelow t m3) m4
    have hz : ip (st N Tr Z n k p (sigmaOf d) s) (st N Tr Z n k p (sigmaOf d') t) = 0 := by
      by_cases hst : s = t
      · subst hst
        have hdd : d ≠ d' := fun e => hne (by rw [e])
        obtain ⟨_, _, _, hkl⟩ := keep_list (k := k) h hT hp (hbelow s m1)
        obtain ⟨c1, c2, c3⟩ := hkl d m2 d' m4 hdd
        have hδ : δ = 0 := by
          rcases hk.code with ⟨h1, _, _⟩ | ⟨_, _, h3⟩
          · omega
          · exact h3
        have hnre : om n k ^ 2 ≠ 1 := by
          intro hx
          have a := hre ((om_real hT h.cyc.pos).1 hx)
          have b := hre' ((om_real hT h.cyc.pos).1 hx)
          rw [a, b] at c3; norm_num at c3
        obtain ⟨_, g2⟩ := gram_state h hp hk.lt hk.least hk.fit hk.hit
        obtain ⟨_, g3, g4⟩ := g2 hnre
        rw [hδ] at g3 g4
        rcases hk.sig with e | e
        · rw [c3, e, g3]; simp
        · rw [c3, e, neg_neg, g4]; simp
      · exact st_orthogonal h hp hk.lt hk'.lt (fun ho => hst (h.top_unique hk'.lt hk'.top hk.top ho).symm) _ _
    rw [hz]
    simp

include hclT hclZ

set_option linter.unusedSectionVars false in
/-- the states live on the configurations of the sector -/
theorem st_within {s : ℕ} (hs : s ∈ es) (σ : Int) (t : Fin N) (ht : st N Tr Z n k p σ s t ≠ 0) : (t : ℕ) ∈ es := by
  by_contra hno
  apply ht
  -- vectors that vanish outside
  have hmul : ∀ f : BitOp, (∀ s ∈ es, (f s).1 ∈ es) → ∀ v : Fin N → ℂ, (∀ t : Fin N, (t : ℕ) ∉ es → v t = 0) → ∀ t : Fin N, (t : ℕ) ∉ es → (opMat N f *ᵥ v) t = 0 := by
    intro f hf v hv t ht
    rw [Matrix.mulVec, dotProduct]
    apply Finset.sum_eq_zero
    intro u _
    by_cases hu : (u : ℕ) ∈ es
    · have : opMat N f t u = 0 := by
        unfold opMat matrixOf gen
        simp only
        rw [if_neg]
        intro e
        exact ht (by rw [← e]; exact hf _ hu)
      rw [this, zero_mul]
    · rw [hv u hu, mul_zero]
  have hb : ∀ t : Fin N, (t : ℕ) ∉ es → basisVec N s t = 0 := by
    intro t ht
    unfold basisVec
    rw [if_neg]
    intro e; exact ht (by rw [e]; exact hs)
  have hpw : ∀ j, ∀ t : Fin N, (t : ℕ) ∉ es → (opMat N Tr ^ j *ᵥ basisVec N s) t = 0 := by
    intro j
    induction j with
    | zero => rw [pow_zero, Matrix.one_mulVec]; exact hb
    | succ j ih => rw [pow_succ', ← Matrix.mulVec_mulVec]; exact hmul Tr hclT _ ih
  rw [← state_eq h.cyc.pos]
  unfold state
  have hw : ∀ t : Fin N, (t : ℕ) ∉ es → ((∑ j ∈ Finset.range n, ((if 0 < σ then Real.cos (2 * Real.pi * k / n * j) else Real.sin (2 * Real.pi * k / n * j) : ℝ) : ℂ) • opMat N Tr ^ j) *ᵥ basisVec N s) t = 0 := by
    intro t ht
    rw [Matrix.sum_mulVec, Finset.sum_apply]
    apply Finset.sum_eq_zero
    intro j _
    rw [Matrix.smul_mulVec, Pi.smul_apply, hpw j t ht, smul_zero]
  rw [Matrix.add_mulVec, Matrix.one_mulVec, Matrix.smul_mulVec, Pi.add_apply, Pi.smul_apply, hw t hno, hmul Z hclZ _ hw t hno, smul_zero, add_zero]

set_option linter.unusedSectionVars false in
theorem closed_orbit {s : ℕ} (hs : s ∈ es) : ∀ j, (tr Tr s j).1 ∈ es := by
  intro j
  induction j with
  | zero => exact hs
  | succ j ih => rw [tr_succ]; exact hclT _ ih

/-- every vector of the block is a combination of the entries -/
theorem ent_spans {v : Fin N → ℂ} (hv : InBlock (opMat N Tr) (opMat N Z) (2 * Real.pi * k / n) p v) (hsup : ∀ t, v t ≠ 0 → (t : ℕ) ∈ es) :
    ∃ a : Fin basis.length → ℂ, v = ∑ i, a i • ent N Tr Z n k p basis[i] := by
  have hn := h.cyc.pos
  have hW : v ∈ Submodule.span ℂ (Set.range fun i : Fin basis.length => ent N Tr Z n k p basis[i]) := by
    have hent : ∀ x ∈ basis, st N Tr Z n k p (sigmaOf x.2) x.1 ∈ Submodule.span ℂ (Set.range fun i : Fin basis.length => ent N Tr Z n k p basis[i]) := by
      intro x hx
      obtain ⟨i, hi, e⟩ := List.getElem_of_mem hx
      have hpos := ent_weight h hT hp hbelow hl hx
      have h1 : ent N Tr Z n k p x ∈ Submodule.span ℂ (Set.range fun i : Fin basis.length => ent N Tr Z n k p basis[i]) :=
        Submodule.subset_span ⟨⟨i, hi⟩, by simp only [Fin.getElem_fin, e]⟩
      rw [← ent_norm h hT hp hbelow hl hx] at hpos
      unfold ent normalized at h1
      generalize ∑ t, ‖st N Tr Z n k p (sigmaOf x.2) x.1 t‖ ^ 2 = G at hpos h1
      have h2 : ((Real.sqrt G : ℝ) : ℂ) ≠ 0 := by exact_mod_cast (Real.sqrt_pos.2 hpos).ne'
      have h3 := Submodule.smul_mem _ ((Real.sqrt G : ℝ) : ℂ) h1
      rw [smul_smul, Complex.ofReal_inv, mul_inv_cancel₀ h2, one_smul] at h3
      exact h3
    have hrep : ∀ s ∈ es, Top Tr Z s → ∀ σ : Int, σ = 1 ∨ σ = -1 → st N Tr Z n k p σ s ∈ Submodule.span ℂ (Set.range fun i : Fin basis.length => ent N Tr Z n k p basis[i]) := by
      intro s hs htop σ hσ
      exact st_span h hT hp (hbelow s hs) htop σ hσ _ fun d hd => hent (s, d) ((hl.mem s d).2 ⟨hs, hd⟩)
    have hx : ∀ x ∈ es, st N Tr Z n k p 1 x ∈ Submodule.span ℂ (Set.range fun i : Fin basis.length => ent N Tr Z n k p basis[i]) := by
      intro x hx
      obtain ⟨b1, b2, b3⟩ := h.ref_spec (L := T * n) (T := T) (Nat.mul_div_cancel_left n hT) x (hbelow x hx)
      generalize refT_Z Tr Z (T * n) T x = b at b1 b2 b3
      have hb : b.r ∈ es := by
        rcases b1 with ⟨_, e⟩ | ⟨_, e⟩
        · have := closed_orbit h hT hp hbelow hclT hclZ hl hx b.l
          unfold tr at this
          rw [e] at this; exact this
        · have := closed_orbit h hT hp hbelow hclT hclZ hl (hclZ x hx) b.l
          have e2 := congrArg Prod.fst e
          rw [iter_fst] at e2
          simp only at e2
          rw [← e2]; exact this
      rw [st_move h hp hT 1 (Or.inl rfl) x (hbelow x hx) b b1]
      exact Submodule.smul_mem _ _ (Submodule.sub_mem _ (Submodule.smul_mem _ _ (hrep _ hb b3 1 (Or.inl rfl)))
        (Submodule.smul_mem _ _ (hrep _ hb b3 (-1) (Or.inr rfl))))
    have hvs : v = ∑ t : Fin N, v t • basisVec N (t : ℕ) := by
      funext u
      rw [Finset.sum_apply]
      simp only [Pi.smul_apply, smul_eq_mul, basisVec, Fin.val_inj]
      simp
    have hw := block_wave h hp hv
    have hc : ((kappa n k * n : ℝ) : ℂ) ≠ 0 := by
      have hn' : (0 : ℝ) < n := by exact_mod_cast hn
      exact_mod_cast (mul_pos (kappa_pos n k) hn').ne'
    have e1 : v = ((kappa n k * n : ℝ) : ℂ)⁻¹ • (bPlus (opMat N Tr) (opMat N Z) 1 n (om n k) p *ᵥ v) := by
      rw [hw, smul_smul, inv_mul_cancel₀ hc, one_smul]
    rw [e1]
    apply Submodule.smul_mem
    rw [hvs, Matrix.mulVec_sum]
    apply Submodule.sum_mem
    intro t _
    rw [Matrix.mulVec_smul]
    by_cases ht : v t = 0
    · rw [ht, zero_smul]; exact Submodule.zero_mem _
    · exact Submodule.smul_mem _ _ (hx _ (hsup t ht))
  rw [Submodule.mem_span_range_iff_exists_fun] at hW
  obtain ⟨c, hc⟩ := hW
  exact ⟨c, hc.symm⟩

theorem semi_basis : IsBasisOf (InBlock (opMat N Tr) (opMat N Z) (2 * Real.pi * k / n) p) es (fun i : Fin basis.length => ent N Tr Z n k p basis[i]) where
  orthonormal := ent_orthonormal h hT hp hbelow hl
  inBlock := by
    intro i
    have := st_block (k := k) h hp (sigmaOf basis[i].2) basis[i].1
    unfold ent normalized
    refine ⟨?_, ?_⟩
    · rw [Matrix.mulVec_smul, Matrix.mulVec_smul, ← smul_add, this.momentum, smul_comm]
    · rw [Matrix.mulVec_smul, this.reflection, smul_comm]
  within := by
    intro i t ht
    obtain ⟨m1, _⟩ := (hl.mem basis[i].1 basis[i].2).1 (List.getElem_mem _)
    refine st_within h hT hp hbelow hclT hclZ hl m1 (sigmaOf basis[i].2) t (k := k) ?_
    intro h0
    apply ht
    unfold ent normalized
    rw [Pi.smul_apply, h0, smul_zero]
  spans := fun v hv hsup => ent_spans h hT hp hbelow hclT hclZ hl hv hsup

end

/-! ### the matrix -/

section
variable (h : Dihedral (· < N) Tr Z n) (hT : 0 < T) (hp : p = 1 ∨ p = -1)
variable {es : List ℕ} (hbelow : ∀ s ∈ es, s < N)
variable {basis : List (ℕ × (Int × ℕ))} (hl : Listed (keepT_P (checkT_Z Tr Z k (T * n) T) p k (T * n) T) es basis)
include h hT hp hbelow hl

omit h hT hp hbelow hl in
/-- an operator on a configuration -/
theorem operator_basis (terms : List (ℕ → Option (ℕ × ℂ))) (hterms : TermsWithin N terms) {s : ℕ} (hs : s < N) (X : Matrix (Fin N) (Fin N) ℂ) (w : Fin N → ℂ) :
    ip w (X *ᵥ (restrict N (operatorOf terms) *ᵥ basisVec N s)) = (terms.map fun f => match f s with
      | some (x, m) => m * ip w (X *ᵥ basisVec N x)
      | none => 0).sum := by
  induction terms with
  | nil =>
    have : restrict N (operatorOf []) = 0 := by ext t u; rfl
    rw [this]; simp [ip_zero]
  | cons f terms ih =>
    have e : restrict N (operatorOf (f :: terms)) = restrict N (operatorOf [f]) + restrict N (operatorOf terms) := by
      ext t u
      rw [Matrix.add_apply]
      unfold restrict operatorOf
      simp
    rw [e, Matrix.add_mulVec, Matrix.mulVec_add, ip_add, ih fun g hg => hterms g (by simp [hg]), List.map_cons, List.sum_cons]
    congr 1
    obtain ⟨x, hx, m, hf⟩ := hterms f (by simp) s hs
    have e2 : restrict N (operatorOf [f]) *ᵥ basisVec N s = m • basisVec N x := by
      funext t
      rw [mulVec_basis _ _ hs]
      unfold restrict operatorOf basisVec
      simp only [List.map_cons, List.map_nil, List.sum_cons, List.sum_nil, add_zero, hf, Pi.smul_apply, smul_eq_mul]
      by_cases hxt : x = t
      · rw [if_pos hxt, if_pos hxt.symm, mul_one]
      · rw [if_neg hxt, if_neg (Ne.symm hxt), mul_zero]
    rw [e2, Matrix.mulVec_smul, ip_smul]
    simp only [hf]

theorem semi_matrix (terms : List (ℕ → Option (ℕ × ℂ))) (hterms : TermsWithin N terms)
    (hU : Commute (restrict N (operatorOf terms)) (opMat N Tr)) (hR : Commute (restrict N (operatorOf terms)) (opMat N Z)) :
    ∃ M, matrixT_P k (T * n) T (refT_Z Tr Z (T * n) T) (factorT_P p k (T * n) T) basis terms = some M ∧
      IsMatrixIn (fun i : Fin basis.length => ent N Tr Z n k p basis[i]) (restrict N (operatorOf terms)) M := by
  have hop : ∀ f ∈ terms, ∀ i s, stateAt basis i = some s → ∃ x m, f s = some (x, m) := by
    intro f hf i s hs
    obtain ⟨d, hd⟩ := stateAt_pair hs
    obtain ⟨m1, _⟩ := (hl.mem s d).1 (List.mem_of_getElem? hd)
    obtain ⟨x, _, m, e⟩ := hterms f hf s (hbelow s m1)
    exact ⟨x, m, e⟩
  obtain ⟨M, hM, hM'⟩ := matrix_eq (ref := refT_Z Tr Z (T * n) T) (factor := factorT_P p k (T * n) T) (basis := basis) k (T * n) T terms (by
    intro f hf
    by_cases hre : 2 * k * T % (T * n) = 0
    · exact op_coo_real k (T * n) T hre (strict_of h hT hp hbelow hl hre) (hop f hf)
    · obtain ⟨l, h1, h2⟩ := op_coo (ref := refT_Z Tr Z (T * n) T) (factor := factorT_P p k (T * n) T) k (T * n) T hre (twice_of h hT hp hbelow hl) (hop f hf) (by
        intro i j s d d' x m hij hi hj hx hr hg hll
        obtain ⟨li, ei⟩ := List.getElem?_eq_some_iff.1 hi
        obtain ⟨lj, ej⟩ := List.getElem?_eq_some_iff.1 hj
        have hdd : d ≠ d' := by
          intro e
          apply hij
          exact (List.Nodup.getElem_inj_iff hl.nodup).1 (by rw [ei, ej, e])
        obtain ⟨m1, m2⟩ := (hl.mem s d).1 (List.mem_of_getElem? hi)
        obtain ⟨_, m4⟩ := (hl.mem s d').1 (List.mem_of_getElem? hj)
        obtain ⟨_, _, _, hkl⟩ := keep_list (k := k) h hT hp (hbelow s m1)
        obtain ⟨c1, c2, c3⟩ := hkl d m2 d' m4 hdd
        obtain ⟨r, γ, δ, hk, _⟩ := kept_of_mem h hT hp (hbelow s m1) m2
        unfold factorT_P
        rw [element_eq, hg, hll]
        have : bracket p k (T * n) T 0 0 (sigmaOf d) d' = 0 := by
          unfold bracket
          rw [if_neg (by rw [c3]; rcases hk.sig with e | e <;> rw [e] <;> norm_num), if_pos c2]
          simp
        rw [this]; simp)
      exact ⟨l, h1, fun j i _ hi => h2 j i hi⟩)
  refine ⟨M, hM, ?_⟩
  intro i j
  rw [hM' j i j.2 i.2]
  have hxi : basis[i] ∈ basis := List.getElem_mem _
  have hxj : basis[j] ∈ basis := List.getElem_mem _
  have e0 : ∑ t, ∑ u, conj (ent N Tr Z n k p basis[j] t) * restrict N (operatorOf terms) t u * ent N Tr Z n k p basis[i] u
      = ip (ent N Tr Z n k p basis[j]) (restrict N (operatorOf terms) *ᵥ ent N Tr Z n k p basis[i]) := by
    unfold ip
    apply Finset.sum_congr rfl
    intro t _
    rw [Matrix.mulVec, dotProduct, Finset.mul_sum]
    apply Finset.sum_congr rfl
    intro u _
    ring
  refine Eq.trans ?_ e0.symm
  have hbi : basis[(i : ℕ)]? = some basis[i] := List.getElem?_eq_getElem i.2
  have hbj : basis[(j : ℕ)]? = some basis[j] := List.getElem?_eq_getElem j.2
  unfold ent normalized
  rw [ent_norm h hT hp hbelow hl hxi, ent_norm h hT hp hbelow hl hxj, Matrix.mulVec_smul, ip_smul, ip_smul_left, Complex.conj_ofReal]
  have hwi := ent_weight h hT hp hbelow hl hxi
  have hwj := ent_weight h hT hp hbelow hl hxj
  generalize basis[i] = xi at hxi hbi hwi ⊢
  generalize basis[j] = xj at hxj hbj hwj ⊢
  obtain ⟨si, di⟩ := xi
  obtain ⟨sj, dj⟩ := xj
  obtain ⟨m1, m2⟩ := (hl.mem si di).1 hxi
  obtain ⟨m3, m4⟩ := (hl.mem sj dj).1 hxj
  obtain ⟨r, γ, δ, hk, hre⟩ := kept_of_mem h hT hp (hbelow si m1) m2
  obtain ⟨r', γ', δ', hk', hre'⟩ := kept_of_mem h hT hp (hbelow sj m3) m4
  have hcomm : restrict N (operatorOf terms) *ᵥ st N Tr Z n k p (sigmaOf di) si
      = bMat (opMat N Tr) (opMat N Z) n (om n k) p (sigmaOf di) *ᵥ (restrict N (operatorOf terms) *ᵥ basisVec N si) := by
    obtain ⟨c1, c2⟩ := b_commute (n := n) (ω := om n k) (p := (p : ℂ)) (K := 1) hU.eq hR.eq (by rw [mul_one, one_mul])
    unfold st bMat
    split_ifs
    · rw [Matrix.mulVec_mulVec, Matrix.mulVec_mulVec, c1]
    · rw [Matrix.mulVec_mulVec, Matrix.mulVec_mulVec, c2]
  simp only
  rw [hcomm, operator_basis terms hterms (hbelow si m1), ← List.sum_map_mul_left, ← List.sum_map_mul_left]
  congr 1
  apply List.map_congr_left
  intro f hf
  obtain ⟨x, hx, m, hfx⟩ := hterms f hf si (hbelow si m1)
  have ho := overlap h hp hT hk' (sigmaOf di) hk.sig (fun hr => ⟨hre hr, hre' hr⟩) x hx
  rw [target_eq hbj hbi hfx]
  simp only [hfx]
  have ho' : ip (st N Tr Z n k p (sigmaOf dj) sj) (bMat (opMat N Tr) (opMat N Z) n (om n k) (↑p) (sigmaOf di) *ᵥ basisVec N x) = _ := ho
  rw [ho']
  by_cases hb : (refT_Z Tr Z (T * n) T x).r = sj
  · rw [if_pos hb, if_pos hb]
    unfold factorT_P
    rw [element_eq]
    generalize bracket p k (T * n) T (refT_Z Tr Z (T * n) T x).l (refT_Z Tr Z (T * n) T x).g (sigmaOf di) dj = B
    have hc : 0 < kappa n k * n ^ 2 := by
      have hn : (0 : ℝ) < n := by exact_mod_cast h.cyc.pos
      exact mul_pos (kappa_pos n k) (by positivity)
    simp only at hwi hwj
    generalize weightT_P p k (T * n) T di = wi at hwi ⊢
    generalize weightT_P p k (T * n) T dj = wj at hwj ⊢
    generalize kappa n k * n ^ 2 = c at hc hwi hwj ⊢
    have e1 : Real.sqrt (wj / wi) = (Real.sqrt (c * wi))⁻¹ * (Real.sqrt (c * wj))⁻¹ * (c * wj) := by
      have a : wj / wi = (c * wj) / (c * wi) := by
        rw [mul_div_mul_left _ _ hc.ne']
      rw [a, Real.sqrt_div hwj.le]
      have b : Real.sqrt (c * wj) * Real.sqrt (c * wj) = c * wj := Real.mul_self_sqrt hwj.le
      have b' : Real.sqrt (c * wj) ≠ 0 := (Real.sqrt_pos.2 hwj).ne'
      have b'' : Real.sqrt (c * wi) ≠ 0 := (Real.sqrt_pos.2 hwi).ne'
      field_simp
      rw [sq, b]
    rw [e1]
    push_cast
    ring
  · rw [if_neg hb, if_neg hb]
    simp

end
end Proof.Semi
