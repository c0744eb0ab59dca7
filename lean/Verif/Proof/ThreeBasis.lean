import Verif.Proof.ThreeBlock
/-! The states of a block of momentum, reflection and inversion are an orthonormal basis of the block, and the code gives the matrix of an operator in them. -/
namespace Proof.Semi
open Spec Spec.Semi Model.Chain Proof.Chain Model
open scoped BigOperators ComplexConjugate Matrix

variable {N : ℕ} {Tr P Z : BitOp} {n k T : ℕ} {p z : Int}

theorem twice_list {keep : ℕ → List (Int × ℕ)} {es : List ℕ} {basis : List (ℕ × (Int × ℕ))} (hl : Listed keep es basis) (hlen2 : ∀ s ∈ es, (keep s).length ≤ 2) : Twice basis := by
  refine ⟨hl.sorted, ?_⟩
  intro i s h1 h3
  have hlt := stateAt_lt h3
  obtain ⟨t, h2⟩ := stateAt_ex (basis := basis) (i := i + 1) (by omega)
  have ht : t = s := by
    have a1 := h1; have a2 := h2; have a3 := h3
    rw [stateAt_map] at a1 a2 a3
    have := Props.nonincreasing_get hl.sorted a1 a2 (by omega)
    have := Props.nonincreasing_get hl.sorted a2 a3 (by omega)
    omega
  rw [ht] at h2
  obtain ⟨d1, e1⟩ := stateAt_pair h1
  obtain ⟨d2, e2⟩ := stateAt_pair h2
  obtain ⟨d3, e3⟩ := stateAt_pair h3
  have m1 := (hl.mem s d1).1 (List.mem_of_getElem? e1)
  have m2 := (hl.mem s d2).1 (List.mem_of_getElem? e2)
  have m3 := (hl.mem s d3).1 (List.mem_of_getElem? e3)
  have hlen := hlen2 s m1.1
  have hne : ∀ a b (ha : a < basis.length) (hb : b < basis.length), a ≠ b → basis[a] ≠ basis[b] := by
    intro a b ha hb hab e
    exact hab ((List.Nodup.getElem_inj_iff hl.nodup).1 e)
  obtain ⟨l1, e1⟩ := List.getElem?_eq_some_iff.1 e1
  obtain ⟨l2, e2⟩ := List.getElem?_eq_some_iff.1 e2
  obtain ⟨l3, e3⟩ := List.getElem?_eq_some_iff.1 e3
  rcases three_of_two hlen m1.2 m2.2 m3.2 with e | e | e
  · exact hne i (i + 1) l1 l2 (by omega) (by rw [e1, e2, e])
  · exact hne (i + 1) (i + 2) l2 l3 (by omega) (by rw [e2, e3, e])
  · exact hne i (i + 2) l1 l3 (by omega) (by rw [e1, e3, e])

theorem strict_list {keep : ℕ → List (Int × ℕ)} {es : List ℕ} {basis : List (ℕ × (Int × ℕ))} (hl : Listed keep es basis) (hlen1 : ∀ s ∈ es, (keep s).length ≤ 1) : (basis.map (·.1)).Pairwise (· > ·) := by
  have h2 : (basis.map (·.1)).Nodup := by
    refine List.Nodup.map_on ?_ hl.nodup
    rintro ⟨s, d⟩ hx ⟨t, d'⟩ hy e
    simp only at e
    subst e
    have m1 := (hl.mem s d).1 hx
    have m2 := (hl.mem s d').1 hy
    have := hlen1 s m1.1
    generalize keep s = l at m1 m2 this
    match l, this with
    | [], _ => simp at m1
    | [x], _ =>
      have a := m1.2; have b := m2.2
      simp only [List.mem_singleton] at a b
      rw [a, b]
  rw [List.pairwise_iff_getElem]
  intro i j hi hj hij
  have h1 := List.pairwise_iff_getElem.1 hl.sorted i j hi hj hij
  have h3 : (basis.map (·.1))[i] ≠ (basis.map (·.1))[j] := fun e => by
    have := (List.Nodup.getElem_inj_iff h2).1 e
    omega
  omega

theorem within_orbit {Z : BitOp} (h : Dihedral (· < N) Tr Z n) {es : List ℕ} (hclT : ∀ s ∈ es, (Tr s).1 ∈ es) (hclZ : ∀ s ∈ es, (Z s).1 ∈ es)
    {s : ℕ} (hs : s ∈ es) (σ : Int) (t : Fin N) (ht : st N Tr Z n k p σ s t ≠ 0) : (t : ℕ) ∈ es := by
  by_contra hno
  apply ht
  -- vectors that vanish outside
  have hmul : ∀ f : BitOp, (∀ s ∈ es, (f s).1 ∈ es) → ∀ v : Fin N → ℂ, (∀ t : Fin N, (t : ℕ) ∉ es → v t = 0) → ∀ t : Fin N, (t : ℕ) ∉ es → (opMat N f *ᵥ v) t = 0 := by
    intro f hf v hv t ht
    rw [Matrix.mulVec, dotProduct]
    apply Finset.sum_eq_zero
    intro u _
    by_cases hu : (u : ℕ) ∈ es
    · have : opMat N f t u = 0 := by
        unfold opMat matrixOf gen
        simp only
        rw [if_neg]
        intro e
        exact ht (by rw [← e]; exact hf _ hu)
      rw [this, zero_mul]
    · rw [hv u hu, mul_zero]
  have hb : ∀ t : Fin N, (t : ℕ) ∉ es → basisVec N s t = 0 := by
    intro t ht
    unfold basisVec
    rw [if_neg]
    intro e; exact ht (by rw [e]; exact hs)
  have hpw : ∀ j, ∀ t : Fin N, (t : ℕ) ∉ es → (opMat N Tr ^ j *ᵥ basisVec N s) t = 0 := by
    intro j
    induction j with
    | zero => rw [pow_zero, Matrix.one_mulVec]; exact hb
    | succ j ih => rw [pow_succ', ← Matrix.mulVec_mulVec]; exact hmul Tr hclT _ ih
  rw [← state_eq h.cyc.pos]
  unfold state
  have hw : ∀ t : Fin N, (t : ℕ) ∉ es → ((∑ j ∈ Finset.range n, ((if 0 < σ then Real.cos (2 * Real.pi * k / n * j) else Real.sin (2 * Real.pi * k / n * j) : ℝ) : ℂ) • opMat N Tr ^ j) *ᵥ basisVec N s) t = 0 := by
    intro t ht
    rw [Matrix.sum_mulVec, Finset.sum_apply]
    apply Finset.sum_eq_zero
    intro j _
    rw [Matrix.smul_mulVec, Pi.smul_apply, hpw j t ht, smul_zero]
  rw [Matrix.add_mulVec, Matrix.one_mulVec, Matrix.smul_mulVec, Pi.add_apply, Pi.smul_apply, hw t hno, hmul Z hclZ _ hw t hno, smul_zero, add_zero]


/-- normalised state of an entry -/
noncomputable def ent3 (N : ℕ) (Tr P Z : BitOp) (n k : ℕ) (p z : Int) (x : ℕ × (Int × ℕ)) : Fin N → ℂ := normalized (st3 N Tr P Z n k p z (sigmaOf x.2) x.1)

section
variable (h : Triad (· < N) Tr P Z n) (hT : 0 < T) (hp : p = 1 ∨ p = -1) (hz : z = 1 ∨ z = -1)
variable {es : List ℕ} (hbelow : ∀ s ∈ es, s < N) (hclT : ∀ s ∈ es, (Tr s).1 ∈ es) (hclP : ∀ s ∈ es, (P s).1 ∈ es) (hclZ : ∀ s ∈ es, (Z s).1 ∈ es)
variable {basis : List (ℕ × (Int × ℕ))} (hl : Listed (keepT_P_Z Tr P Z p z k (T * n) T) es basis)
include h hT hp hz hbelow hl

theorem entry3 {x : ℕ × (Int × ℕ)} (hx : x ∈ basis) : x.1 ∈ es ∧ x.2 ∈ keepT_P_Z Tr P Z p z k (T * n) T x.1 ∧ Kept3 N Tr P Z n k T p z x.1 x.2 := by
  obtain ⟨m1, m2⟩ := (hl.mem x.1 x.2).1 hx
  exact ⟨m1, m2, kept3_of_mem h hp hz hT (hbelow _ m1) m2⟩

/-- the norm of an entry -/
theorem ent3_norm {x : ℕ × (Int × ℕ)} (hx : x ∈ basis) :
    ∑ t, ‖st3 N Tr P Z n k p z (sigmaOf x.2) x.1 t‖ ^ 2 = 2 * (kappa n k * n ^ 2) * weightT_P_Z p z k (T * n) T x.2 := by
  obtain ⟨_, _, hk⟩ := entry3 h hT hp hz hbelow hl hx
  obtain ⟨w, hb, hr⟩ := self3 h hp hz hT hk
  have ho := overlap3 h hp hz hT hk (sigmaOf x.2) hk.sig hk.real hk.lt
  rw [hr] at ho
  simp only [if_true, hb, Nat.zero_mod, Nat.zero_div, pow_zero, mul_one, Int.cast_one] at ho
  rw [ip_self] at ho
  exact_mod_cast ho

theorem ent3_weight {x : ℕ × (Int × ℕ)} (hx : x ∈ basis) : 0 < 2 * (kappa n k * n ^ 2) * weightT_P_Z p z k (T * n) T x.2 := by
  obtain ⟨_, _, hk⟩ := entry3 h hT hp hz hbelow hl hx
  obtain ⟨w, _, _⟩ := self3 h hp hz hT hk
  have hn : (0 : ℝ) < n := by exact_mod_cast h.dih.cyc.pos
  exact mul_pos (mul_pos two_pos (mul_pos (kappa_pos n k) (by positivity))) w

theorem ent3_orthonormal (i j : Fin basis.length) : ip (ent3 N Tr P Z n k p z basis[i]) (ent3 N Tr P Z n k p z basis[j]) = if i = j then 1 else 0 := by
  have hxi : basis[i] ∈ basis := List.getElem_mem _
  have hxj : basis[j] ∈ basis := List.getElem_mem _
  unfold ent3 normalized
  rw [ip_smul, ip_smul_left, Complex.conj_ofReal]
  by_cases hij : i = j
  · subst hij
    rw [if_pos rfl, ip_self]
    have hpos := ent3_weight h hT hp hz hbelow hl hxi
    rw [← ent3_norm h hT hp hz hbelow hl hxi] at hpos
    generalize ∑ t, ‖st3 N Tr P Z n k p z (sigmaOf basis[i].2) basis[i].1 t‖ ^ 2 = G at hpos ⊢
    have h1 : Real.sqrt G * Real.sqrt G = G := Real.mul_self_sqrt hpos.le
    have h2 : Real.sqrt G ≠ 0 := (Real.sqrt_pos.2 hpos).ne'
    norm_cast
    field_simp
    rw [sq, h1]
  · rw [if_neg hij]
    have hne : basis[i] ≠ basis[j] := fun e => hij (Fin.ext ((List.Nodup.getElem_inj_iff hl.nodup).1 e))
    generalize basis[i] = x at hxi hne ⊢
    generalize basis[j] = y at hxj hne ⊢
    obtain ⟨m1, m2, hk⟩ := entry3 h hT hp hz hbelow hl hxi
    obtain ⟨m3, m4, hk'⟩ := entry3 h hT hp hz hbelow hl hxj
    have hzero : ip (st3 N Tr P Z n k p z (sigmaOf x.2) x.1) (st3 N Tr P Z n k p z (sigmaOf y.2) y.1) = 0 := by
      rw [overlap3 h hp hz hT hk (sigmaOf y.2) hk'.sig hk'.real hk'.lt, (self3 h hp hz hT hk').2.2]
      by_cases hst : y.1 = x.1
      · have hdd : y.2 ≠ x.2 := fun e => hne (Prod.ext hst.symm e.symm)
        rw [if_pos hst]
        rw [hst] at m4
        rw [(keep3_list h hp hz hT (hbelow _ m1)).2.2.2 _ m4 _ m2 hdd 0 rfl]
        simp
      · rw [if_neg hst]
    rw [hzero]
    simp

include hclT hclP hclZ

set_option linter.unusedSectionVars false in
/-- the states live on the configurations of the sector -/
theorem st3_within {s : ℕ} (hs : s ∈ es) (σ : Int) (t : Fin N) (ht : st3 N Tr P Z n k p z σ s t ≠ 0) : (t : ℕ) ∈ es := by
  by_contra hno
  apply ht
  have hout : ∀ x ∈ es, ∀ t : Fin N, (t : ℕ) ∉ es → st N Tr P n k p σ x t = 0 := by
    intro x hx t ht
    by_contra h0
    exact ht (within_orbit h.dih hclT hclP hx σ t h0)
  unfold st3 kMat
  rw [Matrix.add_mulVec, Matrix.one_mulVec, Matrix.smul_mulVec, Pi.add_apply, Pi.smul_apply, hout s hs t hno,
    z_st (z := z) h (Or.inl ⟨rfl, rfl⟩) σ (hbelow s hs), Pi.smul_apply, hout _ (hclZ s hs) t hno]
  simp

set_option linter.unusedSectionVars false in
theorem closed_orbit3 {s : ℕ} (hs : s ∈ es) : ∀ j, (tr Tr s j).1 ∈ es := by
  intro j
  induction j with
  | zero => exact hs
  | succ j ih => rw [tr_succ]; exact hclT _ ih

/-- the states of a representative are combinations of the kept ones -/
theorem st3_span {s : ℕ} (hs : s ∈ es) (htop : Top3 Tr P Z s) (σ : Int) (hσ : σ = 1 ∨ σ = -1) (W : Submodule ℂ (Fin N → ℂ))
    (hW : ∀ d ∈ keepT_P_Z Tr P Z p z k (T * n) T s, st3 N Tr P Z n k p z (sigmaOf d) s ∈ W) : st3 N Tr P Z n k p z σ s ∈ W := by
  have hsN := hbelow s hs
  obtain ⟨r, hr, _⟩ := exists_least h.dih.cyc hsN
  obtain ⟨a1, a2⟩ := three_cases (k := k) (p := p) h hT hz hsN hr
  have htopP : Top Tr P s := ⟨htop.self, htop.refl⟩
  have htopQ : Top Tr (andThen P Z) s := ⟨htop.self, htop.prod⟩
  by_cases hf : (conj (om n k)) ^ r * (tr Tr s r).2 = 1
  swap
  · have hnil : keepT_P (checkT_Z Tr P k (T * n) T) p k (T * n) T s = [] :=
      (keep_cases (k := k) h.dih hT hp hsN hr).1 (fun hg => hf hg.2)
    have h0 := st_span (k := k) h.dih hT hp hsN htopP σ hσ ⊥ (by rw [hnil]; simp)
    rw [Submodule.mem_bot] at h0
    unfold st3
    rw [h0, Matrix.mulVec_zero]
    exact W.zero_mem
  obtain ⟨R, pR, M, hR, hc⟩ := a2 ⟨htop, hf⟩
  have hR : Choice P Z p z R pR := hR
  have htopR : Top Tr R s := by
    rcases hR with ⟨rfl, _⟩ | ⟨rfl, _⟩
    · exact htopP
    · exact htopQ
  have main : keepT_P_Z Tr P Z p z k (T * n) T s = (keepT_P (checkT_Z Tr R k (T * n) T) pR k (T * n) T s).map (fun d => (d.1, M)) → st3 N Tr P Z n k p z σ s ∈ W := by
    intro hk
    have := st_span (k := k) (choice_dih h hR) hT (choice_pm hp hz hR) hsN htopR σ hσ (W.comap (kMat N Z z).mulVecLin) (by
      intro d hd
      rw [Submodule.mem_comap, Matrix.mulVecLin_apply, ← k_choice h hz hR]
      have := hW (d.1, M) (by rw [hk]; exact List.mem_map.2 ⟨d, hd, rfl⟩)
      rwa [sigmaOf_fst (show (d.1, M).1 = d.1 from rfl)] at this)
    rw [Submodule.mem_comap, Matrix.mulVecLin_apply, ← k_choice h hz hR] at this
    exact this
  rcases hc with ⟨_, hk, _⟩ | ⟨i, f, hi, hsin, ⟨h0, _⟩ | ⟨_, hk, _⟩⟩
  · exact main hk
  · rw [k_choice h hz hR, k_return h hp hz hR hT hsN hi hsin σ hσ, h0, Complex.ofReal_zero, zero_smul]
    exact W.zero_mem
  · exact main hk

/-- every vector of the block is a combination of the entries -/
theorem ent3_spans {v : Fin N → ℂ} (hv : InBlock3 (opMat N Tr) (opMat N P) (opMat N Z) (2 * Real.pi * k / n) p z v) (hsup : ∀ t, v t ≠ 0 → (t : ℕ) ∈ es) :
    ∃ a : Fin basis.length → ℂ, v = ∑ i, a i • ent3 N Tr P Z n k p z basis[i] := by
  have hn := h.dih.cyc.pos
  have hW : v ∈ Submodule.span ℂ (Set.range fun i : Fin basis.length => ent3 N Tr P Z n k p z basis[i]) := by
    have hent : ∀ x ∈ basis, st3 N Tr P Z n k p z (sigmaOf x.2) x.1 ∈ Submodule.span ℂ (Set.range fun i : Fin basis.length => ent3 N Tr P Z n k p z basis[i]) := by
      intro x hx
      obtain ⟨i, hi, e⟩ := List.getElem_of_mem hx
      have hpos := ent3_weight h hT hp hz hbelow hl hx
      have h1 : ent3 N Tr P Z n k p z x ∈ Submodule.span ℂ (Set.range fun i : Fin basis.length => ent3 N Tr P Z n k p z basis[i]) :=
        Submodule.subset_span ⟨⟨i, hi⟩, by simp only [Fin.getElem_fin, e]⟩
      rw [← ent3_norm h hT hp hz hbelow hl hx] at hpos
      unfold ent3 normalized at h1
      generalize ∑ t, ‖st3 N Tr P Z n k p z (sigmaOf x.2) x.1 t‖ ^ 2 = G at hpos h1
      have h2 : ((Real.sqrt G : ℝ) : ℂ) ≠ 0 := by exact_mod_cast (Real.sqrt_pos.2 hpos).ne'
      have h3 := Submodule.smul_mem _ ((Real.sqrt G : ℝ) : ℂ) h1
      rw [smul_smul, Complex.ofReal_inv, mul_inv_cancel₀ h2, one_smul] at h3
      exact h3
    have hrep : ∀ s ∈ es, Top3 Tr P Z s → ∀ σ : Int, σ = 1 ∨ σ = -1 → st3 N Tr P Z n k p z σ s ∈ Submodule.span ℂ (Set.range fun i : Fin basis.length => ent3 N Tr P Z n k p z basis[i]) := by
      intro s hs htop σ hσ
      exact st3_span h hT hp hz hbelow hclT hclP hclZ hl hs htop σ hσ _ fun d hd => hent (s, d) ((hl.mem s d).2 ⟨hs, hd⟩)
    have hx : ∀ x ∈ es, st3 N Tr P Z n k p z 1 x ∈ Submodule.span ℂ (Set.range fun i : Fin basis.length => ent3 N Tr P Z n k p z basis[i]) := by
      intro x hx
      obtain ⟨b1, b2, b3⟩ := h.ref_spec (L := T * n) (T := T) (Nat.mul_div_cancel_left n hT) x (hbelow x hx)
      generalize refT_P_Z Tr P Z (T * n) T x = b at b1 b2 b3
      have hb : b.r ∈ es := by
        obtain ⟨y, hy, hb⟩ := b1
        have hy' : y.1 ∈ es := by
          rcases hy with ⟨_, rfl⟩ | ⟨_, rfl⟩
          · exact hx
          · exact hclZ x hx
        rcases hb with ⟨_, e⟩ | ⟨_, e⟩
        · have := closed_orbit3 h hT hp hz hbelow hclT hclP hclZ hl hy' b.l
          have e2 := congrArg Prod.fst e
          rw [iter_fst] at e2
          simp only at e2
          rw [← e2]; exact this
        · have := closed_orbit3 h hT hp hz hbelow hclT hclP hclZ hl (hclP y.1 hy') b.l
          have e2 := congrArg Prod.fst e
          rw [iter_fst] at e2
          simp only at e2
          rw [← e2]; exact this
      rw [st3_move (k := k) h hp hz hT 1 (Or.inl rfl) (hbelow x hx) b b1]
      exact Submodule.smul_mem _ _ (Submodule.sub_mem _ (Submodule.smul_mem _ _ (hrep _ hb b3 1 (Or.inl rfl)))
        (Submodule.smul_mem _ _ (hrep _ hb b3 (-1) (Or.inr rfl))))
    have hvs : v = ∑ t : Fin N, v t • basisVec N (t : ℕ) := by
      funext u
      rw [Finset.sum_apply]
      simp only [Pi.smul_apply, smul_eq_mul, basisVec, Fin.val_inj]
      simp
    have hw := block_wave h.dih hp hv.block
    have hc : ((2 * (kappa n k * n) : ℝ) : ℂ) ≠ 0 := by
      have hn' : (0 : ℝ) < n := by exact_mod_cast hn
      exact_mod_cast (mul_pos two_pos (mul_pos (kappa_pos n k) hn')).ne'
    have hkv : kMat N Z z *ᵥ v = (2 : ℂ) • v := by
      have e2 : (z : ℂ) * z = 1 := by rcases hz with rfl | rfl <;> norm_num
      unfold kMat
      rw [Matrix.add_mulVec, Matrix.one_mulVec, Matrix.smul_mulVec, hv.inversion, smul_smul, e2, one_smul, two_smul]
    have e1 : v = ((2 * (kappa n k * n) : ℝ) : ℂ)⁻¹ • (kMat N Z z *ᵥ (bPlus (opMat N Tr) (opMat N P) 1 n (om n k) p *ᵥ v)) := by
      rw [hw, Matrix.mulVec_smul, hkv, smul_smul, smul_smul]
      have : ((2 * (kappa n k * n) : ℝ) : ℂ)⁻¹ * (((kappa n k * n : ℝ) : ℂ) * 2) = 1 := by
        rw [show ((kappa n k * n : ℝ) : ℂ) * 2 = ((2 * (kappa n k * n) : ℝ) : ℂ) by push_cast; ring]
        exact inv_mul_cancel₀ hc
      rw [mul_assoc, this, one_smul]
    rw [e1]
    apply Submodule.smul_mem
    rw [hvs, Matrix.mulVec_sum, Matrix.mulVec_sum]
    apply Submodule.sum_mem
    intro t _
    rw [Matrix.mulVec_smul, Matrix.mulVec_smul]
    by_cases ht : v t = 0
    · rw [ht, zero_smul]; exact Submodule.zero_mem _
    · exact Submodule.smul_mem _ _ (hx _ (hsup t ht))
  rw [Submodule.mem_span_range_iff_exists_fun] at hW
  obtain ⟨c, hc⟩ := hW
  exact ⟨c, hc.symm⟩

omit hT hbelow hclT hclP hclZ hl in
/-- the states are in the block -/
theorem st3_block (σ : Int) (s : ℕ) : InBlock3 (opMat N Tr) (opMat N P) (opMat N Z) (2 * Real.pi * k / n) p z (st3 N Tr P Z n k p z σ s) := by
  have hb := st_block (k := k) h.dih hp σ s
  have cU : kMat N Z z * opMat N Tr = opMat N Tr * kMat N Z z := by
    unfold kMat; rw [add_mul, mul_add, one_mul, mul_one, smul_mul_assoc, mul_smul_comm, opZ_tr h]
  have cP : kMat N Z z * opMat N P = opMat N P * kMat N Z z := by
    unfold kMat; rw [add_mul, mul_add, one_mul, mul_one, smul_mul_assoc, mul_smul_comm, opZ_refl h]
  have cU' : kMat N Z z * (opMat N Tr)ᴴ = (opMat N Tr)ᴴ * kMat N Z z := by
    have := congrArg Matrix.conjTranspose cU
    rw [Matrix.conjTranspose_mul, Matrix.conjTranspose_mul, k_herm h] at this
    exact this.symm
  refine ⟨⟨?_, ?_⟩, ?_⟩
  · unfold st3
    rw [Matrix.mulVec_mulVec, Matrix.mulVec_mulVec, ← cU, ← cU', ← Matrix.mulVec_mulVec, ← Matrix.mulVec_mulVec, ← Matrix.mulVec_add, hb.momentum, Matrix.mulVec_smul]
  · unfold st3
    rw [Matrix.mulVec_mulVec, ← cP, ← Matrix.mulVec_mulVec, hb.reflection, Matrix.mulVec_smul]
  · unfold st3
    rw [Matrix.mulVec_mulVec, z_k h hz, Matrix.smul_mulVec]

theorem three_basis : IsBasisOf (InBlock3 (opMat N Tr) (opMat N P) (opMat N Z) (2 * Real.pi * k / n) p z) es (fun i : Fin basis.length => ent3 N Tr P Z n k p z basis[i]) where
  orthonormal := ent3_orthonormal h hT hp hz hbelow hl
  inBlock := by
    intro i
    have := st3_block (k := k) h hp hz (sigmaOf basis[i].2) basis[i].1
    unfold ent3 normalized
    refine ⟨⟨?_, ?_⟩, ?_⟩
    · rw [Matrix.mulVec_smul, Matrix.mulVec_smul, ← smul_add, this.block.momentum, smul_comm]
    · rw [Matrix.mulVec_smul, this.block.reflection, smul_comm]
    · rw [Matrix.mulVec_smul, this.inversion, smul_comm]
  within := by
    intro i t ht
    obtain ⟨m1, _⟩ := (hl.mem basis[i].1 basis[i].2).1 (List.getElem_mem _)
    refine st3_within h hT hp hz hbelow hclT hclP hclZ hl m1 (sigmaOf basis[i].2) t (k := k) ?_
    intro h0
    apply ht
    unfold ent3 normalized
    rw [Pi.smul_apply, h0, smul_zero]
  spans := fun v hv hsup => ent3_spans h hT hp hz hbelow hclT hclP hclZ hl hv hsup

end

/-! ### the matrix -/

section
variable (h : Triad (· < N) Tr P Z n) (hT : 0 < T) (hp : p = 1 ∨ p = -1) (hz : z = 1 ∨ z = -1)
variable {es : List ℕ} (hbelow : ∀ s ∈ es, s < N)
variable {basis : List (ℕ × (Int × ℕ))} (hl : Listed (keepT_P_Z Tr P Z p z k (T * n) T) es basis)
include h hT hp hz hbelow hl

theorem three_matrix (terms : List (ℕ → Option (ℕ × ℂ))) (hterms : TermsWithin N terms)
    (hU : Commute (restrict N (operatorOf terms)) (opMat N Tr)) (hR : Commute (restrict N (operatorOf terms)) (opMat N P))
    (hI : Commute (restrict N (operatorOf terms)) (opMat N Z)) :
    ∃ M, matrixT_P k (T * n) T (refT_P_Z Tr P Z (T * n) T) (factorT_P_Z p z k (T * n) T) basis terms = some M ∧
      IsMatrixIn (fun i : Fin basis.length => ent3 N Tr P Z n k p z basis[i]) (restrict N (operatorOf terms)) M := by
  have hop : ∀ f ∈ terms, ∀ i s, stateAt basis i = some s → ∃ x m, f s = some (x, m) := by
    intro f hf i s hs
    obtain ⟨d, hd⟩ := stateAt_pair hs
    obtain ⟨m1, _⟩ := (hl.mem s d).1 (List.mem_of_getElem? hd)
    obtain ⟨x, _, m, e⟩ := hterms f hf s (hbelow s m1)
    exact ⟨x, m, e⟩
  obtain ⟨M, hM, hM'⟩ := matrix_eq (ref := refT_P_Z Tr P Z (T * n) T) (factor := factorT_P_Z p z k (T * n) T) (basis := basis) k (T * n) T terms (by
    intro f hf
    by_cases hre : 2 * k * T % (T * n) = 0
    · exact op_coo_real k (T * n) T hre (strict_list hl fun s hs => (keep3_list (k := k) h hp hz hT (hbelow s hs)).2.2.1 hre) (hop f hf)
    · obtain ⟨l, h1, h2⟩ := op_coo (ref := refT_P_Z Tr P Z (T * n) T) (factor := factorT_P_Z p z k (T * n) T) k (T * n) T hre
          (twice_list hl fun s hs => (keep3_list (k := k) h hp hz hT (hbelow s hs)).2.1) (hop f hf) (by
        intro i j s d d' x m hij hi hj hx hr hg hll
        obtain ⟨li, ei⟩ := List.getElem?_eq_some_iff.1 hi
        obtain ⟨lj, ej⟩ := List.getElem?_eq_some_iff.1 hj
        have hdd : d ≠ d' := by
          intro e
          apply hij
          exact (List.Nodup.getElem_inj_iff hl.nodup).1 (by rw [ei, ej, e])
        obtain ⟨m1, m2⟩ := (hl.mem s d).1 (List.mem_of_getElem? hi)
        obtain ⟨_, m4⟩ := (hl.mem s d').1 (List.mem_of_getElem? hj)
        unfold factorT_P_Z
        rw [element3_eq, hg, (keep3_list (k := k) h hp hz hT (hbelow s m1)).2.2.2 d m2 d' m4 hdd _ hll]
        simp)
      exact ⟨l, h1, fun j i _ hi => h2 j i hi⟩)
  refine ⟨M, hM, ?_⟩
  intro i j
  rw [hM' j i j.2 i.2]
  have hxi : basis[i] ∈ basis := List.getElem_mem _
  have hxj : basis[j] ∈ basis := List.getElem_mem _
  have e0 : ∑ t, ∑ u, conj (ent3 N Tr P Z n k p z basis[j] t) * restrict N (operatorOf terms) t u * ent3 N Tr P Z n k p z basis[i] u
      = ip (ent3 N Tr P Z n k p z basis[j]) (restrict N (operatorOf terms) *ᵥ ent3 N Tr P Z n k p z basis[i]) := by
    unfold ip
    apply Finset.sum_congr rfl
    intro t _
    rw [Matrix.mulVec, dotProduct, Finset.mul_sum]
    apply Finset.sum_congr rfl
    intro u _
    ring
  refine Eq.trans ?_ e0.symm
  have hbi : basis[(i : ℕ)]? = some basis[i] := List.getElem?_eq_getElem i.2
  have hbj : basis[(j : ℕ)]? = some basis[j] := List.getElem?_eq_getElem j.2
  unfold ent3 normalized
  rw [ent3_norm h hT hp hz hbelow hl hxi, ent3_norm h hT hp hz hbelow hl hxj, Matrix.mulVec_smul, ip_smul, ip_smul_left, Complex.conj_ofReal]
  have hwi := ent3_weight h hT hp hz hbelow hl hxi
  have hwj := ent3_weight h hT hp hz hbelow hl hxj
  generalize basis[i] = xi at hxi hbi hwi ⊢
  generalize basis[j] = xj at hxj hbj hwj ⊢
  obtain ⟨si, di⟩ := xi
  obtain ⟨sj, dj⟩ := xj
  obtain ⟨m1, m2, hk⟩ := entry3 h hT hp hz hbelow hl hxi
  obtain ⟨m3, m4, hk'⟩ := entry3 h hT hp hz hbelow hl hxj
  simp only at m1 m2 hk m3 m4 hk'
  have hcomm : restrict N (operatorOf terms) *ᵥ st3 N Tr P Z n k p z (sigmaOf di) si
      = (kMat N Z z * bMat (opMat N Tr) (opMat N P) n (om n k) p (sigmaOf di)) *ᵥ (restrict N (operatorOf terms) *ᵥ basisVec N si) := by
    obtain ⟨c1, c2⟩ := b_commute (n := n) (ω := om n k) (p := (p : ℂ)) (K := 1) hU.eq hR.eq (by rw [mul_one, one_mul])
    have cK : restrict N (operatorOf terms) * kMat N Z z = kMat N Z z * restrict N (operatorOf terms) := by
      unfold kMat; rw [add_mul, mul_add, one_mul, mul_one, smul_mul_assoc, mul_smul_comm, hI.eq]
    unfold st3 st bMat
    rw [Matrix.mulVec_mulVec, Matrix.mulVec_mulVec, Matrix.mulVec_mulVec, cK, Matrix.mul_assoc, Matrix.mul_assoc]
    split_ifs
    · rw [c1]
    · rw [c2]
  simp only
  rw [hcomm, operator_basis terms hterms (hbelow si m1), ← List.sum_map_mul_left, ← List.sum_map_mul_left]
  congr 1
  apply List.map_congr_left
  intro f hf
  obtain ⟨x, hx, m, hfx⟩ := hterms f hf si (hbelow si m1)
  have ho := overlap3 h hp hz hT hk' (sigmaOf di) hk.sig hk.real hx
  rw [target_eq hbj hbi hfx]
  simp only [hfx]
  have es : (kMat N Z z * bMat (opMat N Tr) (opMat N P) n (om n k) (↑p) (sigmaOf di)) *ᵥ basisVec N x = st3 N Tr P Z n k p z (sigmaOf di) x := by
    unfold st3 st; rw [Matrix.mulVec_mulVec]
  rw [es, ho]
  by_cases hb : (refT_P_Z Tr P Z (T * n) T x).r = sj
  · rw [if_pos hb, if_pos hb]
    unfold factorT_P_Z
    rw [element3_eq]
    generalize ((sigmaOf di * p : Int) : ℝ) ^ ((refT_P_Z Tr P Z (T * n) T x).g % 2) * (z : ℝ) ^ ((refT_P_Z Tr P Z (T * n) T x).g / 2) *
          bracket3 p z k (T * n) T (refT_P_Z Tr P Z (T * n) T x).l (sigmaOf di) dj = B
    have hc : 0 < 2 * (kappa n k * n ^ 2) := by
      have hn : (0 : ℝ) < n := by exact_mod_cast h.dih.cyc.pos
      exact mul_pos two_pos (mul_pos (kappa_pos n k) (by positivity))
    simp only at hwi hwj
    generalize weightT_P_Z p z k (T * n) T di = wi at hwi ⊢
    generalize weightT_P_Z p z k (T * n) T dj = wj at hwj ⊢
    generalize 2 * (kappa n k * n ^ 2) = c at hc hwi hwj ⊢
    have e1 : Real.sqrt (wj / wi) = (Real.sqrt (c * wi))⁻¹ * (Real.sqrt (c * wj))⁻¹ * (c * wj) := by
      have a : wj / wi = (c * wj) / (c * wi) := by
        rw [mul_div_mul_left _ _ hc.ne']
      rw [a, Real.sqrt_div hwj.le]
      have b : Real.sqrt (c * wj) * Real.sqrt (c * wj) = c * wj := Real.mul_self_sqrt hwj.le
      have b' : Real.sqrt (c * wj) ≠ 0 := (Real.sqrt_pos.2 hwj).ne'
      have b'' : Real.sqrt (c * wi) ≠ 0 := (Real.sqrt_pos.2 hwi).ne'
      field_simp
      rw [sq, b]
    rw [e1]
    push_cast
    ring
  · rw [if_neg hb, if_neg hb]
    simp

end
end Proof.Semi

/-! ### the stored integers -/
namespace Proof.Semi
open Spec Spec.Semi Model.Chain Proof.Chain Model
variable {N : ℕ} {Tr P Z : BitOp} {n k T : ℕ} {p z : Int}

theorem kept_widths {k L T r : ℕ} {refused : Int → Prop} {m : Int} {d : Int × ℕ} (hd : d ∈ keptSigmas k L T r refused m) :
    (d.1 = r ∨ d.1 = -(r : Int)) ∧ d.2 = m.toNat := by
  unfold keptSigmas at hd
  rw [List.mem_filterMap] at hd
  obtain ⟨σ, hσ, e⟩ := hd
  have hσ' : σ = 1 ∨ σ = -1 := by
    unfold sigmas at hσ
    split_ifs at hσ <;> simp only [List.mem_cons, List.not_mem_nil, or_false] at hσ <;> tauto
  split_ifs at e
  cases e
  refine ⟨?_, rfl⟩
  rcases hσ' with rfl | rfl
  · left; simp
  · right; simp

/-- period and code of an entry -/
theorem three_widths (h : Triad (· < N) Tr P Z n) (hT : 0 < T) {s : ℕ} (hs : s < N) {d : Int × ℕ} (hd : d ∈ keepT_P_Z Tr P Z p z k (T * n) T s) :
    d.1.natAbs ≤ n ∧ d.2 < 11 * (T * n + 1) ^ 2 := by
  obtain ⟨r, hr, hrn⟩ := exists_least h.dih.cyc hs
  obtain ⟨v1, v2⟩ := h.check_of hs hr T k hT
  by_cases hg : Top3 Tr P Z s ∧ momentumFits k (T * n) T r (tr Tr s r).2 = true
  swap
  · unfold keepT_P_Z at hd
    rw [v1 hg] at hd
    simp at hd
  obtain ⟨R, hR, hRr, sP, sZ, sQ⟩ := v2 hg
  unfold keepT_P_Z at hd
  rw [hR] at hd
  simp only [List.mem_append] at hd
  have hn := h.dih.cyc.pos
  have hLn : n ≤ T * n := Nat.le_mul_of_pos_left _ hT
  have bound : ∀ (Q : BitOp) (m f : Int), Dihedral (· < N) Tr Q n ∨ Q = Z → Scanned Tr Q s r m f → m ≤ (T * n : ℕ) ∧ (f = 1 ∨ f = -1) := by
    intro Q m f hQ hsc
    rcases hsc with ⟨i, hi, _, rfl, hf⟩ | ⟨_, rfl, rfl⟩
    · refine ⟨by omega, ?_⟩
      rw [hf]
      rcases hQ with hQ | rfl
      · exact pm_mul (hQ.sign s hs) (hQ.cyc.sign_iter (hQ.closed s hs) i)
      · exact pm_mul (h.sign s hs) (h.dih.cyc.sign_iter (h.closed s hs) i)
    · exact ⟨by omega, Or.inl rfl⟩
  obtain ⟨b1, g1⟩ := bound P _ _ (Or.inl h.dih) sP
  obtain ⟨b2, g2⟩ := bound Z _ _ (Or.inr rfl) sZ
  obtain ⟨b3, g3⟩ := bound _ _ _ (Or.inl h.prodDih) sQ
  generalize T * n = L at hd b1 b2 b3 hLn ⊢
  have fin : ∀ m : Int, (d.1 = R.r ∨ d.1 = -(R.r : Int)) ∧ d.2 = m.toNat → m < 11 * ((L : Int) + 1) ^ 2 → d.1.natAbs ≤ n ∧ d.2 < 11 * (L + 1) ^ 2 := by
    rintro m ⟨h1, h2⟩ h3
    refine ⟨by omega, ?_⟩
    rw [h2]
    zify
    rcases le_total m 0 with h4 | h4
    · rw [Int.toNat_of_nonpos h4]; positivity
    · rw [Int.toNat_of_nonneg h4]; exact h3
  have sgn : ∀ f : Int, f = 1 ∨ f = -1 → 0 ≤ (f + 1) / 2 ∧ (f + 1) / 2 ≤ 1 := by rintro f (rfl | rfl) <;> norm_num
  obtain ⟨l1, u1⟩ := sgn _ g1
  obtain ⟨l2, u2⟩ := sgn _ g2
  obtain ⟨l3, u3⟩ := sgn _ g3
  generalize (R.signp + 1) / 2 = a1 at *
  generalize (R.signz + 1) / 2 = a2 at *
  generalize (R.signpz + 1) / 2 = a3 at *
  have hL : (0 : Int) ≤ L := by positivity
  rcases hd with (((hd | hd) | hd) | hd) | hd <;> split_ifs at hd with hc
  · exact fin _ (kept_widths hd) (by positivity)
  · simp at hd
  · refine fin _ (kept_widths hd) ?_
    nlinarith [mul_nonneg (sub_nonneg.2 u1) (sq_nonneg ((L : Int) + 1))]
  · simp at hd
  · refine fin _ (kept_widths hd) ?_
    nlinarith [mul_nonneg (sub_nonneg.2 u2) (sq_nonneg ((L : Int) + 1)), mul_nonneg (sub_nonneg.2 b2) (show (0 : Int) ≤ L + 1 by omega)]
  · simp at hd
  · refine fin _ (kept_widths hd) ?_
    nlinarith [mul_nonneg (sub_nonneg.2 u3) (sq_nonneg ((L : Int) + 1))]
  · simp at hd
  · refine fin _ (kept_widths hd) ?_
    nlinarith [mul_nonneg (sub_nonneg.2 u1) (sq_nonneg ((L : Int) + 1)), mul_nonneg (sub_nonneg.2 u2) (sq_nonneg ((L : Int) + 1)),
      mul_nonneg (sub_nonneg.2 b2) (show (0 : Int) ≤ L + 1 by omega)]
  · simp at hd

end Proof.Semi
