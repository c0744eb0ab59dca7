import Verif.Proof.Entropy
import Verif.Props.C29
import Mathlib.Analysis.SpecialFunctions.Pow.Continuity

/-!
C41: entanglement entropies.

`A` and `B` list the sites of the two subsystems, together every site once; `rdmOf psi A` is the reduced density matrix of the sites `A`, as in
C29.  The singular values and eigenvalues come from numpy and scipy: the theorems assume that what these return for the matrix in question is
a singular value decomposition (`IsSvd`) or the spectrum (`IsSpectrum`).
-/

namespace Props
open Matrix Spec.PartialTrace Model.PartialTrace Proof.PartialTrace Spec.Entropy Model.Entropy Proof.Entropy
open scoped ComplexOrder

/-- The reduced density matrix of the sites `S` in the pure state `psi`. -/
noncomputable def rdmOf {L d : ℕ} (psi : ℕ → ℂ) (S : List (Fin L)) : Matrix (Config S.length d) (Config S.length d) ℂ :=
  Matrix.of (partialTrace (projector fun s => psi (row s)) S)

/-- The reduced density matrix of the sites `S` in the mixed state `rho`. -/
noncomputable def rdmMixed {L d : ℕ} (rho : ℕ → ℕ → ℂ) (S : List (Fin L)) : Matrix (Config S.length d) (Config S.length d) ℂ :=
  Matrix.of (partialTrace (fun s t => rho (row s) (row t)) S)

section
variable {L d : ℕ} {A B : List (Fin L)} (h : (A ++ B).Perm (List.finRange L))
include h

theorem checks_ok (hB : B ≠ []) : checks L (A.map Fin.val) = true := by
  unfold checks
  have hlen := length_add h
  have := List.length_pos_iff.mpr hB
  have hn : (A ++ B).Nodup := h.nodup_iff.mpr (List.nodup_finRange L)
  simp only [Bool.and_eq_true, decide_eq_true_eq, List.length_map, List.all_eq_true, List.mem_map, forall_exists_index, and_imp,
    forall_apply_eq_imp_iff₂]
  refine ⟨⟨by omega, fun i _ => i.2.le⟩, ?_⟩
  exact (List.nodup_map_iff Fin.val_injective).mpr (List.nodup_append.mp hn).1

/-- The amplitudes as a matrix. -/
noncomputable def amplitudes (psi : ℕ → ℂ) : Matrix (Config A.length d) (Config B.length d) ℂ :=
  Matrix.of fun a b => psi (row ((split h).symm (a, b)))

theorem rdmOf_left (psi : ℕ → ℂ) : rdmOf (d := d) psi A = first (amplitudes h psi) := by
  ext a a'
  rw [rdmOf, of_apply, partialTrace_left h]
  rfl

theorem rdmOf_right (psi : ℕ → ℂ) : rdmOf (d := d) psi B = second (amplitudes h psi) := by
  ext a a'
  rw [rdmOf, of_apply, partialTrace_right h]
  rfl

theorem trace_left (psi : ℕ → ℂ) (hn : ∑ i ∈ Finset.range (d ^ L), Complex.normSq (psi i) = 1) :
    (first (amplitudes (d := d) h psi) : Matrix _ _ ℂ).trace = 1 := by
  have : ((∑ i ∈ Finset.range (d ^ L), Complex.normSq (psi i) : ℝ) : ℂ) = 1 := by rw [hn]; simp
  rw [Complex.ofReal_sum, sum_rows, ← Equiv.sum_comp (split h).symm, Fintype.sum_prod_type] at this
  rw [← this]
  refine Finset.sum_congr rfl fun a _ => Finset.sum_congr rfl fun b _ => ?_
  exact Complex.mul_conj _

theorem trace_right (psi : ℕ → ℂ) (hn : ∑ i ∈ Finset.range (d ^ L), Complex.normSq (psi i) = 1) :
    (second (amplitudes (d := d) h psi) : Matrix _ _ ℂ).trace = 1 := by
  rw [← trace_left h psi hn]
  unfold Matrix.trace
  simp only [diag_apply, second, first]
  exact Finset.sum_comm

theorem reshaped (hL : L ≤ 64) (psi : ℕ → ℂ) : ∃ v, reshapePure d (A.map Fin.val) (B.map Fin.val) (d ^ L) psi = some v ∧
    ∀ a b, v (row a) (row b) = amplitudes (d := d) h psi a b := by
  obtain ⟨v, hv, he⟩ := reshapePure_config (d := d) h hL psi
  refine ⟨v, hv, fun a b => ?_⟩
  rw [amplitudes, of_apply, ← he]
  congr 2 <;> congr 1 <;> funext p
  · exact (join_left h a b p).symm
  · exact (join_right h a b p).symm

/-- Pure states: the entropies of both subsystems are the Renyi entropies of their reduced density matrices, per site if `density` is set.
Partial: not for `alpha = 0` (`C41_fails_zero`), and without the `eps` the code adds to the spectrum (see `C41_limit`). -/
theorem C41_pure_partial (hA : A ≠ []) (hB : B ≠ []) (hL : L ≤ 64) (psi : ℕ → ℂ) (hn : ∑ i ∈ Finset.range (d ^ L), Complex.normSq (psi i) = 1)
    (svd : ℕ → ℕ → (ℕ → ℕ → ℂ) → Svd)
    (hsvd : ∀ v, reshapePure d (A.map Fin.val) (B.map Fin.val) (d ^ L) psi = some v →
      let r := svd (d ^ A.length) (d ^ B.length) v; IsSvd (d ^ A.length) (d ^ B.length) v r.U r.s r.V)
    (alpha : ℝ) (ha : 0 < alpha) (density : Bool) :
    ∃ (hrA : (rdmOf (d := d) psi A).IsHermitian) (hrB : (rdmOf (d := d) psi B).IsHermitian),
      latticePure svd 0 d L (A.map Fin.val) (B.map Fin.val) (d ^ L) psi alpha density =
        some (some (renyi alpha hrA / if density then (A.length : ℝ) else 1), some (renyi alpha hrB / if density then (B.length : ℝ) else 1)) := by
  obtain ⟨v, hv, he⟩ := reshaped (d := d) h hL psi
  have hs := hsvd v hv
  obtain ⟨s1, s2⟩ := svd_sum row (d ^ A.length) (fun f => sum_rows _ _ f) row_lt row (d ^ B.length) (fun f => sum_rows _ _ f) row_lt
    v _ _ _ hs (amplitudes h psi) he
  rw [rdmOf_left h, rdmOf_right h]
  refine ⟨first_hermitian _, second_hermitian _, ?_⟩
  have hlen := length_add h
  have e1 := lattice_eq (first_hermitian (amplitudes (d := d) h psi)) (first_posSemidef _).eigenvalues_nonneg
    (exists_ne_zero _ (by rw [trace_left h psi hn]; exact one_ne_zero)) _ s1 alpha ha density A.length (List.length_pos_iff.mpr hA).ne'
  have e2 := lattice_eq (second_hermitian (amplitudes (d := d) h psi)) (second_posSemidef _).eigenvalues_nonneg
    (exists_ne_zero _ (by rw [trace_right h psi hn]; exact one_ne_zero)) _ s2 alpha ha density B.length (List.length_pos_iff.mpr hB).ne'
  unfold latticePure
  rw [if_pos (checks_ok h hB), hv, Option.bind_some]
  simp only [Model.Entropy.pure, List.length_map, add_zero]
  rw [e1, Option.bind_some, show L - A.length = B.length by omega, e2, Option.map_some]

/-- The reduced density matrices that come along with the entropies are those of the function for partial traces. -/
theorem C41_rdm (hB : B ≠ []) (hL : L ≤ 64) (psi : ℕ → ℂ) (svd : ℕ → ℕ → (ℕ → ℕ → ℂ) → Svd)
    (hsvd : ∀ v, reshapePure d (A.map Fin.val) (B.map Fin.val) (d ^ L) psi = some v →
      let r := svd (d ^ A.length) (d ^ B.length) v; IsSvd (d ^ A.length) (d ^ B.length) v r.U r.s r.V) :
    ∃ rA rB rA' rB', latticeRdm svd d L (A.map Fin.val) (B.map Fin.val) (d ^ L) psi = some (rA, rB) ∧
      tracePure d (A.map Fin.val) (B.map Fin.val) (d ^ L) psi = some (rA', rB') ∧
      (∀ i < d ^ A.length, ∀ j < d ^ A.length, rA i j = rA' i j) ∧ (∀ i < d ^ B.length, ∀ j < d ^ B.length, rB i j = rB' i j) := by
  obtain ⟨v, hv, -⟩ := reshaped (d := d) h hL psi
  have hs := hsvd v hv
  simp only at hs
  generalize hr : svd (d ^ A.length) (d ^ B.length) v = r at hs
  refine ⟨_, _, _, _, by rw [latticeRdm, if_pos (checks_ok h hB), hv, Option.map_some], by rw [tracePure, hv, Option.map_some], ?_, ?_⟩
  all_goals
    intro i hi j hj
    simp only [Model.Entropy.pure, List.length_map, hr]
  · have : ∀ l ∈ Finset.range (d ^ B.length), v i l * star (v j l) = ∑ k ∈ Finset.range r.s.length, ∑ k' ∈ Finset.range r.s.length,
        r.U i k * (r.s.getD k 0 : ℝ) * (star (r.U j k') * (r.s.getD k' 0 : ℝ)) * (r.V k l * star (r.V k' l)) := by
      intro l hl
      rw [hs.product i hi l (Finset.mem_range.mp hl), hs.product j hj l (Finset.mem_range.mp hl), star_sum, Finset.sum_mul_sum]
      refine Finset.sum_congr rfl fun k _ => Finset.sum_congr rfl fun k' _ => ?_
      simp only [star_mul', Complex.star_def, Complex.conj_ofReal]
      ring
    rw [Finset.sum_congr rfl this, Finset.sum_comm]
    refine Finset.sum_congr rfl fun k hk => ?_
    rw [Finset.sum_comm, Finset.sum_eq_single k]
    · rw [← Finset.mul_sum, hs.right k (Finset.mem_range.mp hk) k (Finset.mem_range.mp hk), if_pos rfl]
      ring
    · intro k' hk' hne
      rw [← Finset.mul_sum, hs.right k (Finset.mem_range.mp hk) k' (Finset.mem_range.mp hk'), if_neg (Ne.symm hne), mul_zero]
    · intro hn
      exact absurd hk hn
  · have : ∀ l ∈ Finset.range (d ^ A.length), star (v l i) * v l j = ∑ k ∈ Finset.range r.s.length, ∑ k' ∈ Finset.range r.s.length,
        star (r.V k i) * (r.s.getD k 0 : ℝ) * (r.V k' j * (r.s.getD k' 0 : ℝ)) * (star (r.U l k) * r.U l k') := by
      intro l hl
      rw [hs.product l (Finset.mem_range.mp hl) i hi, hs.product l (Finset.mem_range.mp hl) j hj, star_sum, Finset.sum_mul_sum]
      refine Finset.sum_congr rfl fun k _ => Finset.sum_congr rfl fun k' _ => ?_
      simp only [star_mul', Complex.star_def, Complex.conj_ofReal]
      ring
    rw [Finset.sum_congr rfl this, Finset.sum_comm]
    refine Finset.sum_congr rfl fun k hk => ?_
    rw [Finset.sum_comm, Finset.sum_eq_single k]
    · rw [← Finset.mul_sum, hs.left k (Finset.mem_range.mp hk) k (Finset.mem_range.mp hk), if_pos rfl]
      ring
    · intro k' hk' hne
      rw [← Finset.mul_sum, hs.left k (Finset.mem_range.mp hk) k' (Finset.mem_range.mp hk'), if_neg (Ne.symm hne), mul_zero]
    · intro hn
      exact absurd hk hn

/-- Sparse pure states: whichever matrix is diagonalised, both entropies are right.
Missing: `alpha = 0` (`C41_fails_zero`). -/
theorem C41_sparse_partial (hA : A ≠ []) (hB : B ≠ []) (psi : List (ℕ × ℂ)) (hpsi : ∀ e ∈ psi, e.1 < d ^ L) (quotient : ℕ → ℕ → ℕ)
    (hq : ∀ m < d ^ L, quotient m (d ^ B.length) = m / d ^ B.length) (full : ℕ → ℂ)
    (hfull : ∀ i < d ^ L, full i = ((psi.filter fun e => e.1 = i).map Prod.snd).sum)
    (hn : ∑ i ∈ Finset.range (d ^ L), Complex.normSq (full i) = 1) (eigvalsh : ℕ → (ℕ → ℕ → ℂ) → List ℝ)
    (heig : let r := traceSparse quotient d L (A.map Fin.val) (B.map Fin.val) psi
      IsSpectrum (d ^ A.length) r.1 (eigvalsh (d ^ A.length) r.1) ∧ IsSpectrum (d ^ B.length) r.2 (eigvalsh (d ^ B.length) r.2))
    (alpha : ℝ) (ha : 0 < alpha) (density : Bool) (rdm : Rdm) :
    ∃ (hrA : (rdmOf (d := d) full A).IsHermitian) (hrB : (rdmOf (d := d) full B).IsHermitian),
      latticeSparse eigvalsh quotient 0 d L (A.map Fin.val) (B.map Fin.val) psi alpha density rdm =
        some (some (renyi alpha hrA / if density then (A.length : ℝ) else 1), some (renyi alpha hrB / if density then (B.length : ℝ) else 1)) := by
  obtain ⟨t1, t2⟩ := C29_sparse_partial (d := d) h psi hpsi quotient hq
  have hf : (fun s : Config L d => ((psi.filter fun e => e.1 = row s).map Prod.snd).sum) = fun s => full (row s) :=
    funext fun s => (hfull _ (row_lt s)).symm
  rw [hf] at t1 t2
  have hl := rdmOf_left (d := d) h full
  have hr := rdmOf_right (d := d) h full
  have u1 (f : ℝ → ℝ) (hf : f 0 = 0) := eig_sum row (d ^ A.length) (fun f => sum_rows _ _ f) row_lt _ _ heig.1
    (ρ := first (amplitudes (d := d) h full)) (fun x y => by rw [t1 x y, ← hl]; rfl) (first_hermitian _) f hf
  have u2 (f : ℝ → ℝ) (hf : f 0 = 0) := eig_sum_conj row (d ^ B.length) (fun f => sum_rows _ _ f) row_lt _ _ heig.2
    (ρ := second (amplitudes (d := d) h full)) (fun x y => by rw [t2 x y, ← hr]; rfl) (second_hermitian _) f hf
  rw [hl, hr]
  refine ⟨first_hermitian _, second_hermitian _, ?_⟩
  have hlen := length_add h
  have key (p : List ℝ) (hp : ∀ f : ℝ → ℝ, f 0 = 0 → ∑ i, f ((first_hermitian (amplitudes (d := d) h full)).eigenvalues i) = (p.map f).sum) :
      ((lattice alpha density A.length p).bind fun SA => (lattice alpha density (L - A.length) p).map fun SB => (SA, SB)) =
        some (some (renyi alpha (first_hermitian (amplitudes (d := d) h full)) / if density then (A.length : ℝ) else 1),
          some (renyi alpha (second_hermitian (amplitudes (d := d) h full)) / if density then (B.length : ℝ) else 1)) := by
    have e1 := lattice_eq (first_hermitian (amplitudes (d := d) h full)) (first_posSemidef _).eigenvalues_nonneg
      (exists_ne_zero _ (by rw [trace_left h full hn]; exact one_ne_zero)) _ hp alpha ha density A.length (List.length_pos_iff.mpr hA).ne'
    have e2 := lattice_eq (second_hermitian (amplitudes (d := d) h full)) (second_posSemidef _).eigenvalues_nonneg
      (exists_ne_zero _ (by rw [trace_right h full hn]; exact one_ne_zero)) p (fun f hf => by rw [← sum_both _ f hf, hp f hf]) alpha ha density
      B.length (List.length_pos_iff.mpr hB).ne'
    rw [e1, Option.bind_some, show L - A.length = B.length by omega, e2, Option.map_some]
  unfold latticeSparse
  rw [if_pos (checks_ok h hB)]
  simp only [List.length_map, add_zero, List.map_id']
  cases sparseChoice A.length (L - A.length) rdm
  · rw [if_neg (by simp)]
    exact key _ fun f hf => by rw [sum_both _ f hf, u2 f hf]
  · rw [if_pos rfl]
    exact key _ u1

/-- Mixed states: the entropies that are asked for are the Renyi entropies of the reduced density matrices.
Missing: `alpha = 0` (`C41_fails_zero`). -/
theorem C41_mixed_partial (hA : A ≠ []) (hB : B ≠ []) (hL : 2 * L ≤ 64) (rho : ℕ → ℕ → ℂ)
    (hpos : (Matrix.of fun s t : Config L d => rho (row s) (row t)).PosSemidef) (htr : ∑ i ∈ Finset.range (d ^ L), rho i i = 1)
    (eigvalsh : ℕ → (ℕ → ℕ → ℂ) → List ℝ)
    (heig : ∀ r, traceMixed d L (A.map Fin.val) (B.map Fin.val) (d ^ L) rho = some r →
      IsSpectrum (d ^ A.length) r.1 (eigvalsh (d ^ A.length) r.1) ∧ IsSpectrum (d ^ B.length) r.2 (eigvalsh (d ^ B.length) r.2))
    (alpha : ℝ) (ha : 0 < alpha) (density : Bool) (rdm : Rdm) :
    ∃ (hrA : (rdmMixed (d := d) rho A).IsHermitian) (hrB : (rdmMixed (d := d) rho B).IsHermitian),
      latticeMixed eigvalsh 0 d L (A.map Fin.val) (B.map Fin.val) (d ^ L) rho alpha density rdm =
        some (if rdm = .B then none else some (some (renyi alpha hrA / if density then (A.length : ℝ) else 1)),
          if rdm = .B ∨ rdm = .both then some (some (renyi alpha hrB / if density then (B.length : ℝ) else 1)) else none) := by
  obtain ⟨rA, rB, hr, t1, t2⟩ := C29_mixed_partial (d := d) h hL rho
  have pA : (rdmMixed (d := d) rho A).PosSemidef := by
    have : rdmMixed (d := d) rho A = ∑ b : Config B.length d,
        (Matrix.of fun s t : Config L d => rho (row s) (row t)).submatrix (fun a => (split h).symm (a, b)) fun a => (split h).symm (a, b) := by
      ext a a'
      rw [rdmMixed, of_apply, partialTrace_left h, Matrix.sum_apply]
      rfl
    rw [this]
    exact posSemidef_sum _ fun b _ => hpos.submatrix _
  have pB : (rdmMixed (d := d) rho B).PosSemidef := by
    have : rdmMixed (d := d) rho B = ∑ a : Config A.length d,
        (Matrix.of fun s t : Config L d => rho (row s) (row t)).submatrix (fun b => (split h).symm (a, b)) fun b => (split h).symm (a, b) := by
      ext b b'
      rw [rdmMixed, of_apply, partialTrace_right h, Matrix.sum_apply]
      rfl
    rw [this]
    exact posSemidef_sum _ fun b _ => hpos.submatrix _
  have trA : (rdmMixed (d := d) rho A).trace = 1 := by
    rw [← htr, sum_rows, ← Equiv.sum_comp (split h).symm, Fintype.sum_prod_type]
    refine Finset.sum_congr rfl fun a _ => ?_
    rw [diag_apply, rdmMixed, of_apply, partialTrace_left h]
  have trB : (rdmMixed (d := d) rho B).trace = 1 := by
    rw [← htr, sum_rows, ← Equiv.sum_comp (split h).symm, Fintype.sum_prod_type, Finset.sum_comm]
    refine Finset.sum_congr rfl fun b _ => ?_
    rw [diag_apply, rdmMixed, of_apply, partialTrace_right h]
  have u1 (f : ℝ → ℝ) (hf : f 0 = 0) := eig_sum row (d ^ A.length) (fun f => sum_rows _ _ f) row_lt _ _ (heig _ hr).1
    (ρ := rdmMixed (d := d) rho A) (fun x y => t1 x y) pA.1 f hf
  have u2 (f : ℝ → ℝ) (hf : f 0 = 0) := eig_sum_conj row (d ^ B.length) (fun f => sum_rows _ _ f) row_lt _ _ (heig _ hr).2
    (ρ := rdmMixed (d := d) rho B) (fun x y => t2 x y) pB.1 f hf
  refine ⟨pA.1, pB.1, ?_⟩
  have hlen := length_add h
  have e1 := lattice_eq pA.1 pA.eigenvalues_nonneg (exists_ne_zero _ (by rw [trA]; exact one_ne_zero)) _ u1 alpha ha density A.length
    (List.length_pos_iff.mpr hA).ne'
  have e2 := lattice_eq pB.1 pB.eigenvalues_nonneg (exists_ne_zero _ (by rw [trB]; exact one_ne_zero)) _ u2 alpha ha density B.length
    (List.length_pos_iff.mpr hB).ne'
  unfold latticeMixed
  rw [if_pos (checks_ok h hB), hr, Option.bind_some]
  simp only [List.length_map, add_zero, List.map_id']
  rw [e1, Option.bind_some, show L - A.length = B.length by omega, e2, Option.map_some]

end

/-- A negative parameter is refused. -/
theorem C41_negative (alpha : ℝ) (ha : alpha < 0) (density : Bool) (n : ℕ) (p : List ℝ) : lattice alpha density n p = none ∧ tensor alpha p = none := by
  have h1 : alpha ≠ 1 := by intro h; rw [h] at ha; exact absurd ha (by norm_num)
  constructor
  · rw [lattice, if_neg h1, if_neg (not_le.mpr ha)]
  · rw [tensor, if_neg h1, if_neg (not_le.mpr ha)]

/-- The small number the code adds to the spectrum does little harm: the value tends to the one without it. -/
theorem C41_limit (alpha : ℝ) (ha : 0 < alpha) (density : Bool) (n : ℕ) (p : List ℝ) (hp : ∀ x ∈ p, 0 ≤ x) (S : ℝ)
    (hS : lattice alpha density n p = some (some S)) :
    ∃ F : ℝ → ℝ, (∀ eps > 0, lattice alpha density n (p.map (· + eps)) = some (some (F eps))) ∧
      Filter.Tendsto F (nhdsWithin 0 (Set.Ioi 0)) (nhds S) := by
  have hsite {x y : ℝ} (h : perSite density n x = some y) : ∃ c : ℝ, (∀ z, perSite density n z = some (z * c)) ∧ y = x * c := by
    unfold perSite at h ⊢
    cases density
    · simp only [Bool.false_eq_true, if_false] at h ⊢
      exact ⟨1, by simp, by rw [← Option.some.inj h]; simp⟩
    · simp only [if_true] at h ⊢
      split_ifs at h with hn
      simp only [hn, if_false]
      exact ⟨(n : ℝ)⁻¹, fun z => by rw [div_eq_mul_inv], by rw [← Option.some.inj h, div_eq_mul_inv]⟩
  have hcont (f : ℝ → ℝ) (hf : ∀ x ∈ p, ContinuousAt f x) :
      Filter.Tendsto (fun eps => ((p.map (· + eps)).map f).sum) (nhdsWithin 0 (Set.Ioi 0)) (nhds (p.map f).sum) := by
    clear hS
    induction p with
    | nil => exact tendsto_const_nhds
    | cons x p ih =>
      simp only [List.map_cons, List.sum_cons]
      refine Filter.Tendsto.add ?_ (ih (fun y hy => hp y (List.mem_cons_of_mem _ hy)) fun y hy => hf y (List.mem_cons_of_mem _ hy))
      have h1 : Filter.Tendsto (fun eps : ℝ => x + eps) (nhdsWithin 0 (Set.Ioi 0)) (nhds x) := by
        have : Filter.Tendsto (fun eps : ℝ => x + eps) (nhds 0) (nhds (x + 0)) := (continuous_const.add continuous_id).tendsto 0
        rw [add_zero] at this
        exact this.mono_left nhdsWithin_le_nhds
      exact (hf x List.mem_cons_self).tendsto.comp h1
  have hpe (eps : ℝ) (he : eps > 0) : ∀ x ∈ p.map (· + eps), 0 ≤ x := by
    intro x hx
    obtain ⟨y, hy, rfl⟩ := List.mem_map.mp hx
    have := hp y hy
    positivity
  unfold lattice at hS ⊢
  by_cases h1 : alpha = 1
  · simp only [if_pos h1] at hS ⊢
    obtain ⟨c, hc, rfl⟩ := hsite (Option.some.inj hS)
    refine ⟨fun eps => -sumLog (p.map (· + eps)) * c, fun eps _ => by rw [hc], ?_⟩
    have hlog (q : List ℝ) (hq : ∀ x ∈ q, 0 ≤ x) : sumLog q = (q.map fun x => x * Real.log x).sum := by
      unfold sumLog
      refine congrArg List.sum (List.map_congr_left fun x hx => ?_)
      rcases (hq x hx).eq_or_lt with e | e
      · rw [← e]; simp
      · rw [if_pos e]
    rw [hlog p hp]
    refine Filter.Tendsto.congr' (f₁ := fun eps => -((p.map (· + eps)).map fun x => x * Real.log x).sum * c) ?_ ?_
    · filter_upwards [self_mem_nhdsWithin] with eps he
      rw [hlog _ (hpe eps he)]
    · exact ((hcont _ fun x _ => Real.continuous_mul_log.continuousAt).neg).mul_const c
  · simp only [if_neg h1, if_pos ha.le] at hS ⊢
    obtain ⟨s, hs, hS⟩ := Option.bind_eq_some_iff.mp (Option.some.inj hS)
    obtain ⟨c, hc, rfl⟩ := hsite hS
    unfold log at hs
    split_ifs at hs with hpos
    obtain rfl := Option.some.inj hs
    have hpow (q : List ℝ) (hq : ∀ x ∈ q, 0 ≤ x) : sumPower alpha q = (q.map fun x => x ^ alpha).sum := by
      unfold sumPower
      exact congrArg List.sum (List.map_congr_left fun x hx => if_pos (hq x hx))
    have hmono (eps : ℝ) (he : eps > 0) : 0 < sumPower alpha (p.map (· + eps)) := by
      refine lt_of_lt_of_le hpos ?_
      rw [hpow p hp, hpow _ (hpe eps he), List.map_map]
      refine List.sum_le_sum fun x hx => ?_
      exact Real.rpow_le_rpow (hp x hx) (by simp only; linarith) ha.le
    refine ⟨fun eps => Real.log (sumPower alpha (p.map (· + eps))) / (1 - alpha) * c, fun eps he => by
      rw [log, if_pos (hmono eps he), Option.bind_some, hc], ?_⟩
    have ht : Filter.Tendsto (fun eps => sumPower alpha (p.map (· + eps))) (nhdsWithin 0 (Set.Ioi 0)) (nhds (sumPower alpha p)) := by
      rw [hpow p hp]
      refine Filter.Tendsto.congr' (f₁ := fun eps => ((p.map (· + eps)).map fun x => x ^ alpha).sum) ?_ ?_
      · filter_upwards [self_mem_nhdsWithin] with eps he
        rw [hpow _ (hpe eps he)]
      · exact hcont _ fun x _ => Real.continuousAt_rpow_const _ _ (Or.inr ha.le)
    exact ((ht.log hpos.ne').div_const _).mul_const c

/-! ### Tensor bases -/

section
variable (Nl Nr : ℕ) (psi : ℕ → ℂ)

/-- The amplitudes of a state in a tensor basis: the right index runs faster. -/
def pairs : Matrix (Fin Nl) (Fin Nr) ℂ := Matrix.of fun i j => psi (i * Nr + j)

/-- What `sub_sys_A` means: the reduced density matrix of this side. -/
noncomputable def sideOf (alpha : ℝ) : Side → ℝ
  | .left => renyi alpha (first_hermitian (pairs Nl Nr psi))
  | _ => renyi alpha (second_hermitian (pairs Nl Nr psi))

/-- The other side. -/
noncomputable def otherOf (alpha : ℝ) : Side → ℝ
  | .left => renyi alpha (second_hermitian (pairs Nl Nr psi))
  | _ => renyi alpha (first_hermitian (pairs Nl Nr psi))

variable (svd : ℕ → ℕ → (ℕ → ℕ → ℂ) → Svd) (side : Side)
  (hsvd : let r := svd (if side = .left then Nl else Nr) (if side = .left then Nr else Nl) (tensorReshape side Nr psi)
    IsSvd (if side = .left then Nl else Nr) (if side = .left then Nr else Nl) (tensorReshape side Nr psi) r.U r.s r.V)
include hsvd

theorem tensor_sums : let m := if side = .left then Nl else Nr
    let n := if side = .left then Nr else Nl
    let p := (Model.Entropy.pure svd 0 m n (tensorReshape side Nr psi)).1
    (∀ f : ℝ → ℝ, f 0 = 0 → ∑ i, f ((first_hermitian (pairs Nl Nr psi)).eigenvalues i) = (p.map f).sum) ∧
      (∀ f : ℝ → ℝ, f 0 = 0 → ∑ i, f ((second_hermitian (pairs Nl Nr psi)).eigenvalues i) = (p.map f).sum) := by
  intro m n p
  have hs := hsvd
  have hrange (N : ℕ) (f : ℕ → ℂ) : ∑ i ∈ Finset.range N, f i = ∑ x : Fin N, f x := Finset.sum_range f
  by_cases hside : side = .left
  · have hm : m = Nl := if_pos hside
    have hn : n = Nr := if_pos hside
    obtain ⟨h1, h2⟩ := svd_sum (fun i : Fin Nl => (i : ℕ)) m (by rw [hm]; exact hrange Nl) (fun i => by rw [hm]; exact i.2)
      (fun i : Fin Nr => (i : ℕ)) n (by rw [hn]; exact hrange Nr) (fun i => by rw [hn]; exact i.2) _ _ _ _ hs (pairs Nl Nr psi) (by
        intro x y
        rw [tensorReshape, if_pos hside]
        rfl)
    simpa only [p, Model.Entropy.pure, add_zero] using And.intro h1 h2
  · have hm : m = Nr := if_neg hside
    have hn : n = Nl := if_neg hside
    obtain ⟨h1, h2⟩ := svd_sum (fun i : Fin Nr => (i : ℕ)) m (by rw [hm]; exact hrange Nr) (fun i => by rw [hm]; exact i.2)
      (fun i : Fin Nl => (i : ℕ)) n (by rw [hn]; exact hrange Nl) (fun i => by rw [hn]; exact i.2) _ _ _ _ hs (pairs Nl Nr psi)ᵀ (by
        intro x y
        rw [tensorReshape, if_neg hside]
        rfl)
    simp only [p, Model.Entropy.pure, add_zero]
    exact ⟨h2, h1⟩

/-- For `alpha = 1` tensor bases give the von Neumann entropies.
Missing: other `alpha`, where the factor is inside of the logarithm (`C41_fails_tensor`). -/
theorem C41_tensor_partial : tensorPure svd 0 side Nl Nr psi 1 = some (some (sideOf Nl Nr psi 1 side), some (otherOf Nl Nr psi 1 side)) := by
  obtain ⟨h1, h2⟩ := tensor_sums Nl Nr psi svd side hsvd
  have e1 := sumLog_eq _ (first_posSemidef _).eigenvalues_nonneg _ h1
  have e2 := sumLog_eq _ (second_posSemidef _).eigenvalues_nonneg _ h2
  have r1 : renyi 1 (first_hermitian (pairs Nl Nr psi)) = -sumLog (Model.Entropy.pure svd 0 (if side = .left then Nl else Nr)
      (if side = .left then Nr else Nl) (tensorReshape side Nr psi)).1 := by rw [renyi, if_pos rfl, e1]
  have r2 : renyi 1 (second_hermitian (pairs Nl Nr psi)) = -sumLog (Model.Entropy.pure svd 0 (if side = .left then Nl else Nr)
      (if side = .left then Nr else Nl) (tensorReshape side Nr psi)).1 := by rw [renyi, if_pos rfl, e2]
  unfold tensorPure tensor
  dsimp only
  rw [if_pos rfl, Option.map_some]
  cases side
  · rw [sideOf, otherOf, r1, r2]
  · rw [sideOf, otherOf, r1, r2]
    all_goals exact fun h => absurd h (by decide)
  · rw [sideOf, otherOf, r1, r2]
    all_goals exact fun h => absurd h (by decide)

variable (hn : ∑ i : Fin Nl, ∑ j : Fin Nr, Complex.normSq (psi (i * Nr + j)) = 1)
include hn

/-- For other parameters the logarithm is taken of the wrong number: with parameters above one the result is not a number, and below one it
is `(1 - alpha) S - log (1 - alpha)` instead of the entropy `S`. -/
theorem C41_fails_tensor (alpha : ℝ) (ha : 0 < alpha) (h1 : alpha ≠ 1) :
    tensorPure svd 0 side Nl Nr psi alpha = some (if 1 < alpha then (none, none) else
      let S := (1 - alpha) * sideOf Nl Nr psi alpha side - Real.log (1 - alpha); (some S, some S)) := by
  obtain ⟨s1, s2⟩ := tensor_sums Nl Nr psi svd side hsvd
  have htr : (first (pairs Nl Nr psi) : Matrix _ _ ℂ).trace = 1 := by
    have : ((∑ i : Fin Nl, ∑ j : Fin Nr, Complex.normSq (psi (i * Nr + j)) : ℝ) : ℂ) = 1 := by rw [hn]; simp
    rw [← this, Complex.ofReal_sum]
    refine Finset.sum_congr rfl fun a _ => ?_
    rw [Complex.ofReal_sum]
    change ∑ b : Fin Nr, pairs Nl Nr psi a b * star (pairs Nl Nr psi a b) = _
    refine Finset.sum_congr rfl fun b _ => ?_
    exact Complex.mul_conj _
  have hpos := sumPower_pos _ (first_posSemidef _).eigenvalues_nonneg (exists_ne_zero (first_hermitian _) (by rw [htr]; exact one_ne_zero)) _ s1
    alpha ha
  have e1 := sumPower_eq _ (first_posSemidef _).eigenvalues_nonneg _ s1 alpha ha
  have e2 := sumPower_eq _ (second_posSemidef _).eigenvalues_nonneg _ s2 alpha ha
  have hside : sideOf Nl Nr psi alpha side = Real.log (sumPower alpha (Model.Entropy.pure svd 0 (if side = .left then Nl else Nr)
      (if side = .left then Nr else Nl) (tensorReshape side Nr psi)).1) / (1 - alpha) := by
    cases side
    · rw [sideOf, renyi, if_neg h1, ← e1]
    · rw [sideOf, renyi, if_neg h1, ← e2]
      exact fun h => absurd h (by decide)
    · rw [sideOf, renyi, if_neg h1, ← e2]
      exact fun h => absurd h (by decide)
  unfold tensorPure tensor
  dsimp only
  rw [if_neg h1, if_pos ha.le, Option.map_some, hside]
  congr 1
  by_cases hgt : 1 < alpha
  · rw [if_pos hgt, log, if_neg (not_lt.mpr (div_nonpos_of_nonneg_of_nonpos hpos.le (by linarith)))]
  · have hlt : 0 < 1 - alpha := by
      rcases lt_trichotomy alpha 1 with h | h | h
      · linarith
      · exact absurd h h1
      · exact absurd h hgt
    rw [if_neg hgt, log, if_pos (div_pos hpos hlt), Real.log_div hpos.ne' hlt.ne', mul_div_cancel₀ _ hlt.ne']

end

/-! ### Defects -/

/-- The entropy of a product state is zero. -/
theorem renyi_product {a b : Type} [Fintype a] [DecidableEq a] [Fintype b] [DecidableEq b] (x : a → ℂ) (y : b → ℂ)
    (hx : ∑ i, star (x i) * x i = 1) (hy : ∑ i, y i * star (y i) = 1) (alpha : ℝ) :
    renyi alpha (first_hermitian (Matrix.of fun i j => x i * y j)) = 0 := by
  have key (f : ℝ → ℝ) (hf : f 0 = 0) : ∑ i, f ((first_hermitian (Matrix.of fun i j => x i * y j)).eigenvalues i) = f 1 := by
    rw [sum_spectrum (κ := Unit) _ (Matrix.of fun i _ => x i) (fun _ => 1) ?_ ?_ f hf]
    · simp
    · ext
      rw [mul_apply]
      simpa using hx
    · ext i k
      rw [mul_apply]
      simp only [first, of_apply, star_mul', Fintype.sum_unique, mul_diagonal, conjTranspose_apply, Complex.ofReal_one, mul_one]
      have : ∀ j, x i * y j * (star (x k) * star (y j)) = x i * star (x k) * (y j * star (y j)) := fun j => by ring
      rw [Finset.sum_congr rfl fun j _ => this j, ← Finset.mul_sum, hy, mul_one]
  unfold renyi
  split_ifs
  · rw [key (fun x => x * Real.log x) (by simp)]
    simp
  · rw [key (fun x => if x = 0 then 0 else x ^ alpha) (by simp)]
    simp

/-- For `alpha = 0` every state gives the logarithm of the smaller dimension, not of the rank. -/
theorem C41_zero {L d : ℕ} (hd : d ≠ 0) {A B : List (Fin L)} (h : (A ++ B).Perm (List.finRange L)) (hB : B ≠ []) (hL : L ≤ 64) (psi : ℕ → ℂ)
    (svd : ℕ → ℕ → (ℕ → ℕ → ℂ) → Svd)
    (hsvd : ∀ v, reshapePure d (A.map Fin.val) (B.map Fin.val) (d ^ L) psi = some v →
      let r := svd (d ^ A.length) (d ^ B.length) v; IsSvd (d ^ A.length) (d ^ B.length) v r.U r.s r.V) (eps : ℝ) (he : 0 ≤ eps) :
    let S := Real.log ((min (d ^ A.length) (d ^ B.length) : ℕ) : ℝ)
    latticePure svd eps d L (A.map Fin.val) (B.map Fin.val) (d ^ L) psi 0 false = some (some S, some S) := by
  intro S
  obtain ⟨v, hv, -⟩ := reshaped (d := d) h hL psi
  have hs := (hsvd v hv).length
  have hsum : sumPower 0 ((svd (d ^ A.length) (d ^ B.length) v).s.map fun x => x ^ 2 + eps) = (min (d ^ A.length) (d ^ B.length) : ℕ) := by
    unfold sumPower
    rw [List.map_map, List.map_congr_left (g := fun _ => (1 : ℝ)), List.map_const', List.sum_replicate, hs]
    · simp
    · intro x _
      have : 0 ≤ x ^ 2 + eps := by positivity
      simp only [Function.comp_apply]
      rw [if_pos this, Real.rpow_zero]
  have hpos : (0 : ℝ) < (min (d ^ A.length) (d ^ B.length) : ℕ) := by
    have h1 : 0 < d ^ A.length := Nat.pow_pos (Nat.pos_of_ne_zero hd)
    have h2 : 0 < d ^ B.length := Nat.pow_pos (Nat.pos_of_ne_zero hd)
    exact_mod_cast lt_min h1 h2
  have hval (n : ℕ) : lattice 0 false n ((svd (d ^ A.length) (d ^ B.length) v).s.map fun x => x ^ 2 + eps) = some (some S) := by
    unfold lattice
    rw [if_neg (by norm_num), if_pos le_rfl, hsum, log, if_pos hpos, Option.bind_some]
    simp [perSite, S]
  unfold latticePure
  rw [if_pos (checks_ok h hB), hv, Option.bind_some]
  simp only [Model.Entropy.pure, List.length_map]
  rw [hval, hval, Option.bind_some, Option.map_some]

/-- Two sites in the state `|0 0⟩`. -/
def state00 (i : ℕ) : ℂ := if i = 0 then 1 else 0

/-- A decomposition that is right for this state. -/
noncomputable def svd00 : ℕ → ℕ → (ℕ → ℕ → ℂ) → Svd :=
  fun _ _ _ => ⟨fun i k => if i = k then 1 else 0, [1, 0], fun k j => if k = j then 1 else 0⟩

theorem svd00_spec (v : ℕ → ℕ → ℂ) (hv : ∀ i j, v i j = state00 (i * 2 + j)) :
    IsSvd 2 2 v (svd00 2 2 v).U (svd00 2 2 v).s (svd00 2 2 v).V := by
  refine ⟨rfl, ?_, ?_, ?_, ?_⟩
  · intro x hx
    simp only [svd00, List.mem_cons, List.not_mem_nil, or_false] at hx
    rcases hx with rfl | rfl <;> norm_num
  · intro k hk l hl
    have hk : k < 2 := hk
    have hl : l < 2 := hl
    obtain rfl | rfl : k = 0 ∨ k = 1 := by omega
    all_goals obtain rfl | rfl : l = 0 ∨ l = 1 := by omega
    all_goals simp [svd00, Finset.sum_range_succ]
  · intro k hk l hl
    have hk : k < 2 := hk
    have hl : l < 2 := hl
    obtain rfl | rfl : k = 0 ∨ k = 1 := by omega
    all_goals obtain rfl | rfl : l = 0 ∨ l = 1 := by omega
    all_goals simp [svd00, Finset.sum_range_succ]
  · intro i hi j hj
    rw [hv]
    obtain rfl | rfl : i = 0 ∨ i = 1 := by omega
    all_goals obtain rfl | rfl : j = 0 ∨ j = 1 := by omega
    all_goals simp [svd00, state00, Finset.sum_range_succ]

theorem reshape00 (v : ℕ → ℕ → ℂ) (hv : reshapePure 2 [0] [1] (2 ^ 2) state00 = some v) (i j : ℕ) : v i j = state00 (i * 2 + j) := by
  have : reshapePure 2 [0] [1] (2 ^ 2) state00 = some fun i j => state00 (i * 2 + j) := by
    have hr : reduce ([0] ++ [1]) 2 = ([0], [4]) := by decide
    unfold reshapePure shuffle
    simp only [hr]
    simp
  rw [this] at hv
  rw [← Option.some.inj hv]

/-- The two sites. -/
theorem sites01 : (([0] : List (Fin 2)) ++ [1]).Perm (List.finRange 2) := by decide

/-- The state `|0 0⟩` has no entanglement, but its entropy for `alpha = 0` comes out as `log 2`. -/
theorem C41_fails_zero (eps : ℝ) (he : 0 ≤ eps) :
    ∃ hr : (rdmOf (d := 2) state00 ([0] : List (Fin 2))).IsHermitian, renyi 0 hr = 0 ∧
      latticePure svd00 eps 2 2 [0] [1] (2 ^ 2) state00 0 false = some (some (Real.log 2), some (Real.log 2)) ∧ Real.log 2 ≠ 0 := by
  rw [rdmOf_left sites01]
  refine ⟨first_hermitian _, ?_, ?_, (Real.log_pos (by norm_num)).ne'⟩
  · have hamp : amplitudes (d := 2) sites01 state00 = Matrix.of fun a b => (if a 0 = 0 then 1 else 0 : ℂ) * (if b 0 = 0 then 1 else 0 : ℂ) := by
      ext a b
      have ha := join_left (d := 2) sites01 a b 0
      have hb := join_right (d := 2) sites01 a b 0
      have ha : (split sites01).symm (a, b) 0 = a 0 := ha
      have hb : (split sites01).symm (a, b) 1 = b 0 := hb
      simp only [amplitudes, of_apply, state00, Spec.PartialTrace.row, position, List.ofFn_succ, List.ofFn_zero, List.foldl_cons, List.foldl_nil,
        Fin.succ_zero_eq_one, ha, hb]
      generalize a 0 = x
      generalize b 0 = y
      fin_cases x <;> fin_cases y <;> simp
    rw [hamp]
    have hone (c : Fin 1 → Fin 2) : c = fun _ => c 0 := funext fun i => by rw [Subsingleton.elim i 0]
    have hsum (f : Fin 2 → ℂ) : ∑ c : Config 1 2, f (c 0) = f 0 + f 1 := by
      rw [← Fin.sum_univ_two]
      exact Fintype.sum_equiv (Equiv.funUnique (Fin 1) (Fin 2)) _ _ fun c => rfl
    refine renyi_product _ _ ?_ ?_ 0
    · exact (hsum fun x => star (if x = 0 then 1 else 0 : ℂ) * if x = 0 then 1 else 0).trans (by simp)
    · exact (hsum fun x => (if x = 0 then 1 else 0 : ℂ) * star (if x = 0 then 1 else 0 : ℂ)).trans (by simp)
  · have := C41_zero (d := 2) (by norm_num) sites01 (by simp) (by norm_num) state00 svd00 (fun v hv => svd00_spec v (reshape00 v hv)) eps he
    simpa using this

/-- The same state in a tensor basis has the entropy `- log (1 - alpha)` for all parameters below one. -/
theorem C41_fails_tensor_product (alpha : ℝ) (ha : 0 < alpha) (h1 : alpha < 1) :
    sideOf 2 2 state00 alpha .left = 0 ∧
      tensorPure svd00 0 .left 2 2 state00 alpha = some (some (-Real.log (1 - alpha)), some (-Real.log (1 - alpha))) ∧
      0 < -Real.log (1 - alpha) := by
  have h0 : sideOf 2 2 state00 alpha .left = 0 := by
    have hp : pairs 2 2 state00 = Matrix.of fun a b => (if a = 0 then 1 else 0 : ℂ) * (if b = 0 then 1 else 0 : ℂ) := by
      ext a b
      fin_cases a <;> fin_cases b <;> simp [pairs, state00]
    have key (M : Matrix (Fin 2) (Fin 2) ℂ) (hM : M = Matrix.of fun a b => (if a = 0 then 1 else 0 : ℂ) * (if b = 0 then 1 else 0 : ℂ)) :
        renyi alpha (first_hermitian M) = 0 := by
      subst hM
      exact renyi_product _ _ (by simp) (by simp) alpha
    exact key _ hp
  refine ⟨h0, ?_, ?_⟩
  · rw [C41_fails_tensor 2 2 state00 svd00 .left (svd00_spec _ fun i j => if_pos rfl) (by
      simp only [Fin.sum_univ_two, state00]
      norm_num) alpha ha h1.ne,
      if_neg (not_lt.mpr h1.le), h0]
    simp
  · rw [neg_pos]
    exact Real.log_neg (by linarith) (by linarith)

/-! ### Non-vacuity -/

/-- The state `|0 0⟩` meets the hypotheses of the theorem for pure states. -/
example : ∃ S, latticePure svd00 0 2 2 [0] [1] (2 ^ 2) state00 2 true = some S := by
  obtain ⟨_, _, h⟩ := C41_pure_partial (d := 2) sites01 (by simp) (by simp) (by norm_num) state00
    (by simp [state00]) svd00 (fun v hv => svd00_spec v (reshape00 v hv)) 2 (by norm_num) true
  exact ⟨_, h⟩

/-- The state `|0 0⟩` meets the hypotheses of the theorem for returned matrices. -/
example : ∃ r, latticeRdm svd00 2 2 [0] [1] (2 ^ 2) state00 = some r := by
  obtain ⟨_, _, _, _, h, -⟩ := C41_rdm (d := 2) sites01 (by simp) (by norm_num) state00 svd00 (fun v hv => svd00_spec v (reshape00 v hv))
  exact ⟨_, h⟩

/-- The spectrum `1/2, 1/2` meets the hypotheses of the limit. -/
example : ∃ S, lattice 2 false 1 [1 / 2, 1 / 2] = some (some S) := by
  refine ⟨Real.log (1 / 2) / (1 - 2), ?_⟩
  have hs : sumPower 2 [1 / 2, 1 / 2] = 1 / 2 := by
    simp only [sumPower, List.map_cons, List.map_nil, List.sum_cons, List.sum_nil]
    rw [if_pos (by norm_num)]
    norm_num
  rw [lattice, if_neg (by norm_num), if_pos (by norm_num), hs, log, if_pos (by norm_num)]
  rfl

/-- The state `|0 0⟩` meets the hypotheses of the theorem for tensor bases. -/
example : ∃ S, tensorPure svd00 0 .left 2 2 state00 1 = some S :=
  ⟨_, C41_tensor_partial 2 2 state00 svd00 .left (svd00_spec _ fun i j => if_pos rfl)⟩

/-- The spectrum of the projector on the first state. -/
theorem spectrum00 (R : ℕ → ℕ → ℂ) (hR : ∀ i < 2, ∀ j < 2, R i j = if i = 0 ∧ j = 0 then 1 else 0) : IsSpectrum 2 R [1, 0] := by
  refine ⟨rfl, fun i k => if i = k then 1 else 0, ?_, ?_⟩
  · intro k hk l hl
    have hk : k < 2 := hk
    have hl : l < 2 := hl
    obtain rfl | rfl : k = 0 ∨ k = 1 := by omega
    all_goals obtain rfl | rfl : l = 0 ∨ l = 1 := by omega
    all_goals simp
  · intro i hi j hj
    rw [hR i hi j hj]
    obtain rfl | rfl : i = 0 ∨ i = 1 := by omega
    all_goals obtain rfl | rfl : j = 0 ∨ j = 1 := by omega
    all_goals simp [Finset.sum_range_succ]

/-- The sparse state `|0 0⟩` meets the hypotheses of the theorem for sparse states. -/
example (rdm : Rdm) : ∃ S, latticeSparse (fun _ _ => [1, 0]) (fun a b => a / b) 0 2 2 [0] [1] [(0, 1)] 2 true rdm = some S := by
  have hr : reshapeSparse (fun a b => a / b) 2 2 [0] [1] [((0 : ℕ), (1 : ℂ))] = [(0, 0, 1)] := by
    have : sparseIndex 2 2 ([0] ++ [1]) 0 = 0 := by decide
    simp only [reshapeSparse, List.map_cons, List.map_nil, this]
    rfl
  obtain ⟨_, _, h⟩ := C41_sparse_partial (d := 2) sites01 (by simp) (by simp) [(0, 1)] (by simp) (fun a b => a / b) (fun _ _ => rfl) state00
    (by intro i _; simp only [state00, eq_comm (a := i), List.filter_cons, List.filter_nil]; split_ifs <;> simp_all)
    (by simp [state00]) (fun _ _ => [1, 0]) (by
      constructor
      · refine spectrum00 _ fun i hi j hj => ?_
        simp only [traceSparse, hr, List.map_cons, List.map_nil, List.length_cons, List.length_nil, Fin.val_zero, Fin.val_one]
        obtain rfl | rfl : i = 0 ∨ i = 1 := by omega
        all_goals obtain rfl | rfl : j = 0 ∨ j = 1 := by omega
        all_goals simp [Finset.sum_range_succ]
      · refine spectrum00 _ fun i hi j hj => ?_
        simp only [traceSparse, hr, List.map_cons, List.map_nil, List.length_cons, List.length_nil, Fin.val_zero, Fin.val_one]
        obtain rfl | rfl : i = 0 ∨ i = 1 := by omega
        all_goals obtain rfl | rfl : j = 0 ∨ j = 1 := by omega
        all_goals simp [Finset.sum_range_succ]) 2 (by norm_num) true rdm
  exact ⟨_, h⟩

/-- The projector on `|0 0⟩` meets the hypotheses of the theorem for mixed states. -/
example (rdm : Rdm) : ∃ S, latticeMixed (fun _ _ => [1, 0]) 0 2 2 [0] [1] (2 ^ 2) (fun i j => state00 i * state00 j) 2 true rdm = some S := by
  have ht : traceMixed 2 2 [0] [1] (2 ^ 2) (fun i j => state00 i * state00 j) =
      some (fun j k => ∑ l ∈ Finset.range 2, state00 ((((j * 2 + l) * 2 + k) * 2 + l) / 4) * state00 ((((j * 2 + l) * 2 + k) * 2 + l) % 4),
        fun j k => ∑ l ∈ Finset.range 2, star (state00 ((((l * 2 + j) * 2 + l) * 2 + k) / 4) * state00 ((((l * 2 + j) * 2 + l) * 2 + k) % 4))) := by
    have hr : reduce (([0] ++ [1]) ++ ([0] ++ [1]).map fun s => 2 + s) 2 = ([0], [16]) := by decide
    unfold traceMixed reshapeMixed shuffle
    simp only [hr]
    simp
  obtain ⟨_, _, h⟩ := C41_mixed_partial (d := 2) sites01 (by simp) (by simp) (by norm_num) (fun i j => state00 i * state00 j) (by
      have : (Matrix.of fun s t : Config 2 2 => state00 (Spec.PartialTrace.row s) * state00 (Spec.PartialTrace.row t)) =
          (first (Matrix.of fun (s : Config 2 2) (_ : Unit) => state00 (Spec.PartialTrace.row s)) : Matrix _ _ ℂ) := by
        ext s t
        simp only [of_apply, first, Finset.univ_unique, Finset.sum_const, Finset.card_singleton, one_smul]
        congr 1
        unfold state00
        split_ifs <;> simp
      rw [this]
      exact first_posSemidef _) (by simp [state00]) (fun _ _ => [1, 0]) (by
      intro r hr
      have hr := ht.symm.trans hr
      obtain rfl := Option.some.inj hr
      constructor
      · refine spectrum00 _ fun i hi j hj => ?_
        obtain rfl | rfl : i = 0 ∨ i = 1 := by omega
        all_goals obtain rfl | rfl : j = 0 ∨ j = 1 := by omega
        all_goals simp [Finset.sum_range_succ, state00]
      · refine spectrum00 _ fun i hi j hj => ?_
        obtain rfl | rfl : i = 0 ∨ i = 1 := by omega
        all_goals obtain rfl | rfl : j = 0 ∨ j = 1 := by omega
        all_goals simp [Finset.sum_range_succ, state00]) 2 (by norm_num) true rdm
  exact ⟨_, h⟩

end Props
