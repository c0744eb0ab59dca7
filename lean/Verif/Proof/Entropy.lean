import Verif.Model.Entropy
import Verif.Spec.Entropy
import Verif.Proof.PartialTrace
import Mathlib.LinearAlgebra.Matrix.Charpoly.Basic
import Mathlib.Analysis.Matrix.PosDef
import Mathlib.Analysis.SpecialFunctions.Log.NegMulLog

/-! Proofs about entropies. -/

namespace Proof.Entropy
open Matrix Polynomial

variable {ι κ : Type} [Fintype ι] [DecidableEq ι] [Fintype κ] [DecidableEq κ]

theorem sum_of_charpoly {ρ : Matrix ι ι ℂ} (h : ρ.IsHermitian) (q : κ → ℝ) (a b : ℕ)
    (hq : (X : ℂ[X]) ^ a * ρ.charpoly = X ^ b * ∏ k, (X - C (q k : ℂ))) (f : ℝ → ℝ) (hf : f 0 = 0) :
    ∑ i, f (h.eigenvalues i) = ∑ k, f (q k) := by
  have h1 : (∏ k, (X - C (q k : ℂ))).roots = Finset.univ.val.map fun k => (q k : ℂ) := by
    rw [roots_prod _ _ (Finset.prod_ne_zero_iff.mpr fun k _ => X_sub_C_ne_zero _)]
    simp
  have hr := congrArg roots hq
  rw [roots_mul (mul_ne_zero (pow_ne_zero _ X_ne_zero) (charpoly_monic ρ).ne_zero),
    roots_mul (mul_ne_zero (pow_ne_zero _ X_ne_zero) (Finset.prod_ne_zero_iff.mpr fun k _ => X_sub_C_ne_zero _)), roots_X_pow, roots_X_pow,
    h.roots_charpoly_eq_eigenvalues, h1] at hr
  have h2 (n : ℕ) : ((n • ({0} : Multiset ℂ)).map fun z => f z.re).sum = 0 := by
    rw [Multiset.map_nsmul, Multiset.sum_nsmul, Multiset.map_singleton, Multiset.sum_singleton, Complex.zero_re, hf, smul_zero]
  have hs := congrArg (fun m : Multiset ℂ => (m.map fun z => f z.re).sum) hr
  rw [Multiset.map_add, Multiset.map_add, Multiset.sum_add, Multiset.sum_add, h2, h2, zero_add, zero_add, Multiset.map_map,
    Multiset.map_map] at hs
  exact hs

/-- The spectrum from a decomposition with orthonormal columns. -/
theorem sum_spectrum {ρ : Matrix ι ι ℂ} (h : ρ.IsHermitian) (W : Matrix ι κ ℂ) (q : κ → ℝ) (hW : Wᴴ * W = 1)
    (hρ : ρ = W * diagonal (fun k => (q k : ℂ)) * Wᴴ) (f : ℝ → ℝ) (hf : f 0 = 0) : ∑ i, f (h.eigenvalues i) = ∑ k, f (q k) := by
  refine sum_of_charpoly h q (Fintype.card κ) (Fintype.card ι) ?_ f hf
  have := charpoly_mul_comm' (W * diagonal fun k => (q k : ℂ)) Wᴴ
  rw [← hρ, ← Matrix.mul_assoc, hW, Matrix.one_mul, charpoly_diagonal] at this
  exact this

open Spec.Entropy
open scoped ComplexOrder

theorem first_eq {a b : Type} [Fintype b] (ψ : Matrix a b ℂ) : first ψ = ψ * ψᴴ := by
  ext i k
  rw [mul_apply]
  rfl

theorem second_eq {a b : Type} [Fintype a] (ψ : Matrix a b ℂ) : second ψ = ψᵀ * ψᵀᴴ := by
  ext i k
  rw [mul_apply]
  rfl

theorem first_hermitian {a b : Type} [Fintype b] (ψ : Matrix a b ℂ) : (first ψ).IsHermitian := by
  rw [first_eq]
  exact isHermitian_mul_conjTranspose_self _

theorem second_hermitian {a b : Type} [Fintype a] (ψ : Matrix a b ℂ) : (second ψ).IsHermitian := by
  rw [second_eq]
  exact isHermitian_mul_conjTranspose_self _

theorem first_posSemidef (ψ : Matrix ι κ ℂ) : (first ψ).PosSemidef := by
  rw [first_eq]
  exact posSemidef_self_mul_conjTranspose _

theorem second_posSemidef (ψ : Matrix ι κ ℂ) : (second ψ).PosSemidef := by
  rw [second_eq]
  exact posSemidef_self_mul_conjTranspose _

/-- The two reduced density matrices have the same spectrum up to zeros. -/
theorem sum_both (ψ : Matrix ι κ ℂ) (f : ℝ → ℝ) (hf : f 0 = 0) :
    ∑ i, f ((first_hermitian ψ).eigenvalues i) = ∑ k, f ((second_hermitian ψ).eigenvalues k) := by
  refine sum_of_charpoly (first_hermitian ψ) _ (Fintype.card κ) (Fintype.card ι) ?_ f hf
  have h1 : (second ψ)ᵀ = ψᴴ * ψ := by
    ext i k
    rw [mul_apply, transpose_apply]
    exact Finset.sum_congr rfl fun j _ => mul_comm _ _
  have h2 := (second_hermitian ψ).charpoly_eq
  rw [first_eq, charpoly_mul_comm' ψ ψᴴ, ← h1, charpoly_transpose, h2]
  rfl

omit [Fintype ι] [DecidableEq ι] in
/-- The spectrum from singular values. -/
theorem svd_first {μ : Type} [Fintype μ] [DecidableEq μ] (ψ : Matrix ι μ ℂ) (W : Matrix ι κ ℂ) (V : Matrix κ μ ℂ) (s : κ → ℝ)
    (hψ : ψ = W * diagonal (fun k => (s k : ℂ)) * V) (hV : V * Vᴴ = 1) : first ψ = W * diagonal (fun k => ((s k ^ 2 : ℝ) : ℂ)) * Wᴴ := by
  have hd : (diagonal fun k => (s k : ℂ))ᴴ = diagonal fun k => (s k : ℂ) := by
    rw [diagonal_conjTranspose]
    congr 1
    funext k
    exact Complex.conj_ofReal _
  have hd2 : (diagonal fun k => (s k : ℂ)) * (diagonal fun k => (s k : ℂ)) = diagonal fun k => ((s k ^ 2 : ℝ) : ℂ) := by
    rw [diagonal_mul_diagonal]
    congr 1
    funext k
    push_cast
    ring
  rw [first_eq, hψ, conjTranspose_mul, conjTranspose_mul, hd, ← hd2]
  calc W * diagonal (fun k => (s k : ℂ)) * V * (Vᴴ * ((diagonal fun k => (s k : ℂ)) * Wᴴ))
      = W * diagonal (fun k => (s k : ℂ)) * (V * Vᴴ) * ((diagonal fun k => (s k : ℂ)) * Wᴴ) := by simp only [Matrix.mul_assoc]
    _ = _ := by rw [hV, Matrix.mul_one]; simp only [Matrix.mul_assoc]

theorem sum_list (p : List ℝ) (f : ℝ → ℝ) : ∑ k : Fin p.length, f p[k] = (p.map f).sum := by
  rw [← Fin.sum_univ_getElem (p.map f)]
  refine (Fintype.sum_equiv (finCongr (by simp)) _ _ fun k => ?_)
  simp

section
variable (r : ι → ℕ) (m : ℕ) (hr : ∀ f : ℕ → ℂ, ∑ i ∈ Finset.range m, f i = ∑ x, f (r x)) (hlt : ∀ x, r x < m)
include hr hlt

theorem eig_sum (R : ℕ → ℕ → ℂ) (p : List ℝ) (hp : IsSpectrum m R p) {ρ : Matrix ι ι ℂ} (hρ : ∀ x y, R (r x) (r y) = ρ x y)
    (h : ρ.IsHermitian) (f : ℝ → ℝ) (hf : f 0 = 0) : ∑ i, f (h.eigenvalues i) = (p.map f).sum := by
  obtain ⟨hl, W, hW, hR⟩ := hp
  rw [← sum_list]
  refine sum_spectrum h (Matrix.of fun x (k : Fin p.length) => W (r x) k) (fun k => p[k]) ?_ ?_ f hf
  · ext k l
    rw [mul_apply]
    simp only [conjTranspose_apply, of_apply]
    rw [← hr fun i => star (W i k) * W i l, hW k k.2 l l.2, one_apply]
    simp only [Fin.ext_iff]
  · ext x y
    rw [← hρ, hR _ (hlt x) _ (hlt y), mul_apply, Finset.sum_range]
    refine Finset.sum_congr rfl fun k _ => ?_
    rw [mul_diagonal, conjTranspose_apply, List.getD_eq_getElem _ _ k.2]
    rfl

/-- The same for the complex conjugate of the matrix. -/
theorem eig_sum_conj (R : ℕ → ℕ → ℂ) (p : List ℝ) (hp : IsSpectrum m R p) {ρ : Matrix ι ι ℂ} (hρ : ∀ x y, R (r x) (r y) = star (ρ x y))
    (h : ρ.IsHermitian) (f : ℝ → ℝ) (hf : f 0 = 0) : ∑ i, f (h.eigenvalues i) = (p.map f).sum := by
  obtain ⟨hl, W, hW, hR⟩ := hp
  refine eig_sum r m hr hlt (fun i j => star (R i j)) p ⟨hl, fun i k => star (W i k), fun k hk l hl => ?_, fun i hi j hj => ?_⟩
    (fun x y => by rw [hρ, star_star]) h f hf
  · have := congrArg star (hW k hk l hl)
    rw [star_sum] at this
    simp only [star_mul', star_star] at this ⊢
    rw [this]
    split_ifs <;> simp
  · dsimp only
    rw [hR i hi j hj, star_sum]
    refine Finset.sum_congr rfl fun k _ => ?_
    simp

variable (c : κ → ℕ) (n : ℕ) (hc : ∀ f : ℕ → ℂ, ∑ i ∈ Finset.range n, f i = ∑ x, f (c x)) (hltc : ∀ x, c x < n)
include hc hltc

theorem svd_sum (v U V : ℕ → ℕ → ℂ) (s : List ℝ) (hs : IsSvd m n v U s V) (ψ : Matrix ι κ ℂ) (hv : ∀ x y, v (r x) (c y) = ψ x y) :
    (∀ f : ℝ → ℝ, f 0 = 0 → ∑ i, f ((first_hermitian ψ).eigenvalues i) = ((s.map (· ^ 2)).map f).sum) ∧
      (∀ f : ℝ → ℝ, f 0 = 0 → ∑ i, f ((second_hermitian ψ).eigenvalues i) = ((s.map (· ^ 2)).map f).sum) := by
  have key : ∀ f : ℝ → ℝ, f 0 = 0 → ∑ i, f ((first_hermitian ψ).eigenvalues i) = ((s.map (· ^ 2)).map f).sum := by
    intro f hf
    rw [List.map_map, ← sum_list]
    let W : Matrix ι (Fin s.length) ℂ := Matrix.of fun x k => U (r x) k
    let V' : Matrix (Fin s.length) κ ℂ := Matrix.of fun k y => V k (c y)
    have h1 : Wᴴ * W = 1 := by
      ext k l
      rw [mul_apply]
      simp only [conjTranspose_apply, of_apply, W]
      rw [← hr fun i => star (U i k) * U i l, hs.left k k.2 l l.2, one_apply]
      simp only [Fin.ext_iff]
    have h2 : V' * V'ᴴ = 1 := by
      ext k l
      rw [mul_apply]
      simp only [conjTranspose_apply, of_apply, V']
      rw [← hc fun i => V k i * star (V l i), hs.right k k.2 l l.2, one_apply]
      simp only [Fin.ext_iff]
    have h3 : ψ = W * diagonal (fun k => ((s[k] : ℝ) : ℂ)) * V' := by
      ext x y
      rw [← hv, hs.product _ (hlt x) _ (hltc y), mul_apply, Finset.sum_range]
      refine Finset.sum_congr rfl fun k _ => ?_
      rw [mul_diagonal, List.getD_eq_getElem _ _ k.2]
      rfl
    exact sum_spectrum (first_hermitian ψ) W (fun k => s[k] ^ 2) h1 (svd_first ψ W V' (fun k => s[k]) h3 h2) f hf
  exact ⟨key, fun f hf => by rw [← sum_both ψ f hf, key f hf]⟩

end

/-! ### The formula -/

open Model.Entropy

theorem sumLog_eq {ρ : Matrix ι ι ℂ} (h : ρ.IsHermitian) (hpos : ∀ i, 0 ≤ h.eigenvalues i) (p : List ℝ)
    (hp : ∀ f : ℝ → ℝ, f 0 = 0 → ∑ i, f (h.eigenvalues i) = (p.map f).sum) :
    sumLog p = ∑ i, h.eigenvalues i * Real.log (h.eigenvalues i) := by
  unfold sumLog
  rw [← hp _ (by simp)]
  refine Finset.sum_congr rfl fun i _ => ?_
  rcases (hpos i).eq_or_lt with e | e
  · rw [← e]; simp
  · rw [if_pos e]

theorem sumPower_eq {ρ : Matrix ι ι ℂ} (h : ρ.IsHermitian) (hpos : ∀ i, 0 ≤ h.eigenvalues i) (p : List ℝ)
    (hp : ∀ f : ℝ → ℝ, f 0 = 0 → ∑ i, f (h.eigenvalues i) = (p.map f).sum) (α : ℝ) (hα : 0 < α) :
    sumPower α p = ∑ i, if h.eigenvalues i = 0 then 0 else h.eigenvalues i ^ α := by
  unfold sumPower
  rw [← hp _ (by rw [if_pos le_rfl, Real.zero_rpow hα.ne'])]
  refine Finset.sum_congr rfl fun i _ => ?_
  rw [if_pos (hpos i)]
  split_ifs with e
  · rw [e, Real.zero_rpow hα.ne']
  · rfl

theorem sumPower_pos {ρ : Matrix ι ι ℂ} (h : ρ.IsHermitian) (hpos : ∀ i, 0 ≤ h.eigenvalues i) (hne : ∃ i, h.eigenvalues i ≠ 0) (p : List ℝ)
    (hp : ∀ f : ℝ → ℝ, f 0 = 0 → ∑ i, f (h.eigenvalues i) = (p.map f).sum) (α : ℝ) (hα : 0 < α) : 0 < sumPower α p := by
  rw [sumPower_eq h hpos p hp α hα]
  obtain ⟨i, hi⟩ := hne
  refine Finset.sum_pos' (fun j _ => ?_) ⟨i, Finset.mem_univ _, ?_⟩
  · split_ifs
    · exact le_rfl
    · exact Real.rpow_nonneg (hpos j) _
  · rw [if_neg hi]
    exact Real.rpow_pos_of_pos ((hpos i).lt_of_ne (Ne.symm hi)) _

theorem lattice_eq {ρ : Matrix ι ι ℂ} (h : ρ.IsHermitian) (hpos : ∀ i, 0 ≤ h.eigenvalues i) (hne : ∃ i, h.eigenvalues i ≠ 0) (p : List ℝ)
    (hp : ∀ f : ℝ → ℝ, f 0 = 0 → ∑ i, f (h.eigenvalues i) = (p.map f).sum) (α : ℝ) (hα : 0 < α) (density : Bool) (n : ℕ) (hn : n ≠ 0) :
    lattice α density n p = some (some (renyi α h / if density then (n : ℝ) else 1)) := by
  have hsite (S : ℝ) : perSite density n S = some (S / if density then (n : ℝ) else 1) := by
    unfold perSite
    cases density
    · simp
    · simp [hn]
  unfold lattice renyi
  by_cases h1 : α = 1
  · rw [if_pos h1, if_pos h1, hsite, sumLog_eq h hpos p hp]
  · rw [if_neg h1, if_neg h1, if_pos hα.le, log, if_pos (sumPower_pos h hpos hne p hp α hα), Option.bind_some, hsite,
      sumPower_eq h hpos p hp α hα]

theorem exists_ne_zero {ρ : Matrix ι ι ℂ} (h : ρ.IsHermitian) (ht : ρ.trace ≠ 0) : ∃ i, h.eigenvalues i ≠ 0 := by
  by_contra hall
  push Not at hall
  rw [h.trace_eq_sum_eigenvalues] at ht
  simp [hall] at ht

end Proof.Entropy
