import Verif.Model.Boson
import Verif.Proof.Digits
import Mathlib.RingTheory.PowerSeries.WellKnown
import Mathlib.Algebra.BigOperators.Group.Finset.Basic
/-! The dimension formula `hDim` counts configurations: generating function argument. -/
namespace Proof.HDim
open Spec Model Proof.Digits PowerSeries

theorem sum_blocks {M : Type*} [AddCommMonoid M] (f : ℕ → M) (b : ℕ) : ∀ m,
    ∑ s ∈ Finset.range (m * b), f s = ∑ q ∈ Finset.range m, ∑ r ∈ Finset.range b, f (q * b + r) := by
  intro m
  induction m with
  | zero => simp
  | succ m ih => rw [Nat.succ_mul, Finset.sum_range_add, Finset.sum_range_succ, ih]

theorem gen (b : ℕ) (hb : 0 < b) : ∀ N,
    ∑ s ∈ Finset.range (b ^ N), (X : ℤ⟦X⟧) ^ dsum b N s = (∑ d ∈ Finset.range b, (X : ℤ⟦X⟧) ^ d) ^ N := by
  intro N
  induction N with
  | zero => simp [dsum_zero]
  | succ N ih =>
    rw [Nat.pow_succ, sum_blocks, pow_succ, ← ih, Finset.sum_mul_sum]
    apply Finset.sum_congr rfl
    intro q _
    apply Finset.sum_congr rfl
    intro r hr
    rw [Finset.mem_range] at hr
    rw [dsum_low, Nat.mul_comm q b, Nat.mul_add_mod, Nat.mod_eq_of_lt hr, Nat.mul_add_div hb,
      Nat.div_eq_of_lt hr, Nat.add_zero, pow_add, mul_comm]

theorem coeff_gen (b N k : ℕ) :
    coeff k (∑ s ∈ Finset.range (b ^ N), (X : ℤ⟦X⟧) ^ dsum b N s) = (sectorB b N k).length := by
  rw [map_sum]
  simp only [coeff_X_pow]
  unfold sectorB
  generalize b ^ N = n
  induction n with
  | zero => simp
  | succ n ih =>
    rw [Finset.sum_range_succ, ih, List.range_succ, List.filter_append, List.length_append]
    push_cast
    congr 1
    by_cases h : dsum b N n = k
    · simp [h]
    · simp [h, Ne.symm h]

theorem geom (b : ℕ) : (∑ d ∈ Finset.range b, (X : ℤ⟦X⟧) ^ d) = (1 - X ^ b) * (mk 1 : ℤ⟦X⟧) := by
  ext n
  rw [map_sum]
  simp only [coeff_X_pow]
  rw [sub_mul, one_mul, map_sub, coeff_X_pow_mul']
  simp only [coeff_mk, Pi.one_apply]
  rw [Finset.sum_ite_eq]
  simp only [Finset.mem_range]
  by_cases h : n < b
  · rw [if_pos h, if_neg (by omega)]; simp
  · rw [if_neg h, if_pos (by omega)]; simp

theorem sector_count (b N k : ℕ) (hb : 0 < b) :
    ((sectorB b (N + 1) k).length : ℤ) = ∑ r ∈ Finset.range (N + 2),
      if b * r ≤ k then (-1 : ℤ) ^ r * (N + 1).choose r * (N + (k - b * r)).choose N else 0 := by
  rw [← coeff_gen, gen b hb, geom, mul_pow, mk_one_pow_eq_mk_choose_add, sub_eq_add_neg, add_comm,
    add_pow, Finset.sum_mul, map_sum]
  apply Finset.sum_congr rfl
  intro r _
  rw [one_pow, mul_one, neg_pow, ← pow_mul]
  have : ((-1 : ℤ⟦X⟧) ^ r * X ^ (b * r) * ((N + 1).choose r : ℤ⟦X⟧) * (mk fun n ↦ ((N + n).choose N : ℤ)))
      = X ^ (b * r) * (C ((-1 : ℤ) ^ r * (N + 1).choose r) * (mk fun n ↦ ((N + n).choose N : ℤ))) := by
    simp only [map_mul, map_pow, map_neg, map_one, map_natCast]; ring
  rw [this, coeff_X_pow_mul']
  split
  · rw [coeff_C_mul, coeff_mk]
  · rfl

theorem hDim_eq (b N k : ℕ) (hb : 0 < b) : hDim k (N + 1) (b - 1) = (sectorB b (N + 1) k).length := by
  rw [sector_count b N k hb]
  unfold hDim
  rw [Nat.sub_add_cancel hb]
  let f : ℕ → ℤ := fun r => if b * r ≤ k then (-1 : ℤ) ^ r * (N + 1).choose r * (N + (k - b * r)).choose N else 0
  have h1 : ∀ n, ((List.range n).map f).sum = ∑ r ∈ Finset.range n, f r := by
    intro n
    induction n with
    | zero => rfl
    | succ n ih => rw [List.range_succ, Finset.sum_range_succ, List.map_append, List.sum_append, ih]; simp
  have h2 : ∀ n, (∀ r, n ≤ r → f r = 0) → ∀ d, ∑ r ∈ Finset.range (n + d), f r = ∑ r ∈ Finset.range n, f r := by
    intro n hn d
    rw [Finset.sum_range_add, Finset.sum_eq_zero (s := Finset.range d), add_zero]
    intro x _; exact hn _ (by omega)
  have hA : ∀ r, k / b + 1 ≤ r → f r = 0 := by
    intro r hr
    have : ¬ b * r ≤ k := by
      intro h
      rw [Nat.mul_comm, ← Nat.le_div_iff_mul_le hb] at h
      omega
    simp only [f, if_neg this]
  have hB : ∀ r, N + 2 ≤ r → f r = 0 := by
    intro r hr
    simp only [f]
    rw [Nat.choose_eq_zero_of_lt (show N + 1 < r by omega)]; simp
  have : ∑ r ∈ Finset.range (N + 2), f r = ∑ r ∈ Finset.range (k / b + 1), f r := by
    rw [← h2 _ hA (N + 2), ← h2 _ hB (k / b + 1), Nat.add_comm]
  change _ = ∑ r ∈ Finset.range (N + 2), f r
  rw [this, ← h1]
  congr 1
  apply List.map_congr_left
  intro r hr
  rw [List.mem_range] at hr
  have hle : b * r ≤ k := by
    rw [Nat.mul_comm, ← Nat.le_div_iff_mul_le hb]; omega
  have hc : (N + 1 + (k - r * b) - 1).choose (k - r * b) = (N + (k - b * r)).choose N := by
    rw [Nat.mul_comm r b, show N + 1 + (k - b * r) - 1 = N + (k - b * r) by omega,
      Nat.choose_symm_add]
  simp only [f, if_pos hle, hc]
  split
  · rename_i h; rw [Even.neg_one_pow (Nat.even_iff.2 h)]; push_cast; ring
  · rename_i h; rw [Odd.neg_one_pow (Nat.odd_iff.2 (by omega))]; push_cast; ring

end Proof.HDim
