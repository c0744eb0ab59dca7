import Verif.Proof.ChainVecKinds
import Mathlib.Algebra.BigOperators.Field
import Mathlib.Algebra.BigOperators.Ring.Finset
/-! The normalised projections of different representatives are orthonormal, so that expansions keep inner products. -/
namespace Proof.Chain
open Spec Model.Chain Proof.Symmetry
open scoped BigOperators

theorem related_below {size : ℕ} {ys : List Generator} (h : Acts (· < size) ys) {s t : ℕ} (hs : s < size) (hr : Related ys s t) : t < size := by
  induction hr with
  | refl => exact hs
  | tail _ h2 ih =>
    obtain ⟨y, hy, rfl⟩ := h2
    exact h.closed y hy _ ih

theorem rep_norm_pos {size : ℕ} {ys : List Generator} (h : Acts (· < size) ys) {s : ℕ} (hs : s < size) (hr : IsRepresentative ys s) :
    0 < ∑ u ∈ Finset.range size, ‖projection ys s u‖ ^ 2 := by
  obtain ⟨t, ht⟩ := hr.2
  have hrel : Related ys s t := by
    by_contra hn
    exact ht (projection_unrelated h s t hs hn)
  have htm := related_below h hs hrel
  refine Finset.sum_pos' (fun u _ => by positivity) ⟨t, Finset.mem_range.2 htm, ?_⟩
  have : 0 < ‖projection ys s t‖ := norm_pos_iff.2 ht
  positivity

theorem symState_inner {size : ℕ} {ys : List Generator} (h : Acts (· < size) ys) {s s' : ℕ} (hs : s < size) (hs' : s' < size)
    (hr : IsRepresentative ys s) (hr' : IsRepresentative ys s') :
    ∑ u ∈ Finset.range size, (starRingEnd ℂ) (symState (Finset.range size) ys s u) * symState (Finset.range size) ys s' u
      = if s = s' then 1 else 0 := by
  have h' : Acts (· ∈ Finset.range size) ys := by simpa [Finset.mem_range] using h
  have hi := inner_projection h' s s' (Finset.mem_range.2 hs) (Finset.mem_range.2 hs')
  have hi' := inner_projection h' s' s (Finset.mem_range.2 hs') (Finset.mem_range.2 hs)
  have hpull : ∑ u ∈ Finset.range size, (starRingEnd ℂ) (symState (Finset.range size) ys s u) * symState (Finset.range size) ys s' u
      = (∑ u ∈ Finset.range size, (starRingEnd ℂ) (projection ys s u) * projection ys s' u) /
        ((Real.sqrt (∑ u ∈ Finset.range size, ‖projection ys s u‖ ^ 2) : ℝ) * (Real.sqrt (∑ u ∈ Finset.range size, ‖projection ys s' u‖ ^ 2) : ℝ)) := by
    rw [Finset.sum_div]
    refine Finset.sum_congr rfl fun u _ => ?_
    unfold symState
    rw [map_div₀, Complex.conj_ofReal]
    rw [div_mul_div_comm]
  rw [hpull]
  by_cases he : s = s'
  · subst he
    rw [if_pos rfl]
    have hp := rep_norm_pos h hs hr
    have e : ∑ u ∈ Finset.range size, (starRingEnd ℂ) (projection ys s u) * projection ys s u
        = ((∑ u ∈ Finset.range size, ‖projection ys s u‖ ^ 2 : ℝ) : ℂ) := by
      rw [Complex.ofReal_sum]
      refine Finset.sum_congr rfl fun u _ => ?_
      rw [Complex.conj_mul', Complex.ofReal_pow]
    rw [e, ← Complex.ofReal_mul, Real.mul_self_sqrt hp.le, div_self]
    exact_mod_cast hp.ne'
  · rw [if_neg he]
    have hz : ∑ u ∈ Finset.range size, (starRingEnd ℂ) (projection ys s u) * projection ys s' u = 0 := by
      by_contra hne
      have h1 : projection ys s' s ≠ 0 := fun h0 => hne (by rw [hi, h0, mul_zero])
      have h2 : projection ys s s' ≠ 0 := fun h0 => by
        rw [h0, mul_zero] at hi'
        apply hne
        have := congrArg (starRingEnd ℂ) hi'
        rw [map_sum, map_zero] at this
        rw [← this]
        refine Finset.sum_congr rfl fun u _ => ?_
        rw [map_mul, Complex.conj_conj, mul_comm]
      have r1 : Related ys s' s := by by_contra hn; exact h1 (projection_unrelated h s' s hs' hn)
      have r2 : Related ys s s' := by by_contra hn; exact h2 (projection_unrelated h s s' hs hn)
      have := hr'.1 s r1
      have := hr.1 s' r2
      omega
    rw [hz, zero_div]

theorem expansion_inner {size : ℕ} {ys : List Generator} (h : Acts (· < size) ys) (reps : List ℕ) (hn : reps.Nodup)
    (hr : ∀ s ∈ reps, s < size ∧ IsRepresentative ys s) (a b : List ℂ) (ha : a.length = reps.length) (hb : b.length = reps.length) (v v' : ℕ → ℂ)
    (hv : IsExpansion size ys reps a v) (hv' : IsExpansion size ys reps b v') :
    ∑ j ∈ Finset.range size, (starRingEnd ℂ) (v j) * v' j = (List.zipWith (fun x y => (starRingEnd ℂ) x * y) a b).sum := by
  have hsum : ∀ (f : ℕ → ℂ → ℂ) (l : List ℂ) (hl : l.length = reps.length),
      (List.zipWith f reps l).sum = ∑ i : Fin reps.length, f reps[i] (l[i.1]'(by omega)) := by
    intro f l hl
    rw [← List.sum_ofFn]
    congr 1
    apply List.ext_getElem
    · simp [hl]
    · intro i h1 h2; simp
  have hab : (List.zipWith (fun x y => (starRingEnd ℂ) x * y) a b).sum
      = ∑ i : Fin reps.length, (starRingEnd ℂ) (a[i.1]'(by omega)) * (b[i.1]'(by omega)) := by
    rw [← List.sum_ofFn]
    congr 1
    apply List.ext_getElem
    · simp [ha, hb]
    · intro i h1 h2; simp
  rw [← Finset.sum_range_reflect, hab]
  have e : ∀ t ∈ Finset.range size, (starRingEnd ℂ) (v (size - 1 - t)) * v' (size - 1 - t)
      = ∑ i : Fin reps.length, ∑ j : Fin reps.length, ((starRingEnd ℂ) (a[i.1]'(by omega)) * (b[j.1]'(by omega))) *
        ((starRingEnd ℂ) (symState (Finset.range size) ys reps[i] t) * symState (Finset.range size) ys reps[j] t) := by
    intro t ht
    rw [hv t (Finset.mem_range.1 ht), hv' t (Finset.mem_range.1 ht), hsum _ a ha, hsum _ b hb, map_sum, Finset.sum_mul_sum]
    refine Finset.sum_congr rfl fun i _ => Finset.sum_congr rfl fun j _ => ?_
    rw [map_mul]; ring
  rw [Finset.sum_congr rfl e, Finset.sum_comm]
  refine Finset.sum_congr rfl fun i _ => ?_
  rw [Finset.sum_comm]
  have e2 : ∀ j : Fin reps.length, ∑ t ∈ Finset.range size, ((starRingEnd ℂ) (a[i.1]'(by omega)) * (b[j.1]'(by omega))) *
        ((starRingEnd ℂ) (symState (Finset.range size) ys reps[i] t) * symState (Finset.range size) ys reps[j] t)
      = if i = j then (starRingEnd ℂ) (a[i.1]'(by omega)) * (b[j.1]'(by omega)) else 0 := by
    intro j
    have h1 := hr reps[i] (List.getElem_mem _)
    have h2 := hr reps[j] (List.getElem_mem _)
    rw [← Finset.mul_sum, symState_inner h h1.1 h2.1 h1.2 h2.2]
    by_cases hij : i = j
    · subst hij; simp
    · rw [if_neg hij, if_neg, mul_zero]
      intro h0
      exact hij (Fin.ext ((hn.getElem_inj_iff).1 h0))
  rw [Finset.sum_congr rfl fun j _ => e2 j, Finset.sum_ite_eq, if_pos (Finset.mem_univ _)]

end Proof.Chain
