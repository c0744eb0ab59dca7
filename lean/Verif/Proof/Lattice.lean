import Verif.Spec.Strings
import Mathlib.LinearAlgebra.Matrix.ConjTranspose
import Mathlib.Algebra.BigOperators.Fin
import Mathlib.Tactic.NoncommRing
import Mathlib.Tactic.LinearCombination

/-! Commutation, anticommutation and adjoints of the operators on lattices. -/

namespace Proof.Lattice
open Spec

variable {b N : Nat}

theorem onSite_mul (u : Nat → Nat → ℂ) (i : Fin N) (M : Matrix (Conf b N) (Conf b N) ℂ) (t s : Conf b N) :
    ((onSite u i : Matrix (Conf b N) (Conf b N) ℂ) * M) t s = ∑ a : Fin b, u (t i) a * M (Function.update t i a) s := by
  rw [Matrix.mul_apply]
  symm
  refine Finset.sum_of_injOn (fun a => Function.update t i a) ?_ ?_ ?_ ?_
  · intro a _ c _ h
    have := congrFun h i
    simpa using this
  · simp
  · intro x _ hx
    have : ¬∀ j, j ≠ i → t j = x j := by
      intro h
      apply hx
      refine ⟨x i, by simp, ?_⟩
      funext j
      by_cases hj : j = i
      · subst hj; simp
      · simp [hj, h j hj]
    simp [onSite, this]
  · intro a _
    have h : ∀ j, j ≠ i → t j = Function.update t i a j := fun j hj => by simp [hj]
    simp only [onSite]
    rw [if_pos h]
    simp

theorem onSite_comm_entry (u v : Nat → Nat → ℂ) {i j : Fin N} (hij : i ≠ j) (t s : Conf b N) :
    ((onSite u i : Matrix (Conf b N) (Conf b N) ℂ) * (onSite v j : Matrix (Conf b N) (Conf b N) ℂ)) t s = if ∀ k, k ≠ i → k ≠ j → t k = s k then u (t i) (s i) * v (t j) (s j) else 0 := by
  rw [onSite_mul]
  rw [Finset.sum_eq_single (s i)]
  · simp only [onSite, Function.update_of_ne (Ne.symm hij)]
    by_cases h : ∀ k, k ≠ i → k ≠ j → t k = s k
    · rw [if_pos h, if_pos]
      intro k hk
      by_cases hki : k = i
      · subst hki; simp
      · rw [Function.update_of_ne hki]; exact h k hki hk
    · rw [if_neg h, if_neg, mul_zero]
      intro h'
      apply h
      intro k hki hkj
      have := h' k hkj
      rwa [Function.update_of_ne hki] at this
  · intro a _ ha
    rw [onSite, if_neg, mul_zero]
    intro h
    have := h i hij
    simp at this
    exact ha this
  · simp

theorem onSite_commute (u v : Nat → Nat → ℂ) {i j : Fin N} (hij : i ≠ j) :
    (onSite u i * onSite v j : Matrix (Conf b N) (Conf b N) ℂ) = onSite v j * onSite u i := by
  ext t s
  rw [onSite_comm_entry u v hij, onSite_comm_entry v u (Ne.symm hij)]
  have : (∀ k, k ≠ i → k ≠ j → t k = s k) ↔ ∀ k, k ≠ j → k ≠ i → t k = s k :=
    ⟨fun h k a b => h k b a, fun h k a b => h k b a⟩
  simp only [this, mul_comm]

theorem onSite_star (u v : Nat → Nat → ℂ) (h : ∀ a < b, ∀ c < b, star (u a c) = v c a) (i : Fin N) :
    (onSite u i : Matrix (Conf b N) (Conf b N) ℂ).conjTranspose = onSite v i := by
  ext t s
  simp only [Matrix.conjTranspose_apply, onSite]
  have : (∀ j, j ≠ i → s j = t j) ↔ ∀ j, j ≠ i → t j = s j := ⟨fun h j a => (h j a).symm, fun h j a => (h j a).symm⟩
  simp only [this]
  split
  · exact h _ (s i).2 _ (t i).2
  · simp

theorem siteOp_commute (u : Char → Nat → Nat → ℂ) (o p : Char) {i j : Nat} (hij : i ≠ j) :
    siteOp b N u o i * siteOp b N u p j = siteOp b N u p j * siteOp b N u o i := by
  unfold siteOp
  split
  · split
    · exact onSite_commute _ _ (by simpa using hij)
    · simp
  · simp

theorem siteOp_star {u : Char → Nat → Nat → ℂ} (h : AdjointPairs b u) (i : Nat) :
    (siteOp b N u '+' i).conjTranspose = siteOp b N u '-' i ∧ (siteOp b N u '-' i).conjTranspose = siteOp b N u '+' i ∧
      ∀ o, o ≠ '+' → o ≠ '-' → (siteOp b N u o i).conjTranspose = siteOp b N u o i := by
  unfold siteOp
  split
  · exact ⟨onSite_star _ _ (fun a ha c hc => (h a ha c hc).1) _, onSite_star _ _ (fun a ha c hc => (h a ha c hc).2.1) _,
      fun o h1 h2 => onSite_star _ _ (fun a ha c hc => (h a ha c hc).2.2 o h1 h2) _⟩
  · simp

/-! ### Fermions -/

/-- Parity of the sites after `i`, as a diagonal matrix. -/
noncomputable def parity (i : Fin N) : Matrix (Conf 2 N) (Conf 2 N) ℂ := Matrix.diagonal fun s => (parityAfter s i : ℂ)

theorem fermion_ladder (o : Char) (ho : o = '+' ∨ o = '-') (i : Fin N) : fermion o i = onSite (spinHalf o) i * parity i := by
  ext t s
  rw [parity, Matrix.mul_diagonal]
  rcases ho with rfl | rfl
  · exact mul_comm _ _
  · exact mul_comm _ _

set_option linter.auxLemma false in
theorem fermion_even (o : Char) (h1 : o ≠ '+') (h2 : o ≠ '-') (i : Fin N) : fermion o i = onSite (spinHalf o) i := by
  delta fermion
  have := fermion.match_1.eq_3 (motive := fun _ => Matrix (Conf 2 N) (Conf 2 N) ℂ)
  exact this _ _ _ _ h1 h2

theorem parityAfter_prod (s : Conf 2 N) (i : Fin N) : parityAfter s i = ∏ j, if i < j ∧ s j = 1 then (-1 : Int) else 1 := by
  rw [parityAfter, ← Fin.prod_univ_def]

theorem parityAfter_flip (s t : Conf 2 N) (i j : Fin N) (h : ∀ k, k ≠ j → t k = s k) (hj : t j ≠ s j) :
    parityAfter t i = (if i < j then -1 else 1) * parityAfter s i := by
  rw [parityAfter_prod, parityAfter_prod, ← Finset.mul_prod_erase _ _ (Finset.mem_univ j), ← Finset.mul_prod_erase (Finset.univ) _ (Finset.mem_univ j),
    ← mul_assoc]
  congr 1
  · have h1 : ∀ x : Fin 2, x = 0 ∨ x = 1 := by decide
    rcases h1 (t j) with h2 | h2 <;> rcases h1 (s j) with h3 | h3
    · exact absurd (h2.trans h3.symm) hj
    · by_cases hij : i < j <;> simp [h2, h3, hij]
    · by_cases hij : i < j <;> simp [h2, h3, hij]
    · exact absurd (h2.trans h3.symm) hj
  · refine Finset.prod_congr rfl fun k hk => ?_
    rw [h k (Finset.ne_of_mem_erase hk)]

theorem parityAfter_keep (s t : Conf 2 N) (i : Fin N) (h : t = s) : parityAfter t i = parityAfter s i := by rw [h]

/-- Ladder operators change the parity of the sites before them. -/
theorem parity_ladder (o : Char) (ho : o = '+' ∨ o = '-') (i j : Fin N) :
    parity i * onSite (spinHalf o) j = (if i < j then (-1 : ℂ) else 1) • (onSite (spinHalf o) j * parity i) := by
  ext t s
  rw [Matrix.smul_apply, parity, Matrix.mul_diagonal, Matrix.diagonal_mul]
  simp only [onSite]
  split
  · rename_i h
    by_cases hj : t j = s j
    · have : spinHalf o ((t j : Fin 2) : Nat) ((s j : Fin 2) : Nat) = 0 := by
        rw [hj]
        rcases ho with rfl | rfl
        · simp only [spinHalf]
          rw [if_neg]; omega
        · simp only [spinHalf]
          rw [if_neg]; omega
      simp [this]
    · rw [parityAfter_flip s t i j h hj]
      split <;> · push_cast; simp; ring
  · simp

theorem parity_comm (i j : Fin N) : (parity i * parity j : Matrix (Conf 2 N) (Conf 2 N) ℂ) = parity j * parity i := by
  simp only [parity, Matrix.diagonal_mul_diagonal, mul_comm]

/-- The characters of fermion strings. -/
def Even (o : Char) : Prop := o ≠ '+' ∧ o ≠ '-' ∧ o ≠ 'x' ∧ o ≠ 'y'

theorem spinHalf_diag {o : Char} (h : Even o) (a c : Nat) (hac : a ≠ c) : spinHalf o a c = 0 := by
  unfold spinHalf
  split
  · simp [hac]
  · simp [hac]
  · simp [hac]
  · exact absurd rfl h.2.2.1
  · exact absurd rfl h.2.2.2
  · exact absurd rfl h.1
  · exact absurd rfl h.2.1
  · rfl

theorem onSite_even {o : Char} (h : Even o) (i : Fin N) :
    (onSite (spinHalf o) i : Matrix (Conf 2 N) (Conf 2 N) ℂ) = Matrix.diagonal fun s => spinHalf o (s i) (s i) := by
  ext t s
  rw [Matrix.diagonal_apply]
  by_cases hts : t = s
  · subst hts; simp [onSite]
  · rw [if_neg hts]
    simp only [onSite]
    split
    · rename_i hk
      apply spinHalf_diag h
      intro hi
      apply hts
      funext k
      by_cases hki : k = i
      · subst hki; exact Fin.ext hi
      · exact hk k hki
    · rfl

/-- The exchange sign. -/
def exch (o p : Char) : ℂ := if (o = '+' ∨ o = '-') ∧ (p = '+' ∨ p = '-') then -1 else 1

theorem fermion_exchange_lt {o p : Char} (ho : o ≠ 'x' ∧ o ≠ 'y') (hp : p ≠ 'x' ∧ p ≠ 'y') {i j : Fin N} (hij : i < j) :
    fermion o i * fermion p j = exch o p • (fermion p j * fermion o i) := by
  have hne : i ≠ j := ne_of_lt hij
  by_cases h1 : o = '+' ∨ o = '-'
  · by_cases h2 : p = '+' ∨ p = '-'
    · rw [fermion_ladder o h1, fermion_ladder p h2, exch, if_pos ⟨h1, h2⟩]
      have e1 := parity_ladder p h2 i j
      rw [if_pos hij] at e1
      have e2 := parity_ladder o h1 j i
      rw [if_neg (by omega), one_smul] at e2
      calc onSite (spinHalf o) i * parity i * (onSite (spinHalf p) j * parity j)
          = onSite (spinHalf o) i * (parity i * onSite (spinHalf p) j) * parity j := by simp only [mul_assoc]
        _ = (-1 : ℂ) • (onSite (spinHalf o) i * onSite (spinHalf p) j * (parity i * parity j)) := by
            rw [e1]; simp [mul_assoc]
        _ = (-1 : ℂ) • (onSite (spinHalf p) j * onSite (spinHalf o) i * (parity j * parity i)) := by
            rw [onSite_commute _ _ hne, parity_comm]
        _ = (-1 : ℂ) • (onSite (spinHalf p) j * parity j * (onSite (spinHalf o) i * parity i)) := by
            congr 1
            calc onSite (spinHalf p) j * onSite (spinHalf o) i * (parity j * parity i)
                = onSite (spinHalf p) j * (onSite (spinHalf o) i * parity j) * parity i := by simp only [mul_assoc]
              _ = _ := by rw [← e2]; simp only [mul_assoc]
    · have hpe : Even p := ⟨fun h => h2 (Or.inl h), fun h => h2 (Or.inr h), hp.1, hp.2⟩
      rw [fermion_ladder o h1, fermion_even p hpe.1 hpe.2.1, exch, if_neg (fun h => h2 h.2), one_smul]
      have e : parity i * onSite (spinHalf p) j = onSite (spinHalf p) j * parity i := by
        rw [onSite_even hpe, parity]
        simp only [Matrix.diagonal_mul_diagonal, mul_comm]
      rw [mul_assoc, e, ← mul_assoc, onSite_commute _ _ hne, mul_assoc]
  · have hoe : Even o := ⟨fun h => h1 (Or.inl h), fun h => h1 (Or.inr h), ho.1, ho.2⟩
    rw [exch, if_neg (fun h => h1 h.1), one_smul, fermion_even o hoe.1 hoe.2.1]
    by_cases h2 : p = '+' ∨ p = '-'
    · rw [fermion_ladder p h2]
      have e : onSite (spinHalf o) i * parity j = parity j * onSite (spinHalf o) i := by
        rw [onSite_even hoe, parity]
        simp only [Matrix.diagonal_mul_diagonal, mul_comm]
      rw [← mul_assoc, onSite_commute _ _ hne, mul_assoc, e, mul_assoc]
    · rw [fermion_even p (fun h => h2 (Or.inl h)) (fun h => h2 (Or.inr h)), onSite_commute _ _ hne]

theorem exch_comm (o p : Char) : exch o p = exch p o := by
  simp only [exch, and_comm]

theorem exch_sq (o p : Char) : exch o p * exch o p = 1 := by
  unfold exch; split <;> norm_num

theorem fermion_exchange {o p : Char} (ho : o ≠ 'x' ∧ o ≠ 'y') (hp : p ≠ 'x' ∧ p ≠ 'y') {i j : Fin N} (hij : i ≠ j) :
    fermion o i * fermion p j = exch o p • (fermion p j * fermion o i) := by
  rcases lt_or_gt_of_ne hij with h | h
  · exact fermion_exchange_lt ho hp h
  · rw [fermion_exchange_lt hp ho h, smul_smul, exch_comm p o, exch_sq, one_smul]

theorem fermionOp_exchange {o p : Char} (ho : o ≠ 'x' ∧ o ≠ 'y') (hp : p ≠ 'x' ∧ p ≠ 'y') {i j : Nat} (hij : i ≠ j) :
    fermionOp N o i * fermionOp N p j = exch o p • (fermionOp N p j * fermionOp N o i) := by
  unfold fermionOp
  split
  · split
    · exact fermion_exchange ho hp (by simpa using hij)
    · simp
  · simp

theorem spinHalf_adjoint : AdjointPairs 2 spinHalf := by
  intro a _ c _
  refine ⟨?_, ?_, fun o h1 h2 => ?_⟩
  · simp only [spinHalf, and_comm]
    split <;> simp
  · simp only [spinHalf, and_comm]
    split <;> simp
  · unfold spinHalf
    split
    · simp only [eq_comm]; split <;> simp
    · by_cases h : a = c
      · subst h; by_cases h' : a = 1 <;> simp [h']
      · simp [h, Ne.symm h]
    · by_cases h : a = c
      · subst h; by_cases h' : a = 1 <;> simp [h']
      · simp [h, Ne.symm h]
    · by_cases h : a = c
      · simp [h]
      · simp [h, Ne.symm h]
    · by_cases h3 : a = 1 ∧ c = 0
      · obtain ⟨rfl, rfl⟩ := h3; simp
      · by_cases h4 : a = 0 ∧ c = 1
        · obtain ⟨rfl, rfl⟩ := h4; simp
        · rw [if_neg h3, if_neg h4, if_neg (fun h => h4 h.symm), if_neg (fun h => h3 h.symm)]; simp
    · exact absurd rfl h1
    · exact absurd rfl h2
    · simp

theorem parity_star (i : Fin N) : (parity i : Matrix (Conf 2 N) (Conf 2 N) ℂ).conjTranspose = parity i := by
  rw [parity, Matrix.diagonal_conjTranspose]
  congr 1
  funext s
  simp

theorem fermionOp_star (i : Nat) :
    (fermionOp N '+' i).conjTranspose = fermionOp N '-' i ∧ (fermionOp N '-' i).conjTranspose = fermionOp N '+' i ∧
      ∀ o, o ≠ '+' → o ≠ '-' → (fermionOp N o i).conjTranspose = fermionOp N o i := by
  unfold fermionOp
  split
  · rename_i h
    have hs := spinHalf_adjoint
    refine ⟨?_, ?_, fun o h1 h2 => ?_⟩
    · rw [fermion_ladder _ (Or.inl rfl), fermion_ladder _ (Or.inr rfl), Matrix.conjTranspose_mul, parity_star,
        onSite_star _ _ (fun a ha c hc => (hs a ha c hc).1), parity_ladder _ (Or.inr rfl), if_neg (lt_irrefl _), one_smul]
    · rw [fermion_ladder _ (Or.inl rfl), fermion_ladder _ (Or.inr rfl), Matrix.conjTranspose_mul, parity_star,
        onSite_star _ _ (fun a ha c hc => (hs a ha c hc).2.1), parity_ladder _ (Or.inl rfl), if_neg (lt_irrefl _), one_smul]
    · rw [fermion_even o h1 h2, onSite_star _ _ (fun a ha c hc => (hs a ha c hc).2.2 o h1 h2)]
  · simp

end Proof.Lattice
