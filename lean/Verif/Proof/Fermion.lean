import Verif.Proof.Ops
import Verif.Proof.BitCount
import Mathlib.Algebra.BigOperators.Fin
namespace Proof.Ops
open Spec Model Model.Word Proof.Digits

variable {N : Nat}

theorem count_top (n v : Nat) : count (n + 1) v = count n v + if digit 2 v n = 1 then 1 else 0 := by
  simp only [count, List.range_succ, List.countP_append, List.countP_cons, List.countP_nil, testBit_digit]
  simp

theorem prod_count (n v : Nat) :
    ∏ k ∈ Finset.range n, (if digit 2 v k = 1 then (-1 : Int) else 1) = (-1) ^ count n v := by
  induction n with
  | zero => simp [count]
  | succ n ih => rw [Finset.prod_range_succ, ih, count_top, pow_add]; split <;> simp

theorem parityAfter_eq (s : Nat) (i : Fin N) : parityAfter (conf 2 N s) i = (-1) ^ count (N - 1 - i) s := by
  have hi := i.2
  unfold parityAfter
  rw [← prod_count, ← List.ofFn_eq_map, List.prod_ofFn]
  rw [← Equiv.prod_comp Fin.revPerm]
  have h1 : ∏ k ∈ Finset.range (N - 1 - i), (if digit 2 s k = 1 then (-1 : Int) else 1)
      = ∏ k ∈ Finset.range N, (if k < N - 1 - i ∧ digit 2 s k = 1 then (-1 : Int) else 1) := by
    symm
    rw [← Finset.prod_subset (Finset.range_mono (show N - 1 - (i : Nat) ≤ N by omega))]
    · apply Finset.prod_congr rfl
      intro k hk; rw [Finset.mem_range] at hk; simp [hk]
    · intro k _ hk; rw [Finset.mem_range] at hk; simp [hk]
  rw [h1, Finset.prod_range]
  apply Finset.prod_congr rfl
  intro k _
  have hk := k.2
  have e1 : i < Fin.rev k ↔ (k : Nat) < N - 1 - i := by
    rw [Fin.lt_def, Fin.val_rev]; omega
  have e2 : conf 2 N s (Fin.rev k) = 1 ↔ digit 2 s k = 1 := by
    rw [Fin.ext_iff]
    simp only [conf, occ, Fin.val_rev]
    rw [show N - 1 - (N - (↑k + 1)) = (k : Nat) by omega]
    simp
  simp only [Fin.revPerm_apply, e1, e2]

theorem col_fermion (o : Char) (ho : o = '+' ∨ o = '-') (i : Fin N) (r r' : Nat) (c : ℂ)
    (h : Col (b := 2) (onSite (spinHalf o) i) r r' c) :
    Col (b := 2) (fermion o i) r r' (((-1 : Int) ^ count (N - 1 - i) r : Int) * c) := by
  intro t
  have : fermion o i t (conf 2 N r) = (parityAfter (conf 2 N r) i : ℂ) * onSite (spinHalf o) i t (conf 2 N r) := by
    rcases ho with rfl | rfl <;> rfl
  rw [this, h t, parityAfter_eq]
  split <;> simp

theorem sign_parity (c : Nat) : (if c &&& 1 = 1 then (-1 : Int) else 1) = (-1) ^ c := by
  rw [Nat.and_one_is_mod]
  rcases Nat.even_or_odd c with h | h
  · rw [h.neg_one_pow, if_neg (by rw [Nat.even_iff] at h; omega)]
  · rw [h.neg_one_pow, if_pos (by rwa [Nat.odd_iff] at h)]

theorem fermionSign_eq (B r ind : Nat) (h : ind < 8 * B) (hc : count ind r < 256) :
    fermionSign (8 * B) r ind = some ((-1) ^ count ind r) := by
  rw [fermionSign, Nat.mul_div_cancel_left _ (by omega), BitCount.bitCount_exact B r ind h hc,
    Option.map_some, sign_parity]

/-- A symbol, given the sign. -/
noncomputable def signStep (w N : Nat) (sign : Int) (o : Char) (i : Nat) (x : Nat × ℂ) : Option (Nat × ℂ) :=
  let ind := N - i - 1
  let b := shl w 1 ind
  let a := (x.1 >>> ind) &&& 1 = 1
  match o with
  | 'z' => some (x.1, x.2 * (if a then 1 / 2 else -(1 / 2)))
  | 'n' => some (x.1, x.2 * (if a then 1 else 0))
  | '+' => some (x.1 ^^^ b, x.2 * (if a then 0 else (sign : ℂ)))
  | '-' => some (x.1 ^^^ b, x.2 * (if a then (sign : ℂ) else 0))
  | 'I' => some x
  | _ => none

/-- Soundness of a symbol, given the right sign. -/
theorem fermion_core (w : Nat) (hw : N ≤ w) (o : Char) (i : Fin N) (r : Nat) (x : ℂ)
    (ho : o ∈ ['I', 'z', '+', '-', 'n']) (hr : r < 2 ^ N) :
    ∃ r' c, signStep w N ((-1) ^ count (N - 1 - i) r) o i (r, x) = some (r', x * c) ∧ r' < 2 ^ N ∧
      Col (b := 2) (fermion o i) r r' c := by
  obtain ⟨r', c, h, hr', hC⟩ := hcb_step w hw o i r x (by simp at ho ⊢; tauto) hr
  unfold signStep
  unfold hcbStep at h
  simp only [List.mem_cons, List.not_mem_nil, or_false] at ho
  rcases ho with rfl | rfl | rfl | rfl | rfl
  · exact ⟨r', c, h, hr', hC⟩
  · exact ⟨r', c, h, hr', hC⟩
  · have hx := hcb_step w hw '+' i r 1 (by simp) hr
    obtain ⟨r1, c1, h1, hr1, hC1⟩ := hx
    unfold hcbStep at h1
    simp only [one_mul, Option.some.injEq, Prod.mk.injEq] at h1
    obtain ⟨rfl, rfl⟩ := h1
    refine ⟨_, _, ?_, hr1, col_fermion _ (.inl rfl) i r _ _ hC1⟩
    simp only [Option.some.injEq, Prod.mk.injEq, true_and]
    split <;> simp
  · have hx := hcb_step w hw '-' i r 1 (by simp) hr
    obtain ⟨r1, c1, h1, hr1, hC1⟩ := hx
    unfold hcbStep at h1
    simp only [one_mul, Option.some.injEq, Prod.mk.injEq] at h1
    obtain ⟨rfl, rfl⟩ := h1
    refine ⟨_, _, ?_, hr1, col_fermion _ (.inr rfl) i r _ _ hC1⟩
    simp only [Option.some.injEq, Prod.mk.injEq, true_and]
    split <;> simp
  · exact ⟨r', c, h, hr', hC⟩

/-- Soundness of a symbol of the fermion classes on at most 256 sites. -/
theorem fermion_step (B : Nat) (hw : N ≤ 8 * B) (hN : N ≤ 256) (o : Char) (i : Fin N) (r : Nat) (x : ℂ)
    (ho : o ∈ ['I', 'z', '+', '-', 'n']) (hr : r < 2 ^ N) :
    ∃ r' c, fermionStep (8 * B) N o i (r, x) = some (r', x * c) ∧ r' < 2 ^ N ∧
      Col (b := 2) (fermion o i) r r' c := by
  have hi := i.2
  have e : N - 1 - (i : Nat) = N - i - 1 := by omega
  have h2 := Gosper.count_le (N - i - 1) r
  have hs := fermionSign_eq B r (N - i - 1) (by omega) (by omega)
  have := fermion_core (8 * B) hw o i r x ho hr
  rw [e] at this
  unfold fermionStep
  simp only [hs]
  exact this

theorem bitCount1d_eq (w v l : Nat) (hl : l < w) : bitCount1d w v l = some (count l v) := by
  rw [bitCount1d, if_pos hl]
  have : ones (w - 1) = ones w >>> 1 := by
    unfold ones
    obtain ⟨k, rfl⟩ : ∃ k, w = k + 1 := ⟨w - 1, by omega⟩
    rw [Nat.shiftRight_eq_div_pow, pow_succ]
    have := Nat.two_pow_pos k
    simp only [Nat.add_sub_cancel]; omega
  rw [this, BitCount.and_mask w l v hl, ← BitCount.count_mod w l v hl.le]
  congr 1
  generalize v % 2 ^ l = u
  clear this hl
  induction w with
  | zero => rfl
  | succ n ih =>
    rw [List.range_succ, List.map_append, List.sum_append, ih, count_top]
    simp only [List.map_cons, List.map_nil, List.sum_cons, List.sum_nil, Nat.shiftRight_eq_div_pow]
    have := digit2_cases u n
    unfold digit at this ⊢
    split <;> omega

/-- Soundness of a symbol of the one-dimensional fermion code. -/
theorem fermion1d_step (w : Nat) (hw : N ≤ w) (o : Char) (i : Fin N) (r : Nat) (x : ℂ)
    (ho : o ∈ ['I', 'z', '+', '-', 'n']) (hr : r < 2 ^ N) :
    ∃ r' c, hcp1dStep true w N o i (r, x) = some (r', x * c) ∧ r' < 2 ^ N ∧
      Col (b := 2) (fermion o i) r r' c := by
  have hi := i.2
  have e : N - 1 - (i : Nat) = N - i - 1 := by omega
  have hs : fermionSign1d w r (N - i - 1) = some ((-1) ^ count (N - i - 1) r) := by
    rw [fermionSign1d, bitCount1d_eq w r _ (by omega), Option.map_some, ← sign_parity, Nat.and_one_is_mod]
    rcases Nat.mod_two_eq_zero_or_one (count (N - i - 1) r) with h | h <;> simp [h]
  obtain ⟨r', c, h, h2⟩ := fermion_core w hw o i r x ho hr
  rw [e] at h
  refine ⟨r', c, ?_, h2⟩
  rw [← h]
  unfold hcp1dStep signStep
  simp only [hs, if_true]
  simp only [List.mem_cons, List.not_mem_nil, or_false] at ho
  rcases ho with rfl | rfl | rfl | rfl | rfl <;> simp only [mul_ite, mul_one, mul_zero]

end Proof.Ops
