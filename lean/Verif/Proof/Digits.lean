import Verif.Spec.Digits
import Mathlib.Tactic.Ring
import Mathlib.Algebra.Order.Ring.Nat
namespace Proof.Digits
open Spec

theorem digit_zero (b s : Nat) : digit b s 0 = s % b := by simp [digit]

theorem digit_succ (b s i : Nat) : digit b s (i + 1) = digit b (s / b) i := by
  unfold digit
  rw [Nat.div_div_eq_div_mul, Nat.pow_succ, Nat.mul_comm b]

theorem digit_lt (b s i : Nat) (hb : 0 < b) : digit b s i < b := Nat.mod_lt _ hb

theorem dsum_zero (b s : Nat) : dsum b 0 s = 0 := rfl

theorem dsum_top (b n s : Nat) : dsum b (n + 1) s = dsum b n s + digit b s n := by
  unfold dsum
  rw [List.range_succ, List.map_append, List.sum_append]
  simp

theorem dsum_low (b n s : Nat) : dsum b (n + 1) s = s % b + dsum b n (s / b) := by
  unfold dsum
  rw [List.range_succ_eq_map, List.map_cons, List.sum_cons, digit_zero, List.map_map]
  congr 2
  apply List.map_congr_left
  intro i _
  exact digit_succ b s i

theorem dsum_of_zero (b n : Nat) : dsum b n 0 = 0 := by
  induction n with
  | zero => rfl
  | succ n ih => rw [dsum_low]; simpa using ih

theorem digit_mod (b n s i : Nat) (h : i < n) : digit b (s % b ^ n) i = digit b s i := by
  unfold digit
  obtain ⟨d, rfl⟩ : ∃ d, n = i + (d + 1) := ⟨n - i - 1, by omega⟩
  rw [Nat.pow_add, Nat.mod_mul_right_div_self, Nat.pow_succ, Nat.mod_mul_left_mod]

theorem dsum_mod (b n s : Nat) : dsum b n (s % b ^ n) = dsum b n s := by
  unfold dsum
  congr 1
  apply List.map_congr_left
  intro i hi
  exact digit_mod b n s i (by simpa using hi)

theorem dsum_split (b n m A r : Nat) (hr : r < b ^ n) :
    dsum b (n + m) (A * b ^ n + r) = dsum b n r + dsum b m A := by
  induction n generalizing A r with
  | zero => simp at hr; simp [hr, dsum_zero]
  | succ n ih =>
    have hb : 0 < b := by
      rcases Nat.eq_zero_or_pos b with rfl | h
      · simp at hr
      · exact h
    rw [show n + 1 + m = (n + m) + 1 by omega, dsum_low, dsum_low]
    have e1 : A * b ^ (n + 1) = b * (A * b ^ n) := by ring
    rw [e1, Nat.mul_add_mod, Nat.mul_add_div hb, ih]
    · omega
    · rw [Nat.div_lt_iff_lt_mul hb]; rwa [Nat.pow_succ] at hr

theorem dsum_len (b n m r : Nat) (hr : r < b ^ n) : dsum b (n + m) r = dsum b n r := by
  have := dsum_split b n m 0 r hr
  rwa [Nat.zero_mul, Nat.zero_add, dsum_of_zero, Nat.add_zero] at this

theorem dsum_one (b A : Nat) (hA : A < b) : dsum b 1 A = A := by
  rw [dsum_low, dsum_zero, Nat.mod_eq_of_lt hA]; rfl

/-- one more top digit -/
theorem dsum_cons (b n A r : Nat) (hA : A < b) (hr : r < b ^ n) :
    dsum b (n + 1) (A * b ^ n + r) = dsum b n r + A := by
  rw [dsum_split b n 1 A r hr, dsum_one b A hA]

theorem dsum_le_self (b n s : Nat) (hb : 0 < b) : dsum b n s ≤ s := by
  induction n generalizing s with
  | zero => simp [dsum_zero]
  | succ n ih =>
    rw [dsum_low]
    have h1 := ih (s / b)
    have h2 := Nat.div_add_mod s b
    have h3 : s / b ≤ b * (s / b) := Nat.le_mul_of_pos_left _ hb
    omega

theorem dsum_le_max (b n s : Nat) (hb : 0 < b) : dsum b n s ≤ n * (b - 1) := by
  induction n generalizing s with
  | zero => simp [dsum_zero]
  | succ n ih =>
    rw [dsum_low, Nat.succ_mul]
    have h1 := ih (s / b)
    have h2 := Nat.mod_lt s hb
    omega

theorem dsum_pos (b n s : Nat) (hs : s < b ^ n) (h : s ≠ 0) : 0 < dsum b n s := by
  induction n generalizing s with
  | zero => simp at hs; omega
  | succ n ih =>
    rw [dsum_low]
    by_cases h0 : s % b = 0
    · have hb : 0 < b := by
        rcases Nat.eq_zero_or_pos b with rfl | hb
        · simp at hs
        · exact hb
      have h2 : s / b < b ^ n := by rw [Nat.div_lt_iff_lt_mul hb]; rwa [Nat.pow_succ] at hs
      have h3 : s / b ≠ 0 := by
        intro h4
        have := Nat.div_add_mod s b
        rw [h4, h0] at this; simp at this; exact h this.symm
      have := ih _ h2 h3
      omega
    · omega

theorem top_split (b n s : Nat) (hb : 0 < b) : s = s / b ^ n * b ^ n + s % b ^ n ∧ s % b ^ n < b ^ n := by
  refine ⟨?_, Nat.mod_lt _ (Nat.pow_pos hb)⟩
  rw [Nat.mul_comm]; exact (Nat.div_add_mod _ _).symm

theorem div_pow_lt (b n s : Nat) (hs : s < b ^ (n + 1)) : s / b ^ n < b := by
  rcases Nat.eq_zero_or_pos b with rfl | hb
  · simp at hs
  · rw [Nat.div_lt_iff_lt_mul (Nat.pow_pos hb), Nat.mul_comm]; rwa [Nat.pow_succ] at hs

/-- smallest number with digit sum `k` (recursion from the low digit) -/
def fill (b : Nat) : Nat → Nat → Nat
  | 0, _ => 0
  | n + 1, k => min k (b - 1) + b * fill b n (k - min k (b - 1))

theorem fill_lt (b n k : Nat) (hb : 1 < b) : fill b n k < b ^ n := by
  induction n generalizing k with
  | zero => simp [fill]
  | succ n ih =>
    rw [fill, Nat.pow_succ]
    have h1 := ih (k - min k (b - 1))
    have h2 : b * (fill b n (k - min k (b - 1)) + 1) ≤ b * b ^ n := Nat.mul_le_mul_left _ h1
    have h3 : min k (b - 1) ≤ b - 1 := Nat.min_le_right _ _
    rw [Nat.mul_comm (b ^ n)]
    rw [Nat.mul_add] at h2
    omega

theorem fill_dsum (b n k : Nat) (hb : 1 < b) (hk : k ≤ n * (b - 1)) : dsum b n (fill b n k) = k := by
  induction n generalizing k with
  | zero => simp at hk; subst hk; rfl
  | succ n ih =>
    rw [fill, dsum_low]
    have h3 : min k (b - 1) ≤ b - 1 := Nat.min_le_right _ _
    rw [Nat.add_mul_mod_self_left, Nat.add_mul_div_left _ _ (by omega), Nat.mod_eq_of_lt (by omega),
      Nat.div_eq_of_lt (by omega), Nat.zero_add, ih]
    · omega
    · rw [Nat.succ_mul] at hk; omega

theorem fill_mono (b n k j : Nat) (hb : 1 < b) (hj : j ≤ n * (b - 1)) (hkj : k < j) :
    fill b n k < fill b n j := by
  induction n generalizing k j with
  | zero => simp at hj; omega
  | succ n ih =>
    rw [fill, fill]
    rw [Nat.succ_mul] at hj
    by_cases h1 : k ≤ b - 1
    · by_cases h2 : j ≤ b - 1
      · rw [Nat.min_eq_left h1, Nat.min_eq_left h2, Nat.sub_self, Nat.sub_self]; omega
      · rw [Nat.min_eq_left h1, Nat.min_eq_right (by omega), Nat.sub_self]
        have := ih 0 (j - (b - 1)) (by omega) (by omega)
        have := Nat.mul_le_mul_left b (show fill b n 0 + 1 ≤ fill b n (j - (b - 1)) from this)
        rw [Nat.mul_add] at this
        omega
    · rw [Nat.min_eq_right (by omega), Nat.min_eq_right (by omega)]
      have := ih (k - (b - 1)) (j - (b - 1)) (by omega) (by omega)
      have := Nat.mul_lt_mul_of_pos_left this (show 0 < b by omega)
      omega

theorem fill_le (b n x : Nat) (hb : 1 < b) (hx : x < b ^ n) : fill b n (dsum b n x) ≤ x := by
  induction n generalizing x with
  | zero => simp [fill]
  | succ n ih =>
    have hb0 : 0 < b := by omega
    have hx' : x / b < b ^ n := by rw [Nat.div_lt_iff_lt_mul hb0]; rwa [Nat.pow_succ] at hx
    have h1 := ih (x / b) hx'
    have h2 := Nat.div_add_mod x b
    have h3 := Nat.mod_lt x hb0
    rw [fill]
    obtain ⟨k, hk⟩ : ∃ k, k = dsum b (n + 1) x := ⟨_, rfl⟩
    have hkl : k = x % b + dsum b n (x / b) := by rw [hk, dsum_low]
    rw [← hk]
    by_cases h4 : k ≤ b - 1
    · rw [Nat.min_eq_left h4, Nat.sub_self]
      have h0 : fill b n 0 = 0 := by
        have : ∀ n, fill b n 0 = 0 := by
          intro n; induction n with
          | zero => rfl
          | succ n ih => rw [fill]; simp [ih]
        exact this n
      rw [h0, hk]; simpa using dsum_le_self b (n + 1) x hb0
    · rw [Nat.min_eq_right (by omega)]
      by_cases h5 : x % b = b - 1
      · have : k - (b - 1) = dsum b n (x / b) := by omega
        rw [this]
        have := Nat.mul_le_mul_left b h1
        omega
      · have hm : fill b n (k - (b - 1)) < fill b n (dsum b n (x / b)) :=
          fill_mono b n _ _ hb (dsum_le_max b n _ hb0) (by omega)
        have := Nat.mul_le_mul_left b (show fill b n (k - (b - 1)) + 1 ≤ x / b by omega)
        rw [Nat.mul_add] at this
        omega

/-- largest number with digit sum at most `k` (recursion from the top digit) -/
def topfill (b : Nat) : Nat → Nat → Nat
  | 0, _ => 0
  | n + 1, k => min k (b - 1) * b ^ n + topfill b n (k - min k (b - 1))

theorem le_topfill (b n x k : Nat) (hb : 1 < b) (hx : x < b ^ n) (hk : dsum b n x ≤ k) :
    x ≤ topfill b n k := by
  induction n generalizing x k with
  | zero => simp at hx; simp [hx]
  | succ n ih =>
    have hb0 : 0 < b := by omega
    obtain ⟨e, hr⟩ := top_split b n x hb0
    have ht := div_pow_lt b n x hx
    have hd : dsum b (n + 1) x = dsum b n (x % b ^ n) + x / b ^ n := by
      conv_lhs => rw [e]
      exact dsum_cons b n _ _ ht hr
    rw [topfill]
    have hle : x / b ^ n ≤ min k (b - 1) := by omega
    by_cases h : x / b ^ n = min k (b - 1)
    · have := ih (x % b ^ n) (k - min k (b - 1)) hr (by omega)
      conv_lhs => rw [e]
      rw [h]; omega
    · have : (x / b ^ n + 1) * b ^ n ≤ min k (b - 1) * b ^ n := Nat.mul_le_mul_right _ (by omega)
      rw [Nat.add_mul] at this
      omega

theorem digit_ext (b n s t : Nat) (hs : s < b ^ n) (ht : t < b ^ n)
    (h : ∀ i < n, digit b s i = digit b t i) : s = t := by
  induction n generalizing s t with
  | zero => simp at hs ht; omega
  | succ n ih =>
    have hb : 0 < b := by
      rcases Nat.eq_zero_or_pos b with h0 | h0
      · subst h0; simp at hs
      · exact h0
    have h0 := h 0 (by omega)
    rw [digit_zero, digit_zero] at h0
    have h1 : s / b = t / b := by
      apply ih
      · rw [Nat.div_lt_iff_lt_mul hb]; rwa [Nat.pow_succ] at hs
      · rw [Nat.div_lt_iff_lt_mul hb]; rwa [Nat.pow_succ] at ht
      · intro i hi
        have := h (i + 1) (by omega)
        rwa [digit_succ, digit_succ] at this
    rw [← Nat.div_add_mod s b, ← Nat.div_add_mod t b, h0, h1]

end Proof.Digits
