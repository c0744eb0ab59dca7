import Verif.Spec.Bits
import Verif.Model.Pcon
import Verif.Proof.BitCount
import Mathlib.Tactic.Ring
import Mathlib.Data.Nat.Choose.Basic
namespace Proof.Gosper
open Spec Model Model.Word

theorem count_zero (v : Nat) : count 0 v = 0 := rfl

theorem count_succ (n v : Nat) : count (n + 1) v = v % 2 + count n (v / 2) := by
  unfold count
  rw [List.range_succ_eq_map, List.countP_cons, List.countP_map, Nat.add_comm]
  congr 1
  · rw [Nat.testBit_zero]
    rcases Nat.mod_two_eq_zero_or_one v with h | h <;> simp [h]
  · congr 1; funext i; simp [Nat.testBit_succ]

theorem count_add (a b v : Nat) : count (a + b) v = count a v + count b (v / 2 ^ a) := by
  induction a generalizing v with
  | zero => simp [count_zero]
  | succ n ih =>
    rw [show n + 1 + b = (n + b) + 1 by omega, count_succ, count_succ, ih, Nat.div_div_eq_div_mul,
      Nat.pow_succ, Nat.mul_comm 2]
    omega

theorem count_of_zero (n : Nat) : count n 0 = 0 := by
  induction n with
  | zero => rfl
  | succ n ih => rw [count_succ]; simpa using ih

theorem count_le (n v : Nat) : count n v ≤ n := by
  have := List.countP_le_length (p := fun i => v.testBit i) (l := List.range n)
  simpa [count] using this

/-- low part and high part -/
theorem count_mul_add (a b A r : Nat) (hr : r < 2 ^ a) :
    count (a + b) (A * 2 ^ a + r) = count a r + count b A := by
  rw [count_add]
  have hp := Nat.two_pow_pos a
  have h1 : (A * 2 ^ a + r) / 2 ^ a = A := by
    rw [Nat.add_comm, Nat.add_mul_div_right _ _ hp, Nat.div_eq_of_lt hr, Nat.zero_add]
  have h2 : count a (A * 2 ^ a + r) = count a r := by
    rw [← BitCount.count_mod a a _ (Nat.le_refl _), Nat.add_comm, Nat.add_mul_mod_self_right,
      Nat.mod_eq_of_lt hr]
  rw [h1, h2]

theorem count_mono_len (a b v : Nat) (hv : v < 2 ^ a) : count (a + b) v = count a v := by
  have := count_mul_add a b 0 v hv
  rwa [Nat.zero_mul, Nat.zero_add, count_of_zero, Nat.add_zero] at this

theorem count_ones (c : Nat) : count c (2 ^ c - 1) = c := by
  induction c with
  | zero => rfl
  | succ n ih =>
    have hp := Nat.two_pow_pos n
    rw [count_succ]
    have h1 : (2 ^ (n + 1) - 1) / 2 = 2 ^ n - 1 := by rw [Nat.pow_succ]; omega
    have h2 : (2 ^ (n + 1) - 1) % 2 = 1 := by rw [Nat.pow_succ]; omega
    rw [h1, h2, ih]; omega

/-- a full count forces all ones -/
theorem eq_ones_of_count (c v : Nat) (hv : v < 2 ^ c) (h : count c v = c) : v = 2 ^ c - 1 := by
  induction c generalizing v with
  | zero => simp at hv; simp [hv]
  | succ n ih =>
    rw [count_succ] at h
    have h1 := count_le n (v / 2)
    have hp := Nat.two_pow_pos n
    have h2 : v / 2 < 2 ^ n := by rw [Nat.pow_succ] at hv; omega
    have h3 := ih (v / 2) h2 (by omega)
    rw [Nat.pow_succ]; omega

theorem count_pos (c v : Nat) (hv : v < 2 ^ c) (h : v ≠ 0) : 0 < count c v := by
  induction c generalizing v with
  | zero => simp at hv; omega
  | succ n ih =>
    rw [count_succ]
    have h2 : v / 2 < 2 ^ n := by rw [Nat.pow_succ] at hv; omega
    by_cases h3 : v / 2 = 0
    · omega
    · have := ih _ h2 h3; omega

/-- every non-zero word: high part, a zero, a run of `c+1` ones, `k` zeros -/
theorem decomp (s : Nat) (h : s ≠ 0) :
    ∃ A k c, s = A * 2 ^ (k + c + 2) + (2 ^ (c + 1) - 1) * 2 ^ k := by
  have odd : ∀ s, s % 2 = 1 → ∃ A c, s = A * 2 ^ (c + 2) + (2 ^ (c + 1) - 1) := by
    intro s
    induction s using Nat.strongRecOn with
    | _ s ih =>
      intro hs
      by_cases h2 : s / 2 % 2 = 1
      · obtain ⟨A, c, e⟩ := ih (s / 2) (by omega) h2
        refine ⟨A, c + 1, ?_⟩
        have hp := Nat.two_pow_pos c
        have : s = 2 * (s / 2) + 1 := by omega
        rw [this, e]
        have e1 : A * 2 ^ (c + 1 + 2) = 2 * (A * 2 ^ (c + 2)) := by ring
        have e2 : 2 ^ (c + 1 + 1) = 2 * 2 ^ (c + 1) := by ring
        have := Nat.two_pow_pos (c + 1)
        omega
      · exact ⟨s / 4, 0, by simp; omega⟩
  induction s using Nat.strongRecOn with
  | _ s ih =>
    by_cases h2 : s % 2 = 1
    · obtain ⟨A, c, e⟩ := odd s h2
      exact ⟨A, 0, c, by simpa using e⟩
    · obtain ⟨A, k, c, e⟩ := ih (s / 2) (by omega) (by omega)
      refine ⟨A, k + 1, c, ?_⟩
      have : s = 2 * (s / 2) := by omega
      rw [this, e]; ring

theorem lor_low (A k r : Nat) (hr : r < 2 ^ k) : A * 2 ^ k ||| r = A * 2 ^ k + r := by
  rw [Nat.mul_comm, Nat.two_pow_add_eq_or_of_lt hr]

theorem sub_one (w s : Nat) (h : 0 < s) (hs : s < 2 ^ w) : sub w s 1 = s - 1 := by
  unfold sub
  rcases Nat.eq_zero_or_pos w with rfl | hw
  · simp at hs; omega
  · have h1 : 1 % 2 ^ w = 1 := Nat.mod_eq_of_lt (Nat.one_lt_two_pow (by omega))
    rw [h1, show s + (2 ^ w - 1) = (s - 1) + 2 ^ w by omega, Nat.add_mod_right,
      Nat.mod_eq_of_lt (by omega)]

/-- lowest set bit -/
theorem lowbit (w B k : Nat) (h : B * 2 ^ (k + 1) + 2 ^ k < 2 ^ w) :
    (B * 2 ^ (k + 1) + 2 ^ k) &&& sub w 0 (B * 2 ^ (k + 1) + 2 ^ k) = 2 ^ k := by
  have hkw : k < w := by
    by_contra hc
    have := Nat.pow_le_pow_right (show 0 < 2 by omega) (Nat.le_of_not_lt hc)
    omega
  obtain ⟨d, rfl⟩ : ∃ d, w = k + 1 + d := ⟨w - (k + 1), by omega⟩
  have hp := Nat.two_pow_pos k
  have hP : 2 ^ (k + 1) = 2 * 2 ^ k := by ring
  have hpos : 0 < B * 2 ^ (k + 1) + 2 ^ k := by omega
  have hB : B < 2 ^ d := by
    by_contra hc
    have := Nat.mul_le_mul_right (2 ^ (k + 1)) (Nat.le_of_not_lt hc)
    have e : 2 ^ (k + 1 + d) = 2 ^ d * 2 ^ (k + 1) := by ring
    omega
  have e : sub (k + 1 + d) 0 (B * 2 ^ (k + 1) + 2 ^ k)
      = (2 ^ d - 1 - B) * 2 ^ (k + 1) + 2 ^ k := by
    unfold sub
    rw [Nat.mod_eq_of_lt h, Nat.zero_add, Nat.mod_eq_of_lt (by omega)]
    have : 2 ^ (k + 1 + d) = (2 ^ d - 1 - B) * 2 ^ (k + 1) + (B + 1) * 2 ^ (k + 1) := by
      rw [← Nat.add_mul, show 2 ^ d - 1 - B + (B + 1) = 2 ^ d by omega, Nat.pow_add, Nat.mul_comm]
    rw [this, Nat.add_mul, Nat.one_mul]
    omega
  rw [e]
  apply Nat.eq_of_testBit_eq
  intro i
  have t1 : ∀ X, (X * 2 ^ (k + 1) + 2 ^ k).testBit i
      = if i < k + 1 then (2 ^ k).testBit i else X.testBit (i - (k + 1)) := by
    intro X
    rw [Nat.mul_comm]
    exact Nat.testBit_two_pow_mul_add X (by omega) i
  rw [Nat.testBit_and, t1, t1]
  by_cases hi : i < k + 1
  · simp [hi]
  · simp only [hi, if_false]
    rw [Nat.testBit_two_pow, show 2 ^ d - 1 - B = 2 ^ d - (B + 1) by omega,
      Nat.testBit_two_pow_sub_succ hB]
    have : k ≠ i := by omega
    simp [this]
    intro h1 _; exact h1

theorem or_same_high (X m a b : Nat) (ha : a < 2 ^ m) (hb : b < 2 ^ m) :
    (X * 2 ^ m + a) ||| (X * 2 ^ m + b) = X * 2 ^ m + (a ||| b) := by
  have hab : a ||| b < 2 ^ m := Nat.or_lt_two_pow ha hb
  apply Nat.eq_of_testBit_eq
  intro i
  rw [Nat.testBit_or, Nat.mul_comm, Nat.testBit_two_pow_mul_add X ha,
    Nat.testBit_two_pow_mul_add X hb, Nat.testBit_two_pow_mul_add X hab, Nat.testBit_or]
  split <;> simp

/-- closed form of the successor -/
theorem next_eq (w A k c : Nat)
    (hw : A * 2 ^ (k + c + 2) + 2 ^ (k + c + 1) < 2 ^ w) :
    nextStatePcon w (A * 2 ^ (k + c + 2) + (2 ^ (c + 1) - 1) * 2 ^ k)
      = A * 2 ^ (k + c + 2) + 2 ^ (k + c + 1) + (2 ^ c - 1) := by
  have hk := Nat.two_pow_pos k
  have hc := Nat.two_pow_pos c
  have hkc := Nat.two_pow_pos (k + c + 1)
  obtain ⟨M, hM⟩ : ∃ M, M = A * 2 ^ (c + 1) + (2 ^ c - 1) := ⟨_, rfl⟩
  have h2 : 2 ^ (c + 1) = 2 * 2 ^ c := by ring
  have h2' : 2 ^ (k + c + 2) = 2 * 2 ^ (k + c + 1) := by ring
  have h2k : 2 ^ (k + 1) = 2 * 2 ^ k := by ring
  have hsM : A * 2 ^ (k + c + 2) + (2 ^ (c + 1) - 1) * 2 ^ k = M * 2 ^ (k + 1) + 2 ^ k := by
    obtain ⟨d, hd⟩ : ∃ d, 2 ^ c = d + 1 := ⟨2 ^ c - 1, by omega⟩
    have e1 : 2 ^ (c + 1) - 1 = 2 * d + 1 := by omega
    have e2 : 2 ^ c - 1 = d := by omega
    rw [e1, hM, e2]; ring
  have hM1 : (M + 1) * 2 ^ (k + 1) = A * 2 ^ (k + c + 2) + 2 ^ (k + c + 1) := by
    have : M + 1 = A * 2 ^ (c + 1) + 2 ^ c := by omega
    rw [this]; ring
  rw [hsM]
  rw [← hM1] at hw ⊢
  have hM1' : (M + 1) * 2 ^ (k + 1) = M * 2 ^ (k + 1) + 2 * 2 ^ k := by rw [Nat.add_mul, h2k, Nat.one_mul]
  have ht0 : add w ((M * 2 ^ (k + 1) + 2 ^ k) ||| sub w (M * 2 ^ (k + 1) + 2 ^ k) 1) 1
      = (M + 1) * 2 ^ (k + 1) := by
    rw [sub_one w _ (by omega) (by omega), Nat.add_sub_assoc (by omega),
      or_same_high _ _ _ _ (by omega) (by omega)]
    have := lor_low 1 k (2 ^ k - 1) (by omega)
    rw [Nat.one_mul] at this
    rw [this, add]
    rw [show M * 2 ^ (k + 1) + (2 ^ k + (2 ^ k - 1)) + 1 = (M + 1) * 2 ^ (k + 1) by omega]
    exact Nat.mod_eq_of_lt hw
  have hlow_s : (M * 2 ^ (k + 1) + 2 ^ k) &&& sub w 0 (M * 2 ^ (k + 1) + 2 ^ k) = 2 ^ k :=
    lowbit w M k (by omega)
  have hlow_t : ((M + 1) * 2 ^ (k + 1)) &&& sub w 0 ((M + 1) * 2 ^ (k + 1)) = 2 ^ (k + c + 1) := by
    rw [hM1]
    have := lowbit w A (k + c + 1) (by rw [← hM1]; exact hw)
    exact this
  unfold nextStatePcon
  rw [if_neg (by omega)]
  simp only
  rw [ht0, hlow_s, hlow_t]
  have hq : 2 ^ (k + c + 1) / 2 ^ k = 2 ^ (c + 1) := by
    rw [Nat.pow_div (by omega) (by omega)]; congr 1; omega
  have hw0 : 2 ^ c < 2 ^ w := by
    have : 2 ^ c ≤ 2 ^ (k + c + 1) := Nat.pow_le_pow_right (by omega) (by omega)
    omega
  rw [hq, Nat.shiftRight_eq_div_pow, Nat.pow_one, h2, Nat.mul_div_cancel_left _ (by omega),
    sub_one w _ hc hw0]
  have hlt : 2 ^ c - 1 < 2 ^ (k + c + 1) := by
    have : 2 ^ c ≤ 2 ^ (k + c + 1) := Nat.pow_le_pow_right (by omega) (by omega)
    omega
  have h3 := lor_low (2 * A + 1) (k + c + 1) (2 ^ c - 1) hlt
  have h4 : (2 * A + 1) * 2 ^ (k + c + 1) = (M + 1) * 2 ^ (k + 1) := by rw [hM1]; ring
  rw [h4] at h3
  exact h3

/-- The step goes to the next larger word with the same count; `N` is any length such that
another such word exists below `2^N`. -/
theorem next_spec (w N s y : Nat) (hN : N ≤ w) (hsy : s < y) (hy : y < 2 ^ N)
    (hc : count N y = count N s) :
    s < nextStatePcon w s ∧ nextStatePcon w s ≤ y ∧ count N (nextStatePcon w s) = count N s := by
  have hs0 : s ≠ 0 := by
    rintro rfl
    rw [count_of_zero] at hc
    have := count_pos N y hy (by omega)
    omega
  obtain ⟨A, k, c, e⟩ := decomp s hs0
  have hk := Nat.two_pow_pos k
  have hcp := Nat.two_pow_pos c
  have hkc := Nat.two_pow_pos (k + c + 1)
  have h2' : 2 ^ (k + c + 2) = 2 * 2 ^ (k + c + 1) := by ring
  have hR : (2 ^ (c + 1) - 1) * 2 ^ k + 2 ^ k = 2 ^ (k + c + 1) := by
    rw [Nat.sub_mul]
    have : 2 ^ (c + 1) * 2 ^ k = 2 ^ (k + c + 1) := by ring
    have : 1 * 2 ^ k ≤ 2 ^ (c + 1) * 2 ^ k := Nat.mul_le_mul_right _ (Nat.one_le_two_pow)
    omega
  have hcle : 2 ^ c ≤ 2 ^ (k + c + 1) := Nat.pow_le_pow_right (by omega) (by omega)
  -- lengths: count with one common large length
  obtain ⟨L, hL⟩ : ∃ L, L = N + (k + c + 2) := ⟨_, rfl⟩
  have cN : ∀ v, v < 2 ^ N → count L v = count N v := by
    intro v hv; rw [hL]; exact count_mono_len _ _ _ hv
  have cH : ∀ B r, r < 2 ^ (k + c + 2) → count L (B * 2 ^ (k + c + 2) + r)
      = count (k + c + 2) r + count N B := by
    intro B r hr; rw [hL, Nat.add_comm N]; exact count_mul_add _ _ _ _ hr
  have cr1 : count (k + c + 2) ((2 ^ (c + 1) - 1) * 2 ^ k) = c + 1 := by
    have h := count_mul_add k (c + 2) (2 ^ (c + 1) - 1) 0 hk
    rw [count_of_zero, count_mono_len (c + 1) 1 _ (by have := Nat.two_pow_pos (c+1); omega),
      count_ones, show k + (c + 2) = k + c + 2 by omega] at h
    simp only [Nat.add_zero] at h
    omega
  have cS : count L s = (c + 1) + count N A := by rw [e, cH _ _ (by omega), cr1]
  -- words below 2^(k+c+2) that exceed the low part and hold c+1 particles
  have key : ∀ r, r < 2 ^ (k + c + 2) → (2 ^ (c + 1) - 1) * 2 ^ k < r →
      count (k + c + 2) r = c + 1 → 2 ^ (k + c + 1) + (2 ^ c - 1) ≤ r := by
    intro r hr hlt hcr
    by_cases h1 : r < 2 ^ (k + c + 1)
    · exfalso
      have hd : r = (2 ^ (c + 1) - 1) * 2 ^ k + (r - (2 ^ (c + 1) - 1) * 2 ^ k) := by omega
      have hlow : r - (2 ^ (c + 1) - 1) * 2 ^ k < 2 ^ k := by omega
      have h := count_mul_add k (c + 2) (2 ^ (c + 1) - 1) _ hlow
      rw [← hd, count_mono_len (c + 1) 1 _ (by have := Nat.two_pow_pos (c+1); omega), count_ones,
        show k + (c + 2) = k + c + 2 by omega, hcr] at h
      have := count_pos k _ hlow (by omega)
      omega
    · by_contra hcon
      obtain ⟨u, hu⟩ : ∃ u, u = r - 2 ^ (k + c + 1) := ⟨_, rfl⟩
      have hu1 : u < 2 ^ c := by omega
      have h := count_mul_add (k + c + 1) 1 1 u (by omega)
      rw [show 1 * 2 ^ (k + c + 1) + u = r by omega, show k + c + 1 + 1 = k + c + 2 by omega, hcr,
        show k + c + 1 = c + (k + 1) by omega, count_mono_len c (k + 1) u hu1] at h
      have h11 : count 1 1 = 1 := by decide
      rw [h11] at h
      have := eq_ones_of_count c u hu1 (by omega)
      omega
  have hylow : count L y = count L s := by
    have hsN : s < 2 ^ N := by omega
    rw [cN _ hy, cN _ hsN, hc]
  -- the successor does not exceed y
  have hle : A * 2 ^ (k + c + 2) + 2 ^ (k + c + 1) + (2 ^ c - 1) ≤ y := by
    by_cases hyA : y < (A + 1) * 2 ^ (k + c + 2)
    · rw [Nat.add_mul, Nat.one_mul] at hyA
      obtain ⟨r, hr⟩ : ∃ r, y = A * 2 ^ (k + c + 2) + r := ⟨y - A * 2 ^ (k + c + 2), by omega⟩
      have := key r (by omega) (by omega) (by
        have h := cH A r (by omega)
        rw [← hr, hylow, cS] at h; omega)
      omega
    · rw [Nat.add_mul, Nat.one_mul] at hyA
      omega
  have hpw : 2 ^ N ≤ 2 ^ w := Nat.pow_le_pow_right (by omega) hN
  have hn := next_eq w A k c (by omega)
  rw [← e] at hn
  refine ⟨by omega, by omega, ?_⟩
  have hnN : nextStatePcon w s < 2 ^ N := by omega
  have hsN : s < 2 ^ N := by omega
  rw [← cN _ hnN, ← cN _ hsN, cS, hn, Nat.add_assoc, cH _ _ (by omega)]
  congr 1
  have h := count_mul_add (k + c + 1) 1 1 (2 ^ c - 1) (by omega)
  rw [Nat.one_mul, show k + c + 1 + 1 = k + c + 2 by omega] at h
  rw [h, show k + c + 1 = c + (k + 1) by omega, count_mono_len c (k + 1) _ (by omega), count_ones]
  rfl

/-! ### the sector list -/

theorem count_lt_iff_sector {N k s : Nat} : s ∈ sector N k ↔ s < 2 ^ N ∧ count N s = k := by
  simp [sector]

theorem sector_length (N k : Nat) : (sector N k).length = N.choose k := by
  induction N generalizing k with
  | zero =>
    cases k with
    | zero => rfl
    | succ k => simp [sector, count_zero]
  | succ N ih =>
    have hsplit : List.range (2 ^ (N + 1)) = List.range (2 ^ N) ++ (List.range (2 ^ N)).map (2 ^ N + ·) := by
      rw [Nat.pow_succ, Nat.mul_comm, Nat.two_mul, List.range_add]
    have hlow : ∀ s ∈ List.range (2 ^ N), (count (N + 1) s == k) = (count N s == k) := by
      intro s hs; rw [count_mono_len N 1 s (by simpa using hs)]
    have hhigh : ∀ s ∈ List.range (2 ^ N), (count (N + 1) (2 ^ N + s) == k) = (count N s + 1 == k) := by
      intro s hs
      have h := count_mul_add N 1 1 s (by simpa using hs)
      rw [Nat.one_mul] at h; rw [h]; rfl
    unfold sector at ih ⊢
    rw [hsplit, List.filter_append, List.length_append, List.filter_map, List.length_map,
      List.filter_congr hlow, ih]
    rw [List.filter_congr (q := fun s => count N s + 1 == k) (by intro s hs; exact hhigh s hs)]
    cases k with
    | zero => simp
    | succ k =>
      have : (fun s => count N s + 1 == k + 1) = fun s => count N s == k := by
        funext s; simp
      rw [this, ih, Nat.choose_succ_succ, Nat.add_comm]

/-- members of the sector from `a` on -/
def from_ (N k a : Nat) : List Nat := (List.range' a (2 ^ N - a)).filter (fun s => count N s == k)

theorem from_cons (N k a : Nat) (h : a < 2 ^ N) :
    from_ N k a = if count N a = k then a :: from_ N k (a + 1) else from_ N k (a + 1) := by
  unfold from_
  rw [show 2 ^ N - a = (2 ^ N - (a + 1)) + 1 by omega, List.range'_succ, List.filter_cons]
  simp

theorem from_skip (N k a b : Nat) (hab : a ≤ b) (h : ∀ x, a ≤ x → x < b → x < 2 ^ N → count N x ≠ k) :
    from_ N k a = from_ N k b := by
  obtain ⟨d, rfl⟩ := Nat.exists_eq_add_of_le hab
  induction d generalizing a with
  | zero => rfl
  | succ d ih =>
    by_cases ha : a < 2 ^ N
    · rw [from_cons N k a ha, if_neg (h a (Nat.le_refl _) (by omega) ha)]
      have := ih (a + 1) (by omega) (fun x h1 h2 => h x (by omega) (by omega))
      rw [this]; congr 1; omega
    · have : ∀ c, 2 ^ N ≤ c → from_ N k c = [] := by
        intro c hc; unfold from_; rw [show 2 ^ N - c = 0 by omega]; rfl
      rw [this _ (by omega), this _ (by omega)]

/-- iterating the step `n` times -/
def iterates (w : Nat) : Nat → Nat → List Nat
  | 0, _ => []
  | n + 1, s => s :: iterates w n (nextStatePcon w s)

theorem iterates_from (w N k : Nat) (hN : N ≤ w) : ∀ m s, s < 2 ^ N → count N s = k →
    (from_ N k s).length = m → iterates w m s = from_ N k s := by
  intro m
  induction m with
  | zero =>
    intro s hs hc hm
    rw [from_cons N k s hs, if_pos hc] at hm; simp at hm
  | succ m ih =>
    intro s hs hc hm
    have hf := from_cons N k s hs
    rw [if_pos hc] at hf
    rw [hf] at hm ⊢
    simp only [List.length_cons, Nat.add_right_cancel_iff] at hm
    rw [iterates]
    congr 1
    by_cases hne : from_ N k (s + 1) = []
    · rw [hne] at hm ⊢; simp at hm; subst hm; rfl
    · obtain ⟨y, hy⟩ := List.exists_mem_of_ne_nil _ hne
      have hy' : s < y ∧ y < 2 ^ N ∧ count N y = k := by
        unfold from_ at hy
        simp only [List.mem_filter, List.mem_range'_1, beq_iff_eq] at hy
        omega
      have hn := next_spec w N s y hN hy'.1 hy'.2.1 (by omega)
      have hsk : from_ N k (s + 1) = from_ N k (nextStatePcon w s) := by
        apply from_skip _ _ _ _ (by omega)
        intro x h1 h2 h3 h4
        have := next_spec w N s x hN (by omega) h3 (by omega)
        omega
      rw [hsk] at hm ⊢
      exact ih _ (by omega) (by omega) hm

theorem s0_eq (k : Nat) : s0Pcon k = 2 ^ k - 1 := by
  induction k with
  | zero => rfl
  | succ k ih =>
    unfold s0Pcon at ih ⊢
    rw [List.range_succ, List.map_append, List.sum_append, ih]
    have := Nat.two_pow_pos k
    simp [Nat.shiftLeft_eq, Nat.pow_succ]
    omega

theorem count_low (N k : Nat) (h : k ≤ N) : count N (2 ^ k - 1) = k := by
  obtain ⟨d, rfl⟩ := Nat.exists_eq_add_of_le h
  rw [count_mono_len _ _ _ (by have := Nat.two_pow_pos k; omega), count_ones]

theorem ones_le_of_count : ∀ (N k x : Nat), count N x = k → x < 2 ^ N → 2 ^ k - 1 ≤ x := by
  intro N
  induction N with
  | zero => intro k x h _; rw [count_zero] at h; subst h; simp
  | succ N ih =>
    intro k x h hx
    rw [count_succ] at h
    have hx2 : x / 2 < 2 ^ N := by rw [Nat.pow_succ] at hx; omega
    rcases Nat.mod_two_eq_zero_or_one x with h0 | h0
    · have := ih k (x / 2) (by omega) hx2
      omega
    · obtain ⟨j, rfl⟩ : ∃ j, k = j + 1 := ⟨k - 1, by omega⟩
      have := ih j (x / 2) (by omega) hx2
      rw [Nat.pow_succ]; have := Nat.two_pow_pos j; omega

/-- the enumeration used by the code lists the sector -/
theorem iterates_sector (w N k : Nat) (hN : N ≤ w) (hk : k ≤ N) :
    iterates w (N.choose k) (s0Pcon k) = sector N k := by
  have e : sector N k = from_ N k (2 ^ k - 1) := by
    have h0 : sector N k = from_ N k 0 := by
      unfold sector from_; rw [Nat.sub_zero, List.range_eq_range']
    rw [h0]
    apply from_skip _ _ _ _ (by omega)
    intro x _ h2 h3 h4
    have := ones_le_of_count N k x h4 h3
    omega
  have hp : 2 ^ k ≤ 2 ^ N := Nat.pow_le_pow_right (by omega) hk
  have := Nat.two_pow_pos k
  rw [e, s0_eq]
  apply iterates_from w N k hN _ _ (by omega) (count_low N k hk)
  rw [← e, sector_length]

end Proof.Gosper
