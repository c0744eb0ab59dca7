import Verif.Model.Boson
import Verif.Proof.Digits
import Verif.Proof.Enumerate
import Verif.Proof.HcbBasis
namespace Proof.Boson
open Spec Model Model.Word Proof.Digits

theorem powM_eq (w b : Nat) : ∀ i, powM w b i = b ^ i % 2 ^ w := by
  intro i
  induction i with
  | zero => rfl
  | succ i ih => rw [powM, ih, mul, Nat.mod_mul_mod, Nat.pow_succ]

theorem sub_eq (w s x : Nat) (h : x ≤ s) (hs : s < 2 ^ w) : sub w s x = s - x := by
  unfold sub
  have hx : x % 2 ^ w = x := Nat.mod_eq_of_lt (by omega)
  rw [hx, show s + (2 ^ w - x) = (s - x) + 2 ^ w by omega, Nat.add_mod_right,
    Nat.mod_eq_of_lt (by omega)]

theorem add_eq (w s x : Nat) (h : s + x < 2 ^ w) : add w s x = s + x := Nat.mod_eq_of_lt h
theorem mul_eq (w s x : Nat) (h : s * x < 2 ^ w) : mul w s x = s * x := Nat.mod_eq_of_lt h

/-- digits of the fill -/
theorem fill_digit (b : Nat) (hb : 1 < b) : ∀ m k j, j < m →
    digit b (fill b m k) j = if j < k / (b - 1) then b - 1 else if j = k / (b - 1) then k % (b - 1) else 0 := by
  intro m
  induction m with
  | zero => intro k j h; omega
  | succ m ih =>
    intro k j hj
    rw [fill]
    have h3 : min k (b - 1) ≤ b - 1 := Nat.min_le_right _ _
    cases j with
    | zero =>
      rw [digit_zero, Nat.add_mul_mod_self_left, Nat.mod_eq_of_lt (by omega)]
      by_cases h : k < b - 1
      · rw [Nat.min_eq_left (by omega), Nat.div_eq_of_lt h, Nat.mod_eq_of_lt h]; simp
      · have : 0 < k / (b - 1) := Nat.div_pos (by omega) (by omega)
        rw [Nat.min_eq_right (by omega), if_pos this]
    | succ j =>
      rw [digit_succ, Nat.add_mul_div_left _ _ (by omega), Nat.div_eq_of_lt (by omega), Nat.zero_add,
        ih _ _ (by omega)]
      by_cases h : k < b - 1
      · rw [Nat.min_eq_left (by omega), Nat.sub_self, Nat.zero_div, Nat.div_eq_of_lt h]
        simp
      · rw [Nat.min_eq_right (by omega)]
        have e1 : k / (b - 1) = (k - (b - 1)) / (b - 1) + 1 := by
          have := Nat.add_div_right (k - (b - 1)) (show 0 < b - 1 by omega)
          rwa [Nat.sub_add_cancel (by omega)] at this
        have e2 : k % (b - 1) = (k - (b - 1)) % (b - 1) := Nat.mod_eq_sub_mod (by omega)
        rw [e1, e2]
        simp

/-- intermediate values of the redistribution loop -/
def stage (b X F j : Nat) : Nat := X / b ^ j * b ^ j + F % b ^ j

theorem stage_step (b X F j : Nat) :
    digit b X j * b ^ j ≤ stage b X F j ∧
    stage b X F j - digit b X j * b ^ j + digit b F j * b ^ j = stage b X F (j + 1) := by
  have h1 : X / b ^ j = X / b ^ (j + 1) * b + digit b X j := by
    unfold digit
    rw [Nat.pow_succ, ← Nat.div_div_eq_div_mul, Nat.mul_comm]
    exact (Nat.div_add_mod _ _).symm
  have h2 : F % b ^ (j + 1) = F % b ^ j + digit b F j * b ^ j := by
    unfold digit
    rw [Nat.pow_succ, Nat.mod_mul, Nat.mul_comm (b ^ j)]
  unfold stage
  rw [h1, h2, Nat.add_mul]
  have e : X / b ^ (j + 1) * b * b ^ j = X / b ^ (j + 1) * b ^ (j + 1) := by rw [Nat.pow_succ]; ring
  rw [e]
  generalize F % b ^ j = r
  constructor <;> omega

theorem stage_div (b X F j : Nat) (hb : 0 < b) : stage b X F j / b ^ j = X / b ^ j := by
  unfold stage
  have hp : 0 < b ^ j := Nat.pow_pos hb
  rw [Nat.add_comm, Nat.add_mul_div_right _ _ hp, Nat.div_eq_of_lt (Nat.mod_lt _ hp), Nat.zero_add]

theorem redistribute_eq (w b N n m X : Nat) (hb : 1 < b) (hpow : ∀ i, i < N → b ^ i < 2 ^ w) (hm : m ≤ N)
    (hst : ∀ j, j ≤ m → stage b X (fill b m n) j < 2 ^ w) :
    ∀ cnt j, j + cnt = m →
    redistribute w b (n / (b - 1)) (n % (b - 1)) cnt j (stage b X (fill b m n) j)
      = stage b X (fill b m n) m := by
  intro cnt
  induction cnt with
  | zero => intro j h; rw [redistribute]; simp at h; subst h; rfl
  | succ cnt ih =>
    intro j h
    rw [redistribute]
    have hj : j < m := by omega
    have hp : powM w b j = b ^ j := by rw [powM_eq, Nat.mod_eq_of_lt (hpow j (by omega))]
    obtain ⟨s1, s2⟩ := stage_step b X (fill b m n) j
    have hsj := hst j (by omega)
    have hsj1 := hst (j + 1) (by omega)
    have hd : digitM w b (stage b X (fill b m n) j) j = digit b X j := by
      unfold digitM; rw [hp, stage_div _ _ _ _ (by omega)]; rfl
    simp only [hd, hp]
    rw [mul_eq w _ _ (by omega), sub_eq w _ _ s1 hsj]
    have hfd := fill_digit b hb m n j hj
    have hval : (if j < n / (b - 1) then
          add w (stage b X (fill b m n) j - digit b X j * b ^ j) (mul w (b - 1) (b ^ j))
        else if j = n / (b - 1) then
          add w (stage b X (fill b m n) j - digit b X j * b ^ j) (mul w (n % (b - 1)) (b ^ j))
        else stage b X (fill b m n) j - digit b X j * b ^ j) = stage b X (fill b m n) (j + 1) := by
      rw [hfd] at s2
      split
      · rename_i h1
        rw [if_pos h1] at s2
        rw [mul_eq w _ _ (by omega), add_eq w _ _ (by omega), s2]
      · rename_i h1
        rw [if_neg h1] at s2
        split
        · rename_i h2
          rw [if_pos h2] at s2
          rw [mul_eq w _ _ (by omega), add_eq w _ _ (by omega), s2]
        · rename_i h2
          rw [if_neg h2] at s2
          omega
    rw [hval]
    exact ih (j + 1) (by omega)

theorem stage_zero (b X F : Nat) : stage b X F 0 = X := by simp [stage, Nat.mod_one]

theorem stage_last (b H Q F m : Nat) (hQ : Q < b ^ m) (hF : F < b ^ m) :
    stage b (H * b ^ m + Q) F m = H * b ^ m + F := by
  unfold stage
  have hp : 0 < b ^ m := by omega
  rw [Nat.add_comm (H * b ^ m) Q, Nat.add_mul_div_right _ _ hp, Nat.div_eq_of_lt hQ, Nat.zero_add,
    Nat.mod_eq_of_lt hF]

/-! ### the largest state -/

theorem topfill_zero (b n : Nat) : topfill b n 0 = 0 := by
  induction n with
  | zero => rfl
  | succ n ih => rw [topfill]; simp [ih]

theorem topfill_closed (b : Nat) (hb : 2 < b) : ∀ l N rem, l < N → rem < b - 1 →
    topfill b N (l * (b - 1) + rem) + b ^ (N - l) = b ^ N + rem * b ^ (N - l - 1) := by
  intro l
  induction l with
  | zero =>
    intro N rem hN hr
    obtain ⟨n, rfl⟩ : ∃ n, N = n + 1 := ⟨N - 1, by omega⟩
    rw [topfill]
    simp only [Nat.zero_mul, Nat.zero_add, Nat.min_eq_left (show rem ≤ b - 1 by omega), Nat.sub_self,
      topfill_zero, Nat.sub_zero, Nat.add_sub_cancel, Nat.add_zero]
    omega
  | succ l ih =>
    intro N rem hN hr
    obtain ⟨n, rfl⟩ : ∃ n, N = n + 1 := ⟨N - 1, by omega⟩
    have h := ih n rem (by omega) hr
    rw [topfill]
    have e1 : min ((l + 1) * (b - 1) + rem) (b - 1) = b - 1 := by rw [Nat.succ_mul]; omega
    have e2 : (l + 1) * (b - 1) + rem - (b - 1) = l * (b - 1) + rem := by rw [Nat.succ_mul]; omega
    rw [e1, e2, show n + 1 - (l + 1) = n - l by omega]
    have e3 : b ^ (n + 1) = (b - 1) * b ^ n + b ^ n := by
      obtain ⟨c, rfl⟩ : ∃ c, b = c + 1 := ⟨b - 1, by omega⟩
      rw [Nat.add_sub_cancel, Nat.pow_succ]; ring
    omega

theorem topfill_full (b : Nat) (hb : 2 < b) : ∀ N, topfill b N (N * (b - 1)) + 1 = b ^ N := by
  intro N
  induction N with
  | zero => rfl
  | succ n ih =>
    rw [topfill]
    have e1 : min ((n + 1) * (b - 1)) (b - 1) = b - 1 := by rw [Nat.succ_mul]; omega
    have e2 : (n + 1) * (b - 1) - (b - 1) = n * (b - 1) := by rw [Nat.succ_mul]; omega
    rw [e1, e2]
    have e3 : b ^ (n + 1) = (b - 1) * b ^ n + b ^ n := by
      obtain ⟨c, rfl⟩ : ∃ c, b = c + 1 := ⟨b - 1, by omega⟩
      rw [Nat.add_sub_cancel, Nat.pow_succ]; ring
    omega

/-- the redistribution loop stays inside the type -/
theorem stage_fits (w b N i H Q K : Nat) (hb : 2 < b) (hi : i + 1 < N)
    (hX : H * b ^ (i + 1) + Q < b ^ N) (hQ : Q < (b - 1) * b ^ i)
    (hK : dsum b N (H * b ^ (i + 1) + Q) = K)
    (hfit : ∀ x, x < b ^ N → dsum b N x ≤ K → x < 2 ^ w)
    (hroom : 0 < K / (b - 1) → K / (b - 1) + 2 ≤ N → topfill b N K + K % (b - 1) < 2 ^ w)
    (hTle : topfill b N K < 2 ^ w) :
    ∀ j, j ≤ i + 1 →
      stage b (H * b ^ (i + 1) + Q) (fill b (i + 1) (dsum b (i + 1) Q)) j < 2 ^ w := by
  intro j hj
  have hb0 : 0 < b := by omega
  have hbi : 0 < b ^ i := Nat.pow_pos hb0
  have hbj : 0 < b ^ j := Nat.pow_pos hb0
  have hQ1 : Q < b ^ (i + 1) := by
    have : (b - 1) * b ^ i ≤ b * b ^ i := Nat.mul_le_mul_right _ (by omega)
    rw [Nat.pow_succ, Nat.mul_comm]; omega
  obtain ⟨n, hn⟩ : ∃ n, n = dsum b (i + 1) Q := ⟨_, rfl⟩
  rw [← hn]
  have hnmax : n ≤ (i + 1) * (b - 1) := by rw [hn]; exact dsum_le_max _ _ _ hb0
  obtain ⟨F, hF⟩ : ∃ F, F = fill b (i + 1) n := ⟨_, rfl⟩
  rw [← hF]
  have hFd : dsum b (i + 1) F = n := by rw [hF]; exact fill_dsum b _ n (by omega) hnmax
  have hFlt : F < b ^ (i + 1) := by rw [hF]; exact fill_lt _ _ _ (by omega)
  obtain ⟨X, hXe⟩ : ∃ X, X = H * b ^ (i + 1) + Q := ⟨_, rfl⟩
  rw [← hXe] at hX hK ⊢
  have hKmax : K ≤ N * (b - 1) := by rw [← hK]; exact dsum_le_max _ _ _ hb0
  have hKH : K = n + dsum b (N - (i + 1)) H := by
    have := dsum_split b (i + 1) (N - (i + 1)) H Q hQ1
    rw [show i + 1 + (N - (i + 1)) = N by omega, ← hXe, hK, ← hn] at this
    exact this
  have hXT : X ≤ topfill b N K := le_topfill b N X K (by omega) hX (by omega)
  -- prefix comparison
  have hpre : X / b ^ j ≤ topfill b N K / b ^ j := Nat.div_le_div_right hXT
  have hFj : F % b ^ j < b ^ j := Nat.mod_lt _ hbj
  have hstage : stage b X F j = X / b ^ j * b ^ j + F % b ^ j := rfl
  have hdm : ∀ y, y / b ^ j * b ^ j + y % b ^ j = y := fun y => by
    rw [Nat.mul_comm]; exact Nat.div_add_mod _ _
  rcases Nat.lt_or_eq_of_le hpre with hlt | heq
  · have h1 : (X / b ^ j + 1) * b ^ j ≤ topfill b N K / b ^ j * b ^ j := Nat.mul_le_mul_right _ hlt
    rw [Nat.add_mul, Nat.one_mul] at h1
    have h2 : topfill b N K / b ^ j * b ^ j ≤ topfill b N K := Nat.div_mul_le_self _ _
    rw [hstage]
    exact Nat.lt_of_lt_of_le (Nat.add_lt_add_left hFj _) (Nat.le_trans h1 (Nat.le_trans h2 (Nat.le_of_lt hTle)))
  by_cases hQj : Q / b ^ j = 0
  · -- only filled digits remain below the prefix
    have hXj : X / b ^ j = H * b ^ (i + 1 - j) := by
      have e : b ^ (i + 1) = b ^ (i + 1 - j) * b ^ j := by rw [← Nat.pow_add]; congr 1; omega
      rw [hXe, e, ← Nat.mul_assoc, Nat.add_comm, Nat.add_mul_div_right _ _ hbj, hQj, Nat.zero_add]
    have hval : stage b X F j = H * b ^ (i + 1) + F % b ^ j := by
      rw [hstage, hXj, Nat.mul_assoc, ← Nat.pow_add]; congr 3; omega
    have hFjle : F % b ^ j ≤ F := Nat.mod_le _ _
    have hHle : H * b ^ (i + 1) + b ^ (i + 1) ≤ b ^ N := by
      have hH : H < b ^ (N - (i + 1)) := by
        by_contra hc
        have := Nat.mul_le_mul_right (b ^ (i + 1)) (Nat.le_of_not_lt hc)
        rw [← Nat.pow_add, show N - (i + 1) + (i + 1) = N by omega] at this
        omega
      have := Nat.mul_le_mul_right (b ^ (i + 1)) (show H + 1 ≤ b ^ (N - (i + 1)) from hH)
      rw [← Nat.pow_add, show N - (i + 1) + (i + 1) = N by omega, Nat.add_mul] at this
      omega
    rw [hval]
    apply hfit
    · omega
    · have := dsum_split b (i + 1) (N - (i + 1)) H (F % b ^ j) (by omega)
      rw [show i + 1 + (N - (i + 1)) = N by omega] at this
      rw [this]
      have h2 : dsum b (i + 1) (F % b ^ j) ≤ dsum b (i + 1) F := by
        obtain ⟨d, hd⟩ : ∃ d, i + 1 = j + d := ⟨i + 1 - j, by omega⟩
        rw [hd, dsum_len b j d _ hFj, dsum_mod]
        unfold dsum
        rw [List.range_add, List.map_append, List.sum_append]
        omega
      omega
  · -- the old high digits are still there
    have hji : j ≤ i := by
      by_contra hc
      have : j = i + 1 := by omega
      subst this
      exact hQj (Nat.div_eq_of_lt hQ1)
    have hQi : Q / b ^ i < b - 1 := by rw [Nat.div_lt_iff_lt_mul hbi]; exact hQ
    have hXi : X / b ^ i = H * b + Q / b ^ i := by
      rw [hXe, Nat.pow_succ, Nat.mul_comm (b ^ i), ← Nat.mul_assoc, Nat.add_comm,
        Nat.add_mul_div_right _ _ hbi, Nat.add_comm]
    have heqi : X / b ^ i = topfill b N K / b ^ i := by
      have e : b ^ i = b ^ j * b ^ (i - j) := by rw [← Nat.pow_add]; congr 1; omega
      rw [e, ← Nat.div_div_eq_div_mul, ← Nat.div_div_eq_div_mul, heq]
    obtain ⟨l, hl⟩ : ∃ l, l = K / (b - 1) := ⟨_, rfl⟩
    obtain ⟨rem, hrem⟩ : ∃ rem, rem = K % (b - 1) := ⟨_, rfl⟩
    have hremlt : rem < b - 1 := by rw [hrem]; exact Nat.mod_lt _ (by omega)
    have hKl : K = l * (b - 1) + rem := by rw [hl, hrem, Nat.mul_comm]; exact (Nat.div_add_mod _ _).symm
    have hlN : l ≤ N := by
      by_contra hc
      have : (N + 1) * (b - 1) ≤ l * (b - 1) := Nat.mul_le_mul_right _ (by omega)
      rw [Nat.succ_mul] at this
      omega
    have hcontra : (topfill b N K / b ^ i) % b = b - 1 → False := by
      intro h
      rw [← heqi, hXi, Nat.add_comm, Nat.add_mul_mod_self_right, Nat.mod_eq_of_lt (by omega)] at h
      omega
    -- value of the maximal state
    by_cases hip : i + l ≥ N
    · exfalso
      apply hcontra
      -- topfill = b^N - something smaller than b^i ... all leading digits full
      have hT : topfill b N K / b ^ i = b ^ (N - i) - 1 := by
        have hmul : b ^ (N - i) * b ^ i = b ^ N := by rw [← Nat.pow_add]; congr 1; omega
        have hpos : 0 < b ^ (N - i) := Nat.pow_pos hb0
        apply Nat.div_eq_of_lt_le
        · rw [Nat.sub_mul, hmul, Nat.one_mul]
          by_cases hlN' : l = N
          · have hr0 : rem = 0 := by
              rw [hlN'] at hKl; omega
            have := topfill_full b hb N
            rw [hKl, hr0, hlN', Nat.add_zero]
            omega
          · have h := topfill_closed b hb l N rem (by omega) hremlt
            rw [← hKl] at h
            have : b ^ (N - l) ≤ b ^ i := Nat.pow_le_pow_right hb0 (by omega)
            omega
        · rw [Nat.sub_add_cancel hpos, hmul]
          by_cases hlN' : l = N
          · have hr0 : rem = 0 := by
              rw [hlN'] at hKl; omega
            have := topfill_full b hb N
            rw [hKl, hr0, hlN', Nat.add_zero]
            omega
          · have h := topfill_closed b hb l N rem (by omega) hremlt
            rw [← hKl] at h
            have h2 : (rem + 1) * b ^ (N - l - 1) ≤ b * b ^ (N - l - 1) := Nat.mul_le_mul_right _ (by omega)
            have h3 : b * b ^ (N - l - 1) = b ^ (N - l) := by
              rw [Nat.mul_comm, ← Nat.pow_succ]; congr 1; omega
            have h4 : 0 < b ^ (N - l - 1) := Nat.pow_pos hb0
            rw [Nat.add_mul] at h2
            omega
      rw [hT]
      obtain ⟨d, hd⟩ : ∃ d, N - i = d + 1 := ⟨N - i - 1, by omega⟩
      have hpd : 0 < b ^ d := Nat.pow_pos hb0
      rw [hd, Nat.pow_succ, Nat.mul_comm]
      have : b * b ^ d - 1 = b * (b ^ d - 1) + (b - 1) := by
        obtain ⟨c, hc⟩ : ∃ c, b ^ d = c + 1 := ⟨b ^ d - 1, by omega⟩
        rw [hc, Nat.add_sub_cancel, Nat.mul_add]; omega
      rw [this, Nat.mul_add_mod, Nat.mod_eq_of_lt (by omega)]
    · have h := topfill_closed b hb l N rem (by omega) hremlt
      rw [← hKl] at h
      obtain ⟨T, hT⟩ : ∃ T, T = topfill b N K := ⟨_, rfl⟩
      rw [← hT] at h hXT heq hTle hroom
      -- T is a multiple of b^p, p = N-l-1
      obtain ⟨p, hp⟩ : ∃ p, p = N - l - 1 := ⟨_, rfl⟩
      have hNl : N - l = p + 1 := by omega
      rw [hNl, Nat.add_sub_cancel] at h
      have hbN : b ^ N = b ^ l * b ^ (p + 1) := by rw [← Nat.pow_add]; congr 1; omega
      have hTform : T = ((b ^ l - 1) * b + rem) * b ^ p := by
        have hbl : 0 < b ^ l := Nat.pow_pos hb0
        have e : (b ^ l - 1) * b * b ^ p = (b ^ l - 1) * b ^ (p + 1) := by rw [Nat.pow_succ]; ring
        rw [Nat.add_mul, e, Nat.sub_mul, Nat.one_mul]
        have : b ^ (p + 1) ≤ b ^ l * b ^ (p + 1) := Nat.le_mul_of_pos_left _ hbl
        omega
      have hip' : i ≤ p := by omega
      have hTj : T = T / b ^ j * b ^ j := by
        have : b ^ j ∣ T := by
          rw [hTform]
          exact Dvd.dvd.mul_left (pow_dvd_pow b (by omega)) _
        exact (Nat.div_mul_cancel this).symm
      have hTX : T = X := by
        have h5 : X / b ^ j * b ^ j ≤ X := Nat.div_mul_le_self _ _
        rw [heq, ← hTj] at h5
        exact Nat.le_antisymm h5 hXT
      have hip2 : i = p := by
        rcases Nat.lt_or_eq_of_le hip' with hip2 | hip2
        · exfalso
          have : b ^ (i + 1) ∣ T := by
            rw [hTform]; exact Dvd.dvd.mul_left (pow_dvd_pow b (by omega)) _
          have h0 : X % b ^ (i + 1) = 0 := by rw [← hTX]; exact Nat.mod_eq_zero_of_dvd this
          rw [hXe, Nat.add_comm, Nat.add_mul_mod_self_right, Nat.mod_eq_of_lt hQ1] at h0
          rw [h0] at hQj
          simp at hQj
        · exact hip2
      have hnrem : n ≤ rem := by
        have h0 : X % b ^ (i + 1) = rem * b ^ i := by
          rw [← hTX, hTform, ← hip2, Nat.pow_succ, Nat.mul_comm (b ^ i) b, Nat.mul_mod_mul_right,
            Nat.add_comm, Nat.add_mul_mod_self_right, Nat.mod_eq_of_lt (by omega)]
        rw [hXe, Nat.add_comm, Nat.add_mul_mod_self_right, Nat.mod_eq_of_lt hQ1] at h0
        have := dsum_cons b i rem 0 (by omega) hbi
        rw [← h0, dsum_of_zero, Nat.add_zero Q, ← hn] at this
        omega
      have hFle : F % b ^ j ≤ rem := by
        have h1 : F ≤ n := by
          -- n < b-1, a single digit
          have h2 : n < b ^ (i + 1) := by
            have : b ^ 1 ≤ b ^ (i + 1) := Nat.pow_le_pow_right hb0 (by omega)
            rw [Nat.pow_one] at this
            omega
          have h3 := fill_le b (i + 1) n (by omega) h2
          have h4 : dsum b (i + 1) n = n := by
            rw [show i + 1 = 1 + i by omega, dsum_len b 1 i n (by rw [Nat.pow_one]; omega), dsum_one b n (by omega)]
          rw [h4, ← hF] at h3
          exact h3
        have := Nat.mod_le F (b ^ j)
        omega
      rw [hstage, heq, ← hTj]
      rcases Nat.eq_zero_or_pos j with rfl | hj0
      · rw [Nat.pow_zero, Nat.mod_one]; omega
      · have := hroom (by omega) (by omega)
        omega

/-! ### the scan -/

/-- the lowest `m` digits are in their largest arrangement -/
def LowMax (b m s : Nat) : Prop := ∀ x, x < b ^ m → dsum b m x = dsum b m s → x ≤ s % b ^ m

theorem lowMax_succ (b i s : Nat) (hb : 2 < b) (hA : LowMax b i s)
    (hn : s % b ^ i = 0 ∨ digit b s i = b - 1) : LowMax b (i + 1) s := by
  intro x hx hd
  have hb0 : 0 < b := by omega
  have hbi : 0 < b ^ i := Nat.pow_pos hb0
  have hs : s % b ^ (i + 1) = s % b ^ i + b ^ i * digit b s i := by
    rw [Nat.pow_succ, Nat.mod_mul]; rfl
  obtain ⟨hx1, hx2⟩ := top_split b i x hb0
  have hx3 := div_pow_lt b i x hx
  have hxd : dsum b (i + 1) x = dsum b i (x % b ^ i) + x / b ^ i := by
    conv_lhs => rw [hx1]
    exact dsum_cons b i _ _ hx3 hx2
  rw [dsum_top b i s] at hd
  rw [hs, Nat.mul_comm]
  rcases Nat.lt_trichotomy (x / b ^ i) (digit b s i) with h | h | h
  · have : (x / b ^ i + 1) * b ^ i ≤ digit b s i * b ^ i := Nat.mul_le_mul_right _ h
    rw [Nat.add_mul] at this
    generalize s % b ^ i = t at *
    omega
  · have := hA (x % b ^ i) hx2 (by omega)
    rw [h] at hx1
    omega
  · exfalso
    rcases hn with h0 | h0
    · have : dsum b i s = 0 := by rw [← dsum_mod, h0, dsum_of_zero]
      omega
    · omega

theorem lowMax_lt (b N m s y : Nat) (hm : m ≤ N) (hb : 2 < b) (hA : LowMax b m s) (hsy : s < y)
    (hd : dsum b N y = dsum b N s) : s / b ^ m < y / b ^ m := by
  have hb0 : 0 < b := by omega
  have hle : s / b ^ m ≤ y / b ^ m := Nat.div_le_div_right (by omega)
  rcases Nat.lt_or_eq_of_le hle with h | h
  · exact h
  exfalso
  obtain ⟨h1, h2⟩ := top_split b m s hb0
  obtain ⟨h3, h4⟩ := top_split b m y hb0
  obtain ⟨d, rfl⟩ : ∃ d, N = m + d := ⟨N - m, by omega⟩
  rw [h1, h3, dsum_split _ _ _ _ _ h2, dsum_split _ _ _ _ _ h4, h] at hd
  have := hA (y % b ^ m) h4 (by rw [← dsum_mod b m s]; omega)
  rw [h] at h1
  omega

theorem scan_spec (w b N K : Nat) (hb : 2 < b)
    (hpow : ∀ i, i < N → b ^ i < 2 ^ w)
    (hfit : ∀ x, x < b ^ N → dsum b N x ≤ K → x < 2 ^ w)
    (hroom : 0 < K / (b - 1) → K / (b - 1) + 2 ≤ N → topfill b N K + K % (b - 1) < 2 ^ w)
    (hTle : topfill b N K < 2 ^ w) (s y : Nat) (hs : s < b ^ N) (hK : dsum b N s = K)
    (hsy : s < y) (hy : y < b ^ N) (hyK : dsum b N y = K) :
    ∀ cnt i n, i + 1 + cnt = N → n = dsum b i s → LowMax b i s →
    (s % b ^ i = 0 ∨ digit b s i = b - 1) →
    s < bosonScan w b cnt i n s ∧ bosonScan w b cnt i n s ≤ y ∧ dsum b N (bosonScan w b cnt i n s) = K := by
  intro cnt
  have hb0 : 0 < b := by omega
  have hdig : ∀ i, i < N → digitM w b s i = digit b s i := by
    intro i hi
    unfold digitM digit
    rw [powM_eq, Nat.mod_eq_of_lt (hpow i hi)]
  induction cnt with
  | zero =>
    intro i n hi hn hA hz
    exfalso
    have := lowMax_lt b N (i + 1) s y (by omega) hb (lowMax_succ b i s hb hA hz) hsy (by omega)
    rw [show i + 1 = N by omega, Nat.div_eq_of_lt hs, Nat.div_eq_of_lt hy] at this
    omega
  | succ cnt ih =>
    intro i n hi hn hA hz
    have hA' := lowMax_succ b i s hb hA hz
    have hlt := lowMax_lt b N (i + 1) s y (by omega) hb hA' hsy (by omega)
    have hbi : 0 < b ^ i := Nat.pow_pos hb0
    rw [bosonScan]
    simp only [hdig i (by omega), hdig (i + 1) (by omega)]
    have hlow : s % b ^ (i + 1) = s % b ^ i + b ^ i * digit b s i := by
      rw [Nat.pow_succ, Nat.mod_mul]; rfl
    by_cases hd : digit b s i > 0
    · rw [if_pos hd]
      by_cases he : digit b s (i + 1) < b - 1
      · rw [if_pos he]
        obtain ⟨H, hH⟩ : ∃ H, H = s / b ^ (i + 1) := ⟨_, rfl⟩
        obtain ⟨L, hL⟩ : ∃ L, L = s % b ^ (i + 1) := ⟨_, rfl⟩
        obtain ⟨h1, h2⟩ := top_split b (i + 1) s hb0
        rw [← hH, ← hL] at h1
        rw [← hL] at h2
        rw [← hL] at hlow
        have hdle : digit b s i < b := digit_lt b s i hb0
        have hl0 : s % b ^ i < b ^ i := Nat.mod_lt _ hbi
        obtain ⟨L0, hL0⟩ : ∃ L0, L0 = s % b ^ i := ⟨_, rfl⟩
        rw [← hL0] at hlow hl0
        obtain ⟨d, hdd⟩ : ∃ d, digit b s i = d + 1 := ⟨digit b s i - 1, by omega⟩
        have hLb : b ^ i ≤ L := by
          rw [hlow, hdd, Nat.mul_add]; omega
        have hQ : L - b ^ i = d * b ^ i + L0 := by
          rw [hlow, hdd, Nat.mul_add, Nat.mul_comm]; omega
        have hQlt : L - b ^ i < (b - 1) * b ^ i := by
          have : (d + 1) * b ^ i ≤ (b - 1) * b ^ i := Nat.mul_le_mul_right _ (by omega)
          rw [Nat.add_mul] at this
          omega
        have hHmod : H % b < b - 1 := by
          have : digit b s (i + 1) = H % b := by rw [hH]; rfl
          omega
        obtain ⟨M, hM⟩ : ∃ M, N - (i + 1) = M + 1 := ⟨N - (i + 1) - 1, by omega⟩
        have hNM : N = (i + 1) + (M + 1) := by omega
        have hHlt : H < b ^ (M + 1) := by
          rw [hH, Nat.div_lt_iff_lt_mul (Nat.pow_pos hb0), ← Nat.pow_add,
            show M + 1 + (i + 1) = N by omega]
          exact hs
        have hH1 : H + 1 < b ^ (M + 1) := by
          rcases Nat.lt_or_eq_of_le (show H + 1 ≤ b ^ (M + 1) from hHlt) with h | h
          · exact h
          · exfalso
            have h5 : (H + 1) % b = 0 := by rw [h, Nat.pow_succ]; exact Nat.mul_mod_left _ _
            rw [Nat.add_mod, Nat.mod_eq_of_lt (show 1 < b by omega), Nat.mod_eq_of_lt (by omega)] at h5
            omega
        have hdH : dsum b (M + 1) (H + 1) = dsum b (M + 1) H + 1 := by
          rw [dsum_low, dsum_low]
          have h6 : H = b * (H / b) + H % b := (Nat.div_add_mod _ _).symm
          have h7 : (H + 1) % b = H % b + 1 := by
            rw [Nat.add_mod, Nat.mod_eq_of_lt (show 1 < b by omega), Nat.mod_eq_of_lt (by omega)]
          have h8 : (H + 1) / b = H / b := by
            apply Nat.div_eq_of_lt_le
            · have := Nat.div_mul_le_self H b; omega
            · rw [Nat.add_mul, Nat.one_mul, Nat.mul_comm]
              generalize H % b = t at *
              omega
          rw [h7, h8]; omega
        have hsK : K = dsum b (i + 1) L + dsum b (M + 1) H := by
          rw [← hK, hNM, h1]; exact dsum_split _ _ _ _ _ h2
        have hLd : dsum b (i + 1) L = n + (d + 1) := by
          rw [hL, dsum_mod, dsum_top, ← hn, hdd]
        have hQd : dsum b (i + 1) (L - b ^ i) = n + d := by
          rw [hQ, dsum_cons b i d L0 (by omega) hl0, hL0, dsum_mod, ← hn]
        have hQ1 : L - b ^ i < b ^ (i + 1) := by omega
        have hbN : b ^ (M + 1) * b ^ (i + 1) = b ^ N := by rw [← Nat.pow_add]; congr 1; omega
        have hX1 : ∀ q, q < b ^ (i + 1) → (H + 1) * b ^ (i + 1) + q < b ^ N := by
          intro q hq
          have := Nat.mul_le_mul_right (b ^ (i + 1)) (show H + 1 + 1 ≤ b ^ (M + 1) from hH1)
          rw [hbN, Nat.add_mul (H + 1)] at this
          omega
        have hXd : ∀ q, q < b ^ (i + 1) →
            dsum b N ((H + 1) * b ^ (i + 1) + q) = dsum b (i + 1) q + (dsum b (M + 1) H + 1) := by
          intro q hq
          rw [hNM, dsum_split _ _ _ _ _ hq, hdH]
        have hst := stage_fits w b N i (H + 1) (L - b ^ i) K hb (by omega) (hX1 _ hQ1) hQlt
          (by rw [hXd _ hQ1]; omega) hfit hroom hTle
        rw [hQd] at hst
        have hst0 := hst 0 (by omega)
        rw [stage_zero] at hst0
        have hse : s - b ^ i + b ^ (i + 1) = (H + 1) * b ^ (i + 1) + (L - b ^ i) := by
          rw [Nat.add_mul]; omega
        have hp : powM w b i = b ^ i := by rw [powM_eq, Nat.mod_eq_of_lt (hpow i (by omega))]
        have hp1 : powM w b (i + 1) = b ^ (i + 1) := by
          rw [powM_eq, Nat.mod_eq_of_lt (hpow (i + 1) (by omega))]
        have hs2 : s < 2 ^ w := hfit s hs (by omega)
        rw [hp, hp1, sub_eq w s _ (by omega) hs2, add_eq w _ _ (by omega), hse]
        rw [show n + digit b s i - 1 = n + d by omega]
        -- the value
        have hval : (if n + d > 0 then
            redistribute w b ((n + d) / (b - 1)) ((n + d) % (b - 1)) (i + 1) 0
              ((H + 1) * b ^ (i + 1) + (L - b ^ i))
            else (H + 1) * b ^ (i + 1) + (L - b ^ i))
            = (H + 1) * b ^ (i + 1) + fill b (i + 1) (n + d) := by
          split
          · have := redistribute_eq w b N (n + d) (i + 1) ((H + 1) * b ^ (i + 1) + (L - b ^ i)) (by omega)
              hpow (by omega) hst (i + 1) 0 (by omega)
            rw [stage_zero, stage_last _ _ _ _ _ hQ1 (fill_lt _ _ _ (by omega))] at this
            exact this
          · have h9 : L - b ^ i = 0 := by
              by_contra hc
              have := dsum_pos b (i + 1) _ hQ1 hc
              omega
            have h10 := fill_le b (i + 1) (L - b ^ i) (by omega) hQ1
            rw [hQd] at h10
            omega
        rw [hval]
        have hflt : fill b (i + 1) (n + d) < b ^ (i + 1) := fill_lt _ _ _ (by omega)
        refine ⟨?_, ?_, ?_⟩
        · rw [Nat.add_mul]; omega
        · obtain ⟨hy1, hy2⟩ := top_split b (i + 1) y hb0
          rw [← hH] at hlt
          rcases Nat.lt_or_eq_of_le (show H + 1 ≤ y / b ^ (i + 1) from hlt) with h | h
          · have := Nat.mul_le_mul_right (b ^ (i + 1)) (show H + 1 + 1 ≤ y / b ^ (i + 1) from h)
            rw [Nat.add_mul (H + 1)] at this
            generalize y % b ^ (i + 1) = t at *
            omega
          · rw [← h] at hy1
            have h11 := hXd _ hy2
            rw [← hy1, hyK] at h11
            have h12 := fill_le b (i + 1) _ (by omega) hy2
            rw [show dsum b (i + 1) (y % b ^ (i + 1)) = n + d by omega] at h12
            generalize y % b ^ (i + 1) = t at *
            omega
        · rw [hXd _ hflt, fill_dsum _ _ _ (by omega) (by rw [← hQd]; exact dsum_le_max _ _ _ hb0)]
          omega
      · rw [if_neg he]
        refine ih (i + 1) _ (by omega) (by rw [dsum_top, hn]) hA' (Or.inr ?_)
        have := digit_lt b s (i + 1) hb0
        omega
    · rw [if_neg hd]
      have hd0 : digit b s i = 0 := by omega
      refine ih (i + 1) _ (by omega) (by rw [dsum_top, hn, hd0]; omega) hA' (Or.inl ?_)
      rw [hlow, hd0]
      rcases hz with h | h
      · rw [h]; omega
      · omega

theorem lowMax_zero (b s : Nat) : LowMax b 0 s := by
  intro x hx _
  rw [Nat.pow_zero] at hx ⊢
  omega

theorem next_spec (w b N K : Nat) (hb : 2 < b)
    (hpow : ∀ i, i < N → b ^ i < 2 ^ w)
    (hfit : ∀ x, x < b ^ N → dsum b N x ≤ K → x < 2 ^ w)
    (hroom : 0 < K / (b - 1) → K / (b - 1) + 2 ≤ N → topfill b N K + K % (b - 1) < 2 ^ w)
    (hTle : topfill b N K < 2 ^ w) (s y : Nat) (hK : dsum b N s = K)
    (hsy : s < y) (hy : y < b ^ N) (hyK : dsum b N y = K) :
    s < bosonNext w b N s ∧ bosonNext w b N s ≤ y ∧ dsum b N (bosonNext w b N s) = K := by
  have hs0 : s ≠ 0 := by
    rintro rfl
    rw [dsum_of_zero] at hK
    have := dsum_pos b N y hy (by omega)
    omega
  have hN : 0 < N := by
    rcases Nat.eq_zero_or_pos N with rfl | h
    · simp at hy; omega
    · exact h
  rw [bosonNext, if_neg hs0]
  refine scan_spec w b N K hb hpow hfit hroom hTle s y (by omega) hK hsy hy hyK (N - 1) 0 0 (by omega) rfl
    (lowMax_zero b s) (Or.inl ?_)
  rw [Nat.pow_zero, Nat.mod_one]

/-! ### first state, largest state, chosen width -/

theorem list_sum_mul (c : Nat) (f : Nat → Nat) : ∀ l : List Nat,
    (l.map (fun i => c * f i)).sum = c * (l.map f).sum := by
  intro l
  induction l with
  | nil => rfl
  | cons a l ih => simp only [List.map_cons, List.sum_cons, ih, Nat.mul_add]

theorem s0_eq (b N k : Nat) (hb : 2 < b) (hk : k ≤ N * (b - 1)) : bosonS0 b k = fill b N k := by
  unfold bosonS0
  induction N generalizing k with
  | zero =>
    simp at hk; subst hk; simp [fill]
  | succ n ih =>
    rw [fill]
    by_cases h : k < b - 1
    · have h1 := ih 0 (by omega)
      simp only [Nat.zero_div, Nat.zero_mod, List.range_zero, List.map_nil, List.sum_nil, Nat.zero_mul] at h1
      rw [Nat.min_eq_left (by omega), Nat.sub_self, ← h1, Nat.div_eq_of_lt h, Nat.mod_eq_of_lt h]
      simp
    · rw [Nat.min_eq_right (by omega)]
      rw [Nat.succ_mul] at hk
      have h1 := ih (k - (b - 1)) (by omega)
      have e1 : k / (b - 1) = (k - (b - 1)) / (b - 1) + 1 := by
        have := Nat.add_div_right (k - (b - 1)) (show 0 < b - 1 by omega)
        rwa [Nat.sub_add_cancel (by omega)] at this
      have e2 : k % (b - 1) = (k - (b - 1)) % (b - 1) := Nat.mod_eq_sub_mod (by omega)
      rw [← h1, e1, e2]
      dsimp only
      rw [List.range_succ_eq_map, List.map_cons, List.sum_cons, List.map_map, Nat.mul_add,
        ← list_sum_mul]
      have e3 : (fun i => (b - 1) * b ^ i) ∘ Nat.succ = fun i => b * ((b - 1) * b ^ i) := by
        funext i; simp only [Function.comp_apply, Nat.pow_succ]; ring
      rw [e3, Nat.pow_zero, Nat.pow_succ]
      ring

theorem smax_eq (b N k : Nat) (hb : 2 < b) (hk : k ≤ N * (b - 1)) : bosonSMax N b (some k) = topfill b N k := by
  simp only [bosonSMax]
  induction N generalizing k with
  | zero =>
    simp at hk; subst hk; simp [topfill]
  | succ n ih =>
    rw [topfill]
    by_cases h : k < b - 1
    · rw [Nat.min_eq_left (by omega), Nat.sub_self, topfill_zero, Nat.div_eq_of_lt h, Nat.mod_eq_of_lt h]
      simp
    · rw [Nat.min_eq_right (by omega)]
      rw [Nat.succ_mul] at hk
      have h1 := ih (k - (b - 1)) (by omega)
      have e1 : k / (b - 1) = (k - (b - 1)) / (b - 1) + 1 := by
        have := Nat.add_div_right (k - (b - 1)) (show 0 < b - 1 by omega)
        rwa [Nat.sub_add_cancel (by omega)] at this
      have e2 : k % (b - 1) = (k - (b - 1)) % (b - 1) := Nat.mod_eq_sub_mod (by omega)
      rw [← h1, e1, e2]
      rw [List.range_succ_eq_map, List.map_cons, List.sum_cons, List.map_map]
      have e3 : (fun i => (b - 1) * b ^ (n + 1 - 1 - i)) ∘ Nat.succ = fun i => (b - 1) * b ^ (n - 1 - i) := by
        funext i; simp only [Function.comp_apply]; congr 2; omega
      have e4 : n + 1 - ((k - (b - 1)) / (b - 1) + 1) - 1 = n - (k - (b - 1)) / (b - 1) - 1 := by omega
      rw [e3, e4]
      simp only [Nat.add_sub_cancel, Nat.sub_zero]
      omega

theorem topfill_lt (b N k : Nat) (hb : 2 < b) : topfill b N k < b ^ N := by
  induction N generalizing k with
  | zero => simp [topfill]
  | succ n ih =>
    rw [topfill]
    have h1 := ih (k - min k (b - 1))
    have h2 : min k (b - 1) * b ^ n ≤ (b - 1) * b ^ n := Nat.mul_le_mul_right _ (Nat.min_le_right _ _)
    have e3 : b ^ (n + 1) = (b - 1) * b ^ n + b ^ n := by
      obtain ⟨c, rfl⟩ : ∃ c, b = c + 1 := ⟨b - 1, by omega⟩
      rw [Nat.add_sub_cancel, Nat.pow_succ]; ring
    omega

theorem bitLength_lt : ∀ fuel s, s ≤ fuel → s < 2 ^ bitLength fuel s := by
  intro fuel
  induction fuel with
  | zero => intro s h; rw [show s = 0 by omega]; simp [bitLength]
  | succ f ih =>
    intro s h
    rw [bitLength]
    split
    · have h1 : s >>> 1 = s / 2 := Nat.shiftRight_one s
      have := ih (s >>> 1) (by omega)
      rw [h1] at this ⊢
      rw [Nat.pow_succ]; omega
    · rw [Nat.pow_zero]; omega

/-- bit length is also tight -/
theorem bitLength_ge : ∀ fuel s, s ≤ fuel → 0 < s → 2 ^ (bitLength fuel s - 1) ≤ s ∧ 0 < bitLength fuel s := by
  intro fuel
  induction fuel with
  | zero => intro s h h0; omega
  | succ f ih =>
    intro s h h0
    rw [bitLength, if_pos h0]
    have h1 : s >>> 1 = s / 2 := Nat.shiftRight_one s
    refine ⟨?_, by omega⟩
    rw [Nat.add_sub_cancel]
    rcases Nat.eq_zero_or_pos (s >>> 1) with h2 | h2
    · rw [h2]
      cases f <;> simp [bitLength] <;> omega
    · obtain ⟨h3, h4⟩ := ih (s >>> 1) (by omega) h2
      obtain ⟨c, hc⟩ : ∃ c, bitLength f (s >>> 1) = c + 1 := ⟨bitLength f (s >>> 1) - 1, by omega⟩
      rw [hc] at h3 ⊢
      rw [Nat.add_sub_cancel] at h3
      rw [Nat.pow_succ]; omega

theorem basisType_fits (N b k w : Nat) (hb : 2 < b) (h : getBasisType N (some k) b = some w) :
    k ≤ N * (b - 1) ∧ topfill b N k < 2 ^ w ∧ (∀ x, x < b ^ N → dsum b N x ≤ k → x < 2 ^ w) := by
  unfold getBasisType at h
  simp only [Option.map_some, Option.getD_some, decide_eq_true_eq, if_pos (show b > 2 from hb)] at h
  split at h
  · simp at h
  · rename_i hk
    have hk : k ≤ N * (b - 1) := by omega
    have h1 := Proof.HcbBasis.widthFor_ge _ _ h
    have h2 := bitLength_lt (bosonSMax N b (some k)) (bosonSMax N b (some k)) (Nat.le_refl _)
    have h3 : topfill b N k < 2 ^ w := by
      rw [← smax_eq b N k hb hk]
      exact Nat.lt_of_lt_of_le h2 (Nat.pow_le_pow_right (by omega) h1)
    refine ⟨hk, h3, fun x hx hd => ?_⟩
    have := le_topfill b N x k (by omega) hx hd
    omega

/-- the enumeration with a fixed number of quanta -/
theorem visit_next (next : Nat → Nat) (w b N k : Nat) (hb : 2 < b) (hk : k ≤ N * (b - 1)) (hT : topfill b N k < 2 ^ w)
    (hfit : ∀ x, x < b ^ N → dsum b N x ≤ k → x < 2 ^ w)
    (hroom : 0 < k / (b - 1) → k / (b - 1) + 2 ≤ N → topfill b N k + k % (b - 1) < 2 ^ w)
    (hnext : ∀ s, s < bosonNext w b N s → next s = bosonNext w b N s) :
    Proof.MakeBasis.visit (fun s _ => next s) (sectorB b N k).length (bosonS0 b k % 2 ^ w) 0
      = sectorB b N k := by
  have hb0 : 0 < b := by omega
  have hfl := fill_lt b N k (by omega)
  have hfd := fill_dsum b N k (by omega) hk
  rw [s0_eq b N k hb hk, Nat.mod_eq_of_lt (hfit _ hfl (by omega))]
  unfold sectorB
  apply Proof.Enumerate.visit_filter
  · intro s y _ hsy hy hs hyd
    simp only [beq_iff_eq] at hs hyd ⊢
    have hk0 : 0 < k := by
      rw [← hyd]; exact dsum_pos b N y hy (by omega)
    have hpow : ∀ i, i < N → b ^ i < 2 ^ w := by
      intro i hi
      apply hfit
      · exact Nat.pow_lt_pow_right (by omega) hi
      · have := dsum_split b i (N - i) 1 0 (Nat.pow_pos hb0)
        rw [show i + (N - i) = N by omega, dsum_of_zero, Nat.one_mul, Nat.add_zero] at this
        rw [this]
        have h1 := dsum_le_self b (N - i) 1 hb0
        omega
    have := next_spec w b N k hb hpow hfit hroom hT s y hs hsy hy hyd
    rw [hnext s this.1]
    exact this
  · exact hfl
  · simpa using hfd
  · intro x hx
    simp only [beq_eq_false_iff_ne, ne_eq]
    intro hd
    have := fill_le b N x (by omega) (by omega)
    rw [hd] at this
    omega

/-- the enumeration with a fixed number of quanta -/
theorem visit_sectorB (w b N k : Nat) (hb : 2 < b) (hw : getBasisType N (some k) b = some w)
    (hroom : 0 < k / (b - 1) → k / (b - 1) + 2 ≤ N → topfill b N k + k % (b - 1) < 2 ^ w) :
    Proof.MakeBasis.visit (fun s _ => bosonNext w b N s) (sectorB b N k).length (bosonS0 b k % 2 ^ w) 0
      = sectorB b N k := by
  obtain ⟨hk, hT, hfit⟩ := basisType_fits N b k w hb hw
  exact visit_next _ w b N k hb hk hT hfit hroom fun _ _ => rfl

end Proof.Boson
