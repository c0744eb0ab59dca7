import Verif.Model.BitCount
import Verif.Spec.Bits
import Mathlib.Tactic.Ring
import Mathlib.Tactic.IntervalCases

namespace Proof.BitCount
open Model Model.Word Spec

/-- `c` repeated in each of the `B` bytes -/
def rep (c : Nat) : Nat → Nat
  | 0 => 0
  | B + 1 => 256 * rep c B + c

theorem rep_mul (c d B) : rep c B * d = rep (c * d) B := by
  induction B with
  | zero => simp [rep]
  | succ n ih => simp only [rep, ← ih]; ring

theorem rep255 (B) : rep 255 B + 1 = 256 ^ B := by
  induction B with
  | zero => simp [rep]
  | succ n ih => simp only [rep, pow_succ]; omega

theorem w256 (B) : 2 ^ (8 * B) = 256 ^ B := by
  rw [pow_mul]; rfl

theorem ones_eq (B) : ones (8 * B) = rep 255 B := by
  have := rep255 B
  unfold ones; rw [w256]; omega

theorem ones_div (B c d : Nat) (h : c * d = 255) : ones (8 * B) / d = rep c B := by
  have hd : 0 < d := by rcases Nat.eq_zero_or_pos d with h0 | h0
                        · subst h0; simp at h
                        · exact h0
  rw [ones_eq, ← h, ← rep_mul, Nat.mul_div_cancel _ hd]

theorem rep_lt (B c : Nat) (h : c < 256) : rep c B < 256 ^ B := by
  induction B with
  | zero => simp [rep]
  | succ n ih => simp only [rep, pow_succ]; omega

theorem rep_one_succ (B) : rep 1 (B + 1) = 256 ^ B + rep 1 B := by
  induction B with
  | zero => simp [rep]
  | succ n ih =>
    have e1 : rep 1 (n + 1) = 256 * rep 1 n + 1 := rfl
    have e2 : rep 1 (n + 1 + 1) = 256 * rep 1 (n + 1) + 1 := rfl
    rw [pow_succ]; omega

/-! ### bytewise evaluation of the three masking stages -/

theorem tb (x b i : Nat) (hb : b < 256) :
    (256 * x + b).testBit i = if i < 8 then b.testBit i else x.testBit (i - 8) := by
  have := Nat.testBit_two_pow_mul_add x (b := b) (i := 8) hb i
  simpa using this

theorem and_bytes (x b y c : Nat) (hb : b < 256) (hc : c < 256) :
    (256 * x + b) &&& (256 * y + c) = 256 * (x &&& y) + (b &&& c) := by
  apply Nat.eq_of_testBit_eq
  intro i
  have hbc : b &&& c < 256 := Nat.lt_of_le_of_lt Nat.and_le_left hb
  rw [tb _ _ _ hbc, Nat.testBit_and, tb _ _ _ hb, tb _ _ _ hc]
  split <;> simp

def s1 (B v : Nat) := v - ((v >>> 1) &&& rep 85 B)
def s2 (B v : Nat) := (v &&& rep 51 B) + ((v >>> 2) &&& rep 51 B)
def s3 (B v : Nat) := (v + (v >>> 4)) &&& rep 15 B

def b1 (b : Nat) := b - ((b >>> 1) &&& 85)
def b2 (b : Nat) := (b &&& 51) + ((b >>> 2) &&& 51)
def b3 (b : Nat) := (b + (b >>> 4)) &&& 15

theorem and_le_rep (B x : Nat) : x &&& rep 85 B ≤ rep 85 B := Nat.and_le_right

theorem shr1 (x b : Nat) : (256 * x + b) >>> 1 = 256 * (x >>> 1) + (128 * (x % 2) + b / 2) := by
  simp only [Nat.shiftRight_eq_div_pow]; omega
theorem shr2 (x b : Nat) : (256 * x + b) >>> 2 = 256 * (x >>> 2) + (64 * (x % 4) + b / 4) := by
  simp only [Nat.shiftRight_eq_div_pow]; omega
theorem shr4 (x b : Nat) : (256 * x + b) >>> 4 = 256 * (x >>> 4) + (16 * (x % 16) + b / 16) := by
  simp only [Nat.shiftRight_eq_div_pow]; omega

theorem mask85 : ∀ r < 2, ∀ b < 256, (128 * r + b / 2) &&& 85 = (b >>> 1) &&& 85 := by
  decide +kernel
theorem mask51 : ∀ r < 4, ∀ b < 256, (64 * r + b / 4) &&& 51 = (b >>> 2) &&& 51 := by
  decide +kernel
theorem b1_le : ∀ b < 256, (b >>> 1) &&& 85 ≤ b := by decide +kernel
theorem b1_lt : ∀ b < 256, b1 b < 256 := by decide +kernel
theorem b2_nib : ∀ b < 256, b2 (b1 b) % 16 ≤ 4 ∧ b2 (b1 b) / 16 ≤ 4 := by decide +kernel
theorem b2_lt : ∀ b < 256, b2 (b1 b) < 256 := by decide +kernel
theorem b123 : ∀ b < 256, b3 (b2 (b1 b)) = count 8 b := by decide +kernel

theorem m1_step (B x b : Nat) (hb : b < 256) :
    ((256 * x + b) >>> 1) &&& rep 85 (B + 1) = 256 * ((x >>> 1) &&& rep 85 B) + ((b >>> 1) &&& 85) := by
  rw [shr1, rep, and_bytes _ _ _ _ (by omega) (by omega), mask85 _ (by omega) _ hb]

theorem m1_le (B : Nat) : ∀ v, v < 256 ^ B → (v >>> 1) &&& rep 85 B ≤ v := by
  induction B with
  | zero => intro v _; simp [rep]
  | succ n ih =>
    intro v hv
    have hx : v = 256 * (v / 256) + v % 256 := by omega
    have hvl : v / 256 < 256 ^ n := by rw [pow_succ] at hv; omega
    have h1 := ih _ hvl
    have h2 := b1_le (v % 256) (by omega)
    rw [hx, m1_step _ _ _ (by omega)]
    omega

theorem s1_step (B x b : Nat) (hb : b < 256) (hx : x < 256 ^ B) :
    s1 (B + 1) (256 * x + b) = 256 * s1 B x + b1 b := by
  have h1 := m1_le B x hx
  have h2 := b1_le b hb
  simp only [s1, b1, m1_step _ _ _ hb]
  omega

theorem s2_step (B x b : Nat) (hb : b < 256) :
    s2 (B + 1) (256 * x + b) = 256 * s2 B x + b2 b := by
  simp only [s2, b2]
  rw [shr2, rep, and_bytes _ _ _ _ hb (by omega), and_bytes _ _ _ _ (by omega) (by omega),
    mask51 _ (by omega) _ hb]
  omega

theorem s3_step (B x b : Nat) (hx : x % 16 ≤ 4) (hb : b % 16 ≤ 4) (hb' : b / 16 ≤ 4) :
    s3 (B + 1) (256 * x + b) = 256 * s3 B x + b3 b := by
  simp only [s3, b3]
  have e : 256 * x + b + (256 * x + b) >>> 4
      = 256 * (x + x >>> 4) + (16 * (x % 16) + b + b / 16) := by
    rw [shr4]; omega
  rw [e, rep, and_bytes _ _ _ _ (by omega) (by omega)]
  have h15 : ∀ n, n &&& 15 = n % 16 := fun n => Nat.and_two_pow_sub_one_eq_mod n 4
  rw [h15, h15, Nat.shiftRight_eq_div_pow]
  omega

theorem s12_nib (B : Nat) : ∀ v, v < 256 ^ B → s2 B (s1 B v) % 16 ≤ 4 := by
  cases B with
  | zero => intro v _; simp [s2, rep]
  | succ n =>
    intro v hv
    have hx : v = 256 * (v / 256) + v % 256 := by omega
    have hvl : v / 256 < 256 ^ n := by rw [pow_succ] at hv; omega
    rw [hx, s1_step _ _ _ (by omega) hvl, s2_step _ _ _ (b1_lt _ (by omega))]
    have := (b2_nib (v % 256) (by omega)).1
    omega

/-- bytewise sum of bits, assembled -/
def bytesum : Nat → Nat → Nat
  | 0, _ => 0
  | B + 1, v => v % 256 + bytesum B (v / 256)

theorem stages_step (B v : Nat) (hv : v < 256 ^ (B + 1)) :
    s3 (B + 1) (s2 (B + 1) (s1 (B + 1) v))
      = 256 * s3 B (s2 B (s1 B (v / 256))) + count 8 (v % 256) := by
  have hx : v = 256 * (v / 256) + v % 256 := by omega
  have hvl : v / 256 < 256 ^ B := by rw [pow_succ] at hv; omega
  have hn := b2_nib (v % 256) (by omega)
  conv_lhs => rw [hx]
  rw [s1_step _ _ _ (by omega) hvl, s2_step _ _ _ (b1_lt _ (by omega)),
    s3_step _ _ _ (s12_nib _ _ hvl) hn.1 hn.2, b123 _ (by omega)]

theorem count8_le (b : Nat) : count 8 b ≤ 8 := by
  unfold count
  exact Nat.le_trans List.countP_le_length (by simp)

theorem count_split (n v : Nat) : count (n + 8) v = count 8 (v % 256) + count n (v / 256) := by
  unfold count
  have : List.range (n + 8) = List.range 8 ++ (List.range n).map (· + 8) := by
    rw [Nat.add_comm, List.range_add]; congr 1; apply List.map_congr_left; intro a _; omega
  rw [this, List.countP_append, List.countP_map]
  congr 1
  · apply List.countP_congr
    intro i hi
    have hi : i < 8 := by simpa using hi
    have : v.testBit i = (v % 2 ^ 8).testBit i := by rw [Nat.testBit_mod_two_pow]; simp [hi]
    simp [this]
  · apply List.countP_congr
    intro i _
    have : (v / 2 ^ 8).testBit i = v.testBit (i + 8) := by
      rw [← Nat.shiftRight_eq_div_pow, Nat.testBit_shiftRight, Nat.add_comm]
    simp [← this]

theorem stages_bytesum (B : Nat) : ∀ v, v < 256 ^ B →
    bytesum B (s3 B (s2 B (s1 B v))) = count (8 * B) v ∧ s3 B (s2 B (s1 B v)) < 256 ^ B := by
  induction B with
  | zero => intro v _; simp [bytesum, count, s3, rep]
  | succ n ih =>
    intro v hv
    have hvl : v / 256 < 256 ^ n := by rw [pow_succ] at hv; omega
    obtain ⟨h1, h2⟩ := ih _ hvl
    have hc := count8_le (v % 256)
    rw [stages_step _ _ hv]
    constructor
    · rw [bytesum, show 8 * (n + 1) = 8 * n + 8 by ring, count_split (8 * n)]
      rw [← h1]; congr 1
      · omega
      · congr 1; omega
    · rw [pow_succ]; omega

/-! ### the multiplication that adds up the bytes -/

theorem mulsum (B : Nat) : ∀ v, v < 256 ^ (B + 1) → bytesum (B + 1) v < 256 →
    bytesum (B + 1) v * 256 ^ B ≤ v * rep 1 (B + 1) % 256 ^ (B + 1) ∧
    v * rep 1 (B + 1) % 256 ^ (B + 1) ≤ bytesum (B + 1) v * rep 1 (B + 1) := by
  induction B with
  | zero =>
    intro v hv _
    simp only [bytesum, rep] at *
    omega
  | succ n ih =>
    intro v hv hs
    have hx : v = 256 * (v / 256) + v % 256 := by omega
    have hvl : v / 256 < 256 ^ (n + 1) := by rw [pow_succ 256 (n + 1)] at hv; omega
    rw [bytesum] at hs
    obtain ⟨h1, h2⟩ := ih (v / 256) hvl (by omega)
    rw [bytesum]
    generalize hS : bytesum (n + 1) (v / 256) = S at *
    generalize hX : v / 256 = x at *
    generalize hb : v % 256 = b at *
    generalize hR : rep 1 (n + 1) = R at *
    have hR2 : rep 1 (n + 2) = 256 * R + 1 := by rw [rep, hR]
    have hR3 : rep 1 (n + 2) = 256 ^ (n + 1) + R := by rw [rep_one_succ, hR]
    generalize hP : 256 ^ (n + 1) = P at *
    have hP2 : 256 ^ (n + 1 + 1) = 256 * P := by rw [pow_succ, hP]; ring
    have hPn : P = 256 * 256 ^ n := by rw [← hP, pow_succ]; ring
    rw [hP2, hx]
    rw [show n + 1 + 1 = n + 2 from rfl]
    generalize hQ : x * R % P = Q at *
    have key : (256 * x + b) * rep 1 (n + 2) % (256 * P) = (256 * Q + b * rep 1 (n + 2)) % (256 * P) := by
      have e1 : (256 * x + b) * rep 1 (n + 2) = 256 * (x * R) + b * rep 1 (n + 2) + (256 * P) * x := by
        rw [Nat.add_mul, hR3]; ring
      have e2 : x * R = Q + P * (x * R / P) := by
        rw [← hQ]; exact (Nat.mod_add_div _ _).symm
      rw [e1, Nat.add_mul_mod_self_left, e2]
      rw [show 256 * (Q + P * (x * R / P)) + b * rep 1 (n + 2)
          = 256 * Q + b * rep 1 (n + 2) + 256 * P * (x * R / P) by ring, Nat.add_mul_mod_self_left]
    have hup : 256 * Q + b * rep 1 (n + 2) ≤ (b + S) * rep 1 (n + 2) := by
      have : 256 * Q ≤ S * rep 1 (n + 2) := by
        rw [hR2]
        have : 256 * Q ≤ 256 * (S * R) := Nat.mul_le_mul_left _ h2
        calc 256 * Q ≤ 256 * (S * R) := this
          _ = S * (256 * R) := by ring
          _ ≤ S * (256 * R + 1) := Nat.mul_le_mul_left _ (by omega)
      rw [Nat.add_mul]; omega
    have hlt : (b + S) * rep 1 (n + 2) < 256 * P := by
      have h255 : rep 1 (n + 2) * 255 + 1 = 256 ^ (n + 2) := by
        rw [rep_mul]; exact rep255 _
      have : (b + S) * rep 1 (n + 2) ≤ 255 * rep 1 (n + 2) := Nat.mul_le_mul_right _ (by omega)
      have e : (256 : Nat) ^ (n + 2) = 256 * P := hP2
      omega
    rw [key, Nat.mod_eq_of_lt (by omega)]
    refine ⟨?_, hup⟩
    rw [Nat.add_mul]
    have a1 : b * P ≤ b * rep 1 (n + 2) := Nat.mul_le_mul_left _ (by omega)
    have a2 : S * P ≤ 256 * Q := by
      have := Nat.mul_le_mul_left 256 h1
      calc S * P = 256 * (S * 256 ^ n) := by rw [hPn]; ring
        _ ≤ 256 * Q := this
    omega

theorem topbyte (B v : Nat) (hv : v < 256 ^ (B + 1)) (hs : bytesum (B + 1) v < 256) :
    v * rep 1 (B + 1) % 256 ^ (B + 1) / 256 ^ B = bytesum (B + 1) v := by
  obtain ⟨h1, h2⟩ := mulsum B v hv hs
  apply Nat.div_eq_of_lt_le h1
  refine Nat.lt_of_le_of_lt h2 ?_
  rw [rep_one_succ, Nat.mul_add, Nat.add_mul]
  have h255 : rep 1 B * 255 + 1 = 256 ^ B := by rw [rep_mul]; exact rep255 _
  have : bytesum (B + 1) v * rep 1 B ≤ 255 * rep 1 B := Nat.mul_le_mul_right _ (by omega)
  omega

/-! ### the whole function -/

theorem and_mask (w l v : Nat) (hl : l < w) :
    v &&& ((ones w >>> 1) >>> (w - 1 - l)) = v % 2 ^ l := by
  have : (ones w >>> 1) >>> (w - 1 - l) = 2 ^ l - 1 := by
    unfold ones
    rw [← Nat.shiftRight_add, Nat.shiftRight_eq_div_pow]
    have h : 2 ^ w = 2 ^ l * 2 ^ (1 + (w - 1 - l)) := by rw [← pow_add]; congr 1; omega
    generalize 2 ^ (1 + (w - 1 - l)) = q at h ⊢
    have hq : 0 < q := by
      rcases Nat.eq_zero_or_pos q with h0 | h0
      · subst h0
        have : 0 < 2 ^ w := Nat.two_pow_pos _
        omega
      · exact h0
    rw [h]
    have h0 : 0 < 2 ^ l := Nat.two_pow_pos _
    generalize 2 ^ l = p at *
    apply Nat.div_eq_of_lt_le
    · rw [Nat.sub_mul]; omega
    · have : p - 1 + 1 = p := by omega
      rw [this]
      have : 0 < p * q := Nat.mul_pos h0 hq
      omega
  rw [this, Nat.and_two_pow_sub_one_eq_mod]

theorem count_mod (w l v : Nat) (hl : l ≤ w) : count w (v % 2 ^ l) = count l v := by
  unfold count
  obtain ⟨d, rfl⟩ := Nat.exists_eq_add_of_le hl
  rw [List.range_add, List.countP_append]
  have h2 : List.countP (fun i => (v % 2 ^ l).testBit i) (List.map (fun x => l + x) (List.range d)) = 0 := by
    rw [List.countP_eq_zero]
    intro a ha
    simp only [List.mem_map] at ha
    obtain ⟨c, _, rfl⟩ := ha
    simp [Nat.testBit_mod_two_pow]
  rw [h2, Nat.add_zero]
  apply List.countP_congr
  intro i hi
  have hi : i < l := by simpa using hi
  simp [Nat.testBit_mod_two_pow, hi]

theorem bitCount_eq (B v l : Nat) (hl : l < 8 * B) :
    bitCount B v l
      = some (s3 B (s2 B (s1 B (v % 2 ^ l))) * rep 1 B % 256 ^ B / 256 ^ (B - 1)) := by
  have hB : 0 < B := by omega
  have hm1 : ones (8 * B) / 3 = rep 85 B := ones_div B 85 3 rfl
  have hm2 : ones (8 * B) / 15 = rep 17 B := ones_div B 17 15 rfl
  have hm3 : ones (8 * B) / 255 = rep 1 B := ones_div B 1 255 rfl
  have hm2' : mul (8 * B) (ones (8 * B) / 15) 3 = rep 51 B := by
    rw [hm2, mul, rep_mul, w256, Nat.mod_eq_of_lt (rep_lt _ _ (by omega))]
  have hm3' : mul (8 * B) (rep 1 B) 15 = rep 15 B := by
    rw [mul, rep_mul, w256, Nat.mod_eq_of_lt (rep_lt _ _ (by omega))]
  simp only [bitCount, hl, if_true, and_mask _ _ _ hl, hm1, hm2', hm3, hm3']
  have hv0 : v % 2 ^ l < 256 ^ B := by
    refine Nat.lt_of_lt_of_le (Nat.mod_lt _ (Nat.two_pow_pos _)) ?_
    rw [← w256]; exact Nat.pow_le_pow_right (by omega) (by omega)
  generalize v % 2 ^ l = u at hv0 ⊢
  have hle := m1_le B u hv0
  -- line 122
  have e1 : sub (8 * B) u (u >>> 1 &&& rep 85 B) = s1 B u := by
    rw [sub, w256, s1, Nat.mod_eq_of_lt (by omega : u >>> 1 &&& rep 85 B < 256 ^ B)]
    rw [show u + (256 ^ B - (u >>> 1 &&& rep 85 B)) = (u - (u >>> 1 &&& rep 85 B)) + 256 ^ B by omega,
      Nat.add_mod_right, Nat.mod_eq_of_lt (by omega)]
  rw [e1]
  -- line 123
  have e2 : add (8 * B) (s1 B u &&& rep 51 B) (s1 B u >>> 2 &&& rep 51 B) = s2 B (s1 B u) := by
    rw [add, w256, s2]
    apply Nat.mod_eq_of_lt
    have h1 : s1 B u &&& rep 51 B ≤ rep 51 B := Nat.and_le_right
    have h2 : s1 B u >>> 2 &&& rep 51 B ≤ rep 51 B := Nat.and_le_right
    have h3 : rep 102 B < 256 ^ B := rep_lt _ _ (by omega)
    have h4 : rep 51 B * 2 = rep 102 B := rep_mul _ _ _
    omega
  rw [e2]
  -- line 124
  have hlt2 : s2 B (s1 B u) ≤ rep 102 B := by
    unfold s2
    have h1 : s1 B u &&& rep 51 B ≤ rep 51 B := Nat.and_le_right
    have h2 : s1 B u >>> 2 &&& rep 51 B ≤ rep 51 B := Nat.and_le_right
    have h4 : rep 51 B * 2 = rep 102 B := rep_mul _ _ _
    omega
  have e3 : add (8 * B) (s2 B (s1 B u)) (s2 B (s1 B u) >>> 4) &&& rep 15 B = s3 B (s2 B (s1 B u)) := by
    rw [add, w256, s3]
    congr 1
    apply Nat.mod_eq_of_lt
    have h3 : rep 204 B < 256 ^ B := rep_lt _ _ (by omega)
    have h4 : rep 102 B * 2 = rep 204 B := rep_mul _ _ _
    have : s2 B (s1 B u) >>> 4 ≤ s2 B (s1 B u) := by
      rw [Nat.shiftRight_eq_div_pow]; exact Nat.div_le_self _ _
    omega
  rw [e3, mul, w256, Nat.shiftRight_eq_div_pow]
  congr 2
  rw [← w256, Nat.mul_comm]

theorem bitCount_lt (B v l c : Nat) (h : bitCount B v l = some c) : c < 256 := by
  by_cases hl : l < 8 * B
  · rw [bitCount_eq _ _ _ hl] at h
    injection h with h
    subst h
    rw [Nat.div_lt_iff_lt_mul (by positivity)]
    have : 256 * 256 ^ (B - 1) = 256 ^ B := by
      conv_rhs => rw [show B = (B - 1) + 1 by omega, pow_succ]
      ring
    rw [this]
    exact Nat.mod_lt _ (by positivity)
  · simp [bitCount, hl] at h

theorem bitCount_exact (B v l : Nat) (hl : l < 8 * B) (hc : count l v < 256) :
    bitCount B v l = some (count l v) := by
  rw [bitCount_eq _ _ _ hl]
  have hv0 : v % 2 ^ l < 256 ^ B := by
    refine Nat.lt_of_lt_of_le (Nat.mod_lt _ (Nat.two_pow_pos _)) ?_
    rw [← w256]; exact Nat.pow_le_pow_right (by omega) (by omega)
  obtain ⟨h1, h2⟩ := stages_bytesum B _ hv0
  rw [count_mod _ _ _ (by omega)] at h1
  obtain ⟨n, rfl⟩ : ∃ n, B = n + 1 := ⟨B - 1, by omega⟩
  rw [Nat.add_sub_cancel, topbyte n _ h2 (by omega), h1]

end Proof.BitCount
