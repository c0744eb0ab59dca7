import Verif.Spec.Operators
import Verif.Model.Ops
import Verif.Proof.Digits
import Verif.Proof.Boson
import Verif.Proof.Gosper
import Mathlib.Tactic.Ring
import Mathlib.Tactic.Linarith
import Mathlib.Data.Matrix.Basic
namespace Proof.Ops
open Spec Model Model.Word Proof.Digits

variable {b N : Nat} [NeZero b]

/-- The column of `M` belonging to the configuration of `s` has the single entry `m` at the
configuration of `r`. -/
def Col (M : Matrix (Conf b N) (Conf b N) ℂ) (s r : Nat) (m : ℂ) : Prop :=
  ∀ t, M t (conf b N s) = if t = conf b N r then m else 0

theorem Col.zero {M : Matrix (Conf b N) (Conf b N) ℂ} {s r r' : Nat} (h : Col M s r 0) : Col M s r' 0 := by
  intro t; rw [h t]; simp

theorem Col.mul {M P : Matrix (Conf b N) (Conf b N) ℂ} {s r r' : Nat} {m c : ℂ}
    (hP : Col P s r m) (hM : Col M r r' c) : Col (M * P) s r' (m * c) := by
  intro t
  rw [Matrix.mul_apply]
  simp only [hP _]
  simp only [mul_ite, mul_zero, Finset.sum_ite_eq', Finset.mem_univ, if_true]
  rw [hM t]; split <;> ring

theorem Col.mul_zero {M P : Matrix (Conf b N) (Conf b N) ℂ} {s r r' : Nat}
    (hP : Col P s r 0) : Col (M * P) s r' 0 := by
  intro t
  rw [Matrix.mul_apply]
  simp [hP _]

theorem col_one (s : Nat) (A : ℂ) : Col (A • (1 : Matrix (Conf b N) (Conf b N) ℂ)) s s A := by
  intro t
  simp [Matrix.one_apply]

theorem col_onSite (u : Nat → Nat → ℂ) (i : Fin N) (s r a0 : Nat) (c : ℂ)
    (hu : ∀ a < b, u a (occ b N s i) = if a = a0 then c else 0)
    (hr : c ≠ 0 → ∀ j : Fin N, occ b N r j = if j = i then a0 else occ b N s j) :
    Col (b := b) (onSite u i) s r c := by
  intro t
  unfold onSite
  by_cases hc : c = 0
  · subst hc
    split
    · have := hu (t i) (t i).2
      simp only [ite_self] at this
      simpa [conf] using this
    · simp
  have hr := hr hc
  by_cases h : t = conf b N r
  · subst h
    rw [if_pos rfl, if_pos]
    · have := hu (occ b N r i) (digit_lt _ _ _ (NeZero.pos b))
      rw [hr i, if_pos rfl, if_pos rfl] at this
      simp only [conf]
      rw [hr i, if_pos rfl]; exact this
    · intro j hj
      apply Fin.ext
      simp only [conf]
      rw [hr j, if_neg hj]
  · rw [if_neg h]
    split
    · rename_i hj
      have := hu (t i) (t i).2
      simp only [conf]
      rw [this, if_neg]
      intro hti
      apply h
      funext j
      apply Fin.ext
      simp only [conf]
      rw [hr j]
      by_cases hji : j = i
      · subst hji; simp [hti]
      · rw [if_neg hji, hj j hji]; rfl
    · rfl

/-- Soundness of the loop, from soundness of a step. -/
theorem opLoop_spec (op : Char → Fin N → Matrix (Conf b N) (Conf b N) ℂ)
    (step : Char → Nat → Nat × ℂ → Option (Nat × ℂ)) (ok : Char → Prop)
    (hstep : ∀ o (i : Fin N) r x, ok o → r < b ^ N → ∃ r' c, step o i (r, x) = some (r', x * c) ∧
      r' < b ^ N ∧ Col (op o i) r r' c)
    (s : Nat) (hs : s < b ^ N) : ∀ (l : List (Char × Fin N)), (∀ p ∈ l, ok p.1) →
    ∀ (P : Matrix (Conf b N) (Conf b N) ℂ) (r : Nat) (m : ℂ), r < b ^ N → Col P s r m →
    ∃ r' m', opLoop step s (l.map fun p => (p.1, (p.2 : Nat))) (r, m) = some (r', m') ∧ r' < b ^ N ∧
      Col (stringOp op l.reverse * P) s r' m'
  | [], _, P, r, m, hr, hP => ⟨r, m, rfl, hr, by simpa [stringOp] using hP⟩
  | p :: l, hok, P, r, m, hr, hP => by
    obtain ⟨r1, c, h1, hr1, hC⟩ := hstep p.1 p.2 r m (hok p (by simp)) hr
    simp only [List.map_cons, opLoop, h1]
    have hP1 := hP.mul hC
    have hprod : stringOp op (p :: l).reverse * P = stringOp op l.reverse * (op p.1 p.2 * P) := by
      simp [stringOp, Matrix.mul_assoc]
    rw [hprod]
    by_cases h0 : m * c = 0
    · refine ⟨s, 0, ?_, hs, ?_⟩
      · simp [h0]
      · rw [h0] at hP1; exact hP1.mul_zero
    · rw [if_neg h0]
      exact opLoop_spec op step ok hstep s hs l (fun q hq => hok q (by simp [hq])) _ r1 _ hr1 hP1

/-- Soundness of the multi-level loop, from soundness of a step; `Inv l r`: the state `r` may occur
when the symbols `l` are still to be applied. -/
theorem levelLoop_spec (op : Char → Fin N → Matrix (Conf b N) (Conf b N) ℂ)
    (stop : LevelAcc → Prop) (step : Char → Nat → LevelAcc → Option LevelAcc) (Inv : List (Char × Fin N) → Nat → Prop)
    (hinv : ∀ l r, Inv l r → r < b ^ N)
    (hstop : ∀ y, stop y → y.diag = 0 ∨ y.off = 0) (hgo : ∀ y, ¬ stop y → y.off ≠ 0)
    (hstep : ∀ p l r d f, Inv (p :: l) r → ∃ (r' : Nat) (c e : ℝ),
      step p.1 (p.2 : Nat) ⟨r, d, f⟩ = some ⟨r', d * c, f * e⟩ ∧
      0 ≤ e ∧ (e ≠ 0 → Inv l r') ∧ Col (op p.1 p.2) r r' ((c * Real.sqrt e : ℝ) : ℂ))
    (A : ℂ) (s : Nat) (hs : s < b ^ N) : ∀ (l : List (Char × Fin N)),
    ∀ (P : Matrix (Conf b N) (Conf b N) ℂ) (r : Nat) (d f : ℝ), Inv l r → 0 ≤ f →
      Col P s r (A * ((d * Real.sqrt f : ℝ) : ℂ)) →
    ∃ y, levelLoop stop step s (l.map fun p => (p.1, (p.2 : Nat))) ⟨r, d, f⟩ = some y ∧ y.r < b ^ N ∧
      Col (stringOp op l.reverse * P) s y.r (A * ((y.diag * Real.sqrt y.off : ℝ) : ℂ))
  | [], P, r, d, f, hr, _, hP => ⟨⟨r, d, f⟩, rfl, hinv _ _ hr, by simpa [stringOp] using hP⟩
  | p :: l, P, r, d, f, hr, hf, hP => by
    obtain ⟨r1, c, e, h1, he, hr1, hC⟩ := hstep p l r d f hr
    simp only [List.map_cons, levelLoop, h1]
    have hP1 := hP.mul hC
    have hm : A * ((d * Real.sqrt f : ℝ) : ℂ) * ((c * Real.sqrt e : ℝ) : ℂ)
        = A * ((d * c * Real.sqrt (f * e) : ℝ) : ℂ) := by
      rw [Real.sqrt_mul hf]; push_cast; ring
    rw [hm] at hP1
    have hprod : stringOp op (p :: l).reverse * P = stringOp op l.reverse * (op p.1 p.2 * P) := by
      simp [stringOp, Matrix.mul_assoc]
    rw [hprod]
    by_cases hs0 : stop ⟨r1, d * c, f * e⟩
    · have h0 : d * c = 0 ∨ f * e = 0 := hstop _ hs0
      have hz : A * ((d * c * Real.sqrt (f * e) : ℝ) : ℂ) = 0 := by
        rcases h0 with h0 | h0 <;> simp [h0]
      refine ⟨⟨s, d * c, f * e⟩, ?_, hs, ?_⟩
      · rw [if_pos hs0]
      · rw [hz] at hP1 ⊢; exact hP1.mul_zero
    · rw [if_neg hs0]
      have h0 := hgo _ hs0
      exact levelLoop_spec op stop step Inv hinv hstop hgo hstep A s hs l _ r1 _ _
        (hr1 (right_ne_zero_of_mul h0))
        (mul_nonneg hf he) hP1

/-! Digits after adding or removing one quantum. -/

omit [NeZero b] in
theorem digit_mul_add (b A B j k : Nat) (hB : B < b ^ j) (hA : 0 < b) :
    digit b (A * b ^ j + B) k = if k < j then digit b B k else digit b A (k - j) := by
  split
  · rename_i h
    rw [← digit_mod b j _ k h]
    congr 1
    rw [Nat.mul_comm, Nat.mul_add_mod, Nat.mod_eq_of_lt hB]
  · rename_i h
    have hk : k = j + (k - j) := by omega
    unfold digit
    conv_lhs => rw [hk, pow_add, ← Nat.div_div_eq_div_mul]
    congr 2
    rw [Nat.mul_comm, Nat.mul_add_div (by positivity), Nat.div_eq_of_lt hB, Nat.add_zero]

omit [NeZero b] in
/-- Replacing the digit at position `j`. -/
theorem digit_set (s j a k : Nat) (hb : 0 < b) (ha : a < b) :
    digit b (s / b ^ (j + 1) * b ^ (j + 1) + a * b ^ j + s % b ^ j) k = if k = j then a else digit b s k := by
  have e : s / b ^ (j + 1) * b ^ (j + 1) + a * b ^ j + s % b ^ j
      = (s / b ^ (j + 1) * b + a) * b ^ j + s % b ^ j := by ring
  rw [e, digit_mul_add b _ _ j k (Nat.mod_lt _ (by positivity)) hb]
  split
  · rename_i h
    rw [digit_mod b j s k h, if_neg (by omega)]
  · rename_i h
    by_cases hk : k = j
    · subst hk
      simp [digit_zero, Nat.mod_eq_of_lt ha]
    · rw [if_neg hk]
      have : k - j = (k - j - 1) + 1 := by omega
      rw [this, digit_succ]
      have e2 : (s / b ^ (j + 1) * b + a) / b = s / b ^ (j + 1) := by
        rw [Nat.mul_comm, Nat.mul_add_div hb, Nat.div_eq_of_lt ha, Nat.add_zero]
      rw [e2]
      unfold digit
      rw [Nat.div_div_eq_div_mul, ← pow_add]
      congr 3
      omega

omit [NeZero b] in
theorem split3 (s j : Nat) : s = s / b ^ (j + 1) * b ^ (j + 1) + digit b s j * b ^ j + s % b ^ j := by
  unfold digit
  have h1 := Nat.div_add_mod s (b ^ j)
  have h2 := Nat.div_add_mod (s / b ^ j) b
  rw [Nat.div_div_eq_div_mul, ← pow_succ] at h2
  calc s = b ^ j * (s / b ^ j) + s % b ^ j := h1.symm
    _ = b ^ j * (b * (s / b ^ (j + 1)) + s / b ^ j % b) + s % b ^ j := by rw [h2]
    _ = _ := by ring

omit [NeZero b] in
theorem digit_inc (s j k : Nat) (h : digit b s j + 1 < b) :
    digit b (s + b ^ j) k = if k = j then digit b s j + 1 else digit b s k := by
  rw [← digit_set s j (digit b s j + 1) k (by omega) h]
  congr 1
  conv_lhs => rw [split3 (b := b) s j]
  ring

omit [NeZero b] in
theorem pow_le_of_digit (s j : Nat) (h : 0 < digit b s j) : b ^ j ≤ s := by
  by_contra hc
  rw [digit, Nat.div_eq_of_lt (by omega)] at h
  simp at h

omit [NeZero b] in
theorem digit_dec (s j k : Nat) (h : 0 < digit b s j) (hb : 0 < b) :
    digit b (s - b ^ j) k = if k = j then digit b s j - 1 else digit b s k := by
  have hlt := digit_lt b s j hb
  rw [← digit_set s j (digit b s j - 1) k hb (by omega)]
  congr 1
  have := split3 (b := b) s j
  obtain ⟨d, hd⟩ : ∃ d, digit b s j = d + 1 := ⟨digit b s j - 1, by omega⟩
  rw [hd] at this ⊢
  rw [Nat.add_mul, Nat.one_mul] at this
  rw [Nat.add_sub_cancel]
  generalize s / b ^ (j + 1) * b ^ (j + 1) = u at *
  generalize d * b ^ j = v at *
  generalize hm : s % b ^ j = x at *
  clear hm
  omega

omit [NeZero b] in
theorem inc_lt (s j : Nat) (hs : s < b ^ N) (hj : j < N) (h : digit b s j + 1 < b) : s + b ^ j < b ^ N := by
  have := split3 (b := b) s j
  have hb : 0 < b := by omega
  have h1 : s / b ^ (j + 1) < b ^ (N - (j + 1)) := by
    rw [Nat.div_lt_iff_lt_mul (by positivity), ← pow_add]
    rwa [show N - (j + 1) + (j + 1) = N by omega]
  have h2 : s % b ^ j < b ^ j := Nat.mod_lt _ (by positivity)
  have h3 : b ^ N = b ^ (N - (j + 1)) * b ^ (j + 1) := by rw [← pow_add]; congr 1; omega
  rw [h3]
  have h4 : s + b ^ j < (s / b ^ (j + 1) + 1) * b ^ (j + 1) := by
    calc s + b ^ j = s / b ^ (j + 1) * b ^ (j + 1) + (digit b s j + 1) * b ^ j + s % b ^ j := by
          conv_lhs => rw [this]
          ring
      _ < s / b ^ (j + 1) * b ^ (j + 1) + (digit b s j + 1) * b ^ j + b ^ j := by omega
      _ = s / b ^ (j + 1) * b ^ (j + 1) + (digit b s j + 2) * b ^ j := by ring
      _ ≤ s / b ^ (j + 1) * b ^ (j + 1) + b * b ^ j := by gcongr; omega
      _ = _ := by ring
  exact lt_of_lt_of_le h4 (Nat.mul_le_mul_right _ h1)

/-! Two-level sites. -/

theorem testBit_digit (s j : Nat) : s.testBit j = decide (digit 2 s j = 1) := by
  rw [Nat.testBit_eq_decide_div_mod_eq]; rfl

theorem digit2_cases (s j : Nat) : digit 2 s j = 0 ∨ digit 2 s j = 1 := by
  have := digit_lt 2 s j (by omega); omega

theorem shr_and_one (s j : Nat) : (s >>> j) &&& 1 = digit 2 s j := by
  rw [Nat.and_one_is_mod, Nat.shiftRight_eq_div_pow]; rfl

theorem shl_one (w j : Nat) (h : j < w) : shl w 1 j = 2 ^ j := by
  rw [shl, Nat.one_shiftLeft, Nat.mod_eq_of_lt (Nat.pow_lt_pow_right (by omega) h)]

theorem digit_flip (s j k : Nat) : digit 2 (s ^^^ 2 ^ j) k = if k = j then 1 - digit 2 s j else digit 2 s k := by
  have h := Nat.testBit_xor (x := s) (y := 2 ^ j) (i := k)
  rw [Nat.testBit_two_pow, testBit_digit, testBit_digit] at h
  rcases digit2_cases (s ^^^ 2 ^ j) k with h1 | h1 <;> rcases digit2_cases s k with h2 | h2 <;>
    by_cases h3 : k = j
  all_goals first
    | subst h3; simp_all
    | (have h4 : j ≠ k := fun e => h3 e.symm
       simp_all)

theorem flip_lt (s j : Nat) (hs : s < 2 ^ N) (hj : j < N) : s ^^^ 2 ^ j < 2 ^ N :=
  Nat.xor_lt_two_pow hs (Nat.pow_lt_pow_right (by omega) hj)

theorem occ_flip (s : Nat) (i j : Fin N) :
    occ 2 N (s ^^^ 2 ^ (N - i - 1)) j = if j = i then 1 - occ 2 N s i else occ 2 N s j := by
  have e : N - (i : Nat) - 1 = N - 1 - i := by omega
  unfold occ
  rw [e, digit_flip]
  have : (N - 1 - (j : Nat) = N - 1 - i) ↔ j = i := by
    rw [Fin.ext_iff]; omega
  simp only [this]

theorem occ_digit (s : Nat) (i : Fin N) : digit 2 s (N - i - 1) = occ 2 N s i := by
  unfold occ; congr 1; omega

/-- Soundness of a symbol of the spin-1/2 class. -/
theorem hcb_step (w : Nat) (hw : N ≤ w) (o : Char) (i : Fin N) (r : Nat) (x : ℂ)
    (ho : o ∈ ['I', 'x', 'y', 'z', '+', '-', 'n']) (hr : r < 2 ^ N) :
    ∃ r' c, hcbStep w N o i (r, x) = some (r', x * c) ∧ r' < 2 ^ N ∧
      Col (b := 2) (onSite (spinHalf o) i) r r' c := by
  have hi := i.2
  have hf : N - (i : Nat) - 1 < w := by omega
  have hflt := flip_lt (N := N) r (N - i - 1) hr (by omega)
  have ho2 : occ 2 N r i = 0 ∨ occ 2 N r i = 1 := digit2_cases _ _
  have h2 : ∀ a, a < 2 → a = 0 ∨ a = 1 := by omega
  simp only [List.mem_cons, List.not_mem_nil, or_false] at ho
  unfold hcbStep
  rcases ho with rfl | rfl | rfl | rfl | rfl | rfl | rfl <;>
    simp only [shl_one w _ hf, shr_and_one, occ_digit]
  · exact ⟨r, 1, by simp, hr, col_onSite _ i _ _ (occ 2 N r i) _ (by simp [spinHalf]) (by
      intro _ j; split <;> simp_all)⟩
  · exact ⟨_, _, rfl, hflt, col_onSite _ i _ _ (1 - occ 2 N r i) _ (by
      intro a ha
      rcases ho2 with h | h <;> rcases h2 a ha with rfl | rfl <;> simp [h, spinHalf]) (by
      intro _ j; exact occ_flip r i j)⟩
  · exact ⟨_, _, rfl, hflt, col_onSite _ i _ _ (1 - occ 2 N r i) _ (by
      intro a ha
      rcases ho2 with h | h <;> rcases h2 a ha with rfl | rfl <;> simp [h, spinHalf, neg_div]) (by
      intro _ j; exact occ_flip r i j)⟩
  · exact ⟨_, _, rfl, hr, col_onSite _ i _ _ (occ 2 N r i) _ (by
      intro a ha
      rcases ho2 with h | h <;> rcases h2 a ha with rfl | rfl <;> simp [h, spinHalf]) (by
      intro _ j; split <;> simp_all)⟩
  · exact ⟨_, _, rfl, hflt, col_onSite _ i _ _ (1 - occ 2 N r i) _ (by
      intro a ha
      rcases ho2 with h | h <;> rcases h2 a ha with rfl | rfl <;> simp [h, spinHalf]) (by
      intro _ j; exact occ_flip r i j)⟩
  · exact ⟨_, _, rfl, hflt, col_onSite _ i _ _ (1 - occ 2 N r i) _ (by
      intro a ha
      rcases ho2 with h | h <;> rcases h2 a ha with rfl | rfl <;> simp [h, spinHalf]) (by
      intro _ j; exact occ_flip r i j)⟩
  · exact ⟨_, _, rfl, hr, col_onSite _ i _ _ (occ 2 N r i) _ (by
      intro a ha
      rcases ho2 with h | h <;> rcases h2 a ha with rfl | rfl <;> simp [h, spinHalf]) (by
      intro _ j; split <;> simp_all)⟩

end Proof.Ops
