import Verif.Model.Benes
import Verif.Proof.Maps
namespace Proof.Benes
open Model Model.Word

/-! ### positions that differ in one bit -/

theorem xor_two_pow (p ss : Nat) (h : ss.testBit p = false) : ss ^^^ 2 ^ p = ss + 2 ^ p := Proof.Maps.xor_two_pow p ss h

/-- `q` with bit `k` cleared -/
def clr (k q : Nat) : Nat := clearMask q (2 ^ k)

theorem testBit_clr (k q j : Nat) : (clr k q).testBit j = (q.testBit j && decide (j ≠ k)) := by
  unfold clr clearMask
  rw [Nat.testBit_xor, Nat.testBit_and, Nat.testBit_two_pow]
  by_cases h : k = j
  · subst h; simp
  · simp [h, Ne.symm h]

theorem testBit_flip (k q j : Nat) : (q ^^^ 2 ^ k).testBit j = (if j = k then !q.testBit j else q.testBit j) := by
  rw [Nat.testBit_xor, Nat.testBit_two_pow]
  by_cases h : k = j
  · subst h; simp
  · simp [h, Ne.symm h]

theorem flip_flip (k q : Nat) : (q ^^^ 2 ^ k) ^^^ 2 ^ k = q := by
  rw [Nat.xor_assoc, Nat.xor_self, Nat.xor_zero]

theorem flip_ne (k q : Nat) : q ^^^ 2 ^ k ≠ q := by
  intro h
  have := testBit_flip k q k
  rw [h] at this
  simp at this

theorem clr_flip (k q : Nat) : clr k (q ^^^ 2 ^ k) = clr k q := by
  apply Nat.eq_of_testBit_eq
  intro j
  rw [testBit_clr, testBit_clr, testBit_flip]
  by_cases h : j = k <;> simp [h]

theorem clr_eq_iff (k p q : Nat) : clr k p = clr k q ↔ p = q ∨ p = q ^^^ 2 ^ k := by
  constructor
  · intro h
    have hj : ∀ j, j ≠ k → p.testBit j = q.testBit j := by
      intro j hjk
      have := congrArg (fun x => x.testBit j) h
      simpa [testBit_clr, hjk] using this
    by_cases hk : p.testBit k = q.testBit k
    · left
      apply Nat.eq_of_testBit_eq
      intro j
      by_cases hjk : j = k
      · rw [hjk]; exact hk
      · exact hj j hjk
    · right
      apply Nat.eq_of_testBit_eq
      intro j
      rw [testBit_flip]
      by_cases hjk : j = k
      · subst hjk
        simp only [if_true]
        cases h1 : p.testBit j <;> cases h2 : q.testBit j <;> simp_all
      · rw [if_neg hjk]; exact hj j hjk
  · rintro (h | h)
    · rw [h]
    · rw [h, clr_flip]

theorem clr_of_false (k q : Nat) (h : q.testBit k = false) : clr k q = q := by
  apply Nat.eq_of_testBit_eq
  intro j
  rw [testBit_clr]
  by_cases hj : j = k
  · subst hj; simp [h]
  · simp [hj]

theorem clr_of_true (k q : Nat) (h : q.testBit k = true) : clr k q = q ^^^ 2 ^ k := by
  apply Nat.eq_of_testBit_eq
  intro j
  rw [testBit_clr, testBit_flip]
  by_cases hj : j = k
  · subst hj; simp [h]
  · simp [hj]

theorem flip_lt (L k q : Nat) (hk : k < L) (hq : q < 2 ^ L) : q ^^^ 2 ^ k < 2 ^ L :=
  Nat.xor_lt_two_pow hq (Nat.pow_lt_pow_right (by omega) hk)

theorem clr_lt (L k q : Nat) (hk : k < L) (hq : q < 2 ^ L) : clr k q < 2 ^ L := by
  cases h : q.testBit k
  · rw [clr_of_false k q h]; exact hq
  · rw [clr_of_true k q h]; exact flip_lt L k q hk hq

/-! ### one layer of the network -/

/-- where the bit at position `q` comes from in the layer with configuration `m` -/
def sw (k m q : Nat) : Nat := if m.testBit (clr k q) then q ^^^ 2 ^ k else q

theorem sw_sw (k m q : Nat) : sw k m (sw k m q) = q := by
  unfold sw
  by_cases h : m.testBit (clr k q)
  · simp [h, clr_flip, flip_flip]
  · simp [h]

theorem sw_lt (L k m q : Nat) (hk : k < L) (hq : q < 2 ^ L) : sw k m q < 2 ^ L := by
  unfold sw; split
  · exact flip_lt L k q hk hq
  · exact hq

theorem testBit_sw (k m q j : Nat) (h : j ≠ k) : (sw k m q).testBit j = q.testBit j := by
  unfold sw; split
  · rw [testBit_flip, if_neg h]
  · rfl

/-- a configuration of layer `k`: only the lower position of each pair, inside the word -/
def Good (w k m : Nat) : Prop := ∀ j, m.testBit j = true → j.testBit k = false ∧ j < w

theorem step_lt (w x m k : Nat) (hm : Good w k m) (hx : x < 2 ^ w) : bitPermuteStep w x m (2 ^ k) < 2 ^ w := by
  unfold bitPermuteStep
  refine Nat.xor_lt_two_pow (Nat.xor_lt_two_pow hx ?_) ?_
  · apply Nat.lt_pow_two_of_testBit
    intro i hi
    rw [Nat.testBit_and]
    cases h : m.testBit i
    · simp
    · have := (hm i h).2; omega
  · exact Nat.mod_lt _ (Nat.two_pow_pos w)

theorem step_testBit (L x m k q : Nat) (hk : k < L) (hm : Good (2 ^ L) k m) (hq : q < 2 ^ L) :
    (bitPermuteStep (2 ^ L) x m (2 ^ k)).testBit q = x.testBit (sw k m q) := by
  have ht : ∀ i, (((x >>> 2 ^ k) ^^^ x) &&& m).testBit i = ((x.testBit (2 ^ k + i) ^^ x.testBit i) && m.testBit i) := by
    intro i
    rw [Nat.testBit_and, Nat.testBit_xor, Nat.testBit_shiftRight]
  unfold bitPermuteStep
  simp only
  rw [Nat.testBit_xor, Nat.testBit_xor, ht]
  unfold shl
  rw [Nat.testBit_mod_two_pow, Nat.testBit_shiftLeft, ht]
  simp only [hq, decide_true, Bool.true_and]
  cases hb : q.testBit k
  · have e1 : 2 ^ k + q = q ^^^ 2 ^ k := by rw [xor_two_pow k q hb]; omega
    have e2 : (decide (q ≥ 2 ^ k) && ((x.testBit (2 ^ k + (q - 2 ^ k)) ^^ x.testBit (q - 2 ^ k)) && m.testBit (q - 2 ^ k))) = false := by
      by_cases hge : 2 ^ k ≤ q
      · have : m.testBit (q - 2 ^ k) = false := by
          by_contra hc
          rw [Bool.not_eq_false] at hc
          have h1 := xor_two_pow k _ (hm _ hc).1
          have h2 := testBit_flip k (q - 2 ^ k) k
          rw [h1, Nat.sub_add_cancel hge, hb, (hm _ hc).1] at h2
          simp at h2
        rw [this]; simp
      · simp [hge]
    rw [e1, e2]
    unfold sw
    rw [clr_of_false k q hb]
    cases m.testBit q <;> cases h1 : x.testBit q <;> cases h2 : x.testBit (q ^^^ 2 ^ k) <;> simp [h1, h2]
  · have hm0 : m.testBit q = false := by
      by_contra hc
      rw [Bool.not_eq_false] at hc
      rw [(hm q hc).1] at hb
      simp at hb
    have hf : (q ^^^ 2 ^ k).testBit k = false := by rw [testBit_flip]; simp [hb]
    have e1 : q = (q ^^^ 2 ^ k) + 2 ^ k := by
      rw [← xor_two_pow k _ hf, flip_flip]
    have hge : 2 ^ k ≤ q := by omega
    have e2 : q - 2 ^ k = q ^^^ 2 ^ k := by omega
    have e3 : 2 ^ k + (q - 2 ^ k) = q := by omega
    rw [e3, hm0, e2]
    unfold sw
    rw [clr_of_true k q hb]
    simp only [hge, decide_true, Bool.true_and, Bool.and_false, Bool.xor_false]
    cases m.testBit (q ^^^ 2 ^ k) <;> simp

/-! ### the networks -/

/-- origin of position `q` after the layers `k-1, …, 0` -/
def origin (cfg : Nat → Nat) : Nat → Nat → Nat
  | 0, q => q
  | k + 1, q => sw k (cfg k) (origin cfg k q)

/-- the inverse -/
def dest (cfg : Nat → Nat) : Nat → Nat → Nat
  | 0, q => q
  | k + 1, q => dest cfg k (sw k (cfg k) q)

theorem origin_dest (cfg : Nat → Nat) : ∀ k q, origin cfg k (dest cfg k q) = q
  | 0, q => rfl
  | k + 1, q => by
    show sw k (cfg k) (origin cfg k (dest cfg k (sw k (cfg k) q))) = q
    rw [origin_dest cfg k, sw_sw]

theorem dest_origin (cfg : Nat → Nat) : ∀ k q, dest cfg k (origin cfg k q) = q
  | 0, q => rfl
  | k + 1, q => by
    show dest cfg k (sw k (cfg k) (sw k (cfg k) (origin cfg k q))) = q
    rw [sw_sw, dest_origin cfg k]

theorem origin_lt (L : Nat) (cfg : Nat → Nat) : ∀ k, k ≤ L → ∀ q < 2 ^ L, origin cfg k q < 2 ^ L
  | 0, _, q, hq => hq
  | k + 1, hk, q, hq => sw_lt L k _ _ (by omega) (origin_lt L cfg k (by omega) q hq)

theorem dest_lt (L : Nat) (cfg : Nat → Nat) : ∀ k, k ≤ L → ∀ q < 2 ^ L, dest cfg k q < 2 ^ L
  | 0, _, q, hq => hq
  | k + 1, hk, q, hq => dest_lt L cfg k (by omega) _ (sw_lt L k _ _ (by omega) hq)

theorem bfly_testBit (L : Nat) (cfg : Nat → Nat) : ∀ k, k ≤ L → (∀ i < k, Good (2 ^ L) i (cfg i)) →
    ∀ x, x < 2 ^ 2 ^ L → bfly (2 ^ L) cfg k x < 2 ^ 2 ^ L ∧
      ∀ q < 2 ^ L, (bfly (2 ^ L) cfg k x).testBit q = x.testBit (origin cfg k q)
  | 0, _, _, x, hx => ⟨hx, fun q _ => rfl⟩
  | k + 1, hk, hg, x, hx => by
    have hx' := step_lt (2 ^ L) x (cfg k) k (hg k (by omega)) hx
    have ih := bfly_testBit L cfg k (by omega) (fun i hi => hg i (by omega)) _ hx'
    rw [bfly, Nat.one_shiftLeft]
    refine ⟨ih.1, fun q hq => ?_⟩
    rw [ih.2 q hq, step_testBit L x (cfg k) k _ (by omega) (hg k (by omega)) (origin_lt L cfg k (by omega) q hq)]
    rfl

theorem ibfly_testBit (L : Nat) (cfg : Nat → Nat) : ∀ k, k ≤ L → (∀ i < k, Good (2 ^ L) i (cfg i)) →
    ∀ x, x < 2 ^ 2 ^ L → ibfly (2 ^ L) cfg k x < 2 ^ 2 ^ L ∧
      ∀ q < 2 ^ L, (ibfly (2 ^ L) cfg k x).testBit q = x.testBit (dest cfg k q)
  | 0, _, _, x, hx => ⟨hx, fun q _ => rfl⟩
  | k + 1, hk, hg, x, hx => by
    have ih := ibfly_testBit L cfg k (by omega) (fun i hi => hg i (by omega)) x hx
    rw [ibfly, Nat.one_shiftLeft]
    refine ⟨step_lt _ _ _ _ (hg k (by omega)) ih.1, fun q hq => ?_⟩
    rw [step_testBit L _ (cfg k) k _ (by omega) (hg k (by omega)) hq, ih.2 _ (sw_lt L k _ q (by omega) hq)]
    rfl

/-- If, under the origins of the two halves, the source and target labels agree, the network moves the
bits as the labels say. -/
theorem network (L : Nat) (c1 c2 : Nat → Nat) (h1 : ∀ i < L, Good (2 ^ L) i (c1 i))
    (h2 : ∀ i < L, Good (2 ^ L) i (c2 i)) (x : Nat) (hx : x < 2 ^ 2 ^ L) :
    benesBwd L (c1, c2) x < 2 ^ 2 ^ L ∧
      ∀ q < 2 ^ L, (benesBwd L (c1, c2) x).testBit q = x.testBit (origin c2 L (dest c1 L q)) := by
  unfold benesBwd
  have a := bfly_testBit L c2 L (Nat.le_refl _) h2 x hx
  have c := ibfly_testBit L c1 L (Nat.le_refl _) h1 _ a.1
  refine ⟨c.1, fun q hq => ?_⟩
  rw [c.2 q hq, a.2 _ (dest_lt L c1 L (Nat.le_refl _) q hq)]

end Proof.Benes
