import Verif.Model.Chain
import Verif.Proof.CheckState
import Mathlib.Tactic.LinearCombination
import Mathlib.Tactic.FieldSimp
/-! Membership tests of the one-dimensional bases against the projection onto the block. -/
namespace Proof.Chain
open Spec Model.Chain Proof.Symmetry

/-- a bit operation with period and quantum number -/
def gen (f : BitOp) (per : Nat) (q : Int) : Generator := ⟨fun s => (f s).1, fun s => (f s).2, per, q⟩

theorem gen_U (f : BitOp) (per : Nat) (q : Int) : (gen f per q).U = step f := rfl

/-- quantum number of an operation of order two with eigenvalue `p` -/
def parityQ (p : Int) : Int := if p = 1 then 0 else 1

variable {S : Nat → Prop} {ys : List Generator}

theorem member_iff (h : Acts S ys) (s : Nat) (hs : S s) :
    ((∀ t, Related ys s t → t ≤ s) ∧ (∃ t, projection ys s t ≠ 0)) ↔
      ∀ cs ∈ exponents ys, (word ys cs (s, 1)).1 ≤ s ∧ ((word ys cs (s, 1)).1 = s → chi ys s cs = 1) := by
  constructor
  · rintro ⟨h1, t, h2⟩ cs hcs
    refine ⟨h1 _ ((related_iff h s _ hs).2 ⟨cs, (mem_exponents _ _).1 hcs, rfl⟩), ?_⟩
    rcases projection_cases h s hs with ⟨h3, _, _⟩ | h0
    · exact h3 cs ((mem_exponents _ _).1 hcs)
    · exact absurd (h0 t) h2
  · intro h1
    refine ⟨?_, ?_⟩
    · intro t ht
      obtain ⟨cs, hc, e⟩ := (related_iff h s t hs).1 ht
      rw [← e]
      exact (h1 cs ((mem_exponents _ _).2 hc)).1
    · refine ⟨s, ?_⟩
      rcases projection_cases h s hs with ⟨_, h4, h5⟩ | h0
      · rw [h4]; exact_mod_cast Nat.pos_iff_ne_zero.1 h5
      · exfalso
        have : projection ys s s = ((stab ys s).length : ℂ) := by
          unfold projection stab
          have : ∀ l : List (List Nat), (∀ cs ∈ l, cs ∈ exponents ys) →
              (l.map fun cs => if (word ys cs (s, 1)).1 = s then
                (starRingEnd ℂ) (character ys cs) * (word ys cs (s, 1)).2 else 0).sum
              = ((l.filter (fun cs => (word ys cs (s, 1)).1 = s)).length : ℂ) := by
            intro l
            induction l with
            | nil => simp
            | cons a l ih =>
              intro hl
              rw [List.map_cons, List.sum_cons, ih (fun c hc => hl c (by simp [hc])), List.filter_cons]
              by_cases ha : (word ys a (s, 1)).1 = s
              · have h2 := (h1 a (hl a (by simp))).2 ha
                unfold chi at h2
                simp only [ha, if_true, h2, decide_true, List.length_cons]
                push_cast; ring
              · simp [ha]
          exact this _ fun _ h => h
        rw [h0 s] at this
        have hz : (stab ys s).length = 0 := by exact_mod_cast this.symm
        rw [List.length_eq_zero_iff] at hz
        have hm : ys.map (fun _ => 0) ∈ stab ys s := by
          unfold stab
          rw [List.mem_filter]
          exact ⟨(mem_exponents _ _).2 (zero_inRange h fun _ h => h), by rw [word_zero]; simp⟩
        rw [hz] at hm
        exact absurd hm List.not_mem_nil

theorem projection_stab (h : Acts S ys) (s : Nat) (hs : S s) (hm : ∃ t, projection ys s t ≠ 0) :
    projection ys s s = ((stab ys s).length : ℂ) := by
  rcases projection_cases h s hs with ⟨_, h4, _⟩ | h0
  · exact h4
  · obtain ⟨t, ht⟩ := hm
    exact absurd (h0 t) ht

/-! ### characters -/

theorem character_cons (y : Generator) (ys : List Generator) (c : Nat) (cs : List Nat) :
    character (y :: ys) (c :: cs) = Complex.exp (Complex.I * (2 * Real.pi * y.q / y.per * c : ℝ)) * character ys cs := by
  unfold character
  rw [← Complex.exp_add]
  simp only [angle]
  push_cast
  ring_nf

theorem character_nil (cs : List Nat) : character [] cs = 1 := by
  unfold character; simp [angle]

theorem character_zero_cons (y : Generator) (ys : List Generator) (cs : List Nat) :
    character (y :: ys) (0 :: cs) = character ys cs := by
  rw [character_cons]; simp

theorem parity_one (p : Int) (hp : p = 1 ∨ p = -1) (f : BitOp) (ys : List Generator) (cs : List Nat) :
    character (gen f 2 (parityQ p) :: ys) (1 :: cs) = p * character ys cs := by
  rw [character_cons]
  rcases hp with rfl | rfl
  · simp [gen, parityQ]
  · have : Complex.exp (Complex.I * (2 * Real.pi * (gen f 2 (parityQ (-1))).q / (gen f 2 (parityQ (-1))).per * (1 : Nat) : ℝ))
        = -1 := by
      rw [← Complex.exp_pi_mul_I]
      congr 1
      simp [gen, parityQ]
      ring
    rw [this]; simp

/-- root of unity -/
noncomputable def root (n : Nat) (k : Int) (c : Nat) : ℂ := Complex.exp (Complex.I * (2 * Real.pi * k / n * c : ℝ))

theorem root_zero (n : Nat) (k : Int) : root n k 0 = 1 := by simp [root]

theorem root_add (n : Nat) (k : Int) (a b : Nat) : root n k (a + b) = root n k a * root n k b := by
  unfold root
  rw [← Complex.exp_add]
  congr 1
  push_cast
  ring

theorem root_mul (n : Nat) (k : Int) (a b : Nat) : root n k (a * b) = root n k a ^ b := by
  induction b with
  | zero => simp [root_zero]
  | succ b ih => rw [Nat.mul_succ, root_add, ih, pow_succ]

theorem root_eq_one (n : Nat) (hn : 0 < n) (k c : Nat) : root n k c = 1 ↔ n ∣ k * c := by
  unfold root
  rw [Complex.exp_eq_one_iff]
  have hn' : (n : ℂ) ≠ 0 := by exact_mod_cast Nat.pos_iff_ne_zero.1 hn
  have hpi : (Real.pi : ℂ) ≠ 0 := by exact_mod_cast Real.pi_ne_zero
  constructor
  · rintro ⟨m, hm⟩
    push_cast at hm
    have h1 : (k : ℂ) * c = n * m := by
      field_simp at hm
      exact hm
    have h2 : ((k * c : ℕ) : ℤ) = n * m := by exact_mod_cast h1
    have : (n : ℤ) ∣ ((k * c : ℕ) : ℤ) := ⟨m, h2⟩
    exact_mod_cast this
  · rintro ⟨m, hm⟩
    refine ⟨m, ?_⟩
    have h1 : (k : ℂ) * c = n * m := by exact_mod_cast hm
    push_cast
    field_simp
    exact h1

theorem root_neg_one (n : Nat) (hn : 0 < n) (k c : Nat) : root n k c = -1 ↔ n ∣ 2 * k * c ∧ ¬ n ∣ k * c := by
  rw [show 2 * k * c = k * (c * 2) by ring, ← root_eq_one n hn, ← root_eq_one n hn, root_mul]
  constructor
  · intro h; rw [h]; norm_num
  · rintro ⟨h1, h2⟩
    have h3 : (root n k c - 1) * (root n k c + 1) = 0 := by linear_combination h1
    rcases mul_eq_zero.1 h3 with h | h
    · exact absurd (sub_eq_zero.1 h) h2
    · exact eq_neg_of_add_eq_zero_left h

theorem root_ne_zero (n : Nat) (k : Int) (c : Nat) : root n k c ≠ 0 := Complex.exp_ne_zero _

theorem conj_real {z : ℂ} {a : Int} (h : (starRingEnd ℂ) z * a = 1) (ha : a = 1 ∨ a = -1) : z = a := by
  have h2 : (starRingEnd ℂ) ((starRingEnd ℂ) z * a) = 1 := by rw [h]; simp
  rw [map_mul, Complex.conj_conj] at h2
  rcases ha with rfl | rfl
  · simpa using h2
  · simp at h2 ⊢; rw [← h2]; simp

/-- the integer test of the sources decides compatibility of the momentum -/
theorem momentumFits_iff (n T k i : Nat) (hn : 0 < n) (hT : 0 < T) (a : Int) (ha : a = 1 ∨ a = -1) :
    momentumFits k (n * T) T i a = true ↔ (starRingEnd ℂ) (root n k i) * a = 1 := by
  have hiff : (starRingEnd ℂ) (root n k i) * a = 1 ↔ root n k i = a := by
    constructor
    · intro h; exact conj_real h ha
    · intro h; rw [h]; rcases ha with rfl | rfl <;> simp
  rw [hiff]
  unfold momentumFits
  rcases ha with rfl | rfl
  · rw [if_pos (by decide), decide_eq_true_eq]
    push_cast
    rw [root_eq_one n hn, ← Nat.dvd_iff_mod_eq_zero, show k * T * i = k * i * T by ring]
    exact Nat.mul_dvd_mul_iff_right hT
  · rw [if_neg (by decide)]
    push_cast
    rw [root_neg_one n hn]
    simp only [Bool.not_eq_true', Bool.or_eq_false_iff, decide_eq_false_iff_not, ne_eq, not_not]
    rw [show 2 * T * i * k = 2 * k * i * T by ring, show 2 * k * T * i = 2 * k * i * T by ring,
      Nat.mul_div_mul_right _ _ hT,
      show (2 * k * i * T % (n * T) = 0) = (n * T ∣ 2 * k * i * T) from propext (Nat.dvd_iff_mod_eq_zero).symm,
      Nat.mul_dvd_mul_iff_right hT]
    constructor
    · rintro ⟨h1, h2⟩
      refine ⟨h2, ?_⟩
      rintro ⟨m, hm⟩
      apply h1
      rw [show 2 * k * i = n * (2 * m) by rw [Nat.mul_assoc, hm]; ring, Nat.mul_div_cancel_left _ hn]
      omega
    · rintro ⟨⟨m, hm⟩, h2⟩
      refine ⟨?_, ⟨m, hm⟩⟩
      rw [hm, Nat.mul_div_cancel_left _ hn]
      intro he
      apply h2
      refine ⟨m / 2, ?_⟩
      have : m = 2 * (m / 2) := by omega
      rw [this] at hm
      have h3 : 2 * (k * i) = 2 * (n * (m / 2)) := by rw [← Nat.mul_assoc, hm]; ring
      omega

/-! ### one operation of order two -/

theorem exponents_two (f : BitOp) (q : Int) : exponents [gen f 2 q] = [[0], [1]] := rfl

theorem stab_two (f : BitOp) (q : Int) (s : Nat) :
    (stab [gen f 2 q] s).length = if (f s).1 = s then 2 else 1 := by
  unfold stab
  rw [exponents_two]
  by_cases h : (f s).1 = s <;> simp [word, gen_U, step, h]

theorem checkOne_pos (q : Int) (s : Nat) (x : Nat × Int) :
    0 < checkOne q s x ↔ x.1 ≤ s ∧ (x.1 = s → q * x.2 ≠ -1) := by
  unfold checkOne
  by_cases h1 : x.1 < s
  · simp only [if_pos h1]
    refine ⟨fun _ => ⟨by omega, fun h => by omega⟩, fun _ => by omega⟩
  · rw [if_neg h1]
    by_cases h2 : x.1 = s
    · rw [if_pos h2]
      by_cases h3 : q * x.2 ≠ -1
      · rw [if_pos h3]; exact ⟨fun _ => ⟨by omega, fun _ => h3⟩, fun _ => by omega⟩
      · rw [if_neg h3]; exact ⟨fun h => by omega, fun h => absurd (h.2 h2) h3⟩
    · rw [if_neg h2]; exact ⟨fun h => by omega, fun h => by omega⟩

theorem pm_mul {a b : Int} (ha : a = 1 ∨ a = -1) (hb : b = 1 ∨ b = -1) : a * b = 1 ∨ a * b = -1 := by
  rcases ha with rfl | rfl <;> rcases hb with rfl | rfl <;> decide

theorem chi_two (f : BitOp) (p : Int) (hp : p = 1 ∨ p = -1) (s : Nat) :
    chi [gen f 2 (parityQ p)] s [1] = ((p * (f s).2 : Int) : ℂ) := by
  unfold chi
  rw [parity_one p hp, character_nil]
  simp [word, gen_U, step]

theorem check_two (f : BitOp) (p : Int) (hp : p = 1 ∨ p = -1) (h : Acts S [gen f 2 (parityQ p)]) (s : Nat) (hs : S s) :
    (0 < checkOne p s (step f (s, 1)) ↔
      (∀ t, Related [gen f 2 (parityQ p)] s t → t ≤ s) ∧ ∃ t, projection [gen f 2 (parityQ p)] s t ≠ 0) ∧
    (0 < checkOne p s (step f (s, 1)) →
      (checkOne p s (step f (s, 1)) : ℂ) = 2 * projection [gen f 2 (parityQ p)] s s) := by
  have hsg : (f s).2 = 1 ∨ (f s).2 = -1 := h.sign (gen f 2 (parityQ p)) (by simp) s hs
  have hiff : (0 < checkOne p s (step f (s, 1)) ↔
      (∀ t, Related [gen f 2 (parityQ p)] s t → t ≤ s) ∧ ∃ t, projection [gen f 2 (parityQ p)] s t ≠ 0) := by
    rw [member_iff h s hs, exponents_two, checkOne_pos]
    simp only [List.mem_cons, List.not_mem_nil, or_false, forall_eq_or_imp, forall_eq, chi_two f p hp]
    have e0 : word [gen f 2 (parityQ p)] [0] (s, 1) = (s, 1) := rfl
    have e1 : word [gen f 2 (parityQ p)] [1] (s, 1) = step f (s, 1) := rfl
    have e2 : chi [gen f 2 (parityQ p)] s [0] = 1 := by
      unfold chi; rw [e0, character_zero_cons, character_nil]; simp
    rw [e0, e1, e2]
    have : p * (step f (s, 1)).2 ≠ -1 ↔ ((p * (f s).2 : Int) : ℂ) = 1 := by
      have : (step f (s, 1)).2 = (f s).2 := by simp [step]
      rw [this]
      rcases pm_mul hp hsg with e | e <;> rw [e] <;> norm_num
    rw [this]
    simp
  refine ⟨hiff, fun hpos => ?_⟩
  rw [projection_stab h s hs (hiff.1 hpos).2, stab_two]
  rw [checkOne_pos] at hpos
  have e : (step f (s, 1)).1 = (f s).1 := rfl
  rw [e] at hpos
  unfold checkOne
  rw [e]
  by_cases h1 : (f s).1 = s
  · rw [if_neg (by omega), if_pos h1, if_pos (hpos.2 h1), if_pos h1]; norm_num
  · rw [if_pos (by omega), if_neg h1]; norm_num

/-! ### translations -/

/-- the translates of `s` with their signs -/
abbrev tr (Tr : BitOp) (s i : Nat) : Nat × Int := (step Tr)^[i] (s, 1)

theorem tr_succ (Tr : BitOp) (s i : Nat) : tr Tr s (i + 1) = step Tr (tr Tr s i) := Function.iterate_succ_apply' _ _ _

/-- the first loop: the first round that is not below `s` decides -/
theorem translates_spec (Tr : BitOp) (fits : Nat → Int → Bool) (s : Nat) : ∀ (n i : Nat),
    (∃ r, i < r ∧ r ≤ i + n ∧ (∀ j, i < j → j < r → (tr Tr s j).1 < s) ∧
      (((tr Tr s r).1 > s ∧ translates Tr fits s n (i + 1) (tr Tr s i) = .reject) ∨
       ((tr Tr s r).1 = s ∧ translates Tr fits s n (i + 1) (tr Tr s i)
          = if fits r (tr Tr s r).2 then .found r (tr Tr s r).2 else .reject))) ∨
    ((∀ j, i < j → j ≤ i + n → (tr Tr s j).1 < s) ∧ translates Tr fits s n (i + 1) (tr Tr s i) = .exhausted) := by
  intro n
  induction n with
  | zero => intro i; right; exact ⟨fun j h1 h2 => by omega, rfl⟩
  | succ n ih =>
    intro i
    rw [translates]
    simp only [← tr_succ]
    by_cases h1 : (tr Tr s (i + 1)).1 > s
    · left
      exact ⟨i + 1, by omega, by omega, fun j h1 h2 => by omega, Or.inl ⟨h1, by rw [if_pos h1]⟩⟩
    · rw [if_neg h1]
      by_cases h2 : (tr Tr s (i + 1)).1 = s
      · left
        exact ⟨i + 1, by omega, by omega, fun j h1 h2 => by omega, Or.inr ⟨h2, by rw [if_pos h2]⟩⟩
      · rw [if_neg h2]
        rcases ih (i + 1) with ⟨r, h3, h4, h5, h6⟩ | ⟨h3, h4⟩
        · left
          refine ⟨r, by omega, by omega, fun j h7 h8 => ?_, h6⟩
          rcases Nat.lt_or_ge (i + 1) j with h9 | h9
          · exact h5 j h9 h8
          · rw [show j = i + 1 by omega]; omega
        · right
          refine ⟨fun j h7 h8 => ?_, h4⟩
          rcases Nat.lt_or_ge (i + 1) j with h9 | h9
          · exact h3 j h9 (by omega)
          · rw [show j = i + 1 by omega]; omega

/-- what is used of a translation with `n` steps on the states `S` -/
structure Cyclic (S : Nat → Prop) (Tr : BitOp) (n : Nat) : Prop where
  pos : 0 < n
  closed : ∀ s, S s → S (Tr s).1
  sign : ∀ s, S s → (Tr s).2 = 1 ∨ (Tr s).2 = -1
  period : ∀ s, S s → tr Tr s n = (s, 1)

theorem Cyclic.of_acts {Tr : BitOp} {n : Nat} {k : Int} (h : Acts S ys) (hy : gen Tr n k ∈ ys) : Cyclic S Tr n :=
  ⟨h.per_pos _ hy, h.closed _ hy, h.sign _ hy, h.period _ hy⟩

theorem iter_step_scale (Tr : BitOp) (i : Nat) (t : Nat) (a : Int) :
    (step Tr)^[i] (t, a) = ((tr Tr t i).1, a * (tr Tr t i).2) := by
  have := iter_scale (gen Tr 1 0) a i (t, 1)
  rw [gen_U] at this
  simp only [scale, mul_one] at this
  exact this

section
variable {Tr : BitOp} {n : Nat}

theorem Cyclic.closed_iter (h : Cyclic S Tr n) {s : Nat} (hs : S s) (i : Nat) : S (tr Tr s i).1 := by
  induction i with
  | zero => exact hs
  | succ i ih => rw [tr_succ]; exact h.closed _ ih

theorem Cyclic.sign_iter (h : Cyclic S Tr n) {s : Nat} (hs : S s) (i : Nat) : (tr Tr s i).2 = 1 ∨ (tr Tr s i).2 = -1 := by
  induction i with
  | zero => left; rfl
  | succ i ih => rw [tr_succ]; exact pm_mul ih (h.sign _ (h.closed_iter hs i))

/-- going on from a translate -/
theorem tr_add (Tr : BitOp) (s i j : Nat) :
    tr Tr s (i + j) = ((tr Tr (tr Tr s j).1 i).1, (tr Tr s j).2 * (tr Tr (tr Tr s j).1 i).2) := by
  unfold tr
  rw [Function.iterate_add_apply]
  exact iter_step_scale Tr i (tr Tr s j).1 (tr Tr s j).2

/-- multiples of a period -/
theorem tr_multiple {s r : Nat} {a : Int} (hr : tr Tr s r = (s, a)) (j : Nat) : tr Tr s (r * j) = (s, a ^ j) := by
  induction j with
  | zero => simp [tr]
  | succ j ih => rw [Nat.mul_succ, tr_add, hr]; simp only [ih, pow_succ, mul_comm]

/-- the least period -/
structure Least (Tr : BitOp) (s r : Nat) : Prop where
  pos : 0 < r
  back : (tr Tr s r).1 = s
  least : ∀ j, 0 < j → j < r → (tr Tr s j).1 ≠ s

theorem Least.tr_eq {s r : Nat} (h : Least Tr s r) : tr Tr s r = (s, (tr Tr s r).2) :=
  Prod.ext h.back rfl

theorem Least.mod {s r : Nat} (h : Least Tr s r) (c : Nat) : (tr Tr s c).1 = (tr Tr s (c % r)).1 := by
  conv_lhs => rw [← Nat.mod_add_div c r, tr_add, tr_multiple h.tr_eq]

theorem Least.iff_dvd {s r : Nat} (h : Least Tr s r) (c : Nat) : (tr Tr s c).1 = s ↔ r ∣ c := by
  rw [h.mod c]
  constructor
  · intro e
    by_contra hne
    have h1 : 0 < c % r := Nat.pos_of_ne_zero fun h0 => hne (Nat.dvd_of_mod_eq_zero h0)
    exact h.least _ h1 (Nat.mod_lt _ h.pos) e
  · intro e
    rw [Nat.mod_eq_zero_of_dvd e]; rfl

theorem exists_least (h : Cyclic S Tr n) {s : Nat} (hs : S s) : ∃ r, Least Tr s r ∧ r ≤ n := by
  classical
  have hex : ∃ r, 0 < r ∧ (tr Tr s r).1 = s := ⟨n, h.pos, by rw [h.period s hs]⟩
  refine ⟨Nat.find hex, ⟨(Nat.find_spec hex).1, (Nat.find_spec hex).2, ?_⟩, Nat.find_min' hex ⟨h.pos, by rw [h.period s hs]⟩⟩
  intro j h1 h2 e
  exact Nat.find_min hex h2 ⟨h1, e⟩

theorem Least.unique {s r r' : Nat} (h : Least Tr s r) (h' : Least Tr s r') : r = r' := by
  have h1 := (h.iff_dvd r').1 h'.back
  have h2 := (h'.iff_dvd r).1 h.back
  exact Nat.dvd_antisymm h1 h2

/-- result of the first loop in terms of the least period -/
theorem translates_least (h : Cyclic S Tr n) {s r : Nat} (hs : S s) (hr : Least Tr s r) (fits : Nat → Int → Bool) :
    translates Tr fits s n 1 (s, 1) =
      if (∀ j, j < r → (tr Tr s j).1 ≤ s) ∧ fits r (tr Tr s r).2 = true then .found r (tr Tr s r).2 else .reject := by
  have hrn : r ≤ n := by
    obtain ⟨r', h1, h2⟩ := exists_least h hs
    rw [hr.unique h1]; exact h2
  rcases translates_spec Tr fits s n 0 with ⟨r', h1, h2, h3, h4⟩ | ⟨h3, h4⟩
  · change (_ ∧ translates Tr fits s n 1 (s, 1) = _) ∨ (_ ∧ translates Tr fits s n 1 (s, 1) = _) at h4
    rcases h4 with ⟨h5, h6⟩ | ⟨h5, h6⟩
    · rw [h6, if_neg]
      rintro ⟨h7, _⟩
      have h8 := h7 (r' % r) (Nat.mod_lt _ hr.pos)
      rw [← hr.mod] at h8
      omega
    · have : r = r' := by
        refine hr.unique ⟨h1, h5, fun j h7 h8 e => ?_⟩
        have := h3 j h7 h8
        omega
      subst this
      rw [h6]
      by_cases hf : fits r (tr Tr s r).2 = true
      · rw [if_pos hf, if_pos]
        refine ⟨fun j hj => ?_, hf⟩
        rcases Nat.eq_zero_or_pos j with rfl | hj0
        · exact le_refl s
        · exact Nat.le_of_lt (h3 j hj0 hj)
      · rw [if_neg hf, if_neg fun h => hf h.2]
  · have := h3 r hr.pos (by omega)
    rw [hr.back] at this
    omega

theorem root_gen (Tr : BitOp) (n : Nat) (k : Int) (c : Nat) (ys : List Generator) (cs : List Nat) :
    character (gen Tr n k :: ys) (c :: cs) = root n k c * character ys cs := by
  rw [character_cons]; rfl

theorem word_one (Tr : BitOp) (n : Nat) (k : Int) (c s : Nat) : word [gen Tr n k] [c] (s, 1) = tr Tr s c := by
  unfold tr; rw [← gen_U Tr n k]; rfl

theorem exponents_one (Tr : BitOp) (n : Nat) (k : Int) : exponents [gen Tr n k] = (List.range n).map fun c => [c] := by
  simp [exponents, gen]

theorem count_multiples (n r : Nat) (hr : 0 < r) (hd : r ∣ n) :
    ((List.range n).filter fun c => decide (r ∣ c)).length * r = n := by
  obtain ⟨m, rfl⟩ := hd
  have : ∀ m, ((List.range (r * m)).filter fun c => decide (r ∣ c)).length = m := by
    intro m
    induction m with
    | zero => simp
    | succ m ih =>
      rw [Nat.mul_succ, List.range_add, List.filter_append, List.length_append, ih]
      congr 1
      rw [List.filter_map, List.length_map]
      obtain ⟨q, rfl⟩ : ∃ q, r = q + 1 := ⟨r - 1, by omega⟩
      rw [List.range_succ_eq_map, List.filter_cons]
      simp only [Function.comp_apply, add_zero, Nat.dvd_mul_right, decide_true, if_true, List.length_cons]
      rw [List.filter_eq_nil_iff.2]
      · rfl
      · intro x hx
        rw [List.mem_map] at hx
        obtain ⟨y, hy, rfl⟩ := hx
        rw [List.mem_range] at hy
        simp only [Function.comp_apply, decide_eq_true_eq]
        rw [Nat.dvd_add_right (Nat.dvd_mul_right _ _)]
        intro hd
        have := Nat.le_of_dvd (by omega) hd
        omega
  rw [this m, Nat.mul_comm]

/-- trivial character on the least period gives trivial characters on all returns -/
theorem chi_returns {s r : Nat} (hr : Least Tr s r) (k : Int)
    (hf : (starRingEnd ℂ) (root n k r) * (tr Tr s r).2 = 1) (c : Nat) (hc : (tr Tr s c).1 = s) :
    (starRingEnd ℂ) (root n k c) * (tr Tr s c).2 = 1 := by
  obtain ⟨j, rfl⟩ := (hr.iff_dvd c).1 hc
  rw [tr_multiple hr.tr_eq, root_mul, map_pow]
  push_cast
  rw [← mul_pow, hf, one_pow]

theorem check_t (T k L : Nat) (hT : 0 < T) (hd : T ∣ L) (h : Acts S [gen Tr (L / T) k]) (s : Nat) (hs : S s) :
    (0 < checkT Tr k L T s ↔
      (∀ t, Related [gen Tr (L / T) k] s t → t ≤ s) ∧ ∃ t, projection [gen Tr (L / T) k] s t ≠ 0) ∧
    (0 < checkT Tr k L T s → ∃ r, Least Tr s r ∧ checkT Tr k L T s = r ∧
      projection [gen Tr (L / T) k] s s * r = (L / T : Nat)) := by
  obtain ⟨n, rfl⟩ := hd
  rw [Nat.mul_div_cancel_left _ hT] at *
  have hcy : Cyclic S Tr n := Cyclic.of_acts h (k := k) (by simp)
  obtain ⟨r, hr, hrn⟩ := exists_least hcy hs
  have hfit := momentumFits_iff n T k r hcy.pos hT _ (hcy.sign_iter hs r)
  rw [Nat.mul_comm n T] at hfit
  have hchi : ∀ c, chi [gen Tr n k] s [c] = (starRingEnd ℂ) (root n k c) * (tr Tr s c).2 := by
    intro c
    unfold chi
    rw [root_gen, character_nil, mul_one, word_one]
  have hval : checkT Tr k (T * n) T s =
      if (∀ j, j < r → (tr Tr s j).1 ≤ s) ∧ momentumFits k (T * n) T r (tr Tr s r).2 = true then (r : Int) else -1 := by
    unfold checkT
    rw [Nat.mul_div_cancel_left _ hT, translates_least hcy hs hr]
    split_ifs <;> rfl
  have hiff : (0 < checkT Tr k (T * n) T s ↔
      (∀ t, Related [gen Tr n k] s t → t ≤ s) ∧ ∃ t, projection [gen Tr n k] s t ≠ 0) := by
    rw [member_iff h s hs, exponents_one, hval]
    constructor
    · intro hpos
      have hc : (∀ j, j < r → (tr Tr s j).1 ≤ s) ∧ momentumFits k (T * n) T r (tr Tr s r).2 = true := by
        by_contra hn
        rw [if_neg hn] at hpos
        omega
      intro cs hcs
      rw [List.mem_map] at hcs
      obtain ⟨c, _, rfl⟩ := hcs
      rw [word_one, hchi]
      refine ⟨by rw [hr.mod]; exact hc.1 _ (Nat.mod_lt _ hr.pos), fun e => chi_returns hr k (hfit.1 hc.2) c e⟩
    · intro hall
      rw [if_pos]
      · have := hr.pos; omega
      · refine ⟨fun j hj => ?_, hfit.2 ?_⟩
        · have := (hall [j] (List.mem_map.2 ⟨j, List.mem_range.2 (by omega), rfl⟩)).1
          rwa [word_one] at this
        · rcases Nat.lt_or_ge r n with hlt | hge
          · have := (hall [r] (List.mem_map.2 ⟨r, List.mem_range.2 hlt, rfl⟩)).2
            rw [word_one, hchi] at this
            exact this hr.back
          · have e : r = n := by omega
            have h1 : root n k n = 1 := (root_eq_one n hcy.pos k n).2 (Nat.dvd_mul_left _ _)
            rw [e, h1, hcy.period s hs]
            simp
  refine ⟨hiff, fun hpos => ⟨r, hr, ?_, ?_⟩⟩
  · rw [hval] at hpos ⊢
    by_contra hn
    split_ifs at hpos hn with hc
    · exact hn rfl
    · omega
  · rw [projection_stab h s hs (hiff.1 hpos).2]
    have hst : (stab [gen Tr n k] s).length = ((List.range n).filter fun c => decide (r ∣ c)).length := by
      unfold stab
      rw [exponents_one, List.filter_map, List.length_map]
      congr 1
      apply List.filter_congr
      intro c _
      simp only [Function.comp_apply, word_one, hr.iff_dvd]
    rw [hst]
    have hd : r ∣ n := (hr.iff_dvd n).1 (by rw [hcy.period s hs])
    exact_mod_cast count_multiples n r hr.pos hd

end

/-! ### two operations of order two -/

theorem exponents_pair (f g : BitOp) (p q : Int) :
    exponents [gen f 2 p, gen g 2 q] = [[0, 0], [1, 0], [0, 1], [1, 1]] := rfl

theorem checkOne_eq (q : Int) (s : Nat) (x : Nat × Int) (h : 0 < checkOne q s x) :
    checkOne q s x = if x.1 = s then 4 else 2 := by
  have h' := (checkOne_pos q s x).1 h
  unfold checkOne at h ⊢
  by_cases h1 : x.1 = s
  · rw [if_neg (by omega), if_pos h1, if_pos (h'.2 h1), if_pos h1]
  · rw [if_pos (by omega), if_neg h1]

theorem combine_pos (a b c : Int) : 0 < combine a b c ↔ 0 ≤ a ∧ 0 ≤ b ∧ 0 ≤ c := by
  unfold combine
  split_ifs <;> omega

theorem checkOne_nonneg (q : Int) (s : Nat) (x : Nat × Int) : 0 ≤ checkOne q s x ↔ 0 < checkOne q s x := by
  unfold checkOne
  split_ifs <;> omega

theorem checkOne_pm (q : Int) (s : Nat) (x : Nat × Int) (hq : q = 1 ∨ q = -1) (hx : x.2 = 1 ∨ x.2 = -1) :
    0 < checkOne q s x ↔ x.1 ≤ s ∧ (x.1 = s → ((q * x.2 : Int) : ℂ) = 1) := by
  rw [checkOne_pos]
  have : q * x.2 ≠ -1 ↔ ((q * x.2 : Int) : ℂ) = 1 := by
    rcases pm_mul hq hx with e | e <;> rw [e] <;> norm_num
  rw [this]

theorem check_pair (f g : BitOp) (p q : Int) (hp : p = 1 ∨ p = -1) (hq : q = 1 ∨ q = -1)
    (h : Acts S [gen f 2 (parityQ p), gen g 2 (parityQ q)]) (s : Nat) (hs : S s) (x : Nat × Int)
    (hx : x = step f (step g (s, 1))) :
    (0 < combine (checkOne p s (step f (s, 1))) (checkOne q s (step g (s, 1))) (checkOne (p * q) s x) ↔
      (∀ t, Related [gen f 2 (parityQ p), gen g 2 (parityQ q)] s t → t ≤ s) ∧
        ∃ t, projection [gen f 2 (parityQ p), gen g 2 (parityQ q)] s t ≠ 0) ∧
    (0 < combine (checkOne p s (step f (s, 1))) (checkOne q s (step g (s, 1))) (checkOne (p * q) s x) →
      (combine (checkOne p s (step f (s, 1))) (checkOne q s (step g (s, 1))) (checkOne (p * q) s x) : ℂ)
        = 4 * projection [gen f 2 (parityQ p), gen g 2 (parityQ q)] s s) := by
  have hf : ∀ t, S t → (f t).2 = 1 ∨ (f t).2 = -1 := h.sign (gen f 2 (parityQ p)) (by simp)
  have hg : ∀ t, S t → (g t).2 = 1 ∨ (g t).2 = -1 := h.sign (gen g 2 (parityQ q)) (by simp)
  have hgc : S (g s).1 := h.closed (gen g 2 (parityQ q)) (by simp) s hs
  have hcomm : step f (step g (s, 1)) = step g (step f (s, 1)) :=
    h.commute (gen f 2 (parityQ p)) (by simp) (gen g 2 (parityQ q)) (by simp) s hs
  have hff : step f (step f (s, 1)) = (s, 1) := h.period (gen f 2 (parityQ p)) (by simp) s hs
  have hgg : step g (step g (s, 1)) = (s, 1) := h.period (gen g 2 (parityQ q)) (by simp) s hs
  have e00 : word [gen f 2 (parityQ p), gen g 2 (parityQ q)] [0, 0] (s, 1) = (s, 1) := rfl
  have e10 : word [gen f 2 (parityQ p), gen g 2 (parityQ q)] [1, 0] (s, 1) = step f (s, 1) := rfl
  have e01 : word [gen f 2 (parityQ p), gen g 2 (parityQ q)] [0, 1] (s, 1) = step g (s, 1) := rfl
  have e11 : word [gen f 2 (parityQ p), gen g 2 (parityQ q)] [1, 1] (s, 1) = x := by rw [hx]; rfl
  have hx2 : x.2 = 1 ∨ x.2 = -1 := by
    rw [hx]
    exact pm_mul (by simpa [step] using hg s hs) (hf _ hgc)
  have c00 : chi [gen f 2 (parityQ p), gen g 2 (parityQ q)] s [0, 0] = 1 := by
    unfold chi; rw [e00, character_zero_cons, character_zero_cons, character_nil]; simp
  have c10 : chi [gen f 2 (parityQ p), gen g 2 (parityQ q)] s [1, 0] = ((p * (step f (s, 1)).2 : Int) : ℂ) := by
    unfold chi; rw [e10, parity_one p hp, character_zero_cons, character_nil]; simp
  have c01 : chi [gen f 2 (parityQ p), gen g 2 (parityQ q)] s [0, 1] = ((q * (step g (s, 1)).2 : Int) : ℂ) := by
    unfold chi; rw [e01, character_zero_cons, parity_one q hq, character_nil]; simp
  have c11 : chi [gen f 2 (parityQ p), gen g 2 (parityQ q)] s [1, 1] = ((p * q * x.2 : Int) : ℂ) := by
    unfold chi; rw [e11, parity_one p hp, parity_one q hq, character_nil]; simp
  have hiff : (0 < combine (checkOne p s (step f (s, 1))) (checkOne q s (step g (s, 1))) (checkOne (p * q) s x) ↔
      (∀ t, Related [gen f 2 (parityQ p), gen g 2 (parityQ q)] s t → t ≤ s) ∧
        ∃ t, projection [gen f 2 (parityQ p), gen g 2 (parityQ q)] s t ≠ 0) := by
    rw [member_iff h s hs, exponents_pair, combine_pos, checkOne_nonneg, checkOne_nonneg, checkOne_nonneg,
      checkOne_pm p s _ hp (by simpa [step] using hf s hs), checkOne_pm q s _ hq (by simpa [step] using hg s hs),
      checkOne_pm (p * q) s _ (pm_mul hp hq) hx2]
    simp only [List.mem_cons, List.not_mem_nil, or_false, forall_eq_or_imp, forall_eq, e00, e10, e01, e11, c00, c10,
      c01, c11]
    simp
  refine ⟨hiff, fun hpos => ?_⟩
  rw [projection_stab h s hs (hiff.1 hpos).2]
  have hst : (stab [gen f 2 (parityQ p), gen g 2 (parityQ q)] s).length =
      1 + (if (step f (s, 1)).1 = s then 1 else 0) + (if (step g (s, 1)).1 = s then 1 else 0) + (if x.1 = s then 1 else 0) := by
    unfold stab
    rw [exponents_pair]
    simp only [List.filter_cons, e00, e10, e01, e11, List.filter_nil]
    by_cases h1 : (step f (s, 1)).1 = s <;> by_cases h2 : (step g (s, 1)).1 = s <;> by_cases h3 : x.1 = s <;>
      simp [h1, h2, h3]
  rw [hst]
  rw [combine_pos, checkOne_nonneg, checkOne_nonneg, checkOne_nonneg] at hpos
  rw [checkOne_eq _ _ _ hpos.1, checkOne_eq _ _ _ hpos.2.1, checkOne_eq _ _ _ hpos.2.2]
  have i1 : (step f (s, 1)).1 = s → (step g (s, 1)).1 = s → x.1 = s := by
    intro a b
    rw [hx]
    change (f (g s).1).1 = s
    rw [show (g s).1 = s from b]
    exact a
  have i2 : (step f (s, 1)).1 = s → x.1 = s → (step g (s, 1)).1 = s := by
    intro a b
    rw [hx, hcomm] at b
    change (g (f s).1).1 = s at b
    rw [show (f s).1 = s from a] at b
    exact b
  have i3 : (step g (s, 1)).1 = s → x.1 = s → (step f (s, 1)).1 = s := by
    intro a b
    rw [hx] at b
    change (f (g s).1).1 = s at b
    rw [show (g s).1 = s from a] at b
    exact b
  by_cases h1 : (step f (s, 1)).1 = s <;> by_cases h2 : (step g (s, 1)).1 = s <;> by_cases h3 : x.1 = s <;>
    simp only [h1, h2, h3, if_true, if_false, combine] <;> first
      | exact absurd (i1 h1 h2) h3
      | exact absurd (i2 h1 h3) h2
      | exact absurd (i3 h2 h3) h1
      | norm_num

/-! ### translations and one operation of order two -/

section
variable {Tr Z : BitOp} {n : Nat}

/-- the second loop -/
theorem transformed_spec (Tr : BitOp) (s t : Nat) (a : Int) : ∀ (n i : Nat),
    (∃ m, i ≤ m ∧ m < i + n ∧ (∀ j, i ≤ j → j < m → (tr Tr t j).1 < s) ∧
      (((tr Tr t m).1 > s ∧ transformed Tr s n i ((step Tr)^[i] (t, a)) = .reject) ∨
       ((tr Tr t m).1 = s ∧ transformed Tr s n i ((step Tr)^[i] (t, a)) = .found m (a * (tr Tr t m).2)))) ∨
    ((∀ j, i ≤ j → j < i + n → (tr Tr t j).1 < s) ∧ transformed Tr s n i ((step Tr)^[i] (t, a)) = .exhausted) := by
  intro n
  induction n with
  | zero => intro i; right; exact ⟨fun j h1 h2 => by omega, rfl⟩
  | succ n ih =>
    intro i
    rw [transformed, ← Function.iterate_succ_apply' (step Tr)]
    have e : (step Tr)^[i] (t, a) = ((tr Tr t i).1, a * (tr Tr t i).2) := iter_step_scale Tr i t a
    by_cases h1 : (tr Tr t i).1 > s
    · left
      exact ⟨i, le_refl _, by omega, fun j h1 h2 => by omega, Or.inl ⟨h1, by rw [e, if_pos h1]⟩⟩
    · by_cases h2 : (tr Tr t i).1 = s
      · left
        exact ⟨i, le_refl _, by omega, fun j h1 h2 => by omega, Or.inr ⟨h2, by rw [e, if_neg h1, if_pos h2]⟩⟩
      · have e1 : (((step Tr)^[i] (t, a)).1 > s) = False := by rw [e]; simpa using h1
        have e2 : (((step Tr)^[i] (t, a)).1 = s) = False := by rw [e]; simpa using h2
        simp only [e1, e2, if_false]
        rcases ih (i + 1) with ⟨m, h3, h4, h5, h6⟩ | ⟨h3, h4⟩
        · left
          refine ⟨m, by omega, by omega, fun j h7 h8 => ?_, h6⟩
          rcases Nat.lt_or_ge i j with h9 | h9
          · exact h5 j (by omega) h8
          · rw [show j = i by omega]; omega
        · right
          refine ⟨fun j h7 h8 => ?_, h4⟩
          rcases Nat.lt_or_ge i j with h9 | h9
          · exact h3 j (by omega) (by omega)
          · rw [show j = i by omega]; omega

theorem count_residue (n r m : Nat) (hr : 0 < r) (hd : r ∣ n) (hm : m < r) :
    ((List.range n).filter fun c => decide (c % r = m)).length * r = n := by
  obtain ⟨q, rfl⟩ := hd
  have : ∀ q, ((List.range (r * q)).filter fun c => decide (c % r = m)).length = q := by
    intro q
    induction q with
    | zero => simp
    | succ q ih =>
      rw [Nat.mul_succ, List.range_add, List.filter_append, List.length_append, ih]
      congr 1
      rw [List.filter_map, List.length_map]
      have e : (List.range r).filter ((fun c => decide (c % r = m)) ∘ fun x => r * q + x)
          = (List.range r).filter (fun c => c == m) := by
        apply List.filter_congr
        intro c hc
        rw [List.mem_range] at hc
        simp only [Function.comp_apply, Nat.mul_add_mod, Nat.mod_eq_of_lt hc]
        rfl
      rw [e, ← List.count_eq_length_filter, List.count_eq_one_of_mem List.nodup_range (List.mem_range.2 hm)]
  rw [this q, Nat.mul_comm]

theorem exponents_tz (f g : BitOp) (n : Nat) (k q : Int) :
    exponents [gen f n k, gen g 2 q] = ((List.range n).map fun c => [c, 0]) ++ ((List.range n).map fun c => [c, 1]) := by
  simp [exponents, gen, List.range_succ]

/-- situation of a translation and a commuting operation of order two -/
structure Pair (S : Nat → Prop) (Tr Z : BitOp) (n : Nat) : Prop where
  cyc : Cyclic S Tr n
  closed : ∀ s, S s → S (Z s).1
  sign : ∀ s, S s → (Z s).2 = 1 ∨ (Z s).2 = -1
  square : ∀ s, S s → step Z (step Z (s, 1)) = (s, 1)
  commute : ∀ s, S s → ∀ c, (step Tr)^[c] (step Z (s, 1)) = step Z (tr Tr s c)

theorem Pair.of_acts {k q : Int} (h : Acts S [gen Tr n k, gen Z 2 q]) : Pair S Tr Z n where
  cyc := Cyclic.of_acts h (k := k) (by simp)
  closed := h.closed (gen Z 2 q) (by simp)
  sign := h.sign (gen Z 2 q) (by simp)
  square := fun s hs => h.period (gen Z 2 q) (by simp) s hs
  commute := fun s hs c =>
    (iter_comm1 h (y := gen Tr n k) (z := gen Z 2 q) (by simp) (by simp) c (x := (s, 1)) hs).symm

theorem Pair.tr_fst (h : Pair S Tr Z n) {s : Nat} (hs : S s) (c : Nat) :
    (tr Tr (Z s).1 c).1 = (Z (tr Tr s c).1).1 := by
  have := congrArg Prod.fst (h.commute s hs c)
  rw [show step Z (s, 1) = ((Z s).1, 1 * (Z s).2) from rfl, iter_step_scale] at this
  exact this

theorem Pair.invol (h : Pair S Tr Z n) {s : Nat} (hs : S s) : (Z (Z s).1).1 = s :=
  congrArg Prod.fst (h.square s hs)

theorem Pair.least (h : Pair S Tr Z n) {s r : Nat} (hs : S s) (hr : Least Tr s r) : Least Tr (Z s).1 r where
  pos := hr.pos
  back := by rw [h.tr_fst hs, hr.back]
  least := by
    intro j h1 h2 e
    rw [h.tr_fst hs] at e
    apply hr.least j h1 h2
    have := congrArg (fun t => (Z t).1) e
    rwa [h.invol (h.cyc.closed_iter hs j), h.invol hs] at this

/-- the orbit of `Z s` under translations when it contains `s` -/
theorem hit_mod_of {s r m : Nat} (hz : Least Tr (Z s).1 r) (hr : Least Tr s r) (hm : m < r)
    (he : (tr Tr (Z s).1 m).1 = s) (c : Nat) : (tr Tr (Z s).1 c).1 = s ↔ c % r = m := by
  rw [hz.mod c]
  constructor
  · intro e
    by_contra hne
    have hc : c % r < r := Nat.mod_lt _ hr.pos
    have key : ∀ a b, a < b → b < r → (tr Tr (Z s).1 a).1 = s → (tr Tr (Z s).1 b).1 = s → False := by
      intro a b hab hb ea eb
      have e1 := tr_add Tr (Z s).1 (b - a) a
      rw [Nat.sub_add_cancel (by omega), ea] at e1
      have e2 := congrArg Prod.fst e1
      simp only at e2
      rw [eb] at e2
      exact hr.least (b - a) (by omega) (by omega) e2.symm
    rcases Nat.lt_or_gt_of_ne hne with h1 | h1
    · exact key _ _ h1 hm e he
    · exact key _ _ h1 hc he e
  · rintro rfl; exact he

theorem hit_mod (h : Pair S Tr Z n) {s r m : Nat} (hs : S s) (hr : Least Tr s r) (hm : m < r)
    (he : (tr Tr (Z s).1 m).1 = s) (c : Nat) : (tr Tr (Z s).1 c).1 = s ↔ c % r = m :=
  hit_mod_of (h.least hs hr) hr hm he c

theorem guard_iff (Z : BitOp) (s : Nat) (hz : (Z s).2 = 1 ∨ (Z s).2 = -1) :
    (checkZ Z 1 s < 0 ∧ checkZ Z (-1) s < 0) ↔ (Z s).1 > s := by
  have e : step Z (s, 1) = ((Z s).1, (Z s).2) := by simp [step]
  unfold checkZ checkOne
  rw [e]
  rcases hz with h | h <;> rw [h] <;> split_ifs <;> omega

/-- the scan of a state by translations and transformed translations -/
theorem scan_of {s r : Nat} (hz : Least Tr (Z s).1 r) (hr : Least Tr s r)
    (hA : ∀ j, j < r → (tr Tr s j).1 ≤ s) :
    (transformed Tr s r 0 (step Z (s, 1)) = .reject ∧ ¬ ∀ j, j < r → (tr Tr (Z s).1 j).1 ≤ s) ∨
    ((∀ j, j < r → (tr Tr (Z s).1 j).1 ≤ s) ∧
      ((∃ m, m < r ∧ (tr Tr (Z s).1 m).1 = s ∧
          transformed Tr s r 0 (step Z (s, 1)) = .found m ((Z s).2 * (tr Tr (Z s).1 m).2)) ∨
       ((∀ c, (tr Tr (Z s).1 c).1 ≠ s) ∧ transformed Tr s r 0 (step Z (s, 1)) = .exhausted))) := by
  have e : step Z (s, 1) = ((Z s).1, (Z s).2) := by simp [step]
  rw [e]
  rcases transformed_spec Tr s (Z s).1 (Z s).2 r 0 with ⟨m, h1, h2, h3, h4⟩ | ⟨h3, h4⟩
  · rw [Nat.zero_add] at h2
    rcases h4 with ⟨h5, h6⟩ | ⟨h5, h6⟩
    · left
      refine ⟨h6, fun h7 => ?_⟩
      have := h7 m h2
      omega
    · right
      refine ⟨fun j hj => ?_, Or.inl ⟨m, h2, h5, h6⟩⟩
      -- every translate of `Z s` is a translate of `s`
      have e1 : (tr Tr (Z s).1 j).1 = (tr Tr s (j + (r - m))).1 := by
        have h7 : (tr Tr (Z s).1 (j + r)).1 = (tr Tr (Z s).1 j).1 := by
          rw [hz.mod (j + r), Nat.add_mod_right, ← hz.mod]
        rw [← h7, show j + r = (j + (r - m)) + m by omega, tr_add, h5]
      rw [e1, hr.mod]
      exact hA _ (Nat.mod_lt _ hr.pos)
  · right
    rw [Nat.zero_add] at h3
    refine ⟨fun j hj => Nat.le_of_lt (h3 j (Nat.zero_le _) hj), Or.inr ⟨fun c e => ?_, h4⟩⟩
    rw [hz.mod] at e
    have := h3 (c % r) (Nat.zero_le _) (Nat.mod_lt _ hr.pos)
    omega

theorem scan_pair (h : Pair S Tr Z n) {s r : Nat} (hs : S s) (hr : Least Tr s r)
    (hA : ∀ j, j < r → (tr Tr s j).1 ≤ s) :
    (transformed Tr s r 0 (step Z (s, 1)) = .reject ∧ ¬ ∀ j, j < r → (tr Tr (Z s).1 j).1 ≤ s) ∨
    ((∀ j, j < r → (tr Tr (Z s).1 j).1 ≤ s) ∧
      ((∃ m, m < r ∧ (tr Tr (Z s).1 m).1 = s ∧
          transformed Tr s r 0 (step Z (s, 1)) = .found m ((Z s).2 * (tr Tr (Z s).1 m).2)) ∨
       ((∀ c, (tr Tr (Z s).1 c).1 ≠ s) ∧ transformed Tr s r 0 (step Z (s, 1)) = .exhausted))) :=
  scan_of (h.least hs hr) hr hA

/-- value of `CheckState_T_Z` -/
theorem checkT_Z_of (hcyc : Cyclic S Tr n) (hsign : ∀ s, S s → (Z s).2 = 1 ∨ (Z s).2 = -1) {s r : Nat} (hz : Least Tr (Z s).1 r) (hs : S s)
    (hr : Least Tr s r) (T k : Nat) (hT : 0 < T) :
    let good := (∀ j, j < r → (tr Tr s j).1 ≤ s) ∧ momentumFits k (T * n) T r (tr Tr s r).2 = true ∧
      ∀ j, j < r → (tr Tr (Z s).1 j).1 ≤ s
    (¬ good → checkT_Z Tr Z k (T * n) T s = (-1, -1, 1)) ∧
    (good → (∃ m, m < r ∧ (tr Tr (Z s).1 m).1 = s ∧
        checkT_Z Tr Z k (T * n) T s = ((r : Int), (m : Int), (Z s).2 * (tr Tr (Z s).1 m).2)) ∨
      ((∀ c, (tr Tr (Z s).1 c).1 ≠ s) ∧ checkT_Z Tr Z k (T * n) T s = ((r : Int), -1, 1))) := by
  intro good
  unfold checkT_Z
  rw [Nat.mul_div_cancel_left _ hT, translates_least hcyc hs hr]
  by_cases hg : (Z s).1 > s
  · rw [if_pos ((guard_iff Z s (hsign s hs)).2 hg)]
    refine ⟨fun _ => rfl, fun hgood => ?_⟩
    have := hgood.2.2 0 hr.pos
    change (Z s).1 ≤ s at this
    omega
  · rw [if_neg fun h' => hg ((guard_iff Z s (hsign s hs)).1 h')]
    by_cases hA : (∀ j, j < r → (tr Tr s j).1 ≤ s) ∧ momentumFits k (T * n) T r (tr Tr s r).2 = true
    · rw [if_pos hA]
      dsimp only
      rcases scan_of hz hr hA.1 with ⟨h1, h2⟩ | ⟨h1, ⟨m, h2, h3, h4⟩ | ⟨h2, h3⟩⟩
      · rw [h1]
        exact ⟨fun _ => rfl, fun hgood => absurd hgood.2.2 h2⟩
      · rw [h4]
        exact ⟨fun hn => absurd ⟨hA.1, hA.2, h1⟩ hn, fun _ => Or.inl ⟨m, h2, h3, rfl⟩⟩
      · rw [h3]
        exact ⟨fun hn => absurd ⟨hA.1, hA.2, h1⟩ hn, fun _ => Or.inr ⟨h2, rfl⟩⟩
    · rw [if_neg hA]
      exact ⟨fun _ => rfl, fun hgood => absurd ⟨hgood.1, hgood.2.1⟩ hA⟩

theorem checkT_Z_val (h : Pair S Tr Z n) {s r : Nat} (hs : S s) (hr : Least Tr s r) (T k : Nat) (hT : 0 < T) :
    let good := (∀ j, j < r → (tr Tr s j).1 ≤ s) ∧ momentumFits k (T * n) T r (tr Tr s r).2 = true ∧
      ∀ j, j < r → (tr Tr (Z s).1 j).1 ≤ s
    (¬ good → checkT_Z Tr Z k (T * n) T s = (-1, -1, 1)) ∧
    (good → (∃ m, m < r ∧ (tr Tr (Z s).1 m).1 = s ∧
        checkT_Z Tr Z k (T * n) T s = ((r : Int), (m : Int), (Z s).2 * (tr Tr (Z s).1 m).2)) ∨
      ((∀ c, (tr Tr (Z s).1 c).1 ≠ s) ∧ checkT_Z Tr Z k (T * n) T s = ((r : Int), -1, 1))) :=
  checkT_Z_of h.cyc h.sign (h.least hs hr) hs hr T k hT

/-- the same for `CheckState_T_ZA` -/
theorem checkT_ZA_val (h : Pair S Tr Z n) {s r : Nat} (hs : S s) (hr : Least Tr s r) (T k : Nat) (hT : 0 < T)
    (h1 : ∀ s, S s → (Tr s).2 = 1) :
    let good := (∀ j, j < r → (tr Tr s j).1 ≤ s) ∧ momentumFits k (T * n) T r (tr Tr s r).2 = true ∧
      ∀ j, j < r → (tr Tr (Z s).1 j).1 ≤ s
    (¬ good → checkT_ZA Tr Z k (T * n) T s = (-1, -1)) ∧
    (good → (∃ m, m < r ∧ (tr Tr (Z s).1 m).1 = s ∧
        checkT_ZA Tr Z k (T * n) T s = ((r : Int), (m : Int))) ∨
      ((∀ c, (tr Tr (Z s).1 c).1 ≠ s) ∧ checkT_ZA Tr Z k (T * n) T s = ((r : Int), -1))) := by
  have hone : ∀ i, (tr Tr s i).2 = 1 := by
    intro i
    induction i with
    | zero => rfl
    | succ i ih => rw [tr_succ]; simp only [step]; rw [ih, h1 _ (h.cyc.closed_iter hs i)]; rfl
  have hfits : (decide (k * T * r % (T * n) = 0)) = momentumFits k (T * n) T r (tr Tr s r).2 := by
    rw [hone r]; rfl
  intro good
  unfold checkT_ZA
  rw [Nat.mul_div_cancel_left _ hT, translates_least h.cyc hs hr, hfits]
  by_cases hg : (Z s).1 > s
  · rw [if_pos ((guard_iff Z s (h.sign s hs)).2 hg)]
    refine ⟨fun _ => rfl, fun hgood => ?_⟩
    have := hgood.2.2 0 hr.pos
    change (Z s).1 ≤ s at this
    omega
  · rw [if_neg fun h' => hg ((guard_iff Z s (h.sign s hs)).1 h')]
    by_cases hA : (∀ j, j < r → (tr Tr s j).1 ≤ s) ∧ momentumFits k (T * n) T r (tr Tr s r).2 = true
    · rw [if_pos hA]
      dsimp only
      rcases scan_pair h hs hr hA.1 with ⟨h1, h2⟩ | ⟨h1, ⟨m, h2, h3, h4⟩ | ⟨h2, h3⟩⟩
      · rw [h1]
        exact ⟨fun _ => rfl, fun hgood => absurd hgood.2.2 h2⟩
      · rw [h4]
        exact ⟨fun hn => absurd ⟨hA.1, hA.2, h1⟩ hn, fun _ => Or.inl ⟨m, h2, h3, rfl⟩⟩
      · rw [h3]
        exact ⟨fun hn => absurd ⟨hA.1, hA.2, h1⟩ hn, fun _ => Or.inr ⟨h2, rfl⟩⟩
    · rw [if_neg hA]
      exact ⟨fun _ => rfl, fun hgood => absurd ⟨hgood.1, hgood.2.1⟩ hA⟩

/-- membership in terms of the least period -/
theorem member_tz (z : Int) (hz : z = 1 ∨ z = -1) (k : Nat) (T : Nat) (hT : 0 < T)
    (h : Acts S [gen Tr n k, gen Z 2 (parityQ z)]) {s r : Nat} (hs : S s) (hr : Least Tr s r) :
    ((∀ t, Related [gen Tr n k, gen Z 2 (parityQ z)] s t → t ≤ s) ∧
      ∃ t, projection [gen Tr n k, gen Z 2 (parityQ z)] s t ≠ 0) ↔
    ((∀ j, j < r → (tr Tr s j).1 ≤ s) ∧ momentumFits k (T * n) T r (tr Tr s r).2 = true ∧
      (∀ j, j < r → (tr Tr (Z s).1 j).1 ≤ s)) ∧
      ∀ m, m < r → (tr Tr (Z s).1 m).1 = s → (starRingEnd ℂ) (root n k m) * z * ((Z s).2 * (tr Tr (Z s).1 m).2 : Int) = 1 := by
  have hp : Pair S Tr Z n := Pair.of_acts h
  have hrn : r ≤ n := by
    obtain ⟨r', a, b⟩ := exists_least hp.cyc hs
    rw [hr.unique a]; exact b
  have hfit := momentumFits_iff n T k r hp.cyc.pos hT _ (hp.cyc.sign_iter hs r)
  rw [Nat.mul_comm n T] at hfit
  have w0 : ∀ c, word [gen Tr n k, gen Z 2 (parityQ z)] [c, 0] (s, 1) = tr Tr s c := fun c => rfl
  have w1 : ∀ c, word [gen Tr n k, gen Z 2 (parityQ z)] [c, 1] (s, 1)
      = ((tr Tr (Z s).1 c).1, (Z s).2 * (tr Tr (Z s).1 c).2) := by
    intro c
    have : word [gen Tr n k, gen Z 2 (parityQ z)] [c, 1] (s, 1) = (step Tr)^[c] ((Z s).1, 1 * (Z s).2) := rfl
    rw [this, iter_step_scale, one_mul]
  have c0 : ∀ c, chi [gen Tr n k, gen Z 2 (parityQ z)] s [c, 0] = (starRingEnd ℂ) (root n k c) * (tr Tr s c).2 := by
    intro c; unfold chi; rw [w0, root_gen, character_zero_cons, character_nil, mul_one]
  have c1 : ∀ c, chi [gen Tr n k, gen Z 2 (parityQ z)] s [c, 1]
      = (starRingEnd ℂ) (root n k c) * z * ((Z s).2 * (tr Tr (Z s).1 c).2 : Int) := by
    intro c; unfold chi; rw [w1, root_gen, parity_one z hz, character_nil]; simp
  rw [member_iff h s hs, exponents_tz]
  have hzl := hp.least hs hr
  constructor
  · intro hall
    have h0 : ∀ c, c < n → (tr Tr s c).1 ≤ s ∧ ((tr Tr s c).1 = s → (starRingEnd ℂ) (root n k c) * (tr Tr s c).2 = 1) := by
      intro c hc
      have := hall [c, 0] (List.mem_append_left _ (List.mem_map.2 ⟨c, List.mem_range.2 hc, rfl⟩))
      rwa [w0, c0] at this
    have h1 : ∀ c, c < n → (tr Tr (Z s).1 c).1 ≤ s ∧ ((tr Tr (Z s).1 c).1 = s →
        (starRingEnd ℂ) (root n k c) * z * ((Z s).2 * (tr Tr (Z s).1 c).2 : Int) = 1) := by
      intro c hc
      have := hall [c, 1] (List.mem_append_right _ (List.mem_map.2 ⟨c, List.mem_range.2 hc, rfl⟩))
      rwa [w1, c1] at this
    refine ⟨⟨fun j hj => (h0 j (by omega)).1, hfit.2 ?_, fun j hj => (h1 j (by omega)).1⟩,
      fun m hm => (h1 m (by omega)).2⟩
    rcases Nat.lt_or_ge r n with hlt | hge
    · exact (h0 r hlt).2 hr.back
    · have e : r = n := by omega
      have h1 : root n k n = 1 := (root_eq_one n hp.cyc.pos k n).2 (Nat.dvd_mul_left _ _)
      rw [e, h1, hp.cyc.period s hs]
      simp
  · rintro ⟨⟨hA, hF, hB⟩, hM⟩ cs hcs
    rw [List.mem_append] at hcs
    rcases hcs with hcs | hcs
    · rw [List.mem_map] at hcs
      obtain ⟨c, _, rfl⟩ := hcs
      rw [w0, c0]
      exact ⟨by rw [hr.mod]; exact hA _ (Nat.mod_lt _ hr.pos), fun e => chi_returns hr k (hfit.1 hF) c e⟩
    · rw [List.mem_map] at hcs
      obtain ⟨c, _, rfl⟩ := hcs
      rw [w1, c1]
      refine ⟨by simp only; rw [hzl.mod]; exact hB _ (Nat.mod_lt _ hr.pos), fun e => ?_⟩
      simp only at e
      have hcr : c % r < r := Nat.mod_lt _ hr.pos
      have e' : (tr Tr (Z s).1 (c % r)).1 = s := by rw [← hzl.mod]; exact e
      have := hM _ hcr e'
      -- `c = r * (c / r) + c % r`
      have e2 : tr Tr (Z s).1 c = (s, (tr Tr (Z s).1 (c % r)).2 * (tr Tr s (r * (c / r))).2) := by
        conv_lhs => rw [← Nat.div_add_mod c r]
        rw [tr_add, e', tr_multiple hr.tr_eq]
      have e3 : root n k c = root n k (r * (c / r)) * root n k (c % r) := by
        rw [← root_add, Nat.div_add_mod]
      have e4 := chi_returns hr k (hfit.1 hF) (r * (c / r)) ((hr.iff_dvd _).2 (Nat.dvd_mul_right _ _))
      rw [e2, e3, map_mul]
      push_cast at this ⊢
      linear_combination (starRingEnd ℂ) (root n k (c % r)) * z * ((Z s).2 * (tr Tr (Z s).1 (c % r)).2) * e4 + this

theorem hit_root (h : Pair S Tr Z n) {s r m k : Nat} (hs : S s) (hr : Least Tr s r)
    (hf : (starRingEnd ℂ) (root n k r) * (tr Tr s r).2 = 1) (he : (tr Tr (Z s).1 m).1 = s) :
    root n k m = 1 ∨ root n k m = -1 := by
  have ha := h.sign s hs
  have hb := h.cyc.sign_iter (h.closed s hs) m
  have e1 : (step Tr)^[m] (step Z (s, 1)) = (s, (Z s).2 * (tr Tr (Z s).1 m).2) := by
    rw [show step Z (s, 1) = ((Z s).1, 1 * (Z s).2) from rfl, iter_step_scale, he, one_mul]
  have e2 : tr Tr s m = ((Z s).1, (Z s).2 * (tr Tr (Z s).1 m).2 * (Z s).2) := by
    have h1 : step Z (step Z (tr Tr s m)) = tr Tr s m := by
      have h2 := h.square _ (h.cyc.closed_iter hs m)
      have h3 : ∀ (x : Nat × Int), step Z (step Z x) = (((step Z (step Z (x.1, 1))).1), x.2 * (step Z (step Z (x.1, 1))).2) := by
        intro x; simp [step]; ring
      rw [h3, h2]; simp
    rw [← h1, ← h.commute s hs m, e1]
    rfl
  have e3 : tr Tr s (m + m) = (s, 1) := by
    rw [tr_add, e2]
    simp only [he]
    congr 1
    rcases ha with a | a <;> rcases hb with b | b <;> rw [a, b] <;> rfl
  have e4 := chi_returns hr k hf (m + m) (by rw [e3])
  rw [e3] at e4
  have e5 : root n k (m + m) = 1 := by
    have := congrArg (starRingEnd ℂ) e4
    simpa using this
  rw [root_add] at e5
  have h3 : (root n k m - 1) * (root n k m + 1) = 0 := by linear_combination e5
  rcases mul_eq_zero.1 h3 with h | h
  · left; exact sub_eq_zero.1 h
  · right; exact eq_neg_of_add_eq_zero_left h

theorem wave_root (T k m : Nat) (hT : 0 < T) (hn : 0 < n) :
    Real.cos (wave k (T * n) T * m) = (root n k m).re := by
  have e : wave k (T * n) T * m = 2 * Real.pi * (k : Int) / n * m := by
    have h1 : (T : ℝ) ≠ 0 := by exact_mod_cast Nat.pos_iff_ne_zero.1 hT
    have h2 : (n : ℝ) ≠ 0 := by exact_mod_cast Nat.pos_iff_ne_zero.1 hn
    unfold wave
    push_cast
    field_simp
  rw [e]
  unfold root
  rw [mul_comm Complex.I, Complex.exp_ofReal_mul_I_re]

theorem wave_cos {T k m : Nat} (hT : 0 < T) (hn : 0 < n) (a : Int) (h : root n k m = a) :
    Real.cos (wave k (T * n) T * m) = a := by
  rw [wave_root T k m hT hn, h, ← Complex.ofReal_intCast, Complex.ofReal_re]

theorem stab_tz (h : Pair S Tr Z n) (k q : Int) {s r : Nat} (hs : S s) (hr : Least Tr s r) :
    (∀ m, m < r → (tr Tr (Z s).1 m).1 = s → (stab [gen Tr n k, gen Z 2 q] s).length * r = 2 * n) ∧
    ((∀ c, (tr Tr (Z s).1 c).1 ≠ s) → (stab [gen Tr n k, gen Z 2 q] s).length * r = n) := by
  have w0 : ∀ c, word [gen Tr n k, gen Z 2 q] [c, 0] (s, 1) = tr Tr s c := fun c => rfl
  have w1 : ∀ c, (word [gen Tr n k, gen Z 2 q] [c, 1] (s, 1)).1 = (tr Tr (Z s).1 c).1 := by
    intro c
    have : word [gen Tr n k, gen Z 2 q] [c, 1] (s, 1) = (step Tr)^[c] ((Z s).1, 1 * (Z s).2) := rfl
    rw [this, iter_step_scale]
  have hlen : (stab [gen Tr n k, gen Z 2 q] s).length = ((List.range n).filter fun c => decide (c % r = 0)).length
      + ((List.range n).filter fun c => decide ((tr Tr (Z s).1 c).1 = s)).length := by
    unfold stab
    rw [exponents_tz, List.filter_append, List.length_append, List.filter_map, List.filter_map, List.length_map,
      List.length_map]
    congr 1
    · congr 1
      apply List.filter_congr
      intro c _
      simp only [Function.comp_apply, w0, hr.iff_dvd, Nat.dvd_iff_mod_eq_zero]
    · congr 1
      apply List.filter_congr
      intro c _
      simp only [Function.comp_apply, w1]
  have hd : r ∣ n := (hr.iff_dvd n).1 (by rw [h.cyc.period s hs])
  have h0 := count_residue n r 0 hr.pos hd hr.pos
  refine ⟨fun m hm he => ?_, fun hno => ?_⟩
  · have h1 := count_residue n r m hr.pos hd hm
    rw [hlen]
    simp only [hit_mod h hs hr hm he]
    rw [Nat.add_mul, h0, h1]; ring
  · have e : ((List.range n).filter fun c => decide ((tr Tr (Z s).1 c).1 = s)) = [] :=
      List.filter_eq_nil_iff.2 fun c _ => by simpa using hno c
    rw [hlen, e]
    simpa using h0

theorem cond_zero (ρ z b : Int) (h1 : ρ = 1 ∨ ρ = -1) (h2 : z = 1 ∨ z = -1) (h3 : b = 1 ∨ b = -1) :
    (1 + (b : ℝ) * z * ρ = 0 ↔ ¬ ((starRingEnd ℂ) (ρ : ℂ) * z * b = 1)) ∧
    ((starRingEnd ℂ) (ρ : ℂ) * z * b = 1 → 1 + (b : ℝ) * z * ρ = 2) := by
  rcases h1 with rfl | rfl <;> rcases h2 with rfl | rfl <;> rcases h3 with rfl | rfl <;> norm_num

theorem decode (L m : Nat) (hm : m < L) (e : Nat) :
    (m + 1 + e * (L + 1)) % (L + 1) = m + 1 ∧ (m + 1 + e * (L + 1)) / (L + 1) = e := by
  constructor
  · rw [Nat.add_mul_mod_self_right, Nat.mod_eq_of_lt (by omega)]
  · rw [Nat.add_mul_div_right _ _ (by omega), Nat.div_eq_of_lt (by omega)]; omega

theorem keep_tz (z : Int) (hz : z = 1 ∨ z = -1) (k T n : Nat) (hT : 0 < T)
    (h : Acts S [gen Tr n k, gen Z 2 (parityQ z)]) (s : Nat) (hs : S s) :
    ((keepT_Z Tr Z z k (T * n) T s).isSome ↔
      (∀ t, Related [gen Tr n k, gen Z 2 (parityQ z)] s t → t ≤ s) ∧
        ∃ t, projection [gen Tr n k, gen Z 2 (parityQ z)] s t ≠ 0) ∧
    (∀ Nm, keepT_Z Tr Z z k (T * n) T s = some Nm → Least Tr s Nm.1 ∧
      projection [gen Tr n k, gen Z 2 (parityQ z)] s s = (weightT_Z z k (T * n) T Nm * n : ℝ)) := by
  have hp : Pair S Tr Z n := Pair.of_acts h
  obtain ⟨r, hr, hrn⟩ := exists_least hp.cyc hs
  have hfit := momentumFits_iff n T k r hp.cyc.pos hT _ (hp.cyc.sign_iter hs r)
  rw [Nat.mul_comm n T] at hfit
  have hst := stab_tz hp (k : Int) (parityQ z) hs hr
  have hmem := member_tz z hz k T hT h hs hr
  have hrL : r ≤ T * n := le_trans hrn (Nat.le_mul_of_pos_left _ hT)
  have hr0 := hr.pos
  have hrR : (r : ℝ) ≠ 0 := by exact_mod_cast Nat.pos_iff_ne_zero.1 hr.pos
  obtain ⟨v1, v2⟩ := checkT_Z_val hp hs hr T k hT
  by_cases hg : (∀ j, j < r → (tr Tr s j).1 ≤ s) ∧ momentumFits k (T * n) T r (tr Tr s r).2 = true ∧
      ∀ j, j < r → (tr Tr (Z s).1 j).1 ≤ s
  · rcases v2 hg with ⟨m, hm, he, hv⟩ | ⟨hno, hv⟩
    · -- `Z s` is a translate of `s`
      have hroot := hit_root hp hs hr (hfit.1 hg.2.1) he
      have hb := pm_mul (hp.sign s hs) (hp.cyc.sign_iter (hp.closed s hs) m)
      obtain ⟨ρ, hρ, hρ'⟩ : ∃ ρ : Int, (ρ = 1 ∨ ρ = -1) ∧ root n k m = ρ := by
        rcases hroot with e | e
        · exact ⟨1, Or.inl rfl, by rw [e]; simp⟩
        · exact ⟨-1, Or.inr rfl, by rw [e]; simp⟩
      have hcos := wave_cos (T := T) hT hp.cyc.pos ρ hρ'
      generalize hbb : (Z s).2 * (tr Tr (Z s).1 m).2 = b at *
      obtain ⟨c1, c2⟩ := cond_zero ρ z b hρ hz hb
      have huniq : ∀ m', m' < r → (tr Tr (Z s).1 m').1 = s → m' = m := by
        intro m' h1 h2
        have := (hit_mod hp hs hr hm he m').1 h2
        rwa [Nat.mod_eq_of_lt h1] at this
      have hmem' : ((∀ t, Related [gen Tr n k, gen Z 2 (parityQ z)] s t → t ≤ s) ∧
          ∃ t, projection [gen Tr n k, gen Z 2 (parityQ z)] s t ≠ 0) ↔ (starRingEnd ℂ) (ρ : ℂ) * z * b = 1 := by
        rw [hmem]
        constructor
        · intro hh
          have := hh.2 m hm he
          rw [hρ'] at this
          rwa [hbb] at this
        · intro hh
          refine ⟨hg, fun m' h1 h2 => ?_⟩
          rw [huniq m' h1 h2, hbb, hρ']
          exact hh
      have hkeep : keepT_Z Tr Z z k (T * n) T s =
          if (starRingEnd ℂ) (ρ : ℂ) * z * b = 1 then some (r, m + 1 + ((b + 1) / 2).toNat * (T * n + 1)) else none := by
        unfold keepT_Z
        rw [hv]
        simp only
        rw [show ((m : Int) : ℝ) = (m : ℝ) by push_cast; rfl, hcos]
        have hm1 : (m : Int) ≠ -1 := by omega
        simp only [hm1, ne_eq, not_false_eq_true, true_and, if_true]
        by_cases hc : (starRingEnd ℂ) (ρ : ℂ) * z * b = 1
        · rw [if_neg (fun h => (c1.1 h) hc), if_pos (by omega), if_pos hc]
          congr 1
          refine Prod.ext (by simp) ?_
          simp only
          rcases hb with e | e <;> rw [e]
          · norm_num <;> omega
          · norm_num
        · rw [if_pos (c1.2 hc), if_neg (by omega), if_neg hc]
      rw [hkeep, hmem']
      by_cases hc : (starRingEnd ℂ) (ρ : ℂ) * z * b = 1
      · rw [if_pos hc]
        refine ⟨by simp only [Option.isSome_some, true_iff]; exact hc, ?_⟩
        intro Nm hNm
        rw [Option.some.injEq] at hNm
        subst hNm
        refine ⟨hr, ?_⟩
        rw [projection_stab h s hs (hmem'.2 hc).2]
        have hS := hst.1 m hm he
        obtain ⟨d1, d2⟩ := decode (T * n) m (by omega) ((b + 1) / 2).toNat
        unfold weightT_Z
        simp only [d1, d2]
        have e1 : ((m + 1 : Nat) : Int) - 1 = m := by omega
        have e2 : (2 * (((b + 1) / 2).toNat : Int) - 1) = b := by rcases hb with e | e <;> rw [e] <;> rfl
        rw [e1, e2, if_pos (by omega), show ((m : Int) : ℝ) = (m : ℝ) by push_cast; rfl, hcos, c2 hc]
        have : ((stab [gen Tr n k, gen Z 2 (parityQ z)] s).length : ℝ) = 2 / r * n := by
          field_simp
          exact_mod_cast hS
        exact_mod_cast congrArg (fun x : ℝ => (x : ℂ)) this
      · rw [if_neg hc]
        simp only [Option.isSome_none, Bool.false_eq_true, false_iff]
        exact ⟨hc, by simp⟩
    · have hkeep : keepT_Z Tr Z z k (T * n) T s = some (r, 0) := by
        unfold keepT_Z
        rw [hv]
        simp
        omega
      have hm : ((∀ t, Related [gen Tr n k, gen Z 2 (parityQ z)] s t → t ≤ s) ∧
          ∃ t, projection [gen Tr n k, gen Z 2 (parityQ z)] s t ≠ 0) :=
        hmem.2 ⟨hg, fun m _ he => absurd he (hno m)⟩
      rw [hkeep]
      refine ⟨by simp only [Option.isSome_some, true_iff]; exact hm, ?_⟩
      intro Nm hNm
      rw [Option.some.injEq] at hNm
      subst hNm
      refine ⟨hr, ?_⟩
      rw [projection_stab h s hs hm.2]
      have hS := hst.2 hno
      have hw : weightT_Z z k (T * n) T (r, 0) = 1 / r := by simp [weightT_Z]
      rw [hw]
      have : ((stab [gen Tr n k, gen Z 2 (parityQ z)] s).length : ℝ) = 1 / r * n := by
        field_simp
        exact_mod_cast hS
      exact_mod_cast congrArg (fun x : ℝ => (x : ℂ)) this
  · have hkeep : keepT_Z Tr Z z k (T * n) T s = none := by
      unfold keepT_Z
      rw [v1 hg]
      simp
    rw [hkeep]
    refine ⟨?_, by simp⟩
    simp only [Option.isSome_none, Bool.false_eq_true, false_iff]
    intro hh
    exact hg (hmem.1 hh).1

/-- `make_t_zA` keeps what `make_t_z` keeps, with the same norm, when all signs are 1 -/
theorem keepT_ZA_eq (z : Int) (hz : z = 1 ∨ z = -1) (k T n : Nat) (hT : 0 < T)
    (h : Acts S [gen Tr n k, gen Z 2 (parityQ z)]) (h1 : ∀ s, S s → (Tr s).2 = 1) (h2 : ∀ s, S s → (Z s).2 = 1)
    (s : Nat) (hs : S s) :
    (keepT_ZA Tr Z z k (T * n) T s).map (fun Nm => (Nm.1, weightT_ZA z k (T * n) T Nm))
      = (keepT_Z Tr Z z k (T * n) T s).map fun Nm => (Nm.1, weightT_Z z k (T * n) T Nm) := by
  have hp : Pair S Tr Z n := Pair.of_acts h
  obtain ⟨r, hr, hrn⟩ := exists_least hp.cyc hs
  have hr0 := hr.pos
  have hrL : r ≤ T * n := le_trans hrn (Nat.le_mul_of_pos_left _ hT)
  have hone : ∀ t, S t → ∀ i, (tr Tr t i).2 = 1 := by
    intro t ht i
    induction i with
    | zero => rfl
    | succ i ih => rw [tr_succ]; simp only [step]; rw [ih, h1 _ (hp.cyc.closed_iter ht i)]; rfl
  obtain ⟨v1, v2⟩ := checkT_Z_val hp hs hr T k hT
  obtain ⟨a1, a2⟩ := checkT_ZA_val hp hs hr T k hT h1
  by_cases hg : (∀ j, j < r → (tr Tr s j).1 ≤ s) ∧ momentumFits k (T * n) T r (tr Tr s r).2 = true ∧
      ∀ j, j < r → (tr Tr (Z s).1 j).1 ≤ s
  · rcases v2 hg with ⟨m, hm, he, hv⟩ | ⟨hno, hv⟩
    · rcases a2 hg with ⟨m', hm', he', ha⟩ | ⟨hno, _⟩
      · have em : m' = m := by
          have := (hit_mod hp hs hr hm he m').1 he'
          rwa [Nat.mod_eq_of_lt hm'] at this
        subst em
        rw [h2 s hs, hone _ (hp.closed s hs)] at hv
        obtain ⟨d1, d2⟩ := decode (T * n) m' (by omega) 1
        have hm1 : (m' : Int) ≠ -1 := by omega
        have hm2 : ¬ ((m' : Int) + 1 = 0) := by omega
        unfold keepT_ZA keepT_Z
        rw [hv, ha]
        simp only [hm1, ne_eq, not_false_eq_true, true_and, if_true, Int.cast_one, one_mul, mul_one]
        by_cases hc : 1 + (z : ℝ) * Real.cos (wave k (T * n) T * ((m' : Int) : ℝ)) = 0
        · rw [if_pos hc, if_neg (by omega)]; rfl
        · rw [if_neg hc, if_pos (by omega)]
          simp only [Option.map_some]
          have e1 : ((m' : Int) + 1).toNat = m' + 1 := by omega
          have e2 : ((m' : Int) + 1 + (1 + 1) / 2 * (((T * n : Nat) : Int) + 1)).toNat = m' + 1 + 1 * (T * n + 1) := by
            omega
          have e3 : ((m' + 1 : Nat) : Int) - 1 = m' := by omega
          have hw : weightT_Z z k (T * n) T (r, m' + 1 + 1 * (T * n + 1))
              = (1 + z * Real.cos (wave k (T * n) T * ((m' : Int) : ℝ))) / r := by
            unfold weightT_Z
            simp only [d1, d2, e3]
            rw [if_pos (by omega)]
            norm_num
          have hw' : weightT_ZA z k (T * n) T (r, m' + 1)
              = (1 + z * Real.cos (wave k (T * n) T * ((m' : Int) : ℝ))) / r := by
            unfold weightT_ZA
            simp only [e3]
            rw [if_pos (by omega)]
          rw [e1, e2, Int.toNat_natCast, if_pos (by omega), Option.map_some, hw, hw']
      · exact absurd he (hno m)
    · rcases a2 hg with ⟨m', hm', he', _⟩ | ⟨_, ha⟩
      · exact absurd he' (hno m')
      · unfold keepT_ZA keepT_Z
        rw [hv, ha]
        simp [weightT_ZA, weightT_Z]
  · unfold keepT_ZA keepT_Z
    rw [v1 hg, a1 hg]
    simp

end

end Proof.Chain
