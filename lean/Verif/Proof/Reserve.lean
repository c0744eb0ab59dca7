import Mathlib.GroupTheory.GroupAction.Quotient
import Mathlib.Data.ZMod.Basic
import Mathlib.Algebra.BigOperators.Fin
import Mathlib.Analysis.SpecialFunctions.Pow.Real
import Mathlib.Tactic.Linarith
/-!
How many orbits the rotations of a cyclic word have: the words are functions on `ZMod n` with a conserved charge.
-/
namespace Proof.Reserve
open scoped BigOperators

variable {β : Type} [Fintype β] {m n : ℕ} [NeZero n]

/-- words with charge `c` -/
def Words (q : β → Fin m → ℕ) (c : Fin m → ℕ) (n : ℕ) [NeZero n] : Type := {x : ZMod n → β // ∀ u, ∑ i, q (x i) u = c u}

noncomputable instance (q : β → Fin m → ℕ) (c : Fin m → ℕ) : Fintype (Words q c n) := by
  classical
  unfold Words; infer_instance

noncomputable instance (q : β → Fin m → ℕ) (c : Fin m → ℕ) : DecidableEq (Words q c n) := Classical.decEq _

/-- rotation by `j` -/
instance (q : β → Fin m → ℕ) (c : Fin m → ℕ) : AddAction (ZMod n) (Words q c n) where
  vadd j x := ⟨fun i => x.1 (i - j), fun u => by
    rw [← x.2 u]
    exact (Equiv.sum_comp (Equiv.subRight j) fun i => q (x.1 i) u)⟩
  zero_vadd x := Subtype.ext (funext fun i => congrArg x.1 (sub_zero i))
  add_vadd j k x := Subtype.ext (funext fun i => congrArg x.1 (show i - (j + k) = i - j - k by ring))

omit [Fintype β] in
theorem vadd_apply (q : β → Fin m → ℕ) (c : Fin m → ℕ) (j : ZMod n) (x : Words q c n) (i : ZMod n) : (j +ᵥ x).1 i = x.1 (i - j) := rfl

theorem sum_blocks (f : ℕ → ℕ) (d g : ℕ) : ∑ i ∈ Finset.range (d * g), f i = ∑ k ∈ Finset.range d, ∑ r ∈ Finset.range g, f (k * g + r) := by
  induction d with
  | zero => simp
  | succ d ih => rw [Nat.succ_mul, Finset.sum_range_add, ih, Finset.sum_range_succ]

theorem sum_zmod (f : ZMod n → ℕ) : ∑ i, f i = ∑ i ∈ Finset.range n, f (i : ZMod n) := by
  rw [Finset.sum_range]
  refine (Fintype.sum_bijective (fun i : Fin n => ((i : ℕ) : ZMod n)) ⟨fun a b h => ?_, fun z => ⟨⟨z.val, z.val_lt⟩, by simp⟩⟩ _ _ fun _ => rfl).symm
  have h' := (ZMod.natCast_eq_natCast_iff _ _ _).1 h
  exact Fin.ext (by rw [Nat.ModEq, Nat.mod_eq_of_lt a.2, Nat.mod_eq_of_lt b.2] at h'; exact h')

theorem sum_zmod_blocks (f : ZMod n → ℕ) (d g : ℕ) (h : n = d * g) :
    ∑ i, f i = ∑ k ∈ Finset.range d, ∑ r ∈ Finset.range g, f ((k * g + r : ℕ) : ZMod n) := by
  rw [sum_zmod, ← sum_blocks fun i => f (i : ZMod n)]
  exact congrArg (fun N => ∑ i ∈ Finset.range N, f (i : ZMod n)) h

omit [Fintype β] in
theorem periodic (x : ZMod n → β) (j : ZMod n) (h : ∀ i, x (i - j) = x i) (i : ZMod n) : x (i + (Nat.gcd j.val n : ℕ)) = x i := by
  have hadd : ∀ i, x (i + j) = x i := fun i => by have := h (i + j); rw [add_sub_cancel_right] at this; exact this.symm
  have key : ∀ (k : ℕ) (i : ZMod n), x (i + k * j) = x i := by
    intro k
    induction k with
    | zero => intro i; simp
    | succ k ih => intro i; rw [show i + ((k + 1 : ℕ) : ZMod n) * j = (i + k * j) + j by push_cast; ring, hadd, ih]
  have e : ((Nat.gcd j.val n : ℕ) : ZMod n) = ((Nat.gcdA j.val n : ℤ) : ZMod n) * j := by
    have := congrArg (fun z : ℤ => (z : ZMod n)) (Nat.gcd_eq_gcd_ab j.val n)
    have hj : ((j.val : ℕ) : ZMod n) = j := ZMod.natCast_zmod_val j
    simp only [Int.cast_natCast, Int.cast_add, Int.cast_mul, hj, ZMod.natCast_self, zero_mul, add_zero] at this
    rw [this]; ring
  have e2 : ((Nat.gcdA j.val n : ℤ) : ZMod n) = (((Nat.gcdA j.val n : ℤ) : ZMod n).val : ZMod n) := by simp
  rw [e, e2]
  exact key _ _

omit [Fintype β] [NeZero n] in
theorem periodic_mul (x : ZMod n → β) (g : ℕ) (h : ∀ i, x (i + (g : ℕ)) = x i) (k : ℕ) (i : ZMod n) : x (i + (k * g : ℕ)) = x i := by
  induction k with
  | zero => simp
  | succ k ih => rw [show i + ((k + 1) * g : ℕ) = (i + (k * g : ℕ)) + (g : ℕ) by push_cast; ring, h, ih]

/-- the number of words fixed by a rotation of order `d`: its `d`-th power is at most the number of words -/
theorem fixed_pow (q : β → Fin m → ℕ) (c : Fin m → ℕ) (j : ZMod n) (d : ℕ) (hd : n = d * Nat.gcd j.val n) (F : Type) [Fintype F]
    (φ : F → Words q c n) (hφ : Function.Injective φ) (hfix : ∀ x, j +ᵥ φ x = φ x) : Fintype.card F ^ d ≤ Fintype.card (Words q c n) := by
  classical
  set g := Nat.gcd j.val n with hg
  have hn : 0 < n := NeZero.pos n
  have hg0 : 0 < g := Nat.gcd_pos_of_pos_right _ hn
  have hd0 : 0 < d := by rcases Nat.eq_zero_or_pos d with h | h; · rw [h] at hd; omega
                         · exact h
  have hper : ∀ (x : F) (i : ZMod n), (φ x).1 (i + (g : ℕ)) = (φ x).1 i := fun x =>
    periodic (φ x).1 j fun i => congrArg (fun w : Words q c n => w.1 i) (hfix x)
  have hcast : ∀ (x : F) (k r : ℕ), (φ x).1 ((k * g + r : ℕ) : ZMod n) = (φ x).1 (r : ℕ) := fun x k r => by
    rw [show ((k * g + r : ℕ) : ZMod n) = (r : ℕ) + (k * g : ℕ) by push_cast; ring]
    exact periodic_mul _ g (hper x) k _
  have hone : ∀ (x : F) (u : Fin m), d * ∑ r ∈ Finset.range g, q ((φ x).1 (r : ℕ)) u = c u := fun x u => by
    rw [← (φ x).2 u, sum_zmod_blocks _ d g hd]
    simp only [hcast]
    simp
  have hlt : ∀ i : ZMod n, i.val / g < d := fun i => Nat.div_lt_of_lt_mul (by rw [mul_comm, ← hd]; exact i.val_lt)
  let Φ : (Fin d → F) → Words q c n := fun xs => ⟨fun i => (φ (xs ⟨i.val / g, hlt i⟩)).1 i, fun u => by
    rw [sum_zmod_blocks _ d g hd, ← Nat.mul_left_cancel_iff hd0]
    have e : ∀ k ∈ Finset.range d, ∑ r ∈ Finset.range g, q ((φ (xs ⟨((k * g + r : ℕ) : ZMod n).val / g, hlt _⟩)).1 ((k * g + r : ℕ) : ZMod n)) u =
        ∑ r ∈ Finset.range g, if h : k < d then q ((φ (xs ⟨k, h⟩)).1 (r : ℕ)) u else 0 := fun k hk => by
      refine Finset.sum_congr rfl fun r hr => ?_
      have hk' := Finset.mem_range.1 hk
      have hr' := Finset.mem_range.1 hr
      have hv : ((k * g + r : ℕ) : ZMod n).val = k * g + r := by
        rw [ZMod.val_natCast, Nat.mod_eq_of_lt]
        calc k * g + r < k * g + g := by omega
          _ = (k + 1) * g := by ring
          _ ≤ d * g := Nat.mul_le_mul_right _ hk'
          _ = n := hd.symm
      have hdiv : ((k * g + r : ℕ) : ZMod n).val / g = k := by
        rw [hv, mul_comm, Nat.mul_add_div hg0, Nat.div_eq_of_lt hr', add_zero]
      rw [dif_pos hk', hcast]
      have : (⟨((k * g + r : ℕ) : ZMod n).val / g, hlt _⟩ : Fin d) = ⟨k, hk'⟩ := Fin.ext hdiv
      rw [this]
    rw [Finset.sum_congr rfl e, Finset.mul_sum]
    have e2 : ∀ k ∈ Finset.range d, d * ∑ r ∈ Finset.range g, (if h : k < d then q ((φ (xs ⟨k, h⟩)).1 (r : ℕ)) u else 0) = c u := fun k hk => by
      have hk' := Finset.mem_range.1 hk
      simp only [dif_pos hk']
      exact hone _ u
    rw [Finset.sum_congr rfl e2]
    simp⟩
  have hΦ : Function.Injective Φ := fun xs ys h => by
    funext k
    refine hφ (Subtype.ext (funext fun i => ?_))
    have hi : ∀ x : F, (φ x).1 i = (φ x).1 (((k : ℕ) * g + i.val % g : ℕ) : ZMod n) := fun x => by
      rw [hcast]
      conv_lhs => rw [show i = ((i.val / g * g + i.val % g : ℕ) : ZMod n) by rw [Nat.div_add_mod']; simp]
      exact hcast x _ _
    have hv : (((k : ℕ) * g + i.val % g : ℕ) : ZMod n).val = k * g + i.val % g := by
      rw [ZMod.val_natCast, Nat.mod_eq_of_lt]
      calc (k : ℕ) * g + i.val % g < k * g + g := by have := Nat.mod_lt i.val hg0; omega
        _ = (k + 1) * g := by ring
        _ ≤ d * g := Nat.mul_le_mul_right _ k.2
        _ = n := hd.symm
    have hdiv : (⟨(((k : ℕ) * g + i.val % g : ℕ) : ZMod n).val / g, hlt _⟩ : Fin d) = k := Fin.ext (by
      show (((k : ℕ) * g + i.val % g : ℕ) : ZMod n).val / g = k
      rw [hv, mul_comm, Nat.mul_add_div hg0, Nat.div_eq_of_lt (Nat.mod_lt _ hg0), add_zero])
    have := congrArg (fun w : Words q c n => w.1 (((k : ℕ) * g + i.val % g : ℕ) : ZMod n)) h
    simp only [Φ] at this
    rw [hdiv] at this
    rw [hi, this, ← hi]
  have := Fintype.card_le_of_injective Φ hΦ
  rwa [Fintype.card_fun, Fintype.card_fin] at this

/-- the words fixed by a rotation -/
noncomputable def fixed (q : β → Fin m → ℕ) (c : Fin m → ℕ) (j : ZMod n) : ℕ := Fintype.card {x : Words q c n // j +ᵥ x = x}

theorem fixed_le (q : β → Fin m → ℕ) (c : Fin m → ℕ) (j : ZMod n) : fixed q c j ≤ Fintype.card (Words q c n) := Fintype.card_subtype_le _

theorem fixed_pow' (q : β → Fin m → ℕ) (c : Fin m → ℕ) (j : ZMod n) :
    fixed q c j ^ (n / Nat.gcd j.val n) ≤ Fintype.card (Words q c n) :=
  fixed_pow q c j _ (Nat.div_mul_cancel (Nat.gcd_dvd_right _ _)).symm _ Subtype.val Subtype.val_injective fun x => x.2

/-- a rotation other than the identity and the one by half a turn has order three or more -/
theorem order_three (j : ZMod n) (h0 : j ≠ 0) (h2 : 2 * j.val ≠ n) : 3 ≤ n / Nat.gcd j.val n := by
  have hn : 0 < n := NeZero.pos n
  have hj : j.val ≠ 0 := fun h => h0 ((ZMod.val_eq_zero j).1 h)
  have hlt := j.val_lt
  have hg0 : 0 < Nat.gcd j.val n := Nat.gcd_pos_of_pos_right _ hn
  obtain ⟨a, ha⟩ := Nat.gcd_dvd_left j.val n
  obtain ⟨d, hd⟩ := Nat.gcd_dvd_right j.val n
  set g := Nat.gcd j.val n
  rw [hd, Nat.mul_div_cancel_left _ hg0]
  by_contra hlt3
  have ha0 : 0 < a := Nat.pos_of_ne_zero fun h => hj (by rw [ha, h, mul_zero])
  have had : a < d := by
    have : g * a < g * d := by rw [← ha, ← hd]; exact hlt
    exact Nat.lt_of_mul_lt_mul_left this
  have e : d = 2 ∧ a = 1 := by omega
  refine h2 (Eq.trans ?_ hd.symm)
  rw [ha, e.1, e.2]; ring

theorem order_two_le (j : ZMod n) (h0 : j ≠ 0) : 2 ≤ n / Nat.gcd j.val n := by
  by_cases h2 : 2 * j.val = n
  · have : Nat.gcd j.val n = j.val := Nat.gcd_eq_left ⟨2, by omega⟩
    have hj : 0 < j.val := Nat.pos_of_ne_zero fun h => h0 ((ZMod.val_eq_zero j).1 h)
    rw [this]
    exact (Nat.le_div_iff_mul_le hj).2 (by omega)
  · exact (by norm_num : 2 ≤ 3).trans (order_three j h0 h2)

theorem le_of_pow (F N d e : ℕ) (t : ℝ) (ht : 0 ≤ t) (he : e ≠ 0) (hde : e ≤ d) (h : F ^ d ≤ N) (hN : (N : ℝ) = t ^ e) : (F : ℝ) ≤ t := by
  have h1 : F ^ e ≤ N := by
    rcases Nat.eq_zero_or_pos F with h0 | h0
    · rw [h0, zero_pow he]; omega
    · exact (Nat.pow_le_pow_right h0 hde).trans h
  have h2 : (F : ℝ) ^ e ≤ t ^ e := by rw [← hN]; exact_mod_cast h1
  exact le_of_pow_le_pow_left₀ he ht h2

/-- the number of orbits met by words of different orbits -/
theorem orbits (q : β → Fin m → ℕ) (c : Fin m → ℕ) (R : Finset (Words q c n)) (hR : ∀ x ∈ R, ∀ y ∈ R, ∀ j : ZMod n, j +ᵥ x = y → x = y) :
    R.card * n ≤ ∑ j : ZMod n, fixed q c j := by
  classical
  have hB := AddAction.sum_card_fixedBy_eq_card_orbits_mul_card_addGroup (ZMod n) (Words q c n)
  have e : ∑ j : ZMod n, fixed q c j = ∑ j : ZMod n, Fintype.card (AddAction.fixedBy (Words q c n) j) :=
    Finset.sum_congr rfl fun j _ => Fintype.card_congr (Equiv.refl _)
  rw [e, hB, ZMod.card]
  refine Nat.mul_le_mul_right _ ?_
  let f : R → Quotient (AddAction.orbitRel (ZMod n) (Words q c n)) := fun x => Quotient.mk'' x.1
  have hf : Function.Injective f := fun x y h => by
    obtain ⟨j, hj⟩ := AddAction.orbitRel_apply.1 (Quotient.exact h)
    exact Subtype.ext (hR y.1 y.2 x.1 x.2 j hj).symm
  have := Fintype.card_le_of_injective f hf
  rwa [Fintype.card_coe] at this

/-- with `t ^ 6` words -/
theorem orbits_root (q : β → Fin m → ℕ) (c : Fin m → ℕ) (R : Finset (Words q c n))
    (hR : ∀ x ∈ R, ∀ y ∈ R, ∀ j : ZMod n, j +ᵥ x = y → x = y) :
    ∃ t : ℝ, 0 ≤ t ∧ (Fintype.card (Words q c n) : ℝ) = t ^ 6 ∧ (R.card : ℝ) * n ≤ t ^ 6 + t ^ 3 + n * t ^ 2 := by
  classical
  set N := Fintype.card (Words q c n) with hN
  refine ⟨(N : ℝ) ^ ((1 : ℝ) / 6), by positivity, ?_, ?_⟩
  · rw [← Real.rpow_natCast, ← Real.rpow_mul (by positivity)]; norm_num
  set t := (N : ℝ) ^ ((1 : ℝ) / 6) with ht
  have ht0 : 0 ≤ t := by positivity
  have ht6 : (N : ℝ) = t ^ 6 := by rw [ht, ← Real.rpow_natCast, ← Real.rpow_mul (by positivity)]; norm_num
  have h2 : ∀ j : ZMod n, j ≠ 0 → (fixed q c j : ℝ) ≤ t ^ 3 := fun j hj =>
    le_of_pow _ N _ 2 _ (by positivity) (by norm_num) (order_two_le j hj) (fixed_pow' q c j) (by rw [ht6]; ring)
  have h3 : ∀ j : ZMod n, j ≠ 0 → 2 * j.val ≠ n → (fixed q c j : ℝ) ≤ t ^ 2 := fun j hj hj2 =>
    le_of_pow _ N _ 3 _ (by positivity) (by norm_num) (order_three j hj hj2) (fixed_pow' q c j) (by rw [ht6]; ring)
  have hb : ∀ j : ZMod n, (fixed q c j : ℝ) ≤ (if j = 0 then t ^ 6 else 0) + (if j = ((n / 2 : ℕ) : ZMod n) then t ^ 3 else 0) + t ^ 2 := fun j => by
    have p3 : (0 : ℝ) ≤ if j = ((n / 2 : ℕ) : ZMod n) then t ^ 3 else 0 := by split <;> positivity
    have p2 : (0 : ℝ) ≤ t ^ 2 := by positivity
    by_cases h0 : j = 0
    · rw [if_pos h0]
      have : (fixed q c j : ℝ) ≤ t ^ 6 := by rw [← ht6]; exact_mod_cast fixed_le q c j
      linarith
    · rw [if_neg h0]
      by_cases hh : 2 * j.val = n
      · have : j = ((n / 2 : ℕ) : ZMod n) := by
          rw [show n / 2 = j.val by omega]; exact (ZMod.natCast_zmod_val j).symm
        rw [if_pos this]
        have := h2 j h0
        linarith
      · have := h3 j h0 hh
        linarith
  have hsum := orbits q c R hR
  have hcast : (R.card : ℝ) * n ≤ ∑ j : ZMod n, (fixed q c j : ℝ) := by exact_mod_cast hsum
  refine hcast.trans ((Finset.sum_le_sum fun j _ => hb j).trans (le_of_eq ?_))
  rw [Finset.sum_add_distrib, Finset.sum_add_distrib, Finset.sum_ite_eq' Finset.univ, Finset.sum_ite_eq' Finset.univ]
  simp [ZMod.card]

/-- the memory reserved for one sector is enough -/
theorem orbits_bound (q : β → Fin m → ℕ) (c : Fin m → ℕ) (R : Finset (Words q c n))
    (hR : ∀ x ∈ R, ∀ y ∈ R, ∀ j : ZMod n, j +ᵥ x = y → x = y) :
    (R.card : ℝ) ≤ (1 + 1 / n) * Fintype.card (Words q c n) / n + n := by
  have hn0 : 0 < n := NeZero.pos n
  have hnr : (0 : ℝ) < n := by exact_mod_cast hn0
  by_cases hn : 2 ≤ n
  · obtain ⟨t, ht, h6, h⟩ := orbits_root q c R hR
    rw [h6]
    have hn2 : (2 : ℝ) ≤ n := by exact_mod_cast hn
    have k1 : 3 * (n : ℝ) ^ 2 * t ^ 2 ≤ t ^ 6 + 2 * n ^ 3 := by
      have : 0 ≤ (t ^ 2 - n) ^ 2 * (t ^ 2 + 2 * n) := by positivity
      nlinarith
    have k2 : 3 * (n : ℝ) * t ^ 3 ≤ 2 * t ^ 6 + n ^ 3 := by
      have a1 : 0 ≤ 2 * (t ^ 3 - 3 / 4 * n) ^ 2 := by positivity
      have a2 : (n : ℝ) ^ 3 ≥ 2 * n ^ 2 := by nlinarith [sq_nonneg (n : ℝ)]
      nlinarith
    have k3 : (R.card : ℝ) * n ^ 2 ≤ n * t ^ 6 + t ^ 6 + n ^ 3 := by nlinarith
    rw [show (1 + 1 / (n : ℝ)) * t ^ 6 / n + n = (n * t ^ 6 + t ^ 6 + n ^ 3) / n ^ 2 by field_simp]
    rw [le_div_iff₀ (by positivity)]
    exact k3
  · have h1 : n = 1 := by omega
    have hc : R.card ≤ Fintype.card (Words q c n) := Finset.card_le_univ R
    have hc' : (R.card : ℝ) ≤ Fintype.card (Words q c n) := by exact_mod_cast hc
    have hnn : (n : ℝ) = 1 := by exact_mod_cast h1
    rw [hnn]
    have : (0 : ℝ) ≤ Fintype.card (Words q c n) := by positivity
    linarith

/-- large sectors need nothing of the constant `n` -/
theorem orbits_bound_large (q : β → Fin m → ℕ) (c : Fin m → ℕ) (R : Finset (Words q c n))
    (hR : ∀ x ∈ R, ∀ y ∈ R, ∀ j : ZMod n, j +ᵥ x = y → x = y) (hbig : 8 * n ^ 3 ≤ Fintype.card (Words q c n)) :
    (R.card : ℝ) ≤ (1 + 1 / n) * Fintype.card (Words q c n) / n := by
  have hn0 : 0 < n := NeZero.pos n
  have hnr : (0 : ℝ) < n := by exact_mod_cast hn0
  by_cases hn : 2 ≤ n
  · obtain ⟨t, ht, h6, h⟩ := orbits_root q c R hR
    have hbig' : 8 * (n : ℝ) ^ 3 ≤ t ^ 6 := by rw [← h6]; exact_mod_cast hbig
    rw [h6]
    have hn2 : (2 : ℝ) ≤ n := by exact_mod_cast hn
    have ht2 : 2 * (n : ℝ) ≤ t ^ 2 := by
      have : (2 * (n : ℝ)) ^ 3 ≤ (t ^ 2) ^ 3 := by nlinarith
      exact le_of_pow_le_pow_left₀ (by norm_num) (by positivity) this
    have ht3 : 2 * (n : ℝ) ≤ t ^ 3 := by
      have : (2 * (n : ℝ)) ^ 2 ≤ (t ^ 3) ^ 2 := by nlinarith [sq_nonneg (n : ℝ)]
      exact le_of_pow_le_pow_left₀ (by norm_num) (by positivity) this
    have k1 : 4 * (n : ℝ) ^ 2 * t ^ 2 ≤ t ^ 6 := by
      have : (2 * (n : ℝ)) ^ 2 ≤ (t ^ 2) ^ 2 := pow_le_pow_left₀ (by positivity) ht2 2
      nlinarith [sq_nonneg t]
    have k2 : 2 * (n : ℝ) * t ^ 3 ≤ t ^ 6 := by
      have : 0 ≤ t ^ 3 := by positivity
      nlinarith
    have k3 : (R.card : ℝ) * n ^ 2 ≤ n * t ^ 6 + t ^ 6 := by nlinarith
    rw [show (1 + 1 / (n : ℝ)) * t ^ 6 / n = (n * t ^ 6 + t ^ 6) / n ^ 2 by field_simp]
    rw [le_div_iff₀ (by positivity)]
    exact k3
  · have h1 : n = 1 := by omega
    have hc : R.card ≤ Fintype.card (Words q c n) := Finset.card_le_univ R
    have hc' : (R.card : ℝ) ≤ Fintype.card (Words q c n) := by exact_mod_cast hc
    have hnn : (n : ℝ) = 1 := by exact_mod_cast h1
    rw [hnn]
    have : (0 : ℝ) ≤ Fintype.card (Words q c n) := by positivity
    linarith

end Proof.Reserve
