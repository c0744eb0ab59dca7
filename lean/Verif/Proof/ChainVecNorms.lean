import Verif.Proof.ChainVecNorm
import Verif.Proof.ChainBlocks
import Verif.Proof.Projector
/-! `_get_norms` gives the squared norms of the projections. -/
namespace Proof.Chain
open Spec Model.Chain Proof.Symmetry
open Spec.Chain (Fits HasFlip)
open scoped BigOperators

/-- the norm from the diagonal element of the projection -/
theorem norm_static {c : Spec.Chain} {ys : List Generator} (h : Acts (· < c.size) ys) (s : ℕ) (hs : s < c.size) (N : Int) (m : ℕ) (hm : 0 < m)
    (hl : (exponents ys).length = m) (hN : (N : ℂ) = m * projection ys s s) :
    (N : ℝ) = ∑ u ∈ Finset.range c.size, ‖projection ys s u‖ ^ 2 := by
  have hm' : (m : ℝ) ≠ 0 := by exact_mod_cast hm.ne'
  have hm'' : (m : ℂ) ≠ 0 := by exact_mod_cast hm.ne'
  have e : projection ys s s = (((N : ℝ) / m : ℝ) : ℂ) := by
    push_cast
    rw [hN]
    field_simp
  rw [norm_real h s hs _ e, hl]
  field_simp

theorem norm_tr {c : Spec.Chain} {y : Generator} (h : Acts (· < c.size) [y]) (s : ℕ) (hs : s < c.size) (T n k r : ℕ) (hT : 0 < T) (hr : 0 < r)
    (hL : c.length = T * n) (hp : y.per = n) (hpr : projection [y] s s * r = n) (M : ℕ) :
    normSq { a := T, k := some k } c.length r M = ∑ u ∈ Finset.range c.size, ‖projection [y] s u‖ ^ 2 := by
  have hr' : (r : ℝ) ≠ 0 := by exact_mod_cast hr.ne'
  have hr'' : (r : ℂ) ≠ 0 := by exact_mod_cast hr.ne'
  have hT' : (T : ℝ) ≠ 0 := by exact_mod_cast hT.ne'
  have e : projection [y] s s = (((n : ℝ) / r : ℝ) : ℂ) := by
    push_cast
    rw [← hpr]
    field_simp
  rw [norm_real h s hs _ e, Proof.Projector.exponents_length]
  simp only [normSq, Option.isSome_some, Option.isSome_none, List.map_cons, List.map_nil, List.prod_cons, List.prod_nil, mul_one, hp, hL]
  simp
  field_simp

theorem int8_small {x : Int} (h : -128 ≤ x) (h' : x < 128) : int8 x = x := by unfold int8; omega

theorem norm_tr_z {c : Spec.Chain} {y z : Generator} (h : Acts (· < c.size) [y, z]) (s : ℕ) (hs : s < c.size) (T n k : ℕ) (p : Int) (hT : 0 < T)
    (hL : c.length = T * n) (hp : y.per = n) (hz : z.per = 2) (Nm : ℕ × ℕ) (hM : Nm.2 < 128)
    (hpr : projection [y, z] s s = (weightT_Z p k c.length T Nm * n : ℝ)) :
    normSq { a := T, k := some k, z := some p } c.length Nm.1 Nm.2 = ∑ u ∈ Finset.range c.size, ‖projection [y, z] s u‖ ^ 2 := by
  have hT' : (T : ℝ) ≠ 0 := by exact_mod_cast hT.ne'
  rw [norm_real h s hs _ hpr, Proof.Projector.exponents_length]
  have h8 : int8 (Nm.2 : Int) = Nm.2 := int8_small (by omega) (by omega)
  have hn : ((c.length : ℝ) / T) = n := by rw [hL]; push_cast; field_simp
  simp only [normSq, Option.isSome_some, Option.isSome_none, List.map_cons, List.map_nil, List.prod_cons, List.prod_nil, mul_one, hp, hz,
    Option.getD_some, h8, hn, weightT_Z]
  norm_num
  split_ifs <;> ring

theorem norm_tr_sub {c : Spec.Chain} {y z : Generator} (h : Acts (· < c.size) [y, z]) (s : ℕ) (hs : s < c.size) (T n k : ℕ) (p : Int) (hT : 0 < T)
    (hL : c.length = T * n) (hp : y.per = n) (hz : z.per = 2) (Nm : ℕ × ℕ) (hM : Nm.2 ≤ 128)
    (hpr : projection [y, z] s s = (weightT_ZA p k c.length T Nm * n : ℝ)) :
    normSq { a := T, k := some k, zA := some p } c.length Nm.1 Nm.2 = ∑ u ∈ Finset.range c.size, ‖projection [y, z] s u‖ ^ 2 ∧
    normSq { a := T, k := some k, zB := some p } c.length Nm.1 Nm.2 = ∑ u ∈ Finset.range c.size, ‖projection [y, z] s u‖ ^ 2 := by
  have hT' : (T : ℝ) ≠ 0 := by exact_mod_cast hT.ne'
  rw [norm_real h s hs _ hpr, Proof.Projector.exponents_length]
  have h8 : int8 ((Nm.2 : Int) - 1) = (Nm.2 : Int) - 1 := int8_small (by omega) (by omega)
  have hn : ((c.length : ℝ) / T) = n := by rw [hL]; push_cast; field_simp
  constructor <;>
  · simp only [normSq, Option.isSome_some, Option.isSome_none, List.map_cons, List.map_nil, List.prod_cons, List.prod_nil, mul_one, hp, hz,
      Option.getD_some, h8, hn, weightT_ZA]
    norm_num
    split_ifs <;> ring

/-! ### chains short enough for the codes to fit -/

theorem translates_lt {Tr : BitOp} {fits : ℕ → Int → Bool} {s : ℕ} : ∀ (n i : ℕ) (x : ℕ × Int) {r : ℕ} {sg : Int},
    translates Tr fits s n i x = .found r sg → r < i + n
  | 0, i, x, r, sg, h => by simp [translates] at h
  | n + 1, i, x, r, sg, h => by
    unfold translates at h
    simp only at h
    split at h
    · cases h
    · split at h
      · split at h
        · cases h; omega
        · cases h
      · have := translates_lt n (i + 1) _ h
        omega

theorem transformed_lt {Tr : BitOp} {s : ℕ} : ∀ (n i : ℕ) (x : ℕ × Int) {m : ℕ} {sg : Int}, transformed Tr s n i x = .found m sg → m < i + n
  | 0, i, x, m, sg, h => by simp [transformed] at h
  | n + 1, i, x, m, sg, h => by
    unfold transformed at h
    split at h
    · cases h
    · split at h
      · cases h; omega
      · have := transformed_lt n (i + 1) _ h
        omega

theorem transformed_pm {S : ℕ → Prop} {Tr : BitOp} {s : ℕ} (hc : ∀ t, S t → S (Tr t).1) (hs : ∀ t, S t → (Tr t).2 = 1 ∨ (Tr t).2 = -1) :
    ∀ (n i : ℕ) (x : ℕ × Int) {m : ℕ} {sg : Int}, S x.1 → (x.2 = 1 ∨ x.2 = -1) → transformed Tr s n i x = .found m sg → sg = 1 ∨ sg = -1
  | 0, i, x, m, sg, _, _, h => by simp [transformed] at h
  | n + 1, i, x, m, sg, h1, h2, h => by
    unfold transformed at h
    split at h
    · cases h
    · split at h
      · cases h; exact h2
      · exact transformed_pm hc hs n (i + 1) (step Tr x) (hc _ h1) (pm_mul h2 (hs _ h1)) h

theorem code_small {S : ℕ → Prop} {Tr Z : BitOp} {z : Int} {k L T s : ℕ} (hT : ∀ t, S t → S (Tr t).1) (hT' : ∀ t, S t → (Tr t).2 = 1 ∨ (Tr t).2 = -1)
    (hZ : ∀ t, S t → S (Z t).1) (hZ' : ∀ t, S t → (Z t).2 = 1 ∨ (Z t).2 = -1) (hs : S s) {Nm : ℕ × ℕ}
    (h : keepT_Z Tr Z z k L T s = some Nm) : Nm.2 ≤ 2 * L + 1 := by
  have hLT : L / T ≤ L := Nat.div_le_self _ _
  have hb : (checkT_Z Tr Z k L T s).1 ≤ 0 ∨ (checkT_Z Tr Z k L T s).2.1 < L ∧ (checkT_Z Tr Z k L T s).2.2 ≤ 1 := by
    unfold checkT_Z
    split
    · left; norm_num
    · split
      · left; norm_num
      · rename_i r sg hr
        have h1 := translates_lt _ _ _ hr
        split
        · left; norm_num
        · rename_i m sg' hm
          right
          have h2 := transformed_lt _ _ _ hm
          have h3 := transformed_pm hT hT' _ _ _ (show S (step Z (s, 1)).1 from hZ s hs) (by
            show 1 * (Z s).2 = 1 ∨ 1 * (Z s).2 = -1
            rw [one_mul]; exact hZ' s hs) hm
          simp only
          omega
        · right; simp only; omega
      · split
        · left; norm_num
        · left; norm_num
        · left; norm_num
  unfold keepT_Z at h
  simp only at h
  generalize checkT_Z Tr Z k L T s = R at h hb
  have h0 : R.1 > 0 ∧ (R.2.1 + 1 + ((if R.2.1 ≠ -1 then R.2.2 else -1) + 1) / 2 * ((L : Int) + 1)).toNat = Nm.2 := by
    by_cases hc : R.2.1 ≠ -1 ∧ 1 + R.2.2 * z * Real.cos (wave k L T * R.2.1) = 0
    · rw [if_pos hc, if_neg (by norm_num)] at h
      cases h
    · rw [if_neg hc] at h
      by_cases hr : R.1 > 0
      · rw [if_pos hr] at h
        cases h
        exact ⟨hr, rfl⟩
      · rw [if_neg hr] at h
        cases h
  obtain ⟨hR, hN⟩ := h0
  obtain ⟨h1, h2⟩ := hb.resolve_left (by omega)
  have h3 : ((if R.2.1 ≠ -1 then R.2.2 else -1) + 1) / 2 ≤ 1 := by split <;> omega
  have h4 : ((if R.2.1 ≠ -1 then R.2.2 else -1) + 1) / 2 * ((L : Int) + 1) ≤ 1 * ((L : Int) + 1) := by
    apply mul_le_mul_of_nonneg_right h3; omega
  omega

theorem sub_code_small {Tr Z : BitOp} {z : Int} {k L T s : ℕ} {Nm : ℕ × ℕ} (h : keepT_ZA Tr Z z k L T s = some Nm) : Nm.2 ≤ L / T := by
  have hb : (checkT_ZA Tr Z k L T s).1 ≤ 0 ∨ (checkT_ZA Tr Z k L T s).2 < (L / T : ℕ) := by
    unfold checkT_ZA
    split
    · left; norm_num
    · split
      · left; norm_num
      · rename_i r sg hr
        have h1 := translates_lt _ _ _ hr
        split
        · left; norm_num
        · rename_i m sg' hm
          right
          have h2 := transformed_lt _ _ _ hm
          simp only
          omega
        · right; simp only; omega
      · split
        · left; norm_num
        · left; norm_num
        · left; norm_num
  unfold keepT_ZA at h
  simp only at h
  generalize checkT_ZA Tr Z k L T s = R at h hb
  have h0 : R.1 > 0 ∧ (R.2 + 1).toNat = Nm.2 := by
    by_cases hc : R.2 ≠ -1 ∧ 1 + z * Real.cos (wave k L T * R.2) = 0
    · rw [if_pos hc, if_neg (by norm_num)] at h
      cases h
    · rw [if_neg hc] at h
      by_cases hr : R.1 > 0
      · rw [if_pos hr] at h
        cases h
        exact ⟨hr, rfl⟩
      · rw [if_neg hr] at h
        cases h
  obtain ⟨hR, hN⟩ := h0
  have h1 := hb.resolve_left (by omega)
  generalize L / T = n at *
  omega

end Proof.Chain
