import Verif.Model.ChainPlain
import Verif.Spec.ChainPlain
import Verif.Proof.ChainSector
import Verif.Proof.Boson
import Verif.Proof.BosonRoom
import Verif.Proof.HDim
import Verif.Props.C02
import Verif.Props.C04
namespace Proof.Chain
open Spec Model Model.Chain Proof.Gosper Proof.HcbBasis Proof.MakeBasis Proof.Spinful

theorem visited_visit (next : ℕ → ℕ) (n s k : ℕ) : visited next n s = visit (fun s _ => next s) n s k := by
  induction n generalizing s k with
  | zero => rfl
  | succ n ih => rw [visited, visit, ih]

theorem typeFor_spec {m w : ℕ} (h : typeFor m = some w) : m < 2 ^ w ∧ (w = 32 ∨ w = 64) := by
  unfold typeFor at h
  split_ifs at h with h1 h2
  · cases h; exact ⟨h1, Or.inl rfl⟩
  · cases h; exact ⟨h2, Or.inr rfl⟩

theorem foldl_max_le (l : List ℕ) : ∀ k, k ≤ l.foldl max k ∧ ∀ x ∈ l, x ≤ l.foldl max k := by
  induction l with
  | nil => intro k; simp
  | cons a l ih =>
    intro k
    obtain ⟨h1, h2⟩ := ih (max k a)
    rw [List.foldl_cons]
    refine ⟨by omega, fun x hx => ?_⟩
    rcases List.mem_cons.1 hx with rfl | hx
    · omega
    · exact h2 x hx

theorem foldl_max_mem (l : List ℕ) : ∀ k, l.foldl max k = k ∨ l.foldl max k ∈ l := by
  induction l with
  | nil => intro k; simp
  | cons a l ih =>
    intro k
    rw [List.foldl_cons]
    rcases ih (max k a) with h | h
    · rw [h]
      rcases Nat.le_total k a with h' | h'
      · right; rw [Nat.max_eq_right h']; simp
      · left; exact Nat.max_eq_left h'
    · right; exact List.mem_cons_of_mem _ h

theorem top_sum (L : ℕ) : ∀ k, k ≤ L → ((List.range k).map fun (i : ℕ) => 2 ^ (L - 1 - i)).sum = (2 ^ k - 1) * 2 ^ (L - k) := by
  intro k
  induction k with
  | zero => intro _; simp
  | succ k ih =>
    intro h
    rw [List.range_succ, List.map_append, List.sum_append, ih (by omega)]
    simp only [List.map_cons, List.map_nil, List.sum_cons, List.sum_nil, Nat.add_zero]
    obtain ⟨d, rfl⟩ : ∃ d, L = d + (k + 1) := ⟨L - (k + 1), by omega⟩
    rw [show d + (k + 1) - k = d + 1 by omega, show d + (k + 1) - 1 - k = d by omega, show d + (k + 1) - (k + 1) = d by omega,
      Nat.sub_mul, Nat.sub_mul, Nat.pow_succ, Nat.pow_succ]
    have : 1 ≤ 2 ^ k := Nat.one_le_two_pow
    have h2 : 2 ^ d ≤ 2 ^ k * 2 ^ d := Nat.le_mul_of_pos_left _ this
    have e1 : 2 ^ k * (2 ^ d * 2) = 2 * (2 ^ k * 2 ^ d) := by ring
    have e2 : 2 ^ k * 2 * 2 ^ d = 2 * (2 ^ k * 2 ^ d) := by ring
    rw [e1, e2]
    omega

theorem smax_two (L k : ℕ) (hk : k ≤ L) : bosonSMax L 2 (some k) = (2 ^ k - 1) * 2 ^ (L - k) := by
  unfold bosonSMax
  simp only [Nat.div_one, Nat.mod_one, Nat.zero_mul, Nat.add_zero, Nat.one_mul, show 2 - 1 = 1 from rfl]
  exact top_sum L k hk

theorem spfMaxRight_eq (L d : ℕ) (hd : d ≤ L) : spfMaxRight L d = (2 ^ d - 1) * 2 ^ (L - d) := by
  rw [← top_sum L d hd]
  unfold spfMaxRight
  congr 1
  apply List.map_congr_left
  intro i _
  rw [Nat.shiftLeft_eq, Nat.one_mul, Nat.sub_right_comm]

theorem top_ge (L k : ℕ) (h1 : 1 ≤ k) (hk : k ≤ L) : 2 ^ (L - 1) ≤ (2 ^ k - 1) * 2 ^ (L - k) := by
  obtain ⟨d, rfl⟩ : ∃ d, L = d + k := ⟨L - k, by omega⟩
  obtain ⟨j, rfl⟩ : ∃ j, k = j + 1 := ⟨k - 1, by omega⟩
  rw [show d + (j + 1) - 1 = j + d by omega, show d + (j + 1) - (j + 1) = d by omega, Nat.pow_add]
  apply Nat.mul_le_mul_right
  rw [Nat.pow_succ]
  have := Nat.one_le_two_pow (n := j)
  omega

theorem width_of_pow {a w : ℕ} (h : 2 ^ (a - 1) < 2 ^ w) (ha : 0 < a) : a ≤ w := by
  have := (Nat.pow_lt_pow_iff_right (a := 2) (by omega)).1 h
  omega

theorem typeFor_width {m a wide : ℕ} (h : 2 ^ (a - 1) ≤ m) (ha : 0 < a) (hw : a ≤ wide) : a ≤ widthOf (typeFor m) wide := by
  cases ht : typeFor m with
  | none => exact hw
  | some w => exact width_of_pow (Nat.lt_of_le_of_lt h (typeFor_spec ht).1) ha

theorem dsum_two (n s : ℕ) : dsum 2 n s = count n s := by
  unfold dsum count
  induction n with
  | zero => rfl
  | succ n ih =>
    rw [List.range_succ, List.map_append, List.sum_append, ih, List.countP_append]
    congr 1
    simp only [List.map_cons, List.map_nil, List.sum_cons, List.sum_nil, Nat.add_zero, digit, List.countP_singleton,
      Nat.testBit_eq_decide_div_mod_eq, decide_eq_true_eq]
    split <;> omega

theorem hDim_two (L k : ℕ) (h0 : 0 < L) : hDim k L 1 = (L.choose k : ℕ) := by
  obtain ⟨n, rfl⟩ : ∃ n, L = n + 1 := ⟨L - 1, by omega⟩
  rw [← sector_length, show (1 : ℕ) = 2 - 1 from rfl, Proof.HDim.hDim_eq 2 n k (by omega)]
  unfold sectorB sector
  congr 2
  apply List.filter_congr
  intro s _
  rw [dsum_two]

/-- sectors written one after the other and sorted -/
theorem plain_ok (sort : List ℕ → List ℕ) (hs : SortsStates sort) (junk : ℕ → ℕ) (alloc : ℕ) (sectors : List (List ℕ))
    (ha : sectors.flatten.length ≤ alloc) (hinc : ∀ l ∈ sectors, l.Pairwise (· < ·))
    (hdis : sectors.Pairwise List.Disjoint) (hne : sectors.length = 1 → sectors.flatten ≠ []) :
    ∃ basis, plainBasis sort junk alloc sectors = some basis ∧ (∀ s, s ∈ basis ↔ ∃ l ∈ sectors, s ∈ l) ∧ basis.Pairwise (· > ·) := by
  unfold plainBasis
  simp only
  rw [if_neg (by omega)]
  by_cases h1 : sectors.length = 1
  · rw [if_pos h1, if_neg (by rw [List.length_eq_zero_iff]; exact hne h1)]
    obtain ⟨l, rfl⟩ := List.length_eq_one_iff.1 h1
    refine ⟨_, rfl, fun s => by simp, ?_⟩
    rw [List.pairwise_reverse]
    simpa using hinc l (by simp)
  · rw [if_neg h1]
    obtain ⟨hp, hd⟩ := hs sectors.flatten
    refine ⟨_, rfl, fun s => by rw [hp.mem_iff, List.mem_flatten], ?_⟩
    have hnd : sectors.flatten.Nodup := by
      rw [List.nodup_flatten]
      exact ⟨fun l hl => (hinc l hl).imp Nat.ne_of_lt, hdis⟩
    exact hd.imp₂ (fun a b h h' => Nat.lt_of_le_of_ne h (Ne.symm h')) (hp.nodup_iff.2 hnd)

/-- the type holds the configurations of the sectors -/
theorem hcp_sector_eq (L : ℕ) (ks : List ℕ) (hle : ∀ k ∈ ks, k ≤ L) (wide : ℕ) (hw : L ≤ wide) (t : Option ℕ)
    (ht : basisType L 2 (some ks) = some t) (k : ℕ) (hk : k ∈ ks) : sectorHcp (widthOf t wide) L k = sector L k := by
  unfold sectorHcp
  by_cases h0 : k = 0
  · subst h0
    rw [Nat.choose_zero_right]
    have h1 : (sector L 0).length = 1 := by rw [sector_length, Nat.choose_zero_right]
    obtain ⟨a, ha⟩ := List.length_eq_one_iff.1 h1
    have : (0 : ℕ) ∈ sector L 0 := by
      rw [count_lt_iff_sector]
      refine ⟨Nat.two_pow_pos L, ?_⟩
      unfold count; simp
    rw [ha, List.mem_singleton] at this
    rw [ha, ← this]
    rfl
  · apply pcon_visited
    · cases ks with
      | nil => simp at hk
      | cons a ks =>
        simp only [basisType, Option.some.injEq] at ht
        subst ht
        have hm : k ≤ ks.foldl max a := by
          rcases List.mem_cons.1 hk with rfl | h
          · exact (foldl_max_le ks k).1
          · exact (foldl_max_le ks a).2 k h
        have hmL : ks.foldl max a ≤ L := by
          rcases foldl_max_mem ks a with h | h
          · rw [h]; exact hle a (by simp)
          · exact hle _ (by simp [h])
        apply typeFor_width _ (by omega) hw
        rw [smax_two L _ hmL]
        exact top_ge L _ (by omega) hmL
    · exact hle k hk

theorem topfill_dsum (b : ℕ) (hb : 2 < b) : ∀ n k, k ≤ n * (b - 1) → dsum b n (Proof.Digits.topfill b n k) = k := by
  intro n
  induction n with
  | zero => intro k hk; simp at hk; subst hk; rfl
  | succ n ih =>
    intro k hk
    rw [Proof.Digits.topfill, Proof.Digits.dsum_cons b n _ _ (by omega) (Proof.Boson.topfill_lt b n _ hb), ih]
    · omega
    · rw [Nat.add_mul] at hk
      omega

/-- counting through the configurations -/
theorem visited_wrap (w n s : ℕ) (hs : s < 2 ^ w) : visited (inc1 w) n s = (List.range n).map fun (i : ℕ) => (s + i) % 2 ^ w := by
  induction n generalizing s with
  | zero => rfl
  | succ n ih =>
    rw [visited, List.range_succ_eq_map, List.map_cons, List.map_map, ih (inc1 w s) (Nat.mod_lt _ (Nat.two_pow_pos w))]
    congr 1
    · rw [Nat.add_zero, Nat.mod_eq_of_lt hs]
    · apply List.map_congr_left
      intro i _
      simp only [inc1, Word.add, Function.comp_apply, Nat.mod_add_mod]
      congr 1
      omega

theorem visited_full (w n : ℕ) (h : n ≤ 2 ^ w) : visited (inc1 w) n 0 = List.range n := by
  rw [visited_wrap w n 0 (Nat.two_pow_pos w)]
  conv_rhs => rw [← List.map_id (List.range n)]
  apply List.map_congr_left
  intro i hi
  rw [List.mem_range] at hi
  rw [Nat.zero_add, Nat.mod_eq_of_lt (by omega)]
  rfl

/-- bosons -/
theorem scan_1d (w b : ℕ) : ∀ cnt i n s, boson1dScan w b cnt i n s = bosonScan w b cnt i n s ∨ bosonScan w b cnt i n s = s := by
  intro cnt
  induction cnt with
  | zero => intro i n s; right; rfl
  | succ c ih =>
    intro i n s
    rw [boson1dScan, bosonScan]
    simp only
    split_ifs with h1 h2 h3
    · exact Or.inl rfl
    · exact Or.inl rfl
    · exact ih _ _ _
    · exact ih _ _ _

theorem boson_sector_eq (w b L k : ℕ) (h0 : 0 < L) (hb : 2 < b) (hk : k ≤ L * (b - 1)) (hT : Proof.Digits.topfill b L k < 2 ^ w)
    (hfit : ∀ x, x < b ^ L → dsum b L x ≤ k → x < 2 ^ w)
    (hroom : 0 < k / (b - 1) → k / (b - 1) + 2 ≤ L → Proof.Digits.topfill b L k + k % (b - 1) < 2 ^ w) :
    sectorBoson w b L k = sectorB b L k := by
  obtain ⟨n, rfl⟩ : ∃ n, L = n + 1 := ⟨L - 1, by omega⟩
  unfold sectorBoson
  rw [Proof.HDim.hDim_eq b n k (by omega), Int.toNat_natCast, visited_visit _ _ _ 0]
  refine Proof.Boson.visit_next _ w b (n + 1) k hb hk hT hfit hroom ?_
  intro s hs
  have hs0 : s ≠ 0 := by
    rintro rfl
    simp [bosonNext] at hs
  unfold bosonNext at hs ⊢
  rw [if_neg hs0] at hs ⊢
  unfold boson1dNext
  rcases scan_1d w b (n + 1 - 1) 0 0 s with h | h
  · exact h
  · omega

/-- spinful fermions -/
theorem spf_split (L l r : ℕ) (hr : r < 2 ^ L) : (l * 2 ^ L + r) &&& (2 ^ L - 1) = r ∧ (l * 2 ^ L + r) >>> L = l := by
  rw [Nat.and_two_pow_sub_one_eq_mod, Nat.shiftRight_eq_div_pow, Nat.mul_comm, Nat.mul_add_div (Nat.two_pow_pos L),
    Nat.div_eq_of_lt hr, Nat.add_zero, Nat.mul_add_mod, Nat.mod_eq_of_lt hr]
  exact ⟨rfl, rfl⟩

theorem spf_allowed (w L : ℕ) (hL : L ≤ w) (dbl : Bool) (s : ℕ) :
    spfAllowed L dbl s = !(decide (dbl = false ∧ (splitState w L s).1 &&& (splitState w L s).2 ≠ 0)) := by
  unfold spfAllowed splitState
  rw [ones_shift hL]
  cases dbl
  · simp only [true_and, if_true]
    rw [Nat.and_comm, Nat.and_comm s]
    simp
    rfl
  · simp

theorem comb_zero (w L r : ℕ) (h : r < 2 ^ w) : combState w L 0 r = r := by
  unfold combState Word.add Word.shl
  simp [Nat.mod_eq_of_lt h]

/-- the pairs of halves with the given numbers of particles -/
def halves (L : ℕ) (p : ℕ × ℕ) : List ℕ := (sector L p.1).flatMap fun l => (sector L p.2).map fun r => l * 2 ^ L + r

theorem spf_visited (w L : ℕ) (p : ℕ × ℕ) (h : 2 * L ≤ w ∨ p.1 = 0 ∧ L ≤ w) (hd : p.2 ≤ L) :
    visited (spf1dNext w L (spfMaxRight L p.2) (s0Pcon p.2)) (L.choose p.1 * L.choose p.2) (spinfulS0 L p) = halves L p := by
  obtain ⟨u, d⟩ := p
  simp only at h hd ⊢
  have hL : L ≤ w := by omega
  have hmem : ∀ k x, x ∈ sector L k → x < 2 ^ L ∧ count L x = k := fun k x h => count_lt_iff_sector.1 h
  have hcomb : ∀ l ∈ sector L u, ∀ r, r < 2 ^ L → combState w L l r = l * 2 ^ L + r := by
    intro l hl r hr
    rcases h with h2 | ⟨rfl, _⟩
    · exact comb_eq h2 l r (hmem u l hl).1 hr
    · have hl0 : l = 0 := by
        have h1 : (sector L 0).length = 1 := by rw [sector_length, Nat.choose_zero_right]
        obtain ⟨a, ha⟩ := List.length_eq_one_iff.1 h1
        have h0 : (0 : ℕ) ∈ sector L 0 := by
          rw [count_lt_iff_sector]
          refine ⟨Nat.two_pow_pos L, ?_⟩
          unfold count; simp
        rw [ha, List.mem_singleton] at h0 hl
        omega
      subst hl0
      rw [comb_zero w L r (Nat.lt_of_lt_of_le hr (Nat.pow_le_pow_right (by omega) hL)), Nat.zero_mul, Nat.zero_add]
  rw [visited_visit _ _ _ 0]
  refine visit_product _ w L u d hL ?_ ?_
  · intro l hl a ha hlt hb
    unfold spf1dNext
    rw [spfMaxRight_eq L d hd, (spf_split L l a (hmem d a ha).1).1, (spf_split L l a (hmem d a ha).1).2]
    simp only
    rw [if_pos hlt, hcomb l hl _ hb]
  · intro l hl a ha hlt hb
    unfold spf1dNext
    rw [spfMaxRight_eq L d hd, (spf_split L l a (hmem d a ha).1).1, (spf_split L l a (hmem d a ha).1).2]
    simp only
    rw [if_neg hlt, Proof.Gosper.s0_eq, hcomb _ hb]
    have := Nat.pow_le_pow_right (n := 2) (by omega) hd
    have := Nat.two_pow_pos d
    omega

theorem spf_sector_mem (w L : ℕ) (dbl : Bool) (p : ℕ × ℕ) (h : 2 * L ≤ w ∨ p.1 = 0 ∧ L ≤ w) (hd : p.2 ≤ L) :
    (sectorSpf w L dbl p).Pairwise (· < ·) ∧ (sectorSpf w L dbl p).length ≤ L.choose p.1 * L.choose p.2 ∧
    ∀ s, s ∈ sectorSpf w L dbl p ↔ Props.InSector L dbl p s := by
  have hL : L ≤ w := by omega
  have e : sectorSpf w L dbl p = (Props.spinfulList w L dbl p).reverse := by
    unfold sectorSpf Props.spinfulList
    rw [spf_visited w L p h hd, List.reverse_reverse]
    unfold halves
    apply List.filter_congr
    intro s _
    exact spf_allowed w L hL dbl s
  rw [e]
  refine ⟨?_, ?_, fun s => ?_⟩
  · rw [List.pairwise_reverse]
    unfold Props.spinfulList
    rw [List.pairwise_reverse]
    exact (Props.product_increasing L p.1 p.2).filter _
  · rw [List.length_reverse]; exact Props.spinfulList_length w L dbl p
  · rw [List.mem_reverse, Props.mem_spinfulList w L dbl p hL]

theorem spf_empty (w L : ℕ) (dbl : Bool) (p : ℕ × ℕ) (h : p.1 = 0 ∧ p.2 = 0) :
    (sectorSpf w L dbl p).Pairwise (· < ·) ∧ (sectorSpf w L dbl p).length ≤ L.choose p.1 * L.choose p.2 ∧
    ∀ s, s ∈ sectorSpf w L dbl p ↔ Props.InSector L dbl p s := by
  obtain ⟨u, d⟩ := p
  obtain ⟨rfl, rfl⟩ : u = 0 ∧ d = 0 := h
  have e : sectorSpf w L dbl (0, 0) = [0] := by
    unfold sectorSpf
    simp only [Nat.choose_zero_right, Nat.mul_one, visited]
    have : spinfulS0 L (0, 0) = 0 := by simp [spinfulS0, Proof.Gosper.s0_eq]
    rw [this]
    simp [spfAllowed]
  have h1 := spf_sector_mem (2 * L) L dbl (0, 0) (Or.inl (Nat.le_refl _)) (Nat.zero_le _)
  have e' : sectorSpf (2 * L) L dbl (0, 0) = [0] := by
    unfold sectorSpf
    simp only [Nat.choose_zero_right, Nat.mul_one, visited]
    have : spinfulS0 L (0, 0) = 0 := by simp [spinfulS0, Proof.Gosper.s0_eq]
    rw [this]
    simp [spfAllowed]
  rw [e]
  rw [e'] at h1
  exact h1

end Proof.Chain
