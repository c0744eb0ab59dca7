import Verif.Spec.Maps
import Verif.Model.Maps
import Verif.Proof.Digits
import Verif.Proof.Boson
import Mathlib.Algebra.BigOperators.Intervals
import Mathlib.Data.Finset.Card
import Mathlib.Data.List.GetD
namespace Proof.Maps
open Spec Model Model.Word Proof.Digits
open scoped BigOperators

/-! ### Numbers and their digits -/

theorem digits_lt (b : Nat) (g : Nat → Nat) : ∀ N, (∀ k < N, g k < b) →
    ∑ k ∈ Finset.range N, g k * b ^ k < b ^ N
  | 0, _ => by simp
  | N + 1, h => by
    rw [Finset.sum_range_succ]
    have h1 := digits_lt b g N (fun k hk => h k (by omega))
    have h2 : (g N + 1) * b ^ N ≤ b * b ^ N := Nat.mul_le_mul_right _ (h N (by omega))
    rw [Nat.add_mul] at h2
    rw [Nat.pow_succ, Nat.mul_comm (b ^ N)]
    omega

theorem digit_digits (b : Nat) (g : Nat → Nat) : ∀ N, (∀ k < N, g k < b) → ∀ k < N,
    digit b (∑ k ∈ Finset.range N, g k * b ^ k) k = g k
  | 0, _, k, hk => by omega
  | N + 1, h, k, hk => by
    have h1 := digits_lt b g N (fun k hk => h k (by omega))
    have hb : 0 < b := by have := h 0 (by omega); omega
    rw [Finset.sum_range_succ]
    rcases Nat.lt_or_ge k N with hk' | hk'
    · rw [← digit_mod b N _ k hk', Nat.add_mul_mod_self_right, Nat.mod_eq_of_lt h1]
      exact digit_digits b g N (fun k hk => h k (by omega)) k hk'
    · have : k = N := by omega
      subst this
      unfold digit
      rw [Nat.add_mul_div_right _ _ (Nat.pow_pos hb), Nat.div_eq_of_lt h1, Nat.zero_add,
        Nat.mod_eq_of_lt (h k (by omega))]

theorem sum_digits (b N t : Nat) (hb : 0 < b) (ht : t < b ^ N) :
    ∑ k ∈ Finset.range N, digit b t k * b ^ k = t := by
  have h : ∀ k < N, digit b t k < b := fun k _ => digit_lt b t k hb
  exact digit_ext b N _ _ (digits_lt b _ N h) ht (digit_digits b _ N h)

/-- the number with occupations `f` -/
def fromOcc (b N : Nat) (f : Nat → Nat) : Nat := ∑ k ∈ Finset.range N, f (N - 1 - k) * b ^ k

theorem fromOcc_lt (b N : Nat) (f : Nat → Nat) (h : ∀ i < N, f i < b) : fromOcc b N f < b ^ N :=
  digits_lt b _ N (fun k hk => h _ (by omega))

theorem occ_fromOcc (b N : Nat) (f : Nat → Nat) (h : ∀ i < N, f i < b) (i : Nat) (hi : i < N) :
    occ b N (fromOcc b N f) i = f i := by
  unfold occ fromOcc
  rw [digit_digits b _ N (fun k hk => h _ (by omega)) _ (by omega)]
  congr 1; omega

theorem fromOcc_eq (b N : Nat) (f : Nat → Nat) :
    fromOcc b N f = ∑ i ∈ Finset.range N, f i * b ^ (N - 1 - i) := by
  unfold fromOcc
  rw [← Finset.sum_range_reflect]
  refine Finset.sum_congr rfl fun k hk => ?_
  rw [Finset.mem_range] at hk
  congr 2; omega

theorem sum_occ (b N t : Nat) (hb : 0 < b) (ht : t < b ^ N) :
    ∑ i ∈ Finset.range N, occ b N t i * b ^ (N - 1 - i) = t := by
  rw [← fromOcc_eq]
  conv_rhs => rw [← sum_digits b N t hb ht]
  unfold fromOcc
  refine Finset.sum_congr rfl fun k hk => ?_
  rw [Finset.mem_range] at hk
  unfold occ
  congr 2; omega

theorem occ_ext (b N s t : Nat) (hs : s < b ^ N) (ht : t < b ^ N)
    (h : ∀ i < N, occ b N s i = occ b N t i) : s = t := by
  refine digit_ext b N s t hs ht fun k hk => ?_
  have := h (N - 1 - k) (by omega)
  unfold occ at this
  rwa [show N - 1 - (N - 1 - k) = k from by omega] at this

theorem occ_lt (b N s i : Nat) (hb : 0 < b) : occ b N s i < b := digit_lt b s _ hb

theorem flipIf_lt (b : Nat) (c : Bool) (n : Nat) (h : n < b) : flipIf b c n < b := by
  unfold flipIf; split <;> omega

/-! ### Site maps -/

theorem dest_surj {N : Nat} {map : List Int} (h : IsSiteMap N map) (j : Nat) (hj : j < N) :
    ∃ i < N, dest map i = j := by
  have h1 : Set.SurjOn (dest map) (Finset.range N) (Finset.range N) := by
    apply Finset.surjOn_of_injOn_of_card_le
    · intro i hi; simp at hi ⊢; exact h.range i hi
    · intro i hi k hk hik; simp at hi hk; exact h.inj i hi k hk hik
    · simp
  obtain ⟨i, hi, he⟩ := h1 (show j ∈ (Finset.range N : Set Nat) by simpa using hj)
  exact ⟨i, by simpa using hi, he⟩

theorem sum_dest {N : Nat} {map : List Int} (h : IsSiteMap N map) (f : Nat → Nat) :
    ∑ j ∈ Finset.range N, f j = ∑ i ∈ Finset.range N, f (dest map i) := by
  symm
  refine Finset.sum_nbij (dest map) ?_ ?_ ?_ ?_
  · intro i hi; simp at hi ⊢; exact h.range i hi
  · intro i hi k hk hik; simp at hi hk; exact h.inj i hi k hk hik
  · intro j hj
    simp at hj
    obtain ⟨i, hi, he⟩ := dest_surj h j hj
    exact ⟨i, by simpa using hi, he⟩
  · intros; rfl

theorem image_unique {b N : Nat} {map : List Int} (h : IsSiteMap N map) {s t u : Nat}
    (ht : IsImage b N map s t) (hu : IsImage b N map s u) : t = u := by
  refine occ_ext b N t u ht.lt hu.lt fun j hj => ?_
  obtain ⟨i, hi, rfl⟩ := dest_surj h j hj
  rw [ht.occ i hi, hu.occ i hi]

/-- the image of `s` as a sum over sites -/
theorem image_sum {b N : Nat} (hb : 0 < b) {map : List Int} (h : IsSiteMap N map) {s t : Nat}
    (ht : IsImage b N map s t) :
    t = ∑ i ∈ Finset.range N, flipIf b (inverts map i) (occ b N s i) * b ^ (N - 1 - dest map i) := by
  conv_lhs => rw [← sum_occ b N t hb ht.lt, sum_dest h]
  refine Finset.sum_congr rfl fun i hi => ?_
  rw [ht.occ i (by simpa using hi)]

theorem image_exists {b N : Nat} (hb : 0 < b) {map : List Int} (h : IsSiteMap N map) (s : Nat) :
    ∃ t, IsImage b N map s t := by
  classical
  let inv : Nat → Nat := fun j => if hj : j < N then (dest_surj h j hj).choose else 0
  have hinv : ∀ i < N, inv (dest map i) = i := by
    intro i hi
    have hr := h.range i hi
    simp only [inv, dif_pos hr]
    have hc := (dest_surj h _ hr).choose_spec
    exact h.inj _ hc.1 _ hi hc.2
  let f : Nat → Nat := fun j => flipIf b (inverts map (inv j)) (occ b N s (inv j))
  have hf : ∀ j < N, f j < b := fun j _ => flipIf_lt b _ _ (occ_lt b N s _ hb)
  refine ⟨fromOcc b N f, fromOcc_lt b N f hf, fun i hi => ?_⟩
  rw [occ_fromOcc b N f hf _ (h.range i hi)]
  simp only [f, hinv i hi]

/-- the image determines the configuration -/
theorem image_inj {b N : Nat} (hb : 0 < b) {map : List Int} {s s' t : Nat}
    (hs : s < b ^ N) (hs' : s' < b ^ N) (ht : IsImage b N map s t) (hu : IsImage b N map s' t) : s = s' := by
  refine occ_ext b N s s' hs hs' fun i hi => ?_
  have h1 := ht.occ i hi
  rw [hu.occ i hi] at h1
  have h2 := occ_lt b N s i hb
  have h3 := occ_lt b N s' i hb
  unfold flipIf at h1
  split at h1 <;> omega

/-! ### `boson_map_bits` -/

theorem exp_neg (N : Nat) (j : Int) (hj : j < 0) (ht : target j < N) : (j + N).toNat = N - 1 - target j := by
  unfold target at *; rw [if_pos hj] at *; omega

theorem exp_pos (N : Nat) (j : Int) (hj : ¬ j < 0) : ((N : Int) - j - 1).toNat = N - 1 - target j := by
  unfold target; rw [if_neg hj]; omega

theorem bosonMapLoop_eq (w b N : Nat) : ∀ (js : List Int) (s ss : Nat),
    ss < 2 ^ w → (∀ j ∈ js, target j < N) →
    bosonMapLoop w b N js s ss =
      (ss + ∑ k ∈ Finset.range js.length,
        flipIf b (decide (js.getD k 0 < 0)) (digit b s k) * b ^ (N - 1 - target (js.getD k 0))) % 2 ^ w
  | [], s, ss, hss, _ => by simp [bosonMapLoop, Nat.mod_eq_of_lt hss]
  | j :: js, s, ss, hss, h => by
    have hj := h j (by simp)
    have hp : (if j < 0 then mul w (b - s % b - 1) (powM w b (j + N).toNat)
        else mul w (s % b) (powM w b ((N : Int) - j - 1).toNat)) =
        flipIf b (decide (j < 0)) (digit b s 0) * b ^ (N - 1 - target j) % 2 ^ w := by
      rw [digit_zero]
      by_cases hneg : j < 0
      · rw [if_pos hneg, exp_neg N j hneg hj, Proof.Boson.powM_eq]
        simp only [mul, flipIf, hneg, decide_true, if_true]
        rw [Nat.mul_mod_mod]
        congr 2; omega
      · rw [if_neg hneg, exp_pos N j hneg, Proof.Boson.powM_eq]
        simp only [mul, flipIf, hneg, decide_false]
        rw [Nat.mul_mod_mod]; simp
    rw [bosonMapLoop, hp, add, bosonMapLoop_eq w b N js _ _ (Nat.mod_lt _ (Nat.two_pow_pos w))
      (fun x hx => h x (by simp [hx]))]
    rw [Nat.add_mod_mod, Nat.mod_add_mod, List.length_cons, Finset.sum_range_succ', Nat.add_assoc]
    congr 2
    rw [Nat.add_comm]
    congr 1
    refine Finset.sum_congr rfl fun k _ => ?_
    rw [digit_succ]
    rfl

theorem bosonMapBits_eq (w b N : Nat) (hb : 0 < b) (map : List Int) (h : IsSiteMap N map) (s t : Nat)
    (ht : IsImage b N map s t) : bosonMapBits w b N map s = t % 2 ^ w := by
  unfold bosonMapBits
  have hmem : ∀ j ∈ map.reverse, target j < N := by
    intro j hj
    rw [List.mem_reverse, List.mem_iff_getElem] at hj
    obtain ⟨i, hi, rfl⟩ := hj
    have := h.range i (by rw [← h.length]; exact hi)
    unfold dest at this
    rwa [List.getD_eq_getElem _ _ hi] at this
  rw [bosonMapLoop_eq w b N _ _ _ (Nat.two_pow_pos w) hmem, Nat.zero_add, List.length_reverse, h.length,
    image_sum hb h ht, ← Finset.sum_range_reflect]
  congr 1
  refine Finset.sum_congr rfl fun i hi => ?_
  rw [Finset.mem_range] at hi
  have hg : map.reverse.getD (N - 1 - i) 0 = map.getD i 0 := by
    have hl := h.length
    rw [List.getD_eq_getElem _ _ (by simp; omega), List.getElem_reverse, List.getD_eq_getElem _ _ (by omega)]
    congr 1; omega
  rw [hg]
  rfl

theorem xor_two_pow : ∀ (p ss : Nat), ss.testBit p = false → ss ^^^ 2 ^ p = ss + 2 ^ p
  | 0, ss, h => by
    rw [Nat.testBit_zero] at h
    have h0 : ss % 2 = 0 := by simp at h; omega
    have h1 : (ss ^^^ 1) / 2 = ss / 2 := by rw [Nat.xor_div_two]; simp
    have h2 : (ss ^^^ 1) % 2 = 1 := by rw [Nat.xor_mod_two_eq_one]; omega
    rw [Nat.pow_zero]; omega
  | p + 1, ss, h => by
    rw [Nat.testBit_succ] at h
    have ih := xor_two_pow p (ss / 2) h
    have e : 2 ^ (p + 1) / 2 = 2 ^ p := by rw [Nat.pow_succ]; omega
    have e2 : 2 ^ (p + 1) % 2 = 0 := by rw [Nat.pow_succ]; omega
    have h1 : (ss ^^^ 2 ^ (p + 1)) / 2 = ss / 2 + 2 ^ p := by rw [Nat.xor_div_two, e, ih]
    have h2 : (ss ^^^ 2 ^ (p + 1)) % 2 = ss % 2 := by
      have := Nat.xor_mod_two_pow (a := ss) (b := 2 ^ (p + 1)) (n := 1)
      rw [Nat.pow_one, e2, Nat.xor_zero] at this
      exact this
    rw [Nat.pow_succ] at *
    omega

theorem mapBitsLoop_eq (w N : Nat) (hN : N ≤ w) : ∀ (js : List Int) (s ss : Nat),
    ss < 2 ^ N → (∀ j ∈ js, target j < N) → (js.map target).Nodup →
    (∀ j ∈ js, ss.testBit (N - 1 - target j) = false) →
    mapBitsLoop w N js s ss = bosonMapLoop w 2 N js s ss
  | [], _, _, _, _, _, _ => rfl
  | j :: js, s, ss, hss, ht, hnd, hz => by
    have hj := ht j (by simp)
    have hp : ∀ c ≤ 1, shl w c (N - 1 - target j) = c * 2 ^ (N - 1 - target j) ∧
        mul w c (powM w 2 (N - 1 - target j)) = c * 2 ^ (N - 1 - target j) ∧
        c * 2 ^ (N - 1 - target j) < 2 ^ w := by
      intro c hc
      have hlt : 2 ^ (N - 1 - target j) < 2 ^ w := Nat.pow_lt_pow_right (by omega) (by omega)
      have hlt2 : c * 2 ^ (N - 1 - target j) < 2 ^ w :=
        lt_of_le_of_lt (Nat.mul_le_mul_right _ hc) (by rwa [Nat.one_mul])
      refine ⟨?_, ?_, hlt2⟩
      · rw [shl, Nat.shiftLeft_eq, Nat.mod_eq_of_lt hlt2]
      · rw [mul, Proof.Boson.powM_eq, Nat.mul_mod_mod, Nat.mod_eq_of_lt hlt2]
    have hNw : 2 ^ N ≤ 2 ^ w := Nat.pow_le_pow_right (by omega) hN
    have key : ∀ c ≤ 1, ss ^^^ (c * 2 ^ (N - 1 - target j)) = ss + c * 2 ^ (N - 1 - target j) ∧
        ss + c * 2 ^ (N - 1 - target j) < 2 ^ N ∧
        ∀ j' ∈ js, (ss ^^^ (c * 2 ^ (N - 1 - target j))).testBit (N - 1 - target j') = false := by
      intro c hc
      rcases (show c = 0 ∨ c = 1 by omega) with rfl | rfl
      · refine ⟨by simp, by simpa using hss, ?_⟩
        intro j' hj'; simpa using hz j' (by simp [hj'])
      · have hx := xor_two_pow _ ss (hz j (by simp))
        rw [Nat.one_mul]
        refine ⟨hx, ?_, ?_⟩
        · rw [← hx]
          exact Nat.xor_lt_two_pow hss (Nat.pow_lt_pow_right (by omega) (by omega))
        · intro j' hj'
          rw [Nat.testBit_xor, hz j' (by simp [hj']), Nat.testBit_two_pow]
          have h1 : target j ≠ target j' := by
            intro he
            rw [List.map_cons, List.nodup_cons] at hnd
            exact hnd.1 (he ▸ List.mem_map_of_mem hj')
          have h2 := ht j' (by simp [hj'])
          simp; omega
    have step : ∀ c ≤ 1, ss ^^^ (c * 2 ^ (N - 1 - target j)) = add w ss (c * 2 ^ (N - 1 - target j)) := by
      intro c hc
      have := key c hc
      rw [this.1, add, Nat.mod_eq_of_lt (by omega)]
    rw [mapBitsLoop, bosonMapLoop]
    have hs1 : s &&& 1 = s % 2 := Nat.and_one_is_mod s
    have hs2 : s % 2 ^^^ 1 = 2 - s % 2 - 1 := by
      rcases Nat.mod_two_eq_zero_or_one s with h | h <;> rw [h] <;> rfl
    rw [hs1, hs2, Nat.shiftRight_eq_div_pow, Nat.pow_one]
    have again : ∀ c ≤ 1, mapBitsLoop w N js (s / 2) (ss ^^^ (c * 2 ^ (N - 1 - target j))) =
        bosonMapLoop w 2 N js (s / 2) (add w ss (c * 2 ^ (N - 1 - target j))) := by
      intro c hc
      have hk := key c hc
      rw [← step c hc]
      exact mapBitsLoop_eq w N hN js _ _ (by rw [hk.1]; exact hk.2.1) (fun x hx => ht x (by simp [hx]))
        (by rw [List.map_cons, List.nodup_cons] at hnd; exact hnd.2) hk.2.2
    by_cases hneg : j < 0
    · simp only [if_pos hneg, exp_neg N j hneg hj]
      have := hp (2 - s % 2 - 1) (by omega)
      rw [this.1, this.2.1]
      exact again _ (by omega)
    · simp only [if_neg hneg, exp_pos N j hneg]
      have := hp (s % 2) (by omega)
      rw [this.1, this.2.1]
      exact again _ (by omega)

theorem targets_nodup {N : Nat} {map : List Int} (h : IsSiteMap N map) : (map.map target).Nodup := by
  rw [List.nodup_iff_injective_getElem]
  rintro ⟨i, hi⟩ ⟨k, hk⟩ he
  simp only [List.length_map] at hi hk
  simp only [List.getElem_map] at he
  have := h.inj i (by rw [← h.length]; exact hi) k (by rw [← h.length]; exact hk) (by
    unfold dest
    rwa [List.getD_eq_getElem _ _ hi, List.getD_eq_getElem _ _ hk])
  simp [this]

theorem targets_lt {N : Nat} {map : List Int} (h : IsSiteMap N map) : ∀ j ∈ map, target j < N := by
  intro j hj
  rw [List.mem_iff_getElem] at hj
  obtain ⟨i, hi, rfl⟩ := hj
  have := h.range i (by rw [← h.length]; exact hi)
  unfold dest at this
  rwa [List.getD_eq_getElem _ _ hi] at this

theorem mapBits_eq (w N : Nat) (hN : N ≤ w) (map : List Int) (h : IsSiteMap N map) (s : Nat) :
    mapBits w N map s = bosonMapBits w 2 N map s := by
  unfold mapBits bosonMapBits
  refine mapBitsLoop_eq w N hN _ _ _ (Nat.two_pow_pos N) ?_ ?_ (by simp)
  · intro j hj; exact targets_lt h j (by simpa using hj)
  · rw [List.map_reverse, List.nodup_reverse]; exact targets_nodup h

end Proof.Maps
