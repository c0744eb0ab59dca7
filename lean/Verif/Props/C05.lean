import Verif.Proof.BenesStages
import Verif.Proof.Maps
/-!
C05  A user map acts on a two-level configuration as the stated site permutation.

`Model.hcbMapState ld N map s` is the image the library computes for the integer state `s` in the
integer type with `2^ld` bits: it compiles the map into a Benes network (`genBenes`) and runs the network
on `s` with the inverted sites flipped; `none` would mean that the network generator reads an open entry
or does not stop.  `Spec.IsImage 2 N map s t`: `t < 2^N`, and the target site of every site `i` carries in
`t` the occupation of site `i` in `s`, or 1 minus it when `map[i] < 0`.
-/
namespace Props
open Spec Model Model.Word Proof.Maps Proof.Digits 
open Proof.Benes (genBenes_spec)

theorem C05_digit (s i : Nat) : digit 2 s i = (s.testBit i).toNat := by
  unfold digit
  rw [Nat.testBit_eq_decide_div_mod_eq]
  have := Nat.mod_lt (s / 2 ^ i) (show 0 < 2 by omega)
  by_cases h : s / 2 ^ i % 2 = 1
  · simp [h]
  · simp [h]; omega

theorem C05_inv (w N : Nat) (hN : N ≤ w) (map : List Int) : ∀ n ≤ N, ∀ p,
    (hcbInv w N map n).testBit p = decide (∃ i < n, p = N - 1 - i ∧ map.getD i 0 < 0)
  | 0, _, p => by simp [hcbInv]
  | n + 1, hn, p => by
    have ih := C05_inv w N hN map n (by omega) p
    have hsh : shl w 1 (N - n - 1) = 2 ^ (N - n - 1) := by
      unfold shl
      rw [Nat.one_shiftLeft, Nat.mod_eq_of_lt (Nat.pow_lt_pow_right (by omega) (by omega))]
    unfold hcbInv
    by_cases hm : map.getD n 0 < 0
    · rw [if_pos hm, Nat.testBit_xor, ih, hsh, Nat.testBit_two_pow]
      by_cases hp : p = N - 1 - n
      · have h1 : ¬ ∃ i < n, p = N - 1 - i ∧ map.getD i 0 < 0 := by
          rintro ⟨i, hi, h, _⟩; omega
        have h2 : ∃ i < n + 1, p = N - 1 - i ∧ map.getD i 0 < 0 := ⟨n, by omega, hp, hm⟩
        rw [decide_eq_false h1, decide_eq_true h2, decide_eq_true (show N - n - 1 = p by omega)]; rfl
      · rw [decide_eq_false (show ¬ N - n - 1 = p by omega), Bool.xor_false]
        congr 1
        rw [eq_iff_iff]
        constructor
        · rintro ⟨i, hi, h⟩; exact ⟨i, by omega, h⟩
        · rintro ⟨i, hi, h⟩
          refine ⟨i, ?_, h⟩
          rcases Nat.eq_or_lt_of_le (Nat.lt_succ_iff.1 hi) with rfl | hlt
          · exact absurd h.1 hp
          · exact hlt
    · rw [if_neg hm, ih]
      congr 1
      rw [eq_iff_iff]
      constructor
      · rintro ⟨i, hi, h⟩; exact ⟨i, by omega, h⟩
      · rintro ⟨i, hi, h⟩
        refine ⟨i, ?_, h⟩
        rcases Nat.eq_or_lt_of_le (Nat.lt_succ_iff.1 hi) with rfl | hlt
        · exact absurd h.2 hm
        · exact hlt

/-- The two-level bases: the network is generated without error, and the integer it computes is the image. -/
theorem C05_image (ld N : Nat) (hN : N ≤ 2 ^ ld) (map : List Int) (h : IsSiteMap N map) (s : Nat) (hs : s < 2 ^ N) :
    ∃ t, hcbMapState ld N map s = some t ∧ IsImage 2 N map s t := by
  have hidx : ∀ p < N, hcbIndex N map p = some (N - 1 - dest map (N - 1 - p)) := by
    intro p hp
    unfold hcbIndex
    rw [if_pos hp]
    simp only []
    have ht : target (map.getD (N - 1 - p) 0) < N := h.range _ (by omega)
    unfold dest
    by_cases hm : map.getD (N - 1 - p) 0 < 0
    · rw [if_pos hm, Int.add_comm, exp_neg N _ hm ht]
    · rw [if_neg hm, exp_pos N _ hm]
  have hnone : ∀ p, ¬ p < N → hcbIndex N map p = none := by
    intro p hp; unfold hcbIndex; rw [if_neg hp]
  have hdom : ∀ v x, hcbIndex N map v = some x → v < N ∧ x = N - 1 - dest map (N - 1 - v) ∧ x < N := by
    intro v x hv
    by_cases hp : v < N
    · rw [hidx v hp] at hv
      injection hv with hv
      exact ⟨hp, hv.symm, by omega⟩
    · rw [hnone v hp] at hv; simp at hv
  obtain ⟨cfg, he, hnet⟩ := genBenes_spec ld (hcbIndex N map)
    (fun v x hv => by obtain ⟨a, _, b⟩ := hdom v x hv; omega)
    (by
      intro p q x hp hq
      obtain ⟨p1, p2, _⟩ := hdom p x hp
      obtain ⟨q1, q2, _⟩ := hdom q x hq
      have r1 := h.range (N - 1 - p) (by omega)
      have r2 := h.range (N - 1 - q) (by omega)
      have := h.inj (N - 1 - p) (by omega) (N - 1 - q) (by omega) (by omega)
      omega)
  have hinv := C05_inv (2 ^ ld) N hN map N (Nat.le_refl _)
  have hinvlt : hcbInv (2 ^ ld) N map N < 2 ^ N := by
    apply Nat.lt_pow_two_of_testBit
    intro i hi
    rw [hinv i, decide_eq_false]
    rintro ⟨j, hj, h1, _⟩
    omega
  have hx : s ^^^ hcbInv (2 ^ ld) N map N < 2 ^ N := Nat.xor_lt_two_pow hs hinvlt
  obtain ⟨hlt, hmove, hrest⟩ := hnet _ (Nat.lt_of_lt_of_le hx (Nat.pow_le_pow_right (by omega) hN))
  refine ⟨benesBwd ld cfg (s ^^^ hcbInv (2 ^ ld) N map N), by unfold hcbMapState; rw [he]; rfl, ?_, ?_⟩
  · apply Nat.lt_pow_two_of_testBit
    intro i hi
    by_cases hi2 : i < 2 ^ ld
    · obtain ⟨u, hu, hun, hb⟩ := hrest i hi2 (by
        intro v hv
        have := (hdom v i hv).2.2
        omega)
      rw [hb]
      have huN : N ≤ u := by
        by_contra hc
        rw [hidx u (by omega)] at hun
        simp at hun
      exact Nat.testBit_lt_two_pow (Nat.lt_of_lt_of_le hx (Nat.pow_le_pow_right (by omega) huN))
    · exact Nat.testBit_lt_two_pow (Nat.lt_of_lt_of_le hlt (Nat.pow_le_pow_right (by omega) (by omega)))
  · intro i hi
    unfold occ
    rw [C05_digit, C05_digit]
    have hm := hmove (N - 1 - i) (N - 1 - dest map i) (by
      rw [hidx _ (by omega), show N - 1 - (N - 1 - i) = i by omega])
    rw [hm, Nat.testBit_xor, hinv]
    have hiff : (∃ j < N, N - 1 - i = N - 1 - j ∧ map.getD j 0 < 0) ↔ map.getD i 0 < 0 := by
      constructor
      · rintro ⟨j, hj, h1, h2⟩
        rwa [show i = j by omega]
      · intro h1; exact ⟨i, hi, rfl, h1⟩
    unfold inverts flipIf
    by_cases hneg : map.getD i 0 < 0
    · rw [decide_eq_true (hiff.2 hneg), decide_eq_true hneg]
      cases s.testBit (N - 1 - i) <;> rfl
    · rw [decide_eq_false (fun hc => hneg (hiff.1 hc)), decide_eq_false hneg]
      cases s.testBit (N - 1 - i) <;> rfl

/-- The map acts on the configurations of `N` sites as a bijection. -/
theorem C05_bijective (ld N : Nat) (hN : N ≤ 2 ^ ld) (map : List Int) (h : IsSiteMap N map) :
    (∀ s < 2 ^ N, ∃ t < 2 ^ N, hcbMapState ld N map s = some t) ∧
    (∀ s < 2 ^ N, ∀ s' < 2 ^ N, hcbMapState ld N map s = hcbMapState ld N map s' → s = s') ∧
    (∀ t < 2 ^ N, ∃ s < 2 ^ N, hcbMapState ld N map s = some t) := by
  have h1 : ∀ s < 2 ^ N, ∀ s' < 2 ^ N, hcbMapState ld N map s = hcbMapState ld N map s' → s = s' := by
    intro s hs s' hs' he
    obtain ⟨t, ht, hi⟩ := C05_image ld N hN map h s hs
    obtain ⟨t', ht', hi'⟩ := C05_image ld N hN map h s' hs'
    rw [ht, ht'] at he
    injection he with he
    rw [← he] at hi'
    exact image_inj (by omega) hs hs' hi hi'
  refine ⟨?_, h1, ?_⟩
  · intro s hs
    obtain ⟨t, ht, hi⟩ := C05_image ld N hN map h s hs
    exact ⟨t, hi.lt, ht⟩
  · have hsurj : Set.SurjOn (fun s => (hcbMapState ld N map s).getD 0) (Finset.range (2 ^ N)) (Finset.range (2 ^ N)) := by
      apply Finset.surjOn_of_injOn_of_card_le
      · intro s hs
        simp only [Finset.coe_range, Set.mem_Iio] at hs ⊢
        obtain ⟨t, ht, hi⟩ := C05_image ld N hN map h s hs
        rw [ht]; exact hi.lt
      · intro s hs s' hs' he
        simp only [Finset.coe_range, Set.mem_Iio] at hs hs'
        obtain ⟨t, ht, hi⟩ := C05_image ld N hN map h s hs
        obtain ⟨t', ht', hi'⟩ := C05_image ld N hN map h s' hs'
        simp only [ht, ht', Option.getD_some] at he
        exact h1 s hs s' hs' (by rw [ht, ht', he])
      · exact Nat.le_refl _
    intro t ht
    obtain ⟨s, hs, he⟩ := hsurj (show t ∈ (Finset.range (2 ^ N) : Set Nat) by simpa using ht)
    simp only [Finset.coe_range, Set.mem_Iio] at hs
    obtain ⟨t', ht', _⟩ := C05_image ld N hN map h s hs
    simp only [ht', Option.getD_some] at he
    exact ⟨s, hs, by rw [ht', he]⟩

/-- The fermionic bases compute the bits with a loop over the sites; same image. -/
theorem C05_image_loop (w N : Nat) (hN : N ≤ w) (map : List Int) (h : IsSiteMap N map) (s : Nat) :
    IsImage 2 N map s (mapBits w N map s) := by
  obtain ⟨t, ht⟩ := image_exists (b := 2) (by omega) h s
  rw [mapBits_eq w N hN map h s, bosonMapBits_eq w 2 N (by omega) map h s t ht,
    Nat.mod_eq_of_lt (Nat.lt_of_lt_of_le ht.lt (Nat.pow_le_pow_right (by omega) hN))]
  exact ht

/-- Network and loop agree. -/
theorem C05_network_eq_loop (ld N : Nat) (hN : N ≤ 2 ^ ld) (map : List Int) (h : IsSiteMap N map) (s : Nat)
    (hs : s < 2 ^ N) : hcbMapState ld N map s = some (mapBits (2 ^ ld) N map s) := by
  obtain ⟨t, ht, hi⟩ := C05_image ld N hN map h s hs
  rw [ht, image_unique h hi (C05_image_loop (2 ^ ld) N hN map h s)]

/-- Six sites: a permutation with two cycles that inverts two sites, in a 32-bit word. -/
def sixMap : List Int := [1, 2, -4, 5, 4, -1]
theorem sixMap_ok : IsSiteMap 6 sixMap := ⟨rfl, by decide, by decide⟩
example : hcbMapState 5 6 sixMap 0b110100 = some (mapBits 32 6 sixMap 0b110100) :=
  C05_network_eq_loop 5 6 (by decide) sixMap sixMap_ok _ (by decide)
example : mapBits 32 6 sixMap 0b110100 = 0b111101 := by decide
example : IsImage 2 6 sixMap 0b110100 0b111101 := ⟨by decide, by decide⟩

end Props
