import Verif.Model.Square
import Verif.Spec.Square
import Verif.Proof.Period
import Mathlib.Data.List.GetD
import Mathlib.Data.Nat.ModEq
import Mathlib.Logic.Function.Iterate
import Mathlib.Data.List.Nodup

namespace Proof.Square
open Spec Spec.Square Model.Square

variable {Lx Ly : ℕ}

theorem site_lt {x y : ℕ} (hx : x < Lx) (hy : y < Ly) : siteAt Lx x y < Lx * Ly := by
  unfold siteAt
  calc x + Lx * y < Lx + Lx * y := by omega
    _ = Lx * (y + 1) := by ring
    _ ≤ Lx * Ly := Nat.mul_le_mul_left _ hy

theorem site_X {x y : ℕ} (hx : x < Lx) : X Lx (siteAt Lx x y) = x := by
  unfold X siteAt; rw [Nat.add_mul_mod_self_left, Nat.mod_eq_of_lt hx]

theorem site_Y {x y : ℕ} (hx : x < Lx) : Y Lx (siteAt Lx x y) = y := by
  unfold Y siteAt; rw [Nat.add_mul_div_left _ _ (by omega), Nat.div_eq_of_lt hx, Nat.zero_add]

theorem exists_site {i : ℕ} (hi : i < Lx * Ly) : ∃ x < Lx, ∃ y < Ly, i = siteAt Lx x y := by
  have h0 : 0 < Lx := by rcases Nat.eq_zero_or_pos Lx with h | h; · simp [h] at hi
                         · exact h
  exact ⟨i % Lx, Nat.mod_lt _ h0, i / Lx, Nat.div_lt_of_lt_mul hi, (Nat.mod_add_div i Lx).symm⟩

theorem getD_map (f : ℕ → ℤ) {i : ℕ} (hi : i < Lx * Ly) : ((sites Lx Ly).map f).getD i 0 = f i := by
  unfold sites
  rw [List.getD_eq_getElem _ _ (by simpa using hi)]
  simp

theorem dest_map (f : ℕ → ℤ) {i j : ℕ} (hi : i < Lx * Ly) (h : f i = j) :
    dest ((sites Lx Ly).map f) i = j ∧ inverts ((sites Lx Ly).map f) i = false := by
  unfold dest inverts
  rw [getD_map f hi, h]
  unfold target
  simp

theorem dest_neg (f : ℕ → ℤ) {i : ℕ} (hi : i < Lx * Ly) (h : f i = -((i : ℤ) + 1)) :
    dest ((sites Lx Ly).map f) i = i ∧ inverts ((sites Lx Ly).map f) i = true := by
  unfold dest inverts
  rw [getD_map f hi, h]
  unfold target
  constructor
  · rw [if_pos (by omega)]; omega
  · simp; omega

theorem isSiteMap_of (f : ℕ → ℤ) (g : ℕ → ℕ → ℕ) (k : ℕ → ℕ → ℕ)
    (h : ∀ x < Lx, ∀ y < Ly, dest ((sites Lx Ly).map f) (siteAt Lx x y) = siteAt Lx (g x y) (k x y))
    (hr : ∀ x < Lx, ∀ y < Ly, g x y < Lx ∧ k x y < Ly)
    (hi : ∀ x < Lx, ∀ y < Ly, ∀ x' < Lx, ∀ y' < Ly, g x y = g x' y' → k x y = k x' y' → x = x' ∧ y = y') :
    IsSiteMap (Lx * Ly) ((sites Lx Ly).map f) := by
  refine ⟨by simp [sites], ?_, ?_⟩
  · intro i hi
    obtain ⟨x, hx, y, hy, rfl⟩ := exists_site hi
    rw [h x hx y hy]
    exact site_lt (hr x hx y hy).1 (hr x hx y hy).2
  · intro i hil j hjl he
    obtain ⟨x, hx, y, hy, rfl⟩ := exists_site hil
    obtain ⟨x', hx', y', hy', rfl⟩ := exists_site hjl
    rw [h x hx y hy, h x' hx' y' hy'] at he
    have h1 := congrArg (X Lx) he
    have h2 := congrArg (Y Lx) he
    rw [site_X (hr x hx y hy).1, site_X (hr x' hx' y' hy').1] at h1
    rw [site_Y (hr x hx y hy).1, site_Y (hr x' hx' y' hy').1] at h2
    obtain ⟨rfl, rfl⟩ := hi x hx y hy x' hx' y' hy' h1 h2
    rfl

theorem mod_succ {L a : ℕ} (h : a < L) : (a + 1) % L = if a + 1 = L then 0 else a + 1 := by
  split
  · rename_i h1; rw [h1, Nat.mod_self]
  · exact Nat.mod_eq_of_lt (by omega)

theorem mod_succ_int {L a : ℕ} : ((a : ℤ) + 1) % L = ((a + 1) % L : ℕ) := by push_cast; rfl

theorem iterate_add (L k a : ℕ) (h : a < L) : (fun a => (a + 1) % L)^[k] a = (a + k) % L := by
  induction k with
  | zero => simp [Nat.mod_eq_of_lt h]
  | succ k ih => rw [Function.iterate_succ_apply', ih]; simp [Nat.add_assoc]

theorem add_mod_self_iff {L a k : ℕ} (h : a < L) : (a + k) % L = a ↔ L ∣ k := by
  constructor
  · intro he
    have h1 : a + k ≡ a + 0 [MOD L] := by
      unfold Nat.ModEq; rw [he, Nat.add_zero, Nat.mod_eq_of_lt h]
    exact (Nat.modEq_zero_iff_dvd).1 (Nat.ModEq.add_left_cancel' a h1)
  · rintro ⟨c, rfl⟩
    rw [Nat.add_mul_mod_self_left, Nat.mod_eq_of_lt h]

open Model Proof.Period in
theorem process_eq {N : ℕ} {map : List ℤ} (h : IsSiteMap N map) {p : ℕ} (hp : 0 < p) (ht : Trivial N map p)
    (hm : ∀ n, 0 < n → n < p → ¬ Trivial N map n) {fuel : ℕ} (hf : p ≤ fuel) : processMap fuel map = some (.ok p) := by
  have hl := h.length
  subst hl
  obtain ⟨q, hq⟩ := periodLoop_stops h fuel 0 p hp (by omega) ht
  obtain ⟨a1, a2, a3⟩ := periodLoop_some h fuel 0 q hq
  have : q = p := by
    rcases Nat.lt_trichotomy p q with h1 | h1 | h1
    · exact absurd ht (a3 p hp h1)
    · exact h1.symm
    · exact absurd a2 (hm q a1 h1)
  unfold processMap
  rw [if_neg (by rw [not_not]; exact (check_iff map).2 h)]
  rw [Function.iterate_zero_apply] at hq
  rw [hq, this]; rfl

open Proof.Period in
theorem par_false {N : ℕ} {map : List ℤ} (h : IsSiteMap N map) (hi : ∀ i < N, inverts map i = false) :
    ∀ n, ∀ i < N, par map n i = false
  | 0, _, _ => rfl
  | n + 1, i, hil => by rw [par, hi i hil, par_false h hi n _ (h.range i hil)]; rfl

open Proof.Period in
/-- The period of a map without inversions that is an involution and moves a site. -/
theorem period_two {N : ℕ} {map : List ℤ} (h : IsSiteMap N map) (hi : ∀ i < N, inverts map i = false)
    (h2 : ∀ i < N, dest map (dest map i) = i) {j : ℕ} (hj : j < N) (hm : dest map j ≠ j) {fuel : ℕ} (hf : 2 ≤ fuel) :
    Model.processMap fuel map = some (.ok 2) := by
  refine process_eq h (by omega) (p := 2) (fun i hil => ⟨h2 i hil, par_false h hi 2 i hil⟩) ?_ hf
  intro n h0 hn ht
  obtain rfl : n = 1 := by omega
  exact hm (ht j hj).1

open Proof.Period in
/-- The period of a map that moves no site and inverts some. -/
theorem period_invert {N : ℕ} {map : List ℤ} (h : IsSiteMap N map) (hd : ∀ i < N, dest map i = i)
    {j : ℕ} (hj : j < N) (hm : inverts map j = true) {fuel : ℕ} (hf : 2 ≤ fuel) :
    Model.processMap fuel map = some (.ok 2) := by
  refine process_eq h (by omega) (fun i hil => ⟨?_, ?_⟩) ?_ hf
  · show dest map (dest map i) = i
    rw [hd i hil, hd i hil]
  · simp [par, hd i hil]
  · intro n h0 hn ht
    obtain rfl : n = 1 := by omega
    have := (ht j hj).2
    simp [par, hm] at this

theorem mem_momenta {L : ℕ} {k : ℤ} : k ∈ momenta L ↔ -(L : ℤ) / 2 + 1 ≤ k ∧ k ≤ (L : ℤ) / 2 := by
  unfold momenta
  simp only [List.mem_map, List.mem_range]
  constructor
  · rintro ⟨n, h1, rfl⟩; omega
  · rintro ⟨h1, h2⟩
    exact ⟨(k - (-(L : ℤ) / 2 + 1)).toNat, by omega, by omega⟩

theorem momenta_nodup (L : ℕ) : (momenta L).Nodup := by
  unfold momenta
  refine List.Nodup.map ?_ List.nodup_range
  intro a b h
  simpa using h

/-- Inside the range of momenta, `2k` is a multiple of `L` for `0` and `L/2` only. -/
theorem double_dvd {L : ℕ} {k : ℤ} (h : k ∈ momenta L) : (L : ℤ) ∣ 2 * k ↔ k = 0 ∨ (k = (L : ℤ) / 2 ∧ L % 2 = 0) := by
  rw [mem_momenta] at h
  constructor
  · rintro ⟨c, hc⟩
    have hL : 0 < (L : ℤ) := by omega
    have h1 : c < 2 := by
      by_contra hcon
      have : (L : ℤ) * 2 ≤ L * c := Int.mul_le_mul_of_nonneg_left (by omega) (by omega)
      omega
    have h2 : -1 < c := by
      by_contra hcon
      have : (L : ℤ) * c ≤ L * (-1) := Int.mul_le_mul_of_nonneg_left (by omega) (by omega)
      omega
    obtain rfl | rfl : c = 0 ∨ c = 1 := by omega
    · left; omega
    · right; omega
  · rintro (rfl | ⟨rfl, h2⟩)
    · simp
    · exact ⟨1, by omega⟩

theorem blocksAt_k {kx ky : ℤ} {b : Block} (h : b ∈ blocksAt Lx Ly kx ky) : b.kx = kx ∧ b.ky = ky := by
  revert h
  unfold blocksAt pairs
  by_cases hL : Lx = Ly <;> simp only [hL] <;> split_ifs <;> simp <;> (intro h; rcases h with h | h | h | h | h | h) <;> simp_all

theorem blocksAt_nodup (kx ky : ℤ) : (blocksAt Lx Ly kx ky).Nodup := by
  unfold blocksAt pairs
  by_cases hL : Lx = Ly <;> simp only [hL] <;> split_ifs <;> simp

end Proof.Square
