import Verif.Proof.Maps
import Verif.Proof.Levels
/-!
C06  A user map acts on multi-level configurations as the stated site permutation.

`Model.bosonMapBits w sps N map s` is the image the library computes for the integer state `s` in a
`w`-bit type.  `Spec.IsImage sps N map s t`: `t < sps^N`, and the target site of every site `i` carries
in `t` the occupation of site `i` in `s`, or `sps-1` minus it when `map[i] < 0`.
-/
namespace Props
open Spec Model Proof.Maps Proof.Digits Proof.Ops

/-- Full space: the integer computed is the image. -/
theorem C06_image (w sps N : Nat) (hb : 0 < sps) (hw : sps ^ N ≤ 2 ^ w) (map : List Int)
    (h : IsSiteMap N map) (s : Nat) : IsImage sps N map s (bosonMapBits w sps N map s) := by
  obtain ⟨t, ht⟩ := image_exists hb h s
  rw [bosonMapBits_eq w sps N hb map h s t ht, Nat.mod_eq_of_lt (Nat.lt_of_lt_of_le ht.lt hw)]
  exact ht

/-- The image is determined by the map. -/
theorem C06_unique (sps N : Nat) (map : List Int) (h : IsSiteMap N map) (s t u : Nat)
    (ht : IsImage sps N map s t) (hu : IsImage sps N map s u) : t = u := image_unique h ht hu

/-- The map is a bijection of the configurations. -/
theorem C06_bijective (w sps N : Nat) (hb : 0 < sps) (hw : sps ^ N ≤ 2 ^ w) (map : List Int)
    (h : IsSiteMap N map) : Set.BijOn (bosonMapBits w sps N map) {s | s < sps ^ N} {s | s < sps ^ N} := by
  have hmaps : Set.MapsTo (bosonMapBits w sps N map) {s | s < sps ^ N} {s | s < sps ^ N} :=
    fun s _ => (C06_image w sps N hb hw map h s).lt
  have hinj : Set.InjOn (bosonMapBits w sps N map) {s | s < sps ^ N} := by
    intro s hs s' hs' he
    have h2 := C06_image w sps N hb hw map h s'
    rw [← he] at h2
    exact image_inj hb hs hs' (C06_image w sps N hb hw map h s) h2
  refine ⟨hmaps, hinj, ?_⟩
  have hfin : ({s | s < sps ^ N} : Set Nat) = (Finset.range (sps ^ N) : Set Nat) := by ext; simp
  rw [hfin] at hmaps hinj ⊢
  exact Finset.surjOn_of_injOn_of_card_le _ hmaps hinj (Nat.le_refl _)

/-- Basis with a fixed number of quanta, whose integer type may be narrower than the full space: the
integer computed is the image whenever the image has that number of quanta. -/
theorem C06_sector (w sps N Np : Nat) (hs : 2 < sps) (hw : getBasisType N (some Np) sps = some w)
    (map : List Int) (h : IsSiteMap N map) (s t : Nat) (ht : IsImage sps N map s t)
    (hn : dsum sps N t = Np) : bosonMapBits w sps N map s = t := by
  rw [bosonMapBits_eq w sps N (by omega) map h s t ht, Nat.mod_eq_of_lt]
  exact (Proof.Boson.basisType_fits N sps Np w hs hw).2.2 t ht.lt (by omega)

theorem dsum_occ (b N s : Nat) : dsum b N s = ∑ i ∈ Finset.range N, occ b N s i := by
  rw [dsum_eq_sum, ← Finset.sum_range_reflect]
  rfl

/-- A map without inversions conserves the number of quanta, and (`C06_sector`) is computed correctly in
a basis with a fixed number of quanta. -/
theorem C06_permutation_in_sector (w sps N Np : Nat) (hs : 2 < sps)
    (hw : getBasisType N (some Np) sps = some w) (map : List Int) (h : IsSiteMap N map)
    (hpos : ∀ i < N, inverts map i = false) (s : Nat) (hn : dsum sps N s = Np) :
    IsImage sps N map s (bosonMapBits w sps N map s) ∧ dsum sps N (bosonMapBits w sps N map s) = Np := by
  obtain ⟨t, ht⟩ := image_exists (show 0 < sps by omega) h s
  have hd : dsum sps N t = Np := by
    rw [dsum_occ, sum_dest h, ← hn, dsum_occ]
    refine Finset.sum_congr rfl fun i hi => ?_
    have hi : i < N := by simpa using hi
    rw [ht.occ i hi, hpos i hi]
    rfl
  rw [C06_sector w sps N Np hs hw map h s t ht hd]
  exact ⟨ht, hd⟩

/-- An inversion of all sites sends `Np` quanta to `N(sps-1) - Np`: at half filling it is computed
correctly in the basis with a fixed number of quanta. -/
theorem C06_inversion_at_half_filling (w sps N Np : Nat) (hs : 2 < sps)
    (hw : getBasisType N (some Np) sps = some w) (map : List Int) (h : IsSiteMap N map)
    (hneg : ∀ i < N, inverts map i = true) (s : Nat) (hn : dsum sps N s = Np) (half : 2 * Np = N * (sps - 1)) :
    IsImage sps N map s (bosonMapBits w sps N map s) ∧ dsum sps N (bosonMapBits w sps N map s) = Np := by
  obtain ⟨t, ht⟩ := image_exists (show 0 < sps by omega) h s
  have hd : dsum sps N t = Np := by
    have h1 : dsum sps N t + dsum sps N s = N * (sps - 1) := by
      rw [dsum_occ, sum_dest h, dsum_occ, ← Finset.sum_add_distrib]
      rw [Finset.sum_congr rfl (g := fun _ => sps - 1)]
      · simp
      · intro i hi
        have hi : i < N := by simpa using hi
        rw [ht.occ i hi, hneg i hi]
        have := occ_lt sps N s i (by omega)
        simp only [flipIf, if_true]
        omega
    omega
  rw [C06_sector w sps N Np hs hw map h s t ht hd]
  exact ⟨ht, hd⟩

/-- Three sites with three levels, cyclic shift that inverts the last site: occupations 0,1,2 become
0 (= 2-2),0,1. -/
def exampleMap : List Int := [1, 2, -1]

theorem exampleMap_ok : IsSiteMap 3 exampleMap := ⟨rfl, by decide, by decide⟩

example : bosonMapBits 32 3 3 exampleMap 5 = 1 := by decide
example : IsImage 3 3 exampleMap 5 1 := ⟨by decide, by decide⟩
example : getBasisType 3 (some 3) 3 = some 32 ∧ dsum 3 3 5 = 3 ∧ 2 * 3 = 3 * (3 - 1) := by decide

end Props
