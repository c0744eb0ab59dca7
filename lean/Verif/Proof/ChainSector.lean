import Verif.Proof.ChainInstances
import Verif.Proof.HcbBasis
/-! The configurations visited when a block is made, and that the symmetries map them among themselves. -/
namespace Proof.Chain
open Model Spec Model.Chain Proof.Symmetry Proof.Maps
open Spec.Chain (Fits HasFlip)
open scoped BigOperators

theorem full_visited (size : ℕ) : (visited (fun s => s + 1) size 0).filter (fun _ => true) = List.range size := by
  rw [visited_inc, List.filter_true, List.range_eq_range']

theorem full_sector {size : ℕ} {ys : List Generator} (h : Acts (· < size) ys) : IsSectorOf size ys (List.range size) where
  increasing := List.pairwise_lt_range
  below := fun s hs => List.mem_range.1 hs
  closed := fun y hy s hs => List.mem_range.2 (h.closed y hy s (List.mem_range.1 hs))

theorem pcon_visited (w L k : ℕ) (hL : L ≤ w) (hk : k ≤ L) :
    visited (nextStatePcon w) (L.choose k) (s0Pcon k) = Spec.sector L k := by
  rw [visited_iterates]; exact Proof.Gosper.iterates_sector w L k hL hk

/-- number of particles of the image -/
theorem count_image {L : ℕ} {map : List Int} {s t : ℕ} (h : IsImage 2 L map s t) (hr : ∀ i < L, dest map i < L)
    (hinj : ∀ i < L, ∀ j < L, dest map i = dest map j → i = j) (hp : ∀ i < L, inverts map i = false) : count L t = count L s := by
  rw [count_occupied, count_occupied]
  symm
  apply Finset.card_bij (fun i _ => dest map i)
  · intro i hi
    obtain ⟨h1, h2⟩ := (mem_occupied L s i).1 hi
    refine (mem_occupied L t _).2 ⟨hr i h1, ?_⟩
    have := h.occ i h1
    rw [occ_bit, occ_bit, h2, hp i h1] at this
    simp only [flipIf] at this
    by_contra hc
    rw [if_neg hc] at this
    simp at this
  · intro i hi j hj e
    exact hinj i ((mem_occupied L s i).1 hi).1 j ((mem_occupied L s j).1 hj).1 e
  · intro j hj
    obtain ⟨h1, h2⟩ := (mem_occupied L t j).1 hj
    have hsurj : ∃ i < L, dest map i = j := by
      have hb := Finset.surj_on_of_inj_on_of_card_le (s := Finset.range L) (t := Finset.range L) (fun i _ => dest map i)
        (fun i hi => Finset.mem_range.2 (hr i (Finset.mem_range.1 hi)))
        (fun i j hi hj e => hinj i (Finset.mem_range.1 hi) j (Finset.mem_range.1 hj) e) (le_refl _) j (Finset.mem_range.2 h1)
      obtain ⟨i, hi, e⟩ := hb
      exact ⟨i, Finset.mem_range.1 hi, e.symm⟩
    obtain ⟨i, hi, rfl⟩ := hsurj
    refine ⟨i, (mem_occupied L s i).2 ⟨hi, ?_⟩, rfl⟩
    have := h.occ i hi
    rw [occ_bit, occ_bit, h2, hp i hi] at this
    simp only [flipIf] at this
    by_contra hc
    rw [if_neg hc] at this
    simp at this

theorem count_inverted {L s t : ℕ} (h : IsImage 2 L (inversion L) s t) : count L t + count L s = L := by
  rw [count_occupied, count_occupied]
  have e : occupied L t = (Finset.range L) \ occupied L s := by
    ext i
    rw [Finset.mem_sdiff, mem_occupied, mem_occupied, Finset.mem_range]
    constructor
    · rintro ⟨h1, h2⟩
      refine ⟨h1, fun h3 => ?_⟩
      have := h.occ i h1
      rw [dest_inversion L i h1, inverts_inversion L i h1, occ_bit, occ_bit, h2, h3.2] at this
      simp [flipIf] at this
    · rintro ⟨h1, h2⟩
      refine ⟨h1, ?_⟩
      have := h.occ i h1
      rw [dest_inversion L i h1, inverts_inversion L i h1, occ_bit, occ_bit] at this
      by_contra hc
      rw [if_neg hc, if_neg (fun h3 => h2 ⟨h1, h3⟩)] at this
      simp [flipIf] at this
  have hsub : occupied L s ⊆ Finset.range L := fun i hi => Finset.mem_range.2 ((mem_occupied L s i).1 hi).1
  rw [e, Finset.card_sdiff_of_subset hsub, Finset.card_range]
  have := Finset.card_le_card hsub
  rw [Finset.card_range] at this
  omega

/-- one bit per site -/
def OneBit (c : Spec.Chain) : Prop := c = .twoLevel c.length ∨ c = .spinless c.length

/-- A symmetry that conserves the number of particles `k`. -/
def Conserves (c : Spec.Chain) (k : ℕ) (map : List Int) : Prop :=
  (∃ T, T ≤ c.length ∧ map = c.shift T) ∨ map = c.parity ∨ (c = .twoLevel c.length ∧ 2 * k = c.length ∧ map = c.flip)

theorem pcon_sector {c : Spec.Chain} (hc : OneBit c) (k : ℕ) {ys : List Generator}
    (h : ∀ y ∈ ys, ∃ map, c.IsSymmetry map y ∧ Conserves c k map) :
    IsSectorOf c.size ys (Spec.sector c.length k) where
  increasing := Proof.HcbBasis.sector_increasing _ _
  below := fun s hs => by
    have := (Proof.Gosper.count_lt_iff_sector.1 hs).1
    rcases hc with hc | hc <;> (rw [hc] at this ⊢; exact this)
  closed := fun y hy s hs => by
    obtain ⟨h1, h2⟩ := Proof.Gosper.count_lt_iff_sector.1 hs
    obtain ⟨map, hm, hcons⟩ := h y hy
    rw [Proof.Gosper.count_lt_iff_sector]
    have hsites : c.base = 2 ∧ c.sites = c.length := by
      rcases hc with hc | hc <;> (rw [hc]; exact ⟨rfl, rfl⟩)
    have hsize : s < c.size := by unfold Chain.size; rw [hsites.1, hsites.2]; exact h1
    have him := hm.img s hsize
    rw [hsites.1, hsites.2] at him
    refine ⟨him.lt, ?_⟩
    have hshift : ∀ T, c.shift T = translation c.length T := fun T => by
      rcases hc with hc | hc <;> (rw [hc]; rfl)
    have hpar : c.parity = reflection c.length := by
      rcases hc with hc | hc <;> (rw [hc]; rfl)
    rcases hcons with ⟨T, hT, rfl⟩ | rfl | ⟨e1, e2, rfl⟩
    · rw [hshift] at him
      rw [count_image him (siteMap_translation _ T hT).range (siteMap_translation _ T hT).inj (inverts_translation _ T), h2]
    · rw [hpar] at him
      rw [count_image him (siteMap_reflection _).range (siteMap_reflection _).inj (inverts_reflection _), h2]
    · have : c.flip = inversion c.length := by rw [e1]; rfl
      rw [this] at him
      have := count_inverted him
      omega

end Proof.Chain
