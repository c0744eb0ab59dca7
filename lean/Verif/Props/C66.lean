import Verif.Proof.ChainBlocks
/-!
C66: the sublattice blocks act on the documented sublattices: `zAblock`/`cAblock` inverts the sites with even index,
`zBblock`/`cBblock` those with odd index (`spin.py:88-90`, `boson.py:70-72`).

True for chains of odd length only.  For even length — the only chains for which these blocks can be combined with
a momentum — the two are exchanged: the masks select even and odd *bits*, and site `i` is bit `L-1-i`.
-/
namespace Props
open Spec Model.Chain Proof.Chain
open Spec.Chain (Fits)

/-- For odd `L` sublattice A is the sites with even index, sublattice B those with odd index.
Missing: even `L`, where the two are exchanged (`C66_even_length`, `C66_fails`). -/
theorem C66_odd_length_partial (c : Spec.Chain) (hf : c.fermions = false) (hb : 0 < c.base) (hodd : c.length % 2 = 1) (s : ℕ) (hs : s < c.size) :
    IsImage c.base c.sites (c.flipOf 0) s (flipAOf c s).1 ∧ IsImage c.base c.sites (c.flipOf 1) s (flipBOf c s).1 := by
  have h : Fits none c := by
    cases c with
    | twoLevel L => exact ⟨by have : L % 2 = 1 := hodd; omega, by rintro v ⟨⟩⟩
    | levels b L => exact ⟨by have : L % 2 = 1 := hodd; omega, hb⟩
    | spinless L => cases hf
    | spinful L => cases hf
  have h1 := (subA_isSymmetry h hf 2 0).img s hs
  have h2 := (subB_isSymmetry h hf 2 0).img s hs
  rw [show (c.length + 1) % 2 = 0 by omega] at h1
  rw [hodd] at h2
  exact ⟨h1, h2⟩

/-- For even `L` they are exchanged. -/
theorem C66_even_length (c : Spec.Chain) (hf : c.fermions = false) (hb : 0 < c.base) (hL : 1 ≤ c.length) (heven : c.length % 2 = 0)
    (s : ℕ) (hs : s < c.size) :
    IsImage c.base c.sites (c.flipOf 1) s (flipAOf c s).1 ∧ IsImage c.base c.sites (c.flipOf 0) s (flipBOf c s).1 := by
  have h : Fits none c := by
    cases c with
    | twoLevel L => exact ⟨hL, by rintro v ⟨⟩⟩
    | levels b L => exact ⟨hL, hb⟩
    | spinless L => cases hf
    | spinful L => cases hf
  have h1 := (subA_isSymmetry h hf 2 0).img s hs
  have h2 := (subB_isSymmetry h hf 2 0).img s hs
  rw [show (c.length + 1) % 2 = 1 by omega] at h1
  rw [heven] at h2
  exact ⟨h1, h2⟩

example : flipAOf (.twoLevel 3) 0 = (5, 1) ∧ flipAOf (.twoLevel 4) 0 = (5, 1) ∧ flipAOf (.levels 3 4) 0 = (20, 1) := by decide +kernel

/-- Defect: on a spin-1/2 chain of any even length the empty configuration does not go to the one with the even
sites inverted. -/
theorem C66_fails (L : ℕ) (hL : 1 ≤ L) (heven : L % 2 = 0) :
    ¬ IsImage 2 L (inversionOf 0 L) 0 (flipAOf (.twoLevel L) 0).1 := by
  intro h
  have h' := (C66_even_length (.twoLevel L) rfl Nat.two_pos hL heven 0 (Nat.two_pow_pos L)).1
  have a := h.occ 0 hL
  have b := h'.occ 0 hL
  change occ 2 L _ (dest (inversionOf 1 L) 0) = flipIf 2 (inverts (inversionOf 1 L) 0) (occ 2 L 0 0) at b
  rw [dest_inversionOf _ L 0 hL, inverts_inversionOf _ L 0 hL] at a b
  rw [a] at b
  have hz : occ 2 L 0 0 = 0 := by rw [occ_bit]; simp
  rw [hz] at b
  exact absurd b (by decide)

end Props
