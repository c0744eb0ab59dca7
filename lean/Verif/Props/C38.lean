import Verif.Proof.ChainBlocks
/-!
C38: for a chain of `L` sites with unit cell `a`, translation, reflection and inversion of a configuration are the
geometric operations on the sites (with the sign of reordering the fermions), and a configuration is a
representative in the momentum block `k` exactly when it is the largest among its translates and `k` is compatible
with its period.

The chains are those of `spin_basis_1d`, `boson_basis_1d`, `spinless_fermion_basis_1d` and
`spinful_fermion_basis_1d` (`Spec.Chain`).
-/
namespace Props
open Spec Model.Chain Proof.Chain
open Spec.Chain (Fits HasFlip)

/-- Translation by `T` sites. -/
theorem C38_translation (w : Option ℕ) (c : Spec.Chain) (h : Fits w c) (T : ℕ) (h1 : 1 ≤ T) (h2 : T ≤ c.length) (s : ℕ) (hs : s < c.size) :
    IsImage c.base c.sites (c.shift T) s (shiftOf w T c s).1 ∧
    (shiftOf w T c s).2 = if c.fermions then fermionMapSign c.sites (c.shift T) s else 1 :=
  have := shift_isSymmetry h T h1 h2 1 0
  ⟨this.img s hs, this.sgn s hs⟩

/-- Reflection. -/
theorem C38_reflection (w : Option ℕ) (c : Spec.Chain) (h : Fits w c) (s : ℕ) (hs : s < c.size) :
    IsImage c.base c.sites c.parity s (flipLROf w c s).1 ∧
    (flipLROf w c s).2 = if c.fermions then fermionMapSign c.sites c.parity s else 1 :=
  have := parity_isSymmetry h 1 0
  ⟨this.img s hs, this.sgn s hs⟩

/-- Inversion of all sites; for fermions with spin the exchange of the two species. -/
theorem C38_inversion (w : Option ℕ) (c : Spec.Chain) (h : Fits w c) (hf : HasFlip c) (s : ℕ) (hs : s < c.size) :
    IsImage c.base c.sites c.flip s (flipAllOf w c s).1 ∧
    (flipAllOf w c s).2 = if c.fermions then fermionMapSign c.sites c.flip s else 1 :=
  have := flip_isSymmetry h hf 1 0
  ⟨this.img s hs, this.sgn s hs⟩

/-- The test for the momentum block `k` with unit cell `T`, `L = T n`: it is positive exactly for the
representatives, and its value is then the period of the configuration under the translation; `y` is any signed
map of configurations that translates by `T` sites. -/
theorem C38_momentum (w : Option ℕ) (c : Spec.Chain) (h : Fits w c) (T n k : ℕ) (hT : 0 < T) (hn : 0 < n) (hL : c.length = T * n)
    (y : Generator) (hy : c.IsSymmetry (c.shift T) y) (hp : y.per = n) (hq : y.q = k) (s : ℕ) (hs : s < c.size) :
    (0 < checkT (shiftOf w T c) k c.length T s ↔ IsRepresentative [y] s) ∧
    (0 < checkT (shiftOf w T c) k c.length T s → ∃ r : ℕ, checkT (shiftOf w T c) k c.length T s = r ∧ 0 < r ∧
      (y.U^[r] (s, 1)).1 = s ∧ (∀ j, 0 < j → j < r → (y.U^[j] (s, 1)).1 ≠ s) ∧ projection [y] s s * r = n) :=
  have := momentum_block h T n k hT hn hL hy hp hq s hs
  ⟨this.1, this.2.1⟩

/-- The same in terms of translates and phases: `s` is the largest of its translates, and whenever a translation
brings it back, the phase `exp(2πi k r/n)` equals the sign. -/
theorem C38_compatible (w : Option ℕ) (c : Spec.Chain) (h : Fits w c) (T n k : ℕ) (hT : 0 < T) (hn : 0 < n) (hL : c.length = T * n)
    (y : Generator) (hy : c.IsSymmetry (c.shift T) y) (hp : y.per = n) (hq : y.q = k) (s : ℕ) (hs : s < c.size) :
    0 < checkT (shiftOf w T c) k c.length T s ↔ (∀ j, (y.U^[j] (s, 1)).1 ≤ s) ∧
      ∀ r : ℕ, (y.U^[r] (s, 1)).1 = s → Complex.exp (Complex.I * (2 * Real.pi * k / n * r)) = (y.U^[r] (s, 1)).2 := by
  rw [(momentum_block h T n k hT hn hL hy hp hq s hs).2.2]
  unfold root
  push_cast
  rfl

/-! ### the hypotheses are met -/

/-- four spins, unit cell of one site: a translation with momentum 1 -/
def chainTranslation : Generator := gen (shiftOf (some 32) 1 (.twoLevel 4)) 4 1

theorem chainTranslation_is : (Spec.Chain.twoLevel 4).IsSymmetry ((Spec.Chain.twoLevel 4).shift 1) chainTranslation :=
  shift_isSymmetry (w := some 32) (c := .twoLevel 4) ⟨by omega, by rintro v ⟨⟩; omega⟩ 1 (by omega) (by decide) 4 1

example : Fits (some 32) (.twoLevel 4) := ⟨by omega, by rintro v ⟨⟩; omega⟩
example : Fits (some 64) (.spinless 63) := ⟨by omega, by rintro v ⟨⟩; omega⟩
example : Fits (some 64) (.spinful 32) := ⟨by omega, by rintro v ⟨⟩; omega⟩
example : Fits none (.levels 3 50) := ⟨by omega, by omega⟩

/-- The state with one spin up belongs to every momentum, the Néel state (period 2) not to `k = 1`. -/
example : checkT (shiftOf (some 32) 1 (.twoLevel 4)) 1 4 1 8 = 4 ∧ checkT (shiftOf (some 32) 1 (.twoLevel 4)) 1 4 1 10 = -1 ∧
    checkT (shiftOf (some 32) 1 (.twoLevel 4)) 2 4 1 10 = 2 := by decide +kernel

/-- Two fermions on opposite sites of a ring of four belong to `k = 1` and not to `k = 0`. -/
example : checkT (shiftOf (some 32) 1 (.spinless 4)) 1 4 1 10 = 2 ∧ checkT (shiftOf (some 32) 1 (.spinless 4)) 0 4 1 10 = -1 := by
  decide +kernel

/-! ### defect -/

/-- For spinless fermions on exactly 32 sites (the basis integers have 32 bits) the translation has no sign:
moving the fermion of the last site of two to site 0 should give `-1`. -/
theorem C38_fails_full_width : (33 : ℕ) < (Spec.Chain.spinless 32).size ∧ (shiftOf (some 32) 1 (.spinless 32) 33).2 = 1 ∧
    fermionMapSign 32 ((Spec.Chain.spinless 32).shift 1) 33 = -1 ∧
    (flipLROf (some 32) (.spinless 32) 33).2 = 1 ∧ fermionMapSign 32 ((Spec.Chain.spinless 32).parity) 33 = -1 := by
  refine ⟨by decide, ?_, ?_, ?_, ?_⟩ <;> decide +kernel

end Props
