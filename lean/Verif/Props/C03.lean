import Verif.Proof.BitCount
/-!
C03  Counting particles is exact.

`Model.bitCount B v l` is the library's count of the set bits of `v` at positions `0..l-1` in an
unsigned type of `B` bytes; `Spec.count l v` is the number of such bits.
The property is true for words holding fewer than 256 particles and positions below the word
width, and false otherwise: both directions are proved.
-/
namespace Props
open Model Spec Proof.BitCount

/-- The library's count is right exactly when the position is below the type's width and there
are at most 255 occupied positions below it. -/
theorem C03_count_exact_iff (B v l : Nat) :
    bitCount B v l = some (count l v) ↔ l < 8 * B ∧ count l v < 256 := by
  constructor
  · intro h
    refine ⟨?_, bitCount_lt B v l _ h⟩
    by_cases hl : l < 8 * B
    · exact hl
    · simp [bitCount, hl] at h
  · rintro ⟨h1, h2⟩; exact bitCount_exact B v l h1 h2

/-- Partial form of C03 (full statement: for *every* `v` and `l ≤ 8*B`).  In particular every
fermionic sign of a system of at most 256 sites is counted correctly: the position `l` of a site
is then at most 255.  Missing: words with 256 or more particles and `l = 8*B`, where the code is
wrong (`C03_wrong_from_256_particles`, `C03_undefined_at_full_width`). -/
theorem C03_count_exact_partial (B v l : Nat) (hl : l < 8 * B) (h256 : l < 256) :
    bitCount B v l = some (count l v) := by
  refine bitCount_exact B v l hl (Nat.lt_of_le_of_lt ?_ h256)
  have := List.countP_le_length (p := fun i => v.testBit i) (l := List.range l)
  simpa [count] using this

example : bitCount 4 0b10110111 7 = some 5 ∧ count 7 0b10110111 = 5 := by decide
example : (7 : Nat) < 8 * 4 ∧ (7:Nat) < 256 := by decide

/-- Defect: with 256 or more occupied sites the count is always wrong, in every type. -/
theorem C03_wrong_from_256_particles (B v l c : Nat) (h : 256 ≤ count l v)
    (hc : bitCount B v l = some c) : c ≠ count l v := by
  have := bitCount_lt B v l c hc
  omega

/-- Such configurations exist: 256 particles on 300 sites in the 1024-bit type. -/
example : 256 ≤ count 300 (2 ^ 256 - 1) ∧ (bitCount 128 (2 ^ 256 - 1) 300).isSome := by
  decide +kernel

/-- Defect: asking for the count over the full width (a 32-site system in the 32-bit type, …) is
an invalid shift. -/
theorem C03_undefined_at_full_width (B v : Nat) : bitCount B v (8 * B) = none := by
  simp [bitCount]

end Props
