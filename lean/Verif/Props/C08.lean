import Verif.Proof.CheckState
import Verif.Props.C14
import Verif.Props.C07
/-!
C08  A representative is kept exactly when its symmetrised state is non-zero.

`Model.checkKeep ys s` is the library's test of configuration `s`: `none` (NaN) or the integer norm;
a basis contains the configurations for which it is positive.  `Spec.projection ys s t` is the
amplitude on `t` of the projection of `s` onto the requested quantum numbers;
`Spec.Related ys s t`: `t` is in the symmetry orbit of `s`.
-/
namespace Props
open Model Spec Proof.Symmetry

/-- The test is positive exactly for the configurations that are the largest of their orbit and have
a non-zero projection onto the requested quantum numbers. -/
theorem C08_kept_iff (S : Nat → Prop) (ys : List Generator) (h : Acts S ys) (hlen : ys.length ≤ 32)
    (s : Nat) (hs : S s) :
    (∃ n, checkKeep ys s = some n ∧ 0 < n) ↔
      (∀ t, Related ys s t → t ≤ s) ∧ ∃ t, projection ys s t ≠ 0 := by
  obtain ⟨h1, h2⟩ := checkState_spec h hlen s hs
  constructor
  · rintro ⟨n, hn, hpos⟩
    by_cases hmax : ∀ t, Related ys s t → t ≤ s
    · refine ⟨hmax, s, ?_⟩
      intro h0
      have := h2 hmax
      rw [h0] at this
      unfold checkKeep at hn
      rw [this] at hn
      simp at hn
      omega
    · push Not at hmax
      unfold checkKeep at hn
      rw [h1 hmax] at hn
      simp at hn
  · rintro ⟨hmax, t, ht⟩
    rcases projection_cases h s hs with ⟨_, h3, h4⟩ | h0
    · refine ⟨((stab ys s).length : Int), ?_, by exact_mod_cast h4⟩
      unfold checkKeep
      rw [h2 hmax, h3]
      simp
    · exact absurd (h0 t) ht

/-- The stored norm of a kept configuration is exactly the sum of the (signed, conjugated)
characters of the group elements that leave it unchanged, and this is the number of these group
elements. -/
theorem C08_norm (S : Nat → Prop) (ys : List Generator) (h : Acts S ys) (hlen : ys.length ≤ 32)
    (s : Nat) (hs : S s) (n : Int) (hn : checkKeep ys s = some n) (hpos : 0 < n) :
    projection ys s s = n ∧
      n = ((exponents ys).filter fun cs => decide ((word ys cs (s, 1)).1 = s)).length := by
  obtain ⟨h1, h2⟩ := checkState_spec h hlen s hs
  obtain ⟨hmax, t, ht⟩ := (C08_kept_iff S ys h hlen s hs).1 ⟨n, hn, hpos⟩
  rcases projection_cases h s hs with ⟨_, h3, h4⟩ | h0
  · unfold checkKeep at hn
    rw [h2 hmax, h3] at hn
    simp at hn
    rw [h3, ← hn]
    exact ⟨by simp, rfl⟩
  · exact absurd (h0 t) ht

/-- The states of a symmetry-reduced basis built from the configurations `0..MAX-1`, for every thread
count and schedule: exactly the orbit maxima with non-zero projection, with their norms. -/
theorem C08_basis (w : Nat) (sort : List (Nat × Int) → List (Nat × Int)) (hs : SortsDescending sort)
    (ys : List Generator) (hlen : ys.length ≤ 32) (MAX mem T : Nat) (hM : MAX ≤ 2 ^ w)
    (h : Acts (· < MAX) ys) (writes : List (Nat × (Nat × Int)))
    (hw : Interleaving w (checkKeep ys) MAX T writes) (l : List (Nat × Int))
    (hl : makeBasis w sort (checkKeep ys) ys.length MAX mem T writes = .ok l) (s : Nat) (n : Int) :
    (s, n) ∈ l ↔ s < MAX ∧ (∀ t, Related ys s t → t ≤ s) ∧ (∃ t, projection ys s t ≠ 0) ∧
      projection ys s s = n := by
  rw [C14_unrestricted w sort hs _ _ MAX mem T hM writes hw l hl, List.mem_reverse]
  have hmem : (s, n) ∈ kept (checkKeep ys) (List.range MAX) ↔
      s < MAX ∧ checkKeep ys s = some n ∧ 0 < n := by
    unfold kept
    rw [List.mem_filterMap]
    constructor
    · rintro ⟨a, ha, he⟩
      cases hc : checkKeep ys a with
      | none => rw [hc] at he; simp at he
      | some v =>
        rw [hc] at he
        rw [Option.bind_some] at he
        split at he
        · simp only [Option.some.injEq, Prod.mk.injEq] at he
          obtain ⟨rfl, rfl⟩ := he
          exact ⟨by simpa using ha, hc, by omega⟩
        · simp at he
    · rintro ⟨h1, h2, h3⟩
      exact ⟨s, by simpa using h1, by rw [h2]; simp [h3]⟩
  rw [hmem]
  constructor
  · rintro ⟨h1, h2, h3⟩
    obtain ⟨h4, h5⟩ := (C08_kept_iff _ ys h hlen s h1).1 ⟨n, h2, h3⟩
    exact ⟨h1, h4, h5, (C08_norm _ ys h hlen s h1 n h2 h3).1⟩
  · rintro ⟨h1, h4, h5, h6⟩
    obtain ⟨n', h2, h3⟩ := (C08_kept_iff _ ys h hlen s h1).2 ⟨h4, h5⟩
    have h7 := (C08_norm _ ys h hlen s h1 n' h2 h3).1
    rw [h6] at h7
    have h8 : n = n' := by exact_mod_cast h7
    subst h8
    exact ⟨h1, h2, h3⟩

/-! Exchange of two fermionic sites, odd: both sites occupied is kept, the empty state is not, and
`01` is not the largest of its orbit. -/

theorem character_exampleSigned : character exampleSigned [1] = -1 := by
  unfold character exampleSigned
  simp only [angle]
  push_cast
  rw [show Complex.I * (2 * (Real.pi : ℂ) * 1 / 2 * 1 + 0) = Real.pi * Complex.I by ring]
  exact Complex.exp_pi_mul_I

theorem character_exampleSigned_zero : character exampleSigned [0] = 1 := by
  simp [character, exampleSigned, angle]

theorem projection_exampleSigned (s t : Nat) : projection exampleSigned s t
    = (if s = t then 1 else 0) + (if s / 2 + s % 2 * 2 = t then (if s = 3 then 1 else -1) else 0) := by
  have e : exponents exampleSigned = [[0], [1]] := by decide
  unfold projection
  rw [e]
  simp only [List.map_cons, List.map_nil, List.sum_cons, List.sum_nil, character_exampleSigned,
    character_exampleSigned_zero]
  simp [word, exampleSigned, Generator.U]

example : (∃ n, checkKeep exampleSigned 3 = some n ∧ 0 < n) :=
  (C08_kept_iff _ _ exampleSigned_acts (by decide) 3 (by decide)).2 ⟨by
    intro t ht
    have := related_closed exampleSigned_acts (s := 3) (by decide) ht
    omega, 3, by rw [projection_exampleSigned]; norm_num⟩

example : ¬ (∃ n, checkKeep exampleSigned 0 = some n ∧ 0 < n) := by
  rw [C08_kept_iff _ _ exampleSigned_acts (by decide) 0 (by decide)]
  rintro ⟨_, t, ht⟩
  apply ht
  rw [projection_exampleSigned]
  by_cases h : 0 = t
  · subst h; simp
  · simp [h]

example : ¬ (∃ n, checkKeep exampleSigned 1 = some n ∧ 0 < n) := by
  rw [C08_kept_iff _ _ exampleSigned_acts (by decide) 1 (by decide)]
  rintro ⟨h, _⟩
  have := h 2 (Relation.ReflTransGen.single ⟨_, List.mem_singleton.2 rfl, rfl⟩)
  omega

end Props
