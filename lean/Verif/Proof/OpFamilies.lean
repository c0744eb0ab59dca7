import Verif.Proof.OpChecks

namespace Proof.OpStr
open Model.OpStr Spec Proof.Lattice

theorem pauli_adjoint (p : Int) : AdjointPairs 2 (pauliMatrix p) := by
  by_cases hp : p = 0
  · subst hp
    have : pauliMatrix 0 = spinHalf := by funext o a c; simp [pauliMatrix]
    rw [this]; exact spinHalf_adjoint
  intro a _ c _
  refine ⟨?_, ?_, fun o h1 h2 => ?_⟩
  · simp only [pauliMatrix, if_neg hp, and_comm]
    split
    · split <;> simp
    · simp
  · simp only [pauliMatrix, if_neg hp, and_comm]
    split
    · split <;> simp
    · simp
  · unfold pauliMatrix
    simp only [if_neg hp]
    split
    · simp only [eq_comm]; split <;> simp
    · by_cases h : a = c
      · subst h; by_cases h' : a = 1 <;> simp [h']
      · simp [h, Ne.symm h]
    · by_cases h : a = c
      · simp [h]
      · simp [h, Ne.symm h]
    · by_cases h3 : a = 1 ∧ c = 0
      · obtain ⟨rfl, rfl⟩ := h3; simp
      · by_cases h4 : a = 0 ∧ c = 1
        · obtain ⟨rfl, rfl⟩ := h4; simp
        · rw [if_neg h3, if_neg h4, if_neg (fun h => h4 h.symm), if_neg (fun h => h3 h.symm)]; simp
    · exact absurd rfl h1
    · exact absurd rfl h2
    · simp

theorem boson_adjoint (b : Nat) : AdjointPairs b (boson b) := by
  intro a _ c _
  refine ⟨?_, ?_, fun o h1 h2 => ?_⟩
  · simp only [boson]
    by_cases h : a = c + 1
    · subst h; simp
    · rw [if_neg h, if_neg (fun h' => h h'.symm)]; simp
  · simp only [boson]
    by_cases h : a + 1 = c
    · subst h; simp
    · rw [if_neg h, if_neg (fun h' => h h'.symm)]; simp
  · unfold boson
    split
    · simp only [eq_comm]; split <;> simp
    · by_cases h : a = c
      · subst h; simp
      · simp [h, Ne.symm h]
    · by_cases h : a = c
      · subst h; simp
      · simp [h, Ne.symm h]
    · exact absurd rfl h1
    · exact absurd rfl h2
    · simp

theorem spin_adjoint (b : Nat) : AdjointPairs b (spin b) := by
  intro a _ c _
  refine ⟨?_, ?_, fun o h1 h2 => ?_⟩
  · simp only [spin]
    by_cases h : a = c + 1
    · subst h
      rw [if_pos rfl, if_pos rfl, show ∀ x : ℝ, star (x : ℂ) = x from fun x => Complex.conj_ofReal x]
      congr 2
      push_cast
      ring
    · rw [if_neg h, if_neg (fun h' => h h'.symm)]; simp
  · simp only [spin]
    by_cases h : a + 1 = c
    · subst h
      rw [if_pos rfl, if_pos rfl, show ∀ x : ℝ, star (x : ℂ) = x from fun x => Complex.conj_ofReal x]
      congr 2
      push_cast
      ring
    · rw [if_neg h, if_neg (fun h' => h h'.symm)]; simp
  · unfold spin
    simp only []
    split
    · simp only [eq_comm]; split <;> simp
    · by_cases h : a = c
      · subst h; simp
      · simp [h, Ne.symm h]
    · exact absurd rfl h1
    · exact absurd rfl h2
    · simp

theorem pauli_ladder (p : Int) : Ladder (pauliMatrix p) := by
  by_cases hp : p = 0
  · subst hp
    have : pauliMatrix 0 = spinHalf := by funext o a c; simp [pauliMatrix]
    rw [this]; exact spinHalf_ladder
  refine ⟨fun a c h => ?_, fun a c h => ?_, fun o h1 h2 h3 h4 a c h => ?_⟩
  · simp only [pauliMatrix, if_neg hp] at h
    have : a = 1 ∧ c = 0 := by by_contra hh; simp [hh] at h
    omega
  · simp only [pauliMatrix, if_neg hp] at h
    have : a = 0 ∧ c = 1 := by by_contra hh; simp [hh] at h
    omega
  · by_contra hac
    refine h ?_
    unfold pauliMatrix
    simp only [if_neg hp]
    split
    · simp [hac]
    · simp [hac]
    · exact absurd rfl h3
    · exact absurd rfl h4
    · exact absurd rfl h1
    · exact absurd rfl h2
    · rfl

theorem boson_ladder (b : Nat) : Ladder (boson b) := by
  refine ⟨fun a c h => ?_, fun a c h => ?_, fun o h1 h2 h3 h4 a c h => ?_⟩
  · simp only [boson] at h
    by_contra hh; simp [hh] at h
  · simp only [boson] at h
    by_contra hh; simp [hh] at h
  · by_contra hac
    refine h ?_
    unfold boson
    split
    · simp [hac]
    · simp [hac]
    · simp [hac]
    · exact absurd rfl h1
    · exact absurd rfl h2
    · rfl

theorem spin_ladder (b : Nat) : Ladder (spin b) := by
  refine ⟨fun a c h => ?_, fun a c h => ?_, fun o h1 h2 h3 h4 a c h => ?_⟩
  · simp only [spin] at h
    by_contra hh; simp [hh] at h
  · simp only [spin] at h
    by_contra hh; simp [hh] at h
  · by_contra hac
    refine h ?_
    unfold spin
    simp only []
    split
    · simp [hac]
    · simp [hac]
    · exact absurd rfl h1
    · exact absurd rfl h2
    · rfl

theorem siteOp_adj {b N : Nat} {u : Char → Nat → Nat → ℂ} (hu : AdjointPairs b u) : Adj (siteOp b N u) := fun i => siteOp_star hu i

theorem fermionOp_adj {N : Nat} : Adj (fermionOp N) := fun i => fermionOp_star i

theorem fermionOp_exch {N : Nat} : Exchange (fun c => c ≠ 'x' ∧ c ≠ 'y') (fermionOp N) := fun _ _ _ _ ho hp hij => fermionOp_exchange ho hp hij

theorem hcChar_good {c : Char} (h : c ≠ '%') (hx : c ≠ 'x' ∧ c ≠ 'y') : hcChar c ≠ 'x' ∧ hcChar c ≠ 'y' := by
  rw [hcChar_eq h]
  split
  · decide
  · split
    · decide
    · exact hx

/-- The expansion of one character, for the three conventions. -/
theorem expandChar_pauli {p : Int} (hp : p = 0 ∨ p = 1 ∨ p = -1) (N : Nat) (c : Char) (i : Nat) :
    siteOp 2 N (pauliMatrix p) c i = ((expandChar p c).map fun q => q.1 • siteOp 2 N (pauliMatrix p) q.2 i).sum := by
  by_cases hi : i < N
  · ext t s
    have ht := (t ⟨i, hi⟩).2
    have hs := (s ⟨i, hi⟩).2
    have key : pauliMatrix p c (t ⟨i, hi⟩) (s ⟨i, hi⟩) =
        ((expandChar p c).map fun q => q.1 * pauliMatrix p q.2 (t ⟨i, hi⟩) (s ⟨i, hi⟩)).sum := by
      generalize ((t ⟨i, hi⟩ : Fin 2) : Nat) = a at ht
      generalize ((s ⟨i, hi⟩ : Fin 2) : Nat) = d at hs
      unfold expandChar
      split
      · rename_i hc; subst hc
        obtain rfl | rfl : a = 0 ∨ a = 1 := by omega
        all_goals obtain rfl | rfl : d = 0 ∨ d = 1 := by omega
        all_goals rcases hp with rfl | rfl | rfl <;> simp [pauliMatrix, spinHalf]
      · split
        · rename_i hc; subst hc
          obtain rfl | rfl : a = 0 ∨ a = 1 := by omega
          all_goals obtain rfl | rfl : d = 0 ∨ d = 1 := by omega
          all_goals rcases hp with rfl | rfl | rfl <;> simp [pauliMatrix, spinHalf] <;> ring
        · simp
    have hsum : ∀ L : List (ℂ × Char), ((L.map fun q => q.1 • siteOp 2 N (pauliMatrix p) q.2 i).sum) t s =
        if ∀ j, j ≠ (⟨i, hi⟩ : Fin N) → t j = s j then (L.map fun q => q.1 * pauliMatrix p q.2 (t ⟨i, hi⟩) (s ⟨i, hi⟩)).sum else 0 := by
      intro L
      induction L with
      | nil => simp
      | cons q L ih =>
        rw [List.map_cons, List.sum_cons, Matrix.add_apply, ih, Matrix.smul_apply, siteOp, dif_pos hi, onSite, smul_eq_mul]
        split
        · simp
        · simp
    rw [hsum, ← key, siteOp, dif_pos hi, onSite]
  · have : ∀ q, siteOp 2 N (pauliMatrix p) q i = 0 := fun q => by rw [siteOp, dif_neg hi]
    rw [this]
    symm
    refine List.sum_eq_zero ?_
    intro x hx
    obtain ⟨q, -, rfl⟩ := List.mem_map.1 hx
    rw [this, smul_zero]

theorem siteOp_out {b N : Nat} {u : Char → Nat → Nat → ℂ} (c : Char) (i : Nat) (h : N ≤ i) : siteOp b N u c i = 0 := by
  rw [siteOp, dif_neg (by omega)]

theorem fermionOp_out {N : Nat} (c : Char) (i : Nat) (h : N ≤ i) : fermionOp N c i = 0 := by
  rw [fermionOp, dif_neg (by omega)]

end Proof.OpStr
