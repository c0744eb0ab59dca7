import Verif.Props.C116
import Verif.Props.C05

/-!
C116: blocks that do not fit into the memory.
-/

namespace Props
open Model Spec Proof.Symmetry Model.BlockMemory Model.GeneralMake

/-- Eleven sites with two levels; the exchange of the sites 0 and 1 and the exchange of the sites 2 and 3, as the library maps the states (C05); states even
under both. -/
def siteSwaps : List Generator :=
  [{ img := mapBits 32 11 [1, 0, 2, 3, 4, 5, 6, 7, 8, 9, 10], sgn := fun _ => 1, per := 2, q := 0 },
   { img := mapBits 32 11 [0, 1, 3, 2, 4, 5, 6, 7, 8, 9, 10], sgn := fun _ => 1, per := 2, q := 0 }]

theorem siteSwaps_act : Acts (· < 2048) siteSwaps where
  per_pos := by decide
  closed := by decide +kernel
  sign := fun y hy t _ => Or.inl (by fin_cases hy <;> rfl)
  period := by decide +kernel
  commute := by decide +kernel

theorem siteSwaps_largest : ((List.range 2048).filter fun s => (exponents siteSwaps).all fun cs => decide ((word siteSwaps cs (s, 1)).1 ≤ s)).length = 1152 := by
  decide +kernel

/-- A state that is the largest of its orbit is in the even block. -/
theorem siteSwaps_member (s : ℕ) (hs : s < 2048) (hl : ∀ cs ∈ exponents siteSwaps, (word siteSwaps cs (s, 1)).1 ≤ s) : Member siteSwaps s := by
  refine (C08_kept_iff _ siteSwaps siteSwaps_act (by decide) s hs).2 ⟨fun t ht => ?_, s, ?_⟩
  · obtain ⟨cs, hc, rfl⟩ := (related_iff siteSwaps_act s t hs).1 ht
    exact hl cs ((mem_exponents _ _).2 hc)
  · have hchi : ∀ cs, InRange siteSwaps cs → chi siteSwaps s cs = 1 := by
      intro cs hc
      have h1 : ∀ cs ∈ exponents siteSwaps, (word siteSwaps cs (s, 1)).2 = 1 := by
        intro cs hcs
        have : cs ∈ [[0, 0], [1, 0], [0, 1], [1, 1]] := by simpa [exponents, siteSwaps, List.range_succ] using hcs
        fin_cases this <;> rfl
      have h2 : ∀ cs ∈ exponents siteSwaps, character siteSwaps cs = 1 := by
        intro cs hcs
        have : cs ∈ [[0, 0], [1, 0], [0, 1], [1, 1]] := by simpa [exponents, siteSwaps, List.range_succ] using hcs
        fin_cases this <;> simp [character, angle, siteSwaps]
      have hm := (mem_exponents _ _).2 hc
      unfold chi
      rw [h1 cs hm, h2 cs hm]
      simp
    have e : projection siteSwaps s s = (((exponents siteSwaps).map fun cs => if (word siteSwaps cs (s, 1)).1 = s then 1 else 0).sum : ℕ) := by
      unfold projection
      rw [Nat.cast_list_sum, List.map_map]
      congr 1
      apply List.map_congr_left
      intro cs hc
      have := hchi cs ((mem_exponents _ _).1 hc)
      unfold chi at this
      simp only [this, Function.comp_apply]
      split <;> simp
    rw [e]
    have hz : siteSwaps.map (fun _ => 0) ∈ exponents siteSwaps := (mem_exponents _ _).2 (zero_inRange siteSwaps_act (fun _ h => h))
    have hpos : 1 ∈ (exponents siteSwaps).map fun cs => if (word siteSwaps cs (s, 1)).1 = s then 1 else 0 :=
      List.mem_map.2 ⟨_, hz, by rw [word_zero]; simp⟩
    have := List.le_sum_of_mem hpos
    exact_mod_cast (by omega : ((exponents siteSwaps).map fun cs => if (word siteSwaps cs (s, 1)).1 = s then 1 else 0).sum ≠ 0)

theorem siteSwaps_kept : 1152 ≤ (kept (checkKeep siteSwaps) (List.range 2048)).length := by
  classical
  rw [kept_length, ← List.sum_toFinset _ List.nodup_range, ← Finset.card_filter, ← siteSwaps_largest,
    ← List.toFinset_card_of_nodup (List.nodup_range.filter _)]
  apply Finset.card_le_card
  intro s hs
  rw [List.mem_toFinset, List.mem_filter, List.all_eq_true] at hs
  rw [Finset.mem_filter, List.mem_toFinset]
  exact ⟨hs.1, siteSwaps_member s (List.mem_range.1 hs.1) fun cs hc => by simpa using hs.2 cs hc⟩

/-- Defect: the estimate for the even block of these two commuting exchanges is 1024, the block has at least 1152 states; the constructors of spins one half
and hard-core bosons raise, with every number of threads.  For bosons with two levels per site the argument `Ns_block_est` that the message asks
for changes nothing. -/
theorem C116_fails_exchanges (sort : List (ℕ × ℤ) → List (ℕ × ℤ)) (hs : SortsDescending sort) (T : ℕ) (writes : List (ℕ × (ℕ × ℤ)))
    (hw : Interleaving 32 (checkKeep siteSwaps) 2048 T writes) :
    construct .spin 2 2048 [2, 2] none 32 sort (checkKeep siteSwaps) T writes = .error .valueError ∧
    ∀ given, construct .boson 2 2048 [2, 2] given 32 sort (checkKeep siteSwaps) T writes = .error .valueError := by
  have hk := siteSwaps_kept
  have h1 : makeBasis 32 sort (checkKeep siteSwaps) 2 2048 1024 T writes = .insufficient :=
    (C15_shortage_consistent_partial 32 sort hs _ 2 2048 1024 T (by norm_num) (by omega) writes hw).2 (by omega)
  have h2 : ∀ given, estimate .boson 2 2048 [2, 2] given = .ok 1024 := fun _ => rfl
  constructor
  · unfold construct
    rw [show estimate .spin 2 2048 [2, 2] none = .ok 1024 from rfl]
    simp only [show room 1024 = 1024 from rfl, List.length_cons, List.length_nil]
    rw [h1]
  · intro given
    unfold construct
    rw [h2]
    simp only [show room 1024 = 1024 from rfl, List.length_cons, List.length_nil]
    rw [h1]

end Props
