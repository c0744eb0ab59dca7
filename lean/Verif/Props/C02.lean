import Verif.Proof.BosonRoom
import Verif.Proof.HDim
import Verif.Props.C14
/-!
C02  Fixed-particle-number bases of multi-level sites are complete.

`Model.bosonBasis N sps Np` is the array of states of `boson_basis_general(N, Nb=Np, sps=sps)` for
`sps > 2` (for `sps = 2` the constructor delegates to the two-level class, C01); the higher-spin
basis runs the same enumeration code.  `Spec.dsum sps N s` is the total number of quanta of the
configuration stored in `s`, `Spec.occ sps N s i` the number on site `i`.
-/
namespace Props
open Model Spec Proof.Digits Proof.Boson Proof.HcbBasis Proof.MakeBasis

theorem dsum_is_total_occupation (b N s : Nat) :
    dsum b N s = ((List.range N).map (occ b N s)).sum := by
  unfold dsum occ
  rw [← List.sum_reverse, ← List.map_reverse]
  congr 1
  apply List.ext_getElem
  · simp
  · intro i h1 h2
    simp at h1 h2 ⊢

/-- The general form: the type found for the system must leave room for the intermediate values of
the successor function (`hroom`), which only fails for astronomically many levels per site. -/
theorem C02_complete_of_room (N sps Np w : Nat) (hN : 0 < N) (hs : 2 < sps)
    (hw : getBasisType N (some Np) sps = some w)
    (hroom : 0 < Np / (sps - 1) → Np / (sps - 1) + 2 ≤ N →
      bosonSMax N sps (some Np) + Np % (sps - 1) < 2 ^ w) :
    ∃ basis, bosonBasis N sps Np = .ok basis ∧
      (∀ s, s ∈ basis ↔ s < sps ^ N ∧ ((List.range N).map (occ sps N s)).sum = Np) ∧
      basis.Pairwise (· > ·) ∧ (basis.length : Int) = hDim Np N (sps - 1) := by
  have hk := (basisType_fits N sps Np w hs hw).1
  rw [smax_eq sps N Np hs hk] at hroom
  have hdim : hDim Np N (sps - 1) = (sectorB sps N Np).length := by
    obtain ⟨n, rfl⟩ : ∃ n, N = n + 1 := ⟨N - 1, by omega⟩
    exact Proof.HDim.hDim_eq sps n Np (by omega)
  refine ⟨(sectorB sps N Np).reverse, ?_, ?_, ?_, ?_⟩
  · unfold bosonBasis
    simp only [hw, hdim, Int.toNat_natCast]
    unfold makeBasisPcon
    rw [if_neg (by omega), makeBasisPconSequential_eq, visit_sectorB w sps N Np hs hw hroom, if_neg]
    · rw [kept_noMaps]
      simp only [← List.map_reverse, List.map_map]
      congr 1
      exact (List.map_congr_left (g := id) (by simp)).trans (List.map_id _)
    · rintro ⟨h1, h2⟩
      rw [kept_noMaps, List.length_map, List.length_dropLast] at h2
      have := Nat.le_max_left (sectorB sps N Np).length 1000
      omega
  · intro s
    rw [List.mem_reverse, ← dsum_is_total_occupation]
    simp [sectorB]
  · rw [List.pairwise_reverse]
    exact List.Pairwise.filter _ List.pairwise_lt_range
  · rw [List.length_reverse, hdim]

/-- A basis with `Np` quanta on `N` sites with `sps` levels: exactly the configurations whose
occupations (all below `sps`) add up to `Np`, each once, in decreasing order; their number is the
one computed by the library's dimension formula.  `hw` says that the library supports the system
at all, i.e. finds an integer type for it. -/
theorem C02_complete (N sps Np w : Nat) (hN : 0 < N) (hs : 2 < sps) (hs' : sps ≤ 256)
    (hw : getBasisType N (some Np) sps = some w) :
    ∃ basis, bosonBasis N sps Np = .ok basis ∧
      (∀ s, s ∈ basis ↔ s < sps ^ N ∧ ((List.range N).map (occ sps N s)).sum = Np) ∧
      basis.Pairwise (· > ·) ∧ (basis.length : Int) = hDim Np N (sps - 1) := by
  obtain ⟨hk, hT, _⟩ := basisType_fits N sps Np w hs hw
  refine C02_complete_of_room N sps Np w hN hs hw (fun h1 h2 => ?_)
  rw [smax_eq sps N Np hs hk]
  exact room w sps N Np (basisType_mem N sps Np w hs hw) hs hs' hT h1 h2

/-- The supported systems: every one whose particle number fits and whose configurations are
below `2^16384`. -/
theorem C02_supported (N sps Np : Nat) (hs : 2 < sps) (hk : Np ≤ N * (sps - 1))
    (h : sps ^ N ≤ 2 ^ 16384) : ∃ w, getBasisType N (some Np) sps = some w := by
  have hlt : bosonSMax N sps (some Np) < 2 ^ 16384 := by
    rw [smax_eq sps N Np hs hk]
    exact Nat.lt_of_lt_of_le (topfill_lt sps N Np hs) h
  have hbl : bitLength (bosonSMax N sps (some Np)) (bosonSMax N sps (some Np)) ≤ 16384 := by
    rcases Nat.eq_zero_or_pos (bosonSMax N sps (some Np)) with h0 | h0
    · rw [h0]; simp [bitLength]
    · obtain ⟨h1, h2⟩ := bitLength_ge _ _ (Nat.le_refl _) h0
      have := (Nat.pow_lt_pow_iff_right (a := 2) (by omega)).1 (Nat.lt_of_le_of_lt h1 hlt)
      omega
  unfold getBasisType
  simp only [Option.map_some, Option.getD_some, decide_eq_true_eq, if_neg (show ¬ Np > N * (sps - 1) by omega),
    if_pos (show sps > 2 from hs)]
  unfold widthFor
  repeat' split
  all_goals first
    | exact ⟨_, rfl⟩
    | omega

example : getBasisType 3 (some 3) 3 = some 32 := by decide +kernel
example : bosonBasis 3 3 3 = .ok [21, 19, 15, 13, 11, 7, 5] := by decide +kernel
example : hDim 3 3 2 = 7 := by decide +kernel

/-- C14 for multi-level sites: whatever the number of threads and the schedule of their writes, a
successful construction gives the kept configurations with `Np` quanta, decreasing. -/
theorem C14_multi_level_fixed_number (N sps Np w : Nat) (hs : 2 < sps) (hs' : sps ≤ 256)
    (hw : getBasisType N (some Np) sps = some w)
    (sort : List (Nat × Int) → List (Nat × Int)) (hsort : SortsDescending sort) (check : Check)
    (nt mem T : Nat) (writes : List (Nat × (Nat × Int)))
    (hwr : InterleavingPcon (fun s _ => bosonNext w sps N s) check (sectorB sps N Np).length
      (bosonS0 sps Np % 2 ^ w) T writes)
    (l : List (Nat × Int))
    (h : makeBasisPcon (fun s _ => bosonNext w sps N s) sort check nt (sectorB sps N Np).length mem
      (bosonS0 sps Np % 2 ^ w) T writes = .ok l) :
    l = (kept check (sectorB sps N Np)).reverse := by
  obtain ⟨hk, hT, _⟩ := basisType_fits N sps Np w hs hw
  refine C14_fixed_number _ sort hsort check nt _ mem _ T _ (visit_sectorB w sps N Np hs hw (fun h1 h2 =>
    room w sps N Np (basisType_mem N sps Np w hs hw) hs hs' hT h1 h2)) ?_ writes hwr l h
  exact List.Pairwise.filter _ List.pairwise_lt_range

end Props
