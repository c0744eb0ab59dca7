import Verif.Proof.HcbBasis
/-!
C01  Fixed-particle-number bases of two-level sites are complete.

`Model.hcbBasis sort N Nb` is the array of states of the basis constructed without maps, from the
constructor down to the bit trick that steps from one state to the next; `sort` is the library
sort (any function satisfying its contract).  `Spec.count N s` is the number of occupied sites.
-/
namespace Props
open Model Spec Proof.HcbBasis Proof.MakeBasis Proof.Gosper

/-- A basis with a fixed number `k` of particles on `N` sites: exactly the `N`-site configurations
with `k` occupied sites, each once, in strictly decreasing order; there are `N` over `k` of them.
The bound on `N` is the library's own limit on representable systems. -/
theorem C01_fixed_number_complete (sort : List (Nat × Int) → List (Nat × Int)) (N k : Nat)
    (hN : N ≤ 16384) :
    ∃ basis, hcbBasis sort N (.int k) = .ok basis ∧
      (∀ s, s ∈ basis ↔ s < 2 ^ N ∧ count N s = k) ∧
      basis.Pairwise (· > ·) ∧ basis.length = N.choose k := by
  obtain ⟨w, hw⟩ : ∃ w, widthFor N = some w := by
    unfold widthFor; repeat' split
    all_goals exact ⟨_, rfl⟩
  refine ⟨(sector N k).reverse, ?_, ?_, ?_, ?_⟩
  · simp only [hcbBasis, hcbNs, hw, hcbCoreMake]
    rw [hcbPcon_eq w N _ k (widthFor_ge N w hw) (Nat.le_max_left _ _)]
    simp only [List.map_map]
    congr 1
    exact (List.map_congr_left (g := id) (by simp)).trans (List.map_id _)
  · intro s; rw [List.mem_reverse, count_lt_iff_sector]
  · rw [List.pairwise_reverse]; exact sector_increasing N k
  · rw [List.length_reverse, sector_length]

example : hcbBasis id 4 (.int 2) = .ok [12, 10, 9, 6, 5, 3] := by decide +kernel

/-- Without a particle number the basis is the list of all `N`-site configurations.  The bound is
where the library stops supporting unrestricted bases. -/
theorem C01_unrestricted_complete (sort : List (Nat × Int) → List (Nat × Int)) (N : Nat)
    (hN : N ≤ 64) :
    ∃ basis, hcbBasis sort N .none = .ok basis ∧
      (∀ s, s ∈ basis ↔ s < 2 ^ N) ∧ basis.Pairwise (· > ·) ∧ basis.length = 2 ^ N := by
  obtain ⟨w, hw, hw64⟩ : ∃ w, widthFor N = some w ∧ w ≤ 64 := by
    unfold widthFor; repeat' split
    all_goals exact ⟨_, rfl, by omega⟩
  have hp : 2 ^ N ≤ 2 ^ w := Nat.pow_le_pow_right (by omega) (widthFor_ge N w hw)
  have h0 := Nat.two_pow_pos N
  refine ⟨(List.range (2 ^ N)).reverse, ?_, ?_, ?_, ?_⟩
  · simp only [hcbBasis, hcbNs, hw, hcbCoreMake, hw64, if_true, makeBasis]
    rw [if_neg (by omega), makeBasisSequential_eq w _ _ _ hp, if_neg]
    · simp only [kept_noMaps, ← List.map_reverse, List.map_map]
      congr 1
      exact (List.map_congr_left (g := id) (by simp)).trans (List.map_id _)
    · rintro ⟨h1, h2⟩
      rw [kept_noMaps, List.length_map, List.length_dropLast, List.length_range,
        Nat.one_shiftLeft] at h2
      have := Nat.le_max_left (2 ^ N) 1000
      omega
  · intro s; simp
  · rw [List.pairwise_reverse]; exact List.pairwise_lt_range
  · simp

example : hcbBasis id 2 .none = .ok [3, 2, 1, 0] := by decide +kernel

/-- Several sectors at once (`Nb` a list of distinct admissible numbers): exactly the
configurations whose particle number is in the list, each once, decreasing. -/
theorem C01_several_sectors_complete (sort : List (Nat × Int) → List (Nat × Int))
    (hs : SortsDescending sort) (N : Nat) (hN : N ≤ 16384) (ks : List Nat)
    (hks : ∀ k ∈ ks, k ≤ N) (hnd : ks.Nodup) :
    ∃ basis, hcbBasis sort N (.list ks) = .ok basis ∧
      (∀ s, s ∈ basis ↔ s < 2 ^ N ∧ count N s ∈ ks) ∧
      basis.Pairwise (· > ·) ∧ basis.length = (ks.map (fun k => N.choose k)).sum := by
  obtain ⟨w, hw⟩ : ∃ w, widthFor N = some w := by
    unfold widthFor; repeat' split
    all_goals exact ⟨_, rfl⟩
  obtain ⟨L, hL⟩ : ∃ L, L = (ks.map (fun k => (sector N k).reverse.map (fun s => (s, (1 : Int))))).flatten :=
    ⟨_, rfl⟩
  have hany : ks.any (fun b => decide (b > N)) = false := by
    rw [List.any_eq_false]; intro k hk; have := hks k hk; simp; omega
  have hmemL : ∀ s, s ∈ L.map Prod.fst ↔ s < 2 ^ N ∧ count N s ∈ ks := by
    intro s
    rw [hL]
    simp only [List.mem_map, List.mem_flatten]
    constructor
    · rintro ⟨p, ⟨l, ⟨k, hk, rfl⟩, hp⟩, rfl⟩
      simp only [List.mem_map, List.mem_reverse] at hp
      obtain ⟨a, ha, rfl⟩ := hp
      rw [count_lt_iff_sector] at ha
      exact ⟨ha.1, by rw [ha.2]; exact hk⟩
    · rintro ⟨h1, h2⟩
      exact ⟨(s, 1), ⟨_, ⟨_, h2, rfl⟩, by simp [count_lt_iff_sector, h1]⟩, rfl⟩
  have hndL : (L.map Prod.fst).Nodup := by
    rw [hL, List.map_flatten, List.nodup_flatten]
    constructor
    · intro l hl
      simp only [List.map_map, List.mem_map, Function.comp_apply] at hl
      obtain ⟨k, _, rfl⟩ := hl
      have : ((sector N k).reverse.map (Prod.fst ∘ fun s => (s, (1 : Int)))) = (sector N k).reverse := by
        exact (List.map_congr_left (g := id) (by simp)).trans (List.map_id _)
      rw [this, List.nodup_reverse]
      exact (sector_increasing N k).imp (fun h => Nat.ne_of_lt h)
    · rw [List.map_map, List.pairwise_map]
      refine hnd.imp ?_
      intro a b hab x hxa hxb
      simp only [Function.comp_apply, List.map_map, List.mem_map, List.mem_reverse,
        count_lt_iff_sector] at hxa hxb
      obtain ⟨y, hy, rfl⟩ := hxa
      obtain ⟨z, hz, hzy⟩ := hxb
      have hzy : z = y := hzy
      subst hzy
      exact hab (hy.2.symm.trans hz.2)
  obtain ⟨hperm, hsorted⟩ := hs L
  refine ⟨(sort L).map Prod.fst, ?_, ?_, ?_, ?_⟩
  · simp only [hcbBasis, hcbNs, hany, hw, hcbCoreMake, Bool.false_eq_true, if_false]
    rw [hcbSectors_eq w N (widthFor_ge N w hw) ks _ [] (by
      simp only [List.length_nil, Nat.zero_add]; exact Nat.le_max_left _ _)]
    simp [hL]
  · intro s; rw [← hmemL, (hperm.map Prod.fst).mem_iff]
  · have h1 : ((sort L).map Prod.fst).Nodup := (hperm.map _).nodup_iff.2 hndL
    have h2 : ((sort L).map Prod.fst).Pairwise (fun a b => b ≤ a) := by
      rw [List.pairwise_map]; exact hsorted
    exact h2.imp₂ (fun a b h h' => Nat.lt_of_le_of_ne h (Ne.symm h')) h1
  · rw [List.length_map, hperm.length_eq, hL, List.length_flatten, List.map_map]
    congr 1
    apply List.map_congr_left
    intro k _
    simp [sector_length]

example : hcbBasis sortDesc 3 (.list [0, 2]) = .ok [6, 5, 3, 0] := by decide +kernel
example : (∀ k ∈ [0, 2], k ≤ 3) ∧ [0, 2].Nodup := by decide

/-- Defect: a repeated sector number is not rejected and not merged, so states appear twice. -/
theorem C01_repeated_sector_duplicates (sort : List (Nat × Int) → List (Nat × Int))
    (hs : SortsDescending sort) :
    ∃ basis, hcbBasis sort 3 (.list [1, 1]) = .ok basis ∧ ¬ basis.Nodup ∧ basis.length = 6 := by
  have h : hcbBasis sort 3 (.list [1, 1])
      = .ok ((sort [(4, 1), (2, 1), (1, 1), (4, 1), (2, 1), (1, 1)]).map Prod.fst) := by rfl
  obtain ⟨hp, _⟩ := hs [(4, 1), (2, 1), (1, 1), (4, 1), (2, 1), (1, 1)]
  refine ⟨_, h, ?_, ?_⟩
  · rw [(hp.map _).nodup_iff]; decide
  · rw [List.length_map, hp.length_eq]; rfl

end Props
