import Verif.Model.GeneralSectors
import Verif.Proof.ChainPlain
import Verif.Props.C01
import Verif.Props.C02

/-!
C97: bases of the general classes without maps: no particle number, one number or a list of numbers give the configurations with these numbers.

`occ b N s i` is the number of quanta on site `i` in the configuration `s`.
-/

namespace Props
open Model Spec Proof.Digits Proof.Boson Proof.HcbBasis Proof.MakeBasis Model.GeneralSectors

/-- The number of quanta of a configuration. -/
def quanta (b N s : ℕ) : ℕ := ((List.range N).map (occ b N s)).sum

theorem multiPcon_eq (w b N mem k K : ℕ) (hN : 0 < N) (hb : 2 < b) (hb' : b ≤ 256) (hw : getBasisType N (some K) b = some w) (hk : k ≤ K)
    (hmem : (sectorB b N k).length ≤ mem) : multiPcon w b N mem k = .ok ((sectorB b N k).reverse.map fun s => (s, 1)) := by
  obtain ⟨hK, hT, hfit⟩ := basisType_fits N b K w hb hw
  have hkN : k ≤ N * (b - 1) := le_trans hk hK
  have htk : topfill b N k < 2 ^ w := hfit _ (topfill_lt b N k hb) (by rw [Proof.Chain.topfill_dsum b hb N k hkN]; exact hk)
  have hv := visit_next (fun s => bosonNext w b N s) w b N k hb hkN htk (fun x h1 h2 => hfit x h1 (le_trans h2 hk))
    (fun h1 h2 => room w b N k (basisType_mem N b K w hb hw) hb hb' htk h1 h2) fun _ _ => rfl
  have hdim : hDim k N (b - 1) = (sectorB b N k).length := by
    obtain ⟨n, rfl⟩ : ∃ n, N = n + 1 := ⟨N - 1, by omega⟩
    exact Proof.HDim.hDim_eq b n k (by omega)
  unfold multiPcon makeBasisPcon
  rw [hdim, Int.toNat_natCast, if_neg (by omega), makeBasisPconSequential_eq, hv, if_neg]
  · rw [kept_noMaps, List.map_reverse]
  · rintro ⟨h1, h2⟩
    rw [kept_noMaps, List.length_map, List.length_dropLast] at h2
    omega

theorem multiSectors_eq (w b N K : ℕ) (hN : 0 < N) (hb : 2 < b) (hb' : b ≤ 256) (hw : getBasisType N (some K) b = some w) : ∀ (ks : List ℕ) (mem : ℕ)
    (acc : List (ℕ × ℤ)), (∀ k ∈ ks, k ≤ K) → acc.length + (ks.map fun k => (sectorB b N k).length).sum ≤ mem →
    multiSectors w b N mem ks acc = .ok (acc ++ (ks.map fun k => (sectorB b N k).reverse.map fun s => (s, (1 : ℤ))).flatten) := by
  intro ks
  induction ks with
  | nil => intro mem acc _ _; simp [multiSectors]
  | cons k ks ih =>
    intro mem acc hk h
    rw [List.map_cons, List.sum_cons] at h
    rw [multiSectors, multiPcon_eq w b N _ k K hN hb hb' hw (hk k (by simp)) (by omega)]
    simp only [List.length_map, List.length_reverse]
    rw [if_neg (by omega), ih]
    · simp
    · exact fun j hj => hk j (by simp [hj])
    · simp only [List.length_append, List.length_map, List.length_reverse]; omega

theorem mem_sectorB (b N k s : ℕ) : s ∈ sectorB b N k ↔ s < b ^ N ∧ quanta b N s = k := by
  unfold quanta
  rw [← dsum_is_total_occupation]
  simp [sectorB]

theorem boson_given (sort : List (ℕ × ℤ) → List (ℕ × ℤ)) (N b : ℕ) (Nb : NbArg) (hb : 2 < b) :
    GeneralSectors.boson sort N Nb (some b) = bosonMulti sort N b Nb := by
  show (if b = 2 then hcbBasis sort N Nb else if b < 2 then .error .valueError else bosonMulti sort N b Nb) = _
  rw [if_neg (by omega), if_neg (by omega)]

/-- **C97.**  A list of different numbers of bosons that fit into the system: exactly the configurations with one of these numbers, each once, decreasing. -/
theorem C97_boson_list (sort : List (ℕ × ℤ) → List (ℕ × ℤ)) (hs : SortsDescending sort) (N b K w : ℕ) (hN : 0 < N) (hb : 2 < b) (hb' : b ≤ 256)
    (ks : List ℕ) (hmax : ks.max? = some K) (hw : getBasisType N (some K) b = some w) (hnd : ks.Nodup) :
    ∃ basis, boson sort N (.list ks) (some b) = .ok basis ∧ (∀ s, s ∈ basis ↔ s < b ^ N ∧ quanta b N s ∈ ks) ∧ basis.Pairwise (· > ·) := by
  obtain ⟨L, hL⟩ : ∃ L, L = (ks.map (fun k => (sectorB b N k).reverse.map (fun s => (s, (1 : ℤ))))).flatten := ⟨_, rfl⟩
  have hle : ∀ k ∈ ks, k ≤ K := fun k hk => (List.max?_eq_some_iff.1 hmax).2 k hk
  have hmemL : ∀ s, s ∈ L.map Prod.fst ↔ s < b ^ N ∧ quanta b N s ∈ ks := by
    intro s
    rw [hL]
    simp only [List.mem_map, List.mem_flatten]
    constructor
    · rintro ⟨p, ⟨l, ⟨k, hk, rfl⟩, hp⟩, rfl⟩
      simp only [List.mem_map, List.mem_reverse] at hp
      obtain ⟨a, ha, rfl⟩ := hp
      rw [mem_sectorB] at ha
      exact ⟨ha.1, by rw [ha.2]; exact hk⟩
    · rintro ⟨h1, h2⟩
      exact ⟨(s, 1), ⟨_, ⟨_, h2, rfl⟩, by simp [mem_sectorB, h1]⟩, rfl⟩
  have hndL : (L.map Prod.fst).Nodup := by
    rw [hL, List.map_flatten, List.nodup_flatten]
    constructor
    · intro l hl
      simp only [List.map_map, List.mem_map, Function.comp_apply] at hl
      obtain ⟨k, _, rfl⟩ := hl
      have : ((sectorB b N k).reverse.map (Prod.fst ∘ fun s => (s, (1 : ℤ)))) = (sectorB b N k).reverse :=
        (List.map_congr_left (g := id) (by simp)).trans (List.map_id _)
      rw [this, List.nodup_reverse]
      exact (List.Pairwise.filter _ List.pairwise_lt_range).imp (fun h => Nat.ne_of_lt h)
    · rw [List.map_map, List.pairwise_map]
      refine hnd.imp ?_
      intro a c hac x hxa hxb
      simp only [Function.comp_apply, List.map_map, List.mem_map, List.mem_reverse, mem_sectorB] at hxa hxb
      obtain ⟨y, hy, rfl⟩ := hxa
      obtain ⟨z, hz, hzy⟩ := hxb
      have hzy : z = y := hzy
      subst hzy
      exact hac (hy.2.symm.trans hz.2)
  have hdim : ∀ k, hDim k N (b - 1) = (sectorB b N k).length := by
    intro k
    obtain ⟨n, rfl⟩ : ∃ n, N = n + 1 := ⟨N - 1, by omega⟩
    exact Proof.HDim.hDim_eq b n k (by omega)
  have hsum : ((ks.map fun (k : ℕ) => hDim k N (b - 1)).sum).toNat = (ks.map fun k => (sectorB b N k).length).sum := by
    have : (ks.map fun (k : ℕ) => hDim k N (b - 1)).sum = (((ks.map fun k => (sectorB b N k).length).sum : ℕ) : ℤ) := by
      rw [Nat.cast_list_sum, List.map_map]
      congr 1
      exact List.map_congr_left fun k _ => hdim k
    rw [this, Int.toNat_natCast]
  obtain ⟨hperm, hsorted⟩ := hs L
  refine ⟨(sort L).map Prod.fst, ?_, ?_, ?_⟩
  · rw [boson_given _ _ _ _ hb]
    simp only [bosonMulti, hmax, hw]
    rw [hsum, multiSectors_eq w b N K hN hb hb' hw ks _ [] hle (by simp only [List.length_nil, Nat.zero_add]; exact Nat.le_max_left _ _)]
    simp [finish, hL]
  · intro s; rw [← hmemL, (hperm.map Prod.fst).mem_iff]
  · have h1 : ((sort L).map Prod.fst).Nodup := (hperm.map _).nodup_iff.2 hndL
    have h2 : ((sort L).map Prod.fst).Pairwise (fun a b => b ≤ a) := by
      rw [List.pairwise_map]; exact hsorted
    exact h2.imp₂ (fun a b h h' => Nat.lt_of_le_of_ne h (Ne.symm h')) h1

example : ([0, 2, 1] : List ℕ).max? = some 2 ∧ getBasisType 3 (some 2) 3 = some 32 ∧ ([0, 2, 1] : List ℕ).Nodup := by decide +kernel
example : boson sortDesc 2 (.list [0, 2]) (some 3) = .ok [6, 4, 2, 0] := by decide +kernel

/-- Without a number: all configurations, for bosons and for higher spins; the bound is where the library stops supporting such bases. -/
theorem C97_unrestricted (sort : List (ℕ × ℤ) → List (ℕ × ℤ)) (N b : ℕ) (hb : 2 < b) (h : b ^ N ≤ 2 ^ 64) :
    ∃ basis, boson sort N .none (some b) = .ok basis ∧ higherSpin N b .none = .ok basis ∧ (∀ s, s ∈ basis ↔ s < b ^ N) ∧ basis.Pairwise (· > ·) := by
  have hpos : 0 < b ^ N := Nat.pow_pos (by omega)
  have hbl : bitLength (b ^ N - 1) (b ^ N - 1) ≤ 64 := by
    rcases Nat.eq_zero_or_pos (b ^ N - 1) with h0 | h0
    · rw [h0]; simp [bitLength]
    · obtain ⟨h1, h2⟩ := bitLength_ge _ _ (Nat.le_refl _) h0
      have := (Nat.pow_lt_pow_iff_right (a := 2) (by omega)).1 (Nat.lt_of_le_of_lt h1 (show b ^ N - 1 < 2 ^ 64 by omega))
      omega
  obtain ⟨w, hw, hw64⟩ : ∃ w, getBasisType N none b = some w ∧ w ≤ 64 := by
    unfold getBasisType
    simp only [Option.map_none, Option.getD_none, Bool.false_eq_true, if_false, if_pos (show b > 2 from hb), bosonSMax]
    unfold widthFor
    repeat' split
    all_goals exact ⟨_, rfl, by omega⟩
  have hfit : b ^ N ≤ 2 ^ w := by
    have hw' := hw
    unfold getBasisType at hw'
    simp only [Option.map_none, Option.getD_none, Bool.false_eq_true, if_false, if_pos (show b > 2 from hb), bosonSMax] at hw'
    have h1 := Proof.HcbBasis.widthFor_ge _ _ hw'
    have h2 := bitLength_lt (b ^ N - 1) (b ^ N - 1) (Nat.le_refl _)
    have := Nat.pow_le_pow_right (n := 2) (by omega) h1
    omega
  have key : multiFull N b = .ok (List.range (b ^ N)).reverse := by
    unfold multiFull
    simp only [hw, if_pos hw64, makeBasis]
    rw [if_neg (by omega), makeBasisSequential_eq w _ _ _ hfit, if_neg]
    · simp only [finish, kept_noMaps, id, ← List.map_reverse, List.map_map]
      congr 1
      exact (List.map_congr_left (g := id) (by simp)).trans (List.map_id _)
    · rintro ⟨h1, h2⟩
      rw [kept_noMaps, List.length_map, List.length_dropLast, List.length_range] at h2
      have := Nat.le_max_left (b ^ N) 1000
      omega
  refine ⟨(List.range (b ^ N)).reverse, ?_, key, by simp, ?_⟩
  · rw [boson_given _ _ _ _ hb]
    exact key
  · rw [List.pairwise_reverse]; exact List.pairwise_lt_range

example : (3 : ℕ) ^ 40 ≤ 2 ^ 64 := by norm_num
example : boson id 1 .none (some 3) = .ok [2, 1, 0] := by decide +kernel

/-- One number, for bosons and higher spins: the configurations with this number (C02). -/
theorem C97_number (sort : List (ℕ × ℤ) → List (ℕ × ℤ)) (N b k w : ℕ) (hN : 0 < N) (hb : 2 < b) (hb' : b ≤ 256) (hw : getBasisType N (some k) b = some w) :
    ∃ basis, boson sort N (.int k) (some b) = .ok basis ∧ higherSpin N b (.int k) = .ok basis ∧
      (∀ s, s ∈ basis ↔ s < b ^ N ∧ quanta b N s = k) ∧ basis.Pairwise (· > ·) := by
  obtain ⟨basis, h1, h2, h3, _⟩ := C02_complete N b k w hN hb hb' hw
  refine ⟨basis, ?_, h1, h2, h3⟩
  rw [boson_given _ _ _ _ hb]
  exact h1

/-- Without `sps` no configuration is cut off: for one number `k ≥ 2` and for lists with the largest number `k`, every distribution of the allowed numbers of bosons over
the sites is in the basis, and nothing else. -/
theorem C97_default (sort : List (ℕ × ℤ) → List (ℕ × ℤ)) (hs : SortsDescending sort) (N k w : ℕ) (hN : 0 < N) (hk : 2 ≤ k) (hk' : k ≤ 255)
    (hw : getBasisType N (some k) (k + 1) = some w) (ks : List ℕ) (hmax : ks.max? = some k) (hnd : ks.Nodup) :
    (∃ basis, boson sort N (.int k) none = .ok basis ∧ (∀ s ∈ basis, quanta (k + 1) N s = k) ∧
      ∀ n : ℕ → ℕ, ∑ i ∈ Finset.range N, n i = k → ∃ s ∈ basis, ∀ i < N, occ (k + 1) N s i = n i) ∧
    ∃ basis, boson sort N (.list ks) none = .ok basis ∧ (∀ s ∈ basis, quanta (k + 1) N s ∈ ks) ∧
      ∀ n : ℕ → ℕ, ∑ i ∈ Finset.range N, n i ∈ ks → ∃ s ∈ basis, ∀ i < N, occ (k + 1) N s i = n i := by
  have hex : ∀ n : ℕ → ℕ, ∑ i ∈ Finset.range N, n i ≤ k →
      ∃ s < (k + 1) ^ N, quanta (k + 1) N s = ∑ i ∈ Finset.range N, n i ∧ ∀ i < N, occ (k + 1) N s i = n i := by
    intro n hn
    have hle : ∀ i < N, n i < k + 1 := fun i hi => by
      have := Finset.single_le_sum (f := n) (fun _ _ => Nat.zero_le _) (Finset.mem_range.2 hi)
      omega
    have ho : ∀ i < N, occ (k + 1) N (Proof.Maps.fromOcc (k + 1) N n) i = n i := fun i hi => Proof.Maps.occ_fromOcc (k + 1) N n hle i hi
    refine ⟨_, Proof.Maps.fromOcc_lt (k + 1) N n hle, ?_, ho⟩
    unfold quanta
    exact Finset.sum_congr rfl fun i hi => ho i (Finset.mem_range.1 hi)
  constructor
  · obtain ⟨basis, h1, -, h2, -⟩ := C97_number sort N (k + 1) k w hN (by omega) (by omega) hw
    refine ⟨basis, h1, fun s hs => ((h2 s).1 hs).2, fun n hn => ?_⟩
    obtain ⟨s, e1, e2, e3⟩ := hex n hn.le
    exact ⟨s, (h2 s).2 ⟨e1, e2.trans hn⟩, e3⟩
  · obtain ⟨basis, h1, h2, -⟩ := C97_boson_list sort hs N (k + 1) k w hN (by omega) (by omega) ks hmax hw hnd
    refine ⟨basis, ?_, fun s hs => ((h2 s).1 hs).2, fun n hn => ?_⟩
    · rw [← h1]
      have e : bosonSps (.list ks) = some (k + 1) := by simp [bosonSps, hmax]
      unfold GeneralSectors.boson
      rw [e]
      rfl
    · obtain ⟨s, e1, e2, e3⟩ := hex n ((List.max?_eq_some_iff.1 hmax).2 _ hn)
      exact ⟨s, (h2 s).2 ⟨e1, e2 ▸ hn⟩, e3⟩

example : getBasisType 4 (some 3) 4 = some 32 ∧ [0, 3, 1].max? = some 3 ∧ [0, 3, 1].Nodup := by decide +kernel

/-- Numbers of up spins below zero count from the fully polarised state: `-1` is this state, `-2` has one quantum less, and so on. -/
theorem C97_negative (S2 N j : ℕ) (hj : j ≤ S2 * N) : spinNumber S2 N (-(j : ℤ) - 1) = ((S2 * N - j : ℕ) : ℤ) := by
  unfold spinNumber
  rw [if_pos (by omega)]
  omega

/-- One number of spinless fermions, and no number: exactly the configurations with this number, and all configurations. -/
theorem C97_spinless (sort : List (ℕ × ℤ) → List (ℕ × ℤ)) (N : ℕ) :
    (∀ k, N ≤ 16384 → ∃ basis, spinless sort N (.int k) = .ok basis ∧ (∀ s, s ∈ basis ↔ s < 2 ^ N ∧ count N s = k) ∧
      basis.Pairwise (· > ·) ∧ basis.length = N.choose k) ∧
    (N ≤ 64 → ∃ basis, spinless sort N .none = .ok basis ∧ (∀ s, s ∈ basis ↔ s < 2 ^ N) ∧ basis.Pairwise (· > ·) ∧ basis.length = 2 ^ N) :=
  ⟨fun k hN => C01_fixed_number_complete sort N k hN, fun hN => C01_unrestricted_complete sort N hN⟩

example : spinless id 3 (.int 2) = .ok [6, 5, 3] := by decide +kernel

/-- The lattice part of a photon basis, two levels per site: with a total number `t` of quanta its basis contains exactly the configurations with
at most `t` particles; without (`-1`) all configurations; other negative numbers are refused. -/
theorem C97_up_to (sort : List (ℕ × ℤ) → List (ℕ × ℤ)) (hs : SortsDescending sort) (N : ℕ) :
    (∀ t : ℕ, N ≤ 16384 → ∃ Nb basis, sectorsUpTo N t = .ok Nb ∧ hcbBasis sort N Nb = .ok basis ∧
      (∀ s, s ∈ basis ↔ s < 2 ^ N ∧ count N s ≤ t) ∧ basis.Pairwise (· > ·)) ∧
    (N ≤ 64 → ∃ Nb basis, sectorsUpTo N (-1) = .ok Nb ∧ hcbBasis sort N Nb = .ok basis ∧
      (∀ s, s ∈ basis ↔ s < 2 ^ N) ∧ basis.Pairwise (· > ·)) ∧
    (∀ t : ℤ, t < -1 → sectorsUpTo N t = .error .valueError) := by
  refine ⟨fun t hN => ?_, fun hN => ?_, fun t ht => ?_⟩
  · have hle : ∀ s, s < 2 ^ N → count N s ≤ N := fun s _ => Proof.Gosper.count_le N s
    by_cases h : t + 1 > N
    · obtain ⟨b, h1, h2, h3, -⟩ := C01_several_sectors_complete sort hs N hN (List.range (N + 1)) (by simp) List.nodup_range
      refine ⟨_, b, ?_, h1, fun s => ?_, h3⟩
      · unfold sectorsUpTo; rw [if_pos (by omega), if_pos (by omega)]
      · rw [h2, List.mem_range]
        constructor
        · rintro ⟨a, c⟩; exact ⟨a, by omega⟩
        · rintro ⟨a, c⟩; have := hle s a; exact ⟨a, by omega⟩
    · obtain ⟨b, h1, h2, h3, -⟩ := C01_several_sectors_complete sort hs N hN (List.range (t + 1)) (by simp; omega) List.nodup_range
      refine ⟨_, b, ?_, h1, fun s => ?_, h3⟩
      · unfold sectorsUpTo; rw [if_pos (by omega), if_neg (by omega), if_neg (by omega)]; rfl
      · rw [h2, List.mem_range, Nat.lt_succ_iff]
  · obtain ⟨b, h1, h2, h3, -⟩ := C01_unrestricted_complete sort N hN
    exact ⟨_, b, by unfold sectorsUpTo; rw [if_pos (by omega), if_neg (by omega), if_pos rfl], h1, h2, h3⟩
  · unfold sectorsUpTo; rw [if_neg (by omega)]

example : sectorsUpTo 3 1 = .ok (.list [0, 1]) ∧ hcbBasis sortDesc 3 (.list [0, 1]) = .ok [4, 2, 1, 0] := by decide +kernel

/-- Defect: a list of particle numbers of spinless fermions gives the sector of the last number only. -/
theorem C97_fails_spinless (sort : List (ℕ × ℤ) → List (ℕ × ℤ)) (N : ℕ) (hN : N ≤ 16384) (ks : List ℕ) (k : ℕ) (h : ∀ j ∈ ks ++ [k], j ≤ N) :
    spinless sort N (.list (ks ++ [k])) = hcbBasis sort N (.int k) := by
  obtain ⟨w, hw⟩ : ∃ w, widthFor N = some w := by
    unfold widthFor; repeat' split
    all_goals exact ⟨_, rfl⟩
  have hany : (ks ++ [k]).any (fun b => decide (b > N)) = false := by
    rw [List.any_eq_false]; intro j hj; have := h j hj; simp; omega
  unfold spinless hcbBasis
  simp only [hcbNs, hany, hw, hcbCoreMake, Bool.false_eq_true, if_false, List.getLast?_concat]
  rw [hcbPcon_eq w N _ k (widthFor_ge N w hw) (Nat.le_max_left _ _), hcbPcon_eq w N _ k (widthFor_ge N w hw)]
  · rfl
  · refine le_trans ?_ (Nat.le_max_left _ _)
    rw [List.map_append, List.sum_append]
    simp

/-- The sectors of zero and one fermion on two sites: the empty state is missing. -/
theorem C97_fails_spinless_example (sort : List (ℕ × ℤ) → List (ℕ × ℤ)) : spinless sort 2 (.list [0, 1]) = .ok [2, 1] := by
  have := C97_fails_spinless sort 2 (by norm_num) [0] 1 (by simp)
  exact this.trans rfl

/-- Defect: with a total number of quanta up to the number of sites, the lattice part of spinless fermions has the configurations of the largest number only;
those with fewer particles and more photons are missing. -/
theorem C97_fails_up_to_spinless (sort : List (ℕ × ℤ) → List (ℕ × ℤ)) (N t : ℕ) (hN : N ≤ 16384) (ht : t ≤ N) :
    ∃ Nf basis, sectorsUpTo N t = .ok Nf ∧ spinless sort N Nf = .ok basis ∧ ∀ s, s ∈ basis ↔ s < 2 ^ N ∧ count N s = t := by
  obtain ⟨b, h1, h2, -⟩ := C01_fixed_number_complete sort N t hN
  refine ⟨.list (List.range t ++ [t]), b, ?_, ?_, h2⟩
  · unfold sectorsUpTo
    rw [if_pos (by omega), ← List.range_succ]
    by_cases h : t + 1 > N
    · have : t = N := by omega
      rw [if_pos (by omega), this]
    · rw [if_neg (by omega), if_neg (by omega)]; rfl
  · rw [← h1]
    have : ∀ j ∈ List.range t ++ [t], j ≤ N := by
      intro j hj; simp at hj; omega
    exact C97_fails_spinless sort N hN _ t this

/-- Defect: with a total number of quanta the lattice part of spins above one half is refused. -/
theorem C97_fails_up_to_higher_spin (N sps t : ℕ) : ∃ Nup e, sectorsUpTo N t = .ok Nup ∧ higherSpin N sps Nup = .error e := by
  unfold sectorsUpTo
  rw [if_pos (by omega)]
  by_cases h : (t : ℤ) + 1 > N
  · rw [if_pos h]; exact ⟨_, .typeError, rfl, by rw [List.range_succ_eq_map]; rfl⟩
  · rw [if_neg h, if_neg (by omega)]
    exact ⟨_, .typeError, rfl, by rw [show ((t : ℤ) + 1).toNat = t + 1 by omega, List.range_succ_eq_map]; rfl⟩

/-- The lattice part of bosons with more than two levels per site: with `t` quanta and `t` not above the number of sites, exactly the configurations with at
most `t` bosons.

Missing: more quanta than sites (`C97_fails_up_to_boson`). -/
theorem C97_up_to_boson_partial (sort : List (ℕ × ℤ) → List (ℕ × ℤ)) (hs : SortsDescending sort) (N b t w : ℕ) (hN : 0 < N) (hb : 2 < b) (hb' : b ≤ 256)
    (ht : t ≤ N) (hw : getBasisType N (some t) b = some w) :
    ∃ Nb basis, sectorsUpTo N t = .ok Nb ∧ boson sort N Nb (some b) = .ok basis ∧ (∀ s, s ∈ basis ↔ s < b ^ N ∧ quanta b N s ≤ t) ∧
      basis.Pairwise (· > ·) := by
  have hmax : (List.range (t + 1)).max? = some t := by
    rw [List.max?_eq_some_iff]
    exact ⟨by simp, fun x hx => by rw [List.mem_range] at hx; omega⟩
  obtain ⟨basis, h1, h2, h3⟩ := C97_boson_list sort hs N b t w hN hb hb' (List.range (t + 1)) hmax hw List.nodup_range
  refine ⟨_, basis, ?_, h1, fun s => ?_, h3⟩
  · unfold sectorsUpTo
    rw [if_pos (by omega)]
    by_cases h : t + 1 > N
    · have : t = N := by omega
      rw [if_pos (by omega), this]
    · rw [if_neg (by omega), if_neg (by omega)]; rfl
  · rw [h2, List.mem_range, Nat.lt_succ_iff]

example : getBasisType 3 (some 2) 3 = some 32 ∧ sectorsUpTo 3 2 = .ok (.list [0, 1, 2]) := by decide +kernel

/-- Defect: with more quanta than sites, the configurations with more bosons than sites are missing: two bosons on one site with up to two. -/
theorem C97_fails_up_to_boson : sectorsUpTo 1 2 = .ok (.list [0, 1]) ∧ boson sortDesc 1 (.list [0, 1]) (some 3) = .ok [1, 0] ∧
    2 < 3 ^ 1 ∧ quanta 3 1 2 = 2 := by decide +kernel

/-- Defect: spins above one half refuse every list of numbers of up spins. -/
theorem C97_fails_higher_spin (N sps : ℕ) (ks : List ℕ) : ∃ e, higherSpin N sps (.list ks) = .error e := by
  cases ks with
  | nil => exact ⟨_, rfl⟩
  | cons => exact ⟨_, rfl⟩

/-- Defect: without `sps` no boson at all is refused: one level per site is too little for the constructor. -/
theorem C97_fails_vacuum (sort : List (ℕ × ℤ) → List (ℕ × ℤ)) (N : ℕ) : boson sort N (.int 0) none = .error .valueError := rfl

end Props
