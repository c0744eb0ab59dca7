import Verif.Proof.Spinful
/-!
C04  Spinful-fermion sectors are complete.

`Model.spinfulBasis sort N dbl single Nf` is the array of states of the basis constructed without maps
for the list `Nf` of pairs (number of up, number of down particles); the up configuration is
`s / 2^N`, the down configuration `s % 2^N`.
-/
namespace Props
open Model Spec Proof.Spinful Proof.Gosper Proof.HcbBasis Proof.MakeBasis

/-- the configurations of a sector: numbers of particles, and no doubly occupied site if these are
excluded -/
def InSector (N : Nat) (dbl : Bool) (p : Nat × Nat) (s : Nat) : Prop :=
  s < 2 ^ (2 * N) ∧ count N (s / 2 ^ N) = p.1 ∧ count N (s % 2 ^ N) = p.2 ∧
    (dbl = false → ∀ i < N, ¬ ((s / 2 ^ N).testBit i = true ∧ (s % 2 ^ N).testBit i = true))

theorem kept_spinful (w N : Nat) (dbl : Bool) (l : List Nat) :
    kept (spinfulCheck w N dbl) l
      = (l.filter fun s => !(dbl = false ∧ (splitState w N s).1 &&& (splitState w N s).2 ≠ 0)).map fun s => (s, 1) := by
  induction l with
  | nil => rfl
  | cons s l ih =>
    rw [kept_cons, ih, List.filter_cons]
    unfold spinfulCheck keep
    by_cases h : dbl = false ∧ (splitState w N s).1 &&& (splitState w N s).2 ≠ 0
    · simp [h]
    · simp [h]

theorem mem_product (N u d s : Nat) :
    s ∈ ((sector N u).flatMap fun l => (sector N d).map fun r => l * 2 ^ N + r)
      ↔ s < 2 ^ (2 * N) ∧ count N (s / 2 ^ N) = u ∧ count N (s % 2 ^ N) = d := by
  simp only [List.mem_flatMap, List.mem_map, count_lt_iff_sector]
  have hp : 2 ^ (2 * N) = 2 ^ N * 2 ^ N := by rw [← Nat.pow_add]; congr 1; omega
  constructor
  · rintro ⟨l, ⟨hl, hlc⟩, r, ⟨hr, hrc⟩, rfl⟩
    have e1 : (l * 2 ^ N + r) / 2 ^ N = l := by
      rw [Nat.mul_comm, Nat.mul_add_div (Nat.two_pow_pos N), Nat.div_eq_of_lt hr, Nat.add_zero]
    have e2 : (l * 2 ^ N + r) % 2 ^ N = r := by rw [Nat.mul_comm, Nat.mul_add_mod, Nat.mod_eq_of_lt hr]
    rw [e1, e2, hp]
    refine ⟨?_, hlc, hrc⟩
    calc l * 2 ^ N + r < l * 2 ^ N + 2 ^ N := by omega
      _ = (l + 1) * 2 ^ N := by ring
      _ ≤ _ := Nat.mul_le_mul_right _ hl
  · rintro ⟨hs, h1, h2⟩
    refine ⟨s / 2 ^ N, ⟨?_, h1⟩, s % 2 ^ N, ⟨Nat.mod_lt _ (Nat.two_pow_pos N), h2⟩, ?_⟩
    · rw [Nat.div_lt_iff_lt_mul (Nat.two_pow_pos N)]; omega
    · rw [Nat.mul_comm]; exact Nat.div_add_mod _ _

theorem product_increasing (N u d : Nat) :
    ((sector N u).flatMap fun l => (sector N d).map fun r => l * 2 ^ N + r).Pairwise (· < ·) := by
  rw [List.pairwise_flatMap]
  constructor
  · intro l _
    rw [List.pairwise_map]
    exact (sector_increasing N d).imp (by intro a b h; omega)
  · refine (sector_increasing N u).imp ?_
    intro a b hab x hx y hy
    simp only [List.mem_map, count_lt_iff_sector] at hx hy
    obtain ⟨r, ⟨hr, _⟩, rfl⟩ := hx
    obtain ⟨t, _, rfl⟩ := hy
    have : (a + 1) * 2 ^ N ≤ b * 2 ^ N := Nat.mul_le_mul_right _ hab
    rw [Nat.add_mul] at this
    omega

theorem doubly_iff (w N s : Nat) (hN : N ≤ w) :
    (splitState w N s).1 &&& (splitState w N s).2 ≠ 0 ↔
      ∃ i < N, (s / 2 ^ N).testBit i = true ∧ (s % 2 ^ N).testBit i = true := by
  have e : splitState w N s = (s / 2 ^ N, s % 2 ^ N) := by
    have hs : s = s / 2 ^ N * 2 ^ N + s % 2 ^ N := by rw [Nat.mul_comm]; exact (Nat.div_add_mod _ _).symm
    conv_lhs => rw [hs]
    exact split_comb hN _ _ (Nat.mod_lt _ (Nat.two_pow_pos N))
  rw [e]
  constructor
  · intro h
    obtain ⟨i, hi⟩ := Nat.exists_testBit_of_ne_zero h
    rw [Nat.testBit_and, Bool.and_eq_true] at hi
    refine ⟨i, ?_, hi⟩
    have := hi.2
    rw [Nat.testBit_mod_two_pow] at this
    simp at this
    exact this.1
  · rintro ⟨i, _, h1, h2⟩ h0
    have : ((s / 2 ^ N) &&& (s % 2 ^ N)).testBit i = true := by rw [Nat.testBit_and, h1, h2]; rfl
    rw [h0] at this
    simp at this

/-- the states of one sector, in the order the code writes them -/
def spinfulList (w N : Nat) (dbl : Bool) (p : Nat × Nat) : List Nat :=
  (((sector N p.1).flatMap fun l => (sector N p.2).map fun r => l * 2 ^ N + r).filter
    fun s => !(dbl = false ∧ (splitState w N s).1 &&& (splitState w N s).2 ≠ 0)).reverse

theorem mem_spinfulList (w N : Nat) (dbl : Bool) (p : Nat × Nat) (hN : N ≤ w) (s : Nat) :
    s ∈ spinfulList w N dbl p ↔ InSector N dbl p s := by
  unfold spinfulList InSector
  rw [List.mem_reverse, List.mem_filter, mem_product]
  simp only [ne_eq, Bool.not_eq_true', decide_eq_false_iff_not]
  rw [← ne_eq, doubly_iff w N s hN]
  constructor
  · rintro ⟨⟨h1, h2, h3⟩, h4⟩
    exact ⟨h1, h2, h3, fun hd i hi h => h4 ⟨hd, i, hi, h⟩⟩
  · rintro ⟨h1, h2, h3, h4⟩
    exact ⟨⟨h1, h2, h3⟩, fun ⟨hd, i, hi, h⟩ => h4 hd i hi h⟩

theorem spinfulPcon_eq (w N : Nat) (dbl : Bool) (mem : Nat) (p : Nat × Nat) (h8 : 8 ∣ w) (h2 : 2 * N ≤ w)
    (h0 : 0 < N) (hd : p.2 < 256) (hmem : N.choose p.1 * N.choose p.2 ≤ mem) :
    spinfulPcon w N dbl mem p = .ok ((spinfulList w N dbl p).map fun s => (s, 1)) := by
  unfold spinfulPcon makeBasisPcon
  rw [if_neg (by omega), makeBasisPconSequential_eq, visit_spinful w N p.1 p.2 h8 h2 h0 hd, if_neg]
  · rw [kept_spinful, spinfulList, List.map_reverse]
  · rintro ⟨h3, h4⟩
    rw [kept_spinful, List.length_map] at h4
    have h5 := List.length_filter_le (fun s => !(decide (dbl = false ∧ (splitState w N s).1 &&& (splitState w N s).2 ≠ 0)))
      (((sector N p.1).flatMap fun l => (sector N p.2).map fun r => l * 2 ^ N + r).dropLast)
    rw [List.length_dropLast, List.length_flatMap] at h5
    simp only [List.length_map, sector_length, List.map_const', List.sum_replicate_nat] at h5
    omega

theorem spinfulList_length (w N : Nat) (dbl : Bool) (p : Nat × Nat) :
    (spinfulList w N dbl p).length ≤ N.choose p.1 * N.choose p.2 := by
  unfold spinfulList
  rw [List.length_reverse]
  refine (List.length_filter_le _ _).trans ?_
  rw [List.length_flatMap]
  simp [sector_length]

theorem spinfulSectors_eq (w N : Nat) (dbl : Bool) (h8 : 8 ∣ w) (h2 : 2 * N ≤ w) (h0 : 0 < N) :
    ∀ (ps : List (Nat × Nat)) (mem : Nat) (acc : List (Nat × Int)), (∀ p ∈ ps, p.2 < 256) →
    acc.length + (ps.map fun p => N.choose p.1 * N.choose p.2).sum ≤ mem →
    spinfulSectors w N dbl mem ps acc
      = .ok (acc ++ (ps.map fun p => (spinfulList w N dbl p).map fun s => (s, (1 : Int))).flatten) := by
  intro ps
  induction ps with
  | nil => intro mem acc _ _; simp [spinfulSectors]
  | cons p ps ih =>
    intro mem acc hp h
    rw [List.map_cons, List.sum_cons] at h
    have hl := spinfulList_length w N dbl p
    rw [spinfulSectors, spinfulPcon_eq w N dbl _ p h8 h2 h0 (hp p (by simp)) (by omega)]
    simp only [List.length_map]
    rw [if_neg (by omega), ih _ _ fun q hq => hp q (by simp [hq])]
    · simp
    · simp only [List.length_append, List.length_map]; omega

theorem width_mul8 (n w : Nat) (h : widthFor n = some w) : 8 ∣ w := by
  unfold widthFor at h
  repeat' split at h
  all_goals first
    | (injection h with h; subst h; decide)
    | simp at h

/-- A basis with the pairs `Nf` of particle numbers: exactly the configurations of these sectors, each
once, in decreasing order; fewer than 256 down particles.  Missing for the full claim: 256 and more
down particles, where it is false (`C04_wrong_from_256_particles`). -/
theorem C04_complete_partial (sort : List (Nat × Int) → List (Nat × Int)) (hs : SortsDescending sort) (N : Nat)
    (h0 : 0 < N) (hN : N ≤ 8192) (dbl : Bool) (Nf : List (Nat × Nat)) (hnd : Nf.Nodup)
    (hle : ∀ p ∈ Nf, p.1 ≤ N ∧ p.2 ≤ N) (hd : ∀ p ∈ Nf, p.2 < 256) :
    ∃ basis, spinfulBasis sort N dbl false Nf = .ok basis ∧
      (∀ s, s ∈ basis ↔ ∃ p ∈ Nf, InSector N dbl p s) ∧ basis.Pairwise (· > ·) := by
  obtain ⟨w, hw⟩ : ∃ w, widthFor (2 * N) = some w := by
    unfold widthFor; repeat' split
    all_goals first
      | exact ⟨_, rfl⟩
      | omega
  have h2 := widthFor_ge _ _ hw
  obtain ⟨L, hL⟩ : ∃ L, L = (Nf.map fun p => (spinfulList w N dbl p).map fun s => (s, (1 : Int))).flatten := ⟨_, rfl⟩
  have hfst : L.map Prod.fst = (Nf.map fun p => spinfulList w N dbl p).flatten := by
    rw [hL, List.map_flatten, List.map_map]
    congr 1
    apply List.map_congr_left
    intro p _
    simp [Function.comp_def]
  have hmemL : ∀ s, s ∈ L.map Prod.fst ↔ ∃ p ∈ Nf, InSector N dbl p s := by
    intro s
    rw [hfst]
    simp only [List.mem_flatten, List.mem_map]
    constructor
    · rintro ⟨_, ⟨p, hp, rfl⟩, h⟩
      exact ⟨p, hp, (mem_spinfulList w N dbl p (by omega) s).1 h⟩
    · rintro ⟨p, hp, h⟩
      exact ⟨_, ⟨p, hp, rfl⟩, (mem_spinfulList w N dbl p (by omega) s).2 h⟩
  have hndL : (L.map Prod.fst).Nodup := by
    rw [hfst, List.nodup_flatten]
    constructor
    · intro l hl
      simp only [List.mem_map] at hl
      obtain ⟨p, _, rfl⟩ := hl
      unfold spinfulList
      rw [List.nodup_reverse]
      exact ((product_increasing N p.1 p.2).filter _).imp (fun h => Nat.ne_of_lt h)
    · rw [List.pairwise_map]
      refine hnd.imp ?_
      intro a b hab x hxa hxb
      rw [mem_spinfulList w N dbl _ (by omega)] at hxa hxb
      exact hab (Prod.ext (hxa.2.1.symm.trans hxb.2.1) (hxa.2.2.1.symm.trans hxb.2.2.1))
  obtain ⟨hperm, hsorted⟩ := hs L
  refine ⟨(sort L).map Prod.fst, ?_, ?_, ?_⟩
  · unfold spinfulBasis
    rw [if_neg, hw]
    · simp only
      rw [spinfulSectors_eq w N dbl (width_mul8 _ _ hw) h2 h0 Nf _ [] hd (by
        simp only [List.length_nil, Nat.zero_add]; exact Nat.le_max_left _ _)]
      simp [hL]
    · rintro ⟨_, h⟩
      rw [List.any_eq_true] at h
      obtain ⟨p, hp, h⟩ := h
      have := hle p hp
      simp at h
      omega
  · intro s; rw [← hmemL, (hperm.map Prod.fst).mem_iff]
  · have h1 : ((sort L).map Prod.fst).Nodup := (hperm.map _).nodup_iff.2 hndL
    have h3 : ((sort L).map Prod.fst).Pairwise (fun a b => b ≤ a) := by
      rw [List.pairwise_map]; exact hsorted
    exact h3.imp₂ (fun a b h h' => Nat.lt_of_le_of_ne h (Ne.symm h')) h1

/-- The number of states of one sector when double occupancy is allowed.
Missing: 256 and more down particles, where it is false (`C04_wrong_from_256_particles`). -/
theorem C04_dimension_partial (sort : List (Nat × Int) → List (Nat × Int)) (hs : SortsDescending sort) (N : Nat)
    (h0 : 0 < N) (hN : N ≤ 8192) (u d : Nat) (hd : d < 256) :
    ∃ basis, spinfulBasis sort N true true [(u, d)] = .ok basis ∧ basis.length = N.choose u * N.choose d := by
  obtain ⟨w, hw⟩ : ∃ w, widthFor (2 * N) = some w := by
    unfold widthFor; repeat' split
    all_goals first
      | exact ⟨_, rfl⟩
      | omega
  unfold spinfulBasis
  rw [if_neg (by simp), hw]
  simp only
  rw [spinfulSectors_eq w N true (width_mul8 _ _ hw) (widthFor_ge _ _ hw) h0 _ _ [] (by simpa using hd) (by
    simp only [List.length_nil, Nat.zero_add]; exact Nat.le_max_left _ _)]
  refine ⟨_, rfl, ?_⟩
  rw [List.length_map, (hs _).1.length_eq]
  simp only [List.nil_append, List.map_cons, List.map_nil, List.flatten_cons, List.flatten_nil, List.append_nil,
    List.length_map]
  unfold spinfulList
  simp [List.length_flatMap, sector_length]

/-- With 256 down particles the step after the first state loses all but one of them: 256 sites, one up
particle. -/
theorem C04_wrong_from_256_particles :
    let s0 := spinfulS0 256 (1, 256)
    count 256 (s0 % 2 ^ 256) = 256 ∧ spinfulNext 1024 256 s0 % 2 ^ 256 = 1 := by
  decide +kernel

example : spinfulBasis sortDesc 3 true false [(1, 2)] = .ok [38, 37, 35, 22, 21, 19, 14, 13, 11] := by decide +kernel
example : spinfulBasis sortDesc 3 false false [(1, 2)] = .ok [35, 21, 14] := by decide +kernel

end Props
