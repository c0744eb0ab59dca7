import Verif.Props.C85
import Mathlib.Tactic.Linarith
import Mathlib.Algebra.Order.Floor.Ring
/-!
C86: the particle sectors of a basis with symmetries are carried to themselves by the symmetries, and the sectors are the documented ones.
C87: a basis with photons and a conserved number of quanta has all states with this number.
-/
namespace Props
open Spec.Labels Model.ChainInit
open scoped BigOperators

variable {L b : ℕ}

theorem number_reflect (s : Conf L b) : number (reflect s) = number s := Equiv.sum_comp Fin.revPerm fun j => (s j : ℕ)

theorem number_translate (a : ℕ) (s : Conf L b) : number (translate a s) = number s := by
  rcases Nat.eq_zero_or_pos L with rfl | hL
  · simp [number]
  · have hinj : Function.Injective fun j : Fin L => (⟨(j + (L - a % L)) % L, Nat.mod_lt _ hL⟩ : Fin L) := by
      intro i j h
      have h' : (i + (L - a % L)) % L = (j + (L - a % L)) % L := by simpa using h
      have := Nat.ModEq.add_right_cancel' (L - a % L) h'
      exact Fin.ext (by rw [Nat.ModEq, Nat.mod_eq_of_lt i.2, Nat.mod_eq_of_lt j.2] at this; exact this)
    exact Equiv.sum_comp (Equiv.ofBijective _ (Finite.injective_iff_bijective.mp hinj)) fun j => (s j : ℕ)

theorem number_invert (s : Conf L b) : number (invert s) + number s = L * (b - 1) := by
  unfold number invert
  rw [← Finset.sum_add_distrib, Finset.sum_congr rfl (g := fun _ => b - 1)]
  · simp
  · intro j _
    rw [Fin.val_rev]
    have := (s j).2
    omega

theorem exists_number (N : ℕ) (hb : 0 < b) (h : N ≤ L * (b - 1)) : ∃ s : Conf L b, number s = N := by
  induction N with
  | zero => exact ⟨fun _ => ⟨0, hb⟩, by simp [number]⟩
  | succ N ih =>
    obtain ⟨s, hs⟩ := ih (by omega)
    obtain ⟨i, hi⟩ : ∃ i, (s i : ℕ) < b - 1 := by
      by_contra hc
      push Not at hc
      have : L * (b - 1) ≤ number s := by
        calc L * (b - 1) = ∑ _j : Fin L, (b - 1) := by simp
          _ ≤ _ := Finset.sum_le_sum fun j _ => hc j
      omega
    refine ⟨Function.update s i ⟨s i + 1, by omega⟩, ?_⟩
    unfold number at hs ⊢
    rw [Finset.sum_eq_add_sum_sdiff_singleton_of_mem (Finset.mem_univ i)] at hs ⊢
    rw [Function.update_self, Finset.sum_congr rfl (g := fun j => (s j : ℕ))]
    · simp only; omega
    · intro j hj
      rw [Function.update_of_ne (by simpa using hj)]

/-- Translations and the reflection keep every set of sectors; and for an accepted call with one sector, with the checks left on, so do all the symmetries
that are asked for.  Partial: one sector (`C86_fails_several`). -/
theorem C86_sectors_partial (N : Int) (a : Option ℕ) (r : Request) (c : Call) (h : spinInit b L (some [N]) true a r = some c) :
    (∀ t, Keeps [N] (translate (L := L) (b := b) t)) ∧ Keeps [N] (reflect (L := L) (b := b)) ∧
    (r.z ≠ none → Keeps [N] (invert (L := L) (b := b))) ∧ (r.pz ≠ none → Keeps [N] fun s : Conf L b => invert (reflect s)) ∧
    r.zA = none ∧ r.zB = none := by
  refine ⟨fun t s hs => by rwa [number_translate], fun s hs => by rwa [number_reflect], ?_⟩
  unfold spinInit at h
  simp only at h
  split_ifs at h with ht
  simp only [true_and, not_not, flipTests, Bool.and_eq_true, List.head?_cons, Bool.not_eq_true', Bool.or_eq_false_iff, Option.isSome_eq_false_iff,
    Option.isNone_iff_eq_none] at ht
  obtain ⟨⟨h1, hA, hB⟩, -⟩ := ht
  have key : r.z ≠ none ∨ r.pz ≠ none → Keeps [N] (invert (L := L) (b := b)) := by
    intro hz s hs
    rw [hA, hB] at h1
    have hc : (product none none r.z).isSome = true ∨ (product r.p r.z r.pz).isSome = true := by
      rcases hz with hz | hz
      · exact .inl (Option.isSome_iff_ne_none.mpr hz)
      · right
        obtain ⟨q, hq⟩ := Option.ne_none_iff_exists'.mp hz
        rcases hp : r.p with _ | p <;> rcases hz' : r.z with _ | z <;> simp [product, hq]
    rw [if_pos hc] at h1
    simp only [decide_eq_true_eq] at h1
    have := number_invert s
    simp only [List.mem_singleton] at hs ⊢
    omega
  exact ⟨fun hz => key (.inl hz), fun hz s hs => key (.inr hz) (reflect s) (by rwa [number_reflect]), hA, hB⟩

/-- With one sector `N`, inversion is accepted exactly if it carries the sector to itself. -/
theorem C86_exact (N : ℕ) (hN : N ≤ L * (b - 1)) (hb : 0 < b) (hL : 0 < L) (z : Int) (hz : z = 1 ∨ z = -1) :
    (spinInit b L (some [(N : Int)]) true none { z := some z }).isSome ↔ Keeps [(N : Int)] (invert (L := L) (b := b)) := by
  constructor
  · intro h
    obtain ⟨c, hc⟩ := Option.isSome_iff_exists.mp h
    exact (C86_sectors_partial (N : Int) none _ c hc).2.2.1 (by simp)
  · intro h
    obtain ⟨s, hs⟩ := exists_number (L := L) (b := b) N hb hN
    have h1 := h s (by simp [hs])
    simp only [List.mem_singleton] at h1
    have h2 := number_invert s
    have hz' : z.natAbs = 1 := by rcases hz with rfl | rfl <;> rfl
    have e1 : L * (b - 1) % 2 = 0 := by omega
    have e2 : N = L * (b - 1) / 2 := by omega
    simp only [spinInit, product, flipTests, List.head?_cons, Option.isSome_some, true_or, if_true, e1, ← e2, Option.getD_none]
    simp [base1d, unitLabel, hz', hL.ne', Nat.mod_one]

/-- Several sectors are accepted if the first one is right: the exception is created but not raised.  `spin_basis_1d(2, Nup=[1,2], zblock=1)` is made
although inversion leads out of the sectors. -/
theorem C86_fails_several :
    spinInit 2 2 (some [1, 2]) true none { z := some 1 } = some (.z 1) ∧ ¬Keeps [1, 2] (invert (L := 2) (b := 2)) := by
  refine ⟨by decide, fun h => ?_⟩
  have := h (fun _ => 1) (by decide)
  revert this
  decide

/-- `boson_basis_1d(L, Nb=Nb, cblock=1)` raises for every chain and every number of particles, also at half filling where the exchange of particles and
holes carries the sector to itself. -/
theorem C86_fails_boson (sps L : ℕ) (Nb : List Int) (z : Int) (a : Option ℕ) : bosonInit sps L (some Nb) true a { z := some z } = none := by
  simp [bosonInit]

example : Keeps [2] (invert (L := 4) (b := 2)) := fun s hs => by
  have := number_invert s
  simp only [List.mem_singleton] at hs ⊢
  omega

/-- The exchange of the spins carries the sector with as many up as down spins to itself, for any number of particles. -/
theorem exchange_keeps (N : ℕ) (s : Conf L 2 × Conf L 2) (h : (number s.1, number s.2) = (N, N)) : (number s.swap.1, number s.swap.2) = (N, N) := by
  rw [Prod.mk.injEq] at h
  rw [Prod.fst_swap, Prod.snd_swap, h.1, h.2]

/-- Yet `spinful_fermion_basis_1d(L, Nf=(N,N), sblock=1)` raises away from half filling. -/
theorem C86_fails_spinful (L N : ℕ) (h : 2 * N ≠ L) (z : Int) (a : Option ℕ) :
    spinfulInit L (some [((N : Int), (N : Int))]) true a { z := some z } = none := by
  have : L % 2 ≠ 0 ∨ ((N : Int) ≠ (L / 2 : ℕ)) := by omega
  simp only [spinfulInit, Option.isSome_none, Bool.false_eq_true, or_self, if_false, Option.isSome_some, true_or, if_true, List.head?_cons]
  simp only [ne_eq, decide_eq_true_eq]
  rw [if_pos]
  exact ⟨trivial, this⟩

/-- `Nup` from the top: `-1` is the fully polarised sector, `-2` the one below, and so on; a non-negative `Nup` is the number of raised spins. -/
theorem C86_negative (S2 L : ℕ) (Nup : Int) : (0 ≤ Nup → spinSector S2 L Nup = Nup) ∧
    (Nup < 0 → spinSector S2 L Nup = (S2 * L : ℕ) - (-Nup - 1)) := by
  constructor
  · intro h
    rw [spinSector, if_neg (by omega)]
  · intro h
    rw [spinSector, if_pos h]; omega

/-- `m` is documented as the number of raised spins per site, but counts from half filling: for spins 1/2 and an even chain `m = 1/2` gives `L` raised spins
instead of `L/2`. -/
theorem C86_fails_density (n : ℕ) : spinDensity 1 (2 * n) (1 / 2) = some ((2 * n : ℕ) : Int) := by
  have h : ((1 / 2 : ℚ) + ((1 : ℕ) : ℚ) / 2) * ((2 * n : ℕ) : ℚ) = (((2 * n : ℕ) : Int) : ℚ) := by push_cast; ring
  rw [spinDensity, if_neg (by norm_num), h, Int.floor_intCast]

/-- What `m` is: the magnetisation per site.  The number of raised spins is the largest with at most this magnetisation. -/
theorem C86_density (S2 L : ℕ) (m : ℚ) (N : Int) (h : spinDensity S2 L m = some N) :
    (N : ℚ) - (S2 : ℚ) / 2 * L ≤ m * L ∧ m * L < (N : ℚ) + 1 - (S2 : ℚ) / 2 * L ∧ 0 ≤ N ∧ N ≤ (S2 * L : ℕ) := by
  unfold spinDensity at h
  split_ifs at h with h1
  push Not at h1
  obtain rfl := Option.some.inj h
  have hL : (0 : ℚ) ≤ L := Nat.cast_nonneg L
  refine ⟨?_, ?_, ?_, ?_⟩
  · have := Int.floor_le ((m + (S2 : ℚ) / 2) * L); linarith
  · have := Int.lt_floor_add_one ((m + (S2 : ℚ) / 2) * L); linarith
  · exact Int.floor_nonneg.mpr (mul_nonneg (by linarith) hL)
  · have : ((⌊(m + (S2 : ℚ) / 2) * L⌋ : Int) : ℚ) ≤ ((S2 * L : ℕ) : Int) := by
      refine (Int.floor_le _).trans ?_
      push_cast
      exact mul_le_mul_of_nonneg_right (by linarith) hL
    exact_mod_cast this

/-! ### C87 -/

/-- A spin-1/2 chain with photons: every number of raised spins that leaves a non-negative number of photons is present, exactly once. -/
theorem C87_spin (L Ntot N : ℕ) : (N ∈ spinUpTo L Ntot ↔ (∃ s : Conf L 2, number s = N) ∧ ∃ photons, N + photons = Ntot) ∧ (spinUpTo L Ntot).Nodup := by
  refine ⟨?_, List.nodup_range⟩
  have hle : ∀ s : Conf L 2, number s ≤ L := fun s => by have := number_invert s; omega
  unfold spinUpTo
  rw [List.mem_range]
  constructor
  · intro h
    refine ⟨exists_number N (by omega) ?_, Ntot - N, ?_⟩ <;> split_ifs at h <;> omega
  · rintro ⟨⟨s, rfl⟩, n, hn⟩
    have := hle s
    split_ifs <;> omega

/-- A chain of larger spins: the same, as long as there are not more quanta than sites.  Partial: see `C87_fails_higher_spin`. -/
theorem C87_higher_spin_partial (L Ntot N : ℕ) (hb : 2 ≤ b) (h : Ntot ≤ L) :
    N ∈ spinUpTo L Ntot ↔ (∃ s : Conf L b, number s = N) ∧ ∃ photons, N + photons = Ntot := by
  unfold spinUpTo
  rw [List.mem_range]
  constructor
  · intro hN
    refine ⟨exists_number N (by omega) ?_, Ntot - N, ?_⟩
    · have : L * 1 ≤ L * (b - 1) := Nat.mul_le_mul_left L (by omega)
      split_ifs at hN <;> omega
    · split_ifs at hN <;> omega
  · rintro ⟨-, n, hn⟩
    split_ifs <;> omega

/-- For spins larger than 1/2 the states with more raised quanta than sites are missing. -/
theorem C87_fails_higher_spin (L Ntot : ℕ) (hb : 3 ≤ b) (hL : 0 < L) (h : L < Ntot) :
    ∃ s : Conf L b, number s ≤ Ntot ∧ number s ∉ spinUpTo L Ntot := by
  obtain ⟨s, hs⟩ := exists_number (L := L) (b := b) (L + 1) (by omega) (by
    have : L * 2 ≤ L * (b - 1) := Nat.mul_le_mul_left L (by omega)
    omega)
  refine ⟨s, by omega, ?_⟩
  unfold spinUpTo
  rw [List.mem_range, hs, if_pos (by omega)]
  omega

/-- Bosons: the sector in which all quanta are particles (or all sites are full) is missing, for every chain and every number of quanta. -/
theorem C87_fails_boson (sps L Ntot : ℕ) (hs : 0 < sps) :
    ∃ s : Conf L sps, number s ≤ Ntot ∧ number s ∉ bosonUpTo sps L Ntot := by
  obtain ⟨s, h⟩ := exists_number (L := L) (b := sps) (min ((sps - 1) * L) Ntot) hs (by rw [Nat.mul_comm]; exact Nat.min_le_left _ _)
  refine ⟨s, h ▸ Nat.min_le_right _ _, ?_⟩
  unfold bosonUpTo
  rw [List.mem_range, h]
  omega

/-- All other sectors of bosons are present.
Missing: the last sector of bosons and spinless fermions, and more quanta than sites (`C87_fails_boson`, `C87_fails_spinless`, `C87_fails_spinful`). -/
theorem C87_boson_partial (sps L Ntot N : ℕ) (hs : 0 < sps) :
    N ∈ bosonUpTo sps L Ntot ↔ (∃ s : Conf L sps, number s = N) ∧ (∃ photons, N + photons = Ntot) ∧ N ≠ min ((sps - 1) * L) Ntot := by
  have hc : (sps - 1) * L = L * (sps - 1) := Nat.mul_comm _ _
  unfold bosonUpTo
  rw [List.mem_range]
  constructor
  · intro h
    exact ⟨exists_number N hs (by omega), ⟨Ntot - N, by omega⟩, by omega⟩
  · rintro ⟨⟨s, rfl⟩, ⟨n, hn⟩, h⟩
    have := number_invert s
    omega

/-- Spinless fermions: the sector in which all quanta are fermions (or all sites are full) is missing. -/
theorem C87_fails_spinless (L Ntot : ℕ) : ∃ s : Conf L 2, number s ≤ Ntot ∧ number s ∉ spinlessUpTo L Ntot := by
  obtain ⟨s, h⟩ := exists_number (L := L) (b := 2) (min L Ntot) (by omega) (by omega)
  refine ⟨s, h ▸ Nat.min_le_right _ _, ?_⟩
  unfold spinlessUpTo
  rw [List.mem_range, h]
  omega

/-- All other sectors of spinless fermions are present.
Missing: the last sector of bosons and spinless fermions, and more quanta than sites (`C87_fails_boson`, `C87_fails_spinless`, `C87_fails_spinful`). -/
theorem C87_spinless_partial (L Ntot N : ℕ) :
    N ∈ spinlessUpTo L Ntot ↔ (∃ s : Conf L 2, number s = N) ∧ (∃ photons, N + photons = Ntot) ∧ N ≠ min L Ntot := by
  unfold spinlessUpTo
  rw [List.mem_range]
  constructor
  · intro h
    exact ⟨exists_number N (by omega) (by omega), ⟨Ntot - N, by omega⟩, by omega⟩
  · rintro ⟨⟨s, rfl⟩, ⟨n, hn⟩, h⟩
    have := number_invert s
    omega

theorem mem_spinful (L Ntot : ℕ) (p : ℕ × ℕ) : p ∈ spinfulUpTo L Ntot ↔ p.1 + p.2 ≤ if Ntot + 1 > L then L else Ntot := by
  obtain ⟨u, d⟩ := p
  simp only [spinfulUpTo, List.mem_flatMap, List.mem_map, List.mem_range, Prod.mk.injEq]
  constructor
  · rintro ⟨n, h1, i, h2, rfl, rfl⟩
    omega
  · intro h
    exact ⟨u + d, by omega, d, by omega, by omega, rfl⟩

/-- Fermions with spin: every pair of numbers that leaves a non-negative number of photons is present, as long as there are not more quanta than sites.
Missing: the last sector of bosons and spinless fermions, and more quanta than sites (`C87_fails_boson`, `C87_fails_spinless`, `C87_fails_spinful`). -/
theorem C87_spinful_partial (L Ntot : ℕ) (h : Ntot ≤ L) (u d : ℕ) :
    (u, d) ∈ spinfulUpTo L Ntot ↔ (∃ s : Conf L 2 × Conf L 2, number s.1 = u ∧ number s.2 = d) ∧ ∃ photons, u + d + photons = Ntot := by
  rw [mem_spinful]
  constructor
  · intro hN
    obtain ⟨s, hs⟩ := exists_number (L := L) (b := 2) u (by omega) (by split_ifs at hN <;> omega)
    obtain ⟨t, ht⟩ := exists_number (L := L) (b := 2) d (by omega) (by split_ifs at hN <;> omega)
    exact ⟨⟨(s, t), hs, ht⟩, Ntot - (u + d), by split_ifs at hN <;> omega⟩
  · rintro ⟨-, n, hn⟩
    split_ifs <;> omega

/-- With more quanta than sites the states with more fermions than sites are missing. -/
theorem C87_fails_spinful (L Ntot : ℕ) (hL : 0 < L) (h : L < Ntot) :
    ∃ s : Conf L 2 × Conf L 2, number s.1 + number s.2 ≤ Ntot ∧ (number s.1, number s.2) ∉ spinfulUpTo L Ntot := by
  obtain ⟨s, hs⟩ := exists_number (L := L) (b := 2) L (by omega) (by omega)
  obtain ⟨t, ht⟩ := exists_number (L := L) (b := 2) 1 (by omega) (by omega)
  refine ⟨(s, t), by simp only; omega, ?_⟩
  rw [mem_spinful]
  simp only [hs, ht]
  split_ifs <;> omega

/-- The hypotheses are met. -/
example : spinUpTo 3 2 = [0, 1, 2] ∧ bosonUpTo 3 3 2 = [0, 1] ∧ spinfulUpTo 2 1 = [(0, 0), (1, 0), (0, 1)] ∧
    spinInit 3 4 (some [4]) true none { k := some 1, z := some (-1) } = some (.t_z (-1) 1) := by decide

end Props
