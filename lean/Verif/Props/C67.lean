import Verif.Proof.ChainPlain
/-!
C67: a one-dimensional basis without symmetry blocks lists every configuration with one of the requested particle numbers
exactly once, in decreasing order, and nothing else.

`junk` is the content of uninitialised memory, `wide` the width that stands for Python's unbounded integers.
-/
namespace Props
open Spec Model Model.Chain Proof.Chain Proof.HcbBasis Proof.Gosper

theorem sum_toNat_ge {α : Type} (f : α → Int) (g : α → ℕ) (l : List α) (h : ∀ a ∈ l, f a = g a) :
    (l.map f).sum.toNat = (l.map g).sum := by
  have : (l.map f).sum = ((l.map g).sum : ℕ) := by
    induction l with
    | nil => rfl
    | cons a l ih =>
      simp only [List.map_cons, List.sum_cons]
      rw [ih fun b hb => h b (by simp [hb]), h a (by simp)]
      push_cast; rfl
  rw [this]; rfl

theorem length_flatten_map {α : Type} (f : α → List ℕ) (g : α → ℕ) (l : List α) (h : ∀ a ∈ l, (f a).length ≤ g a) :
    (l.map f).flatten.length ≤ (l.map g).sum := by
  induction l with
  | nil => simp
  | cons a l ih =>
    simp only [List.map_cons, List.flatten_cons, List.length_append, List.sum_cons]
    have := h a (by simp)
    have := ih fun b hb => h b (by simp [hb])
    omega

/-- Spins 1/2, hard-core bosons, spinless fermions: the particle numbers `ks`, each at most the number of sites. -/
theorem C67_two_level (sort : List ℕ → List ℕ) (hs : SortsStates sort) (junk : ℕ → ℕ) (L wide : ℕ) (h0 : 0 < L) (hw : L ≤ wide)
    (ks : List ℕ) (hnd : ks.Nodup) (hne : ks ≠ []) (hle : ∀ k ∈ ks, k ≤ L) :
    ∃ t basis, basisType L 2 (some ks) = some t ∧
      plainBasis sort junk (ks.map fun k => hDim k L 1).sum.toNat (ks.map (sectorHcp (widthOf t wide) L)) = some basis ∧
      (∀ s, s ∈ basis ↔ s < 2 ^ L ∧ count L s ∈ ks) ∧ basis.Pairwise (· > ·) := by
  obtain ⟨t, ht⟩ : ∃ t, basisType L 2 (some ks) = some t := by
    cases ks with
    | nil => exact absurd rfl hne
    | cons k ks => exact ⟨_, rfl⟩
  have e : ks.map (sectorHcp (widthOf t wide) L) = ks.map (sector L) :=
    List.map_congr_left fun k hk => hcp_sector_eq L ks hle wide hw t ht k hk
  obtain ⟨basis, h1, h2, h3⟩ := plain_ok sort hs junk (ks.map fun k => hDim k L 1).sum.toNat (ks.map (sector L)) (by
      rw [sum_toNat_ge _ (fun k => L.choose k) ks fun k _ => hDim_two L k h0]
      exact length_flatten_map _ _ _ fun k _ => (sector_length L k).le)
    (by
      intro l hl
      obtain ⟨k, _, rfl⟩ := List.mem_map.1 hl
      exact sector_increasing L k)
    (by
      rw [List.pairwise_map]
      refine hnd.imp ?_
      intro a b hab x ha hb
      exact hab ((count_lt_iff_sector.1 ha).2.symm.trans (count_lt_iff_sector.1 hb).2))
    (by
      intro _ hn
      obtain ⟨k, hk⟩ := List.exists_mem_of_ne_nil ks hne
      have := List.flatten_eq_nil_iff.1 hn _ (List.mem_map_of_mem hk)
      have hl := congrArg List.length this
      rw [sector_length] at hl
      exact absurd hl (Nat.choose_pos (hle k hk)).ne')
  refine ⟨t, basis, ht, by rw [e]; exact h1, fun s => ?_, h3⟩
  rw [h2]
  constructor
  · rintro ⟨l, hl, hsl⟩
    obtain ⟨k, hk, rfl⟩ := List.mem_map.1 hl
    obtain ⟨h4, h5⟩ := count_lt_iff_sector.1 hsl
    exact ⟨h4, by rw [h5]; exact hk⟩
  · rintro ⟨h4, h5⟩
    exact ⟨_, List.mem_map_of_mem h5, count_lt_iff_sector.2 ⟨h4, rfl⟩⟩

/-- Bosons and higher spins with `3 ≤ sps ≤ 256` levels: the numbers `ks` of quanta. -/
theorem C67_multi_level (sort : List ℕ → List ℕ) (hs : SortsStates sort) (junk : ℕ → ℕ) (L wide sps : ℕ) (h0 : 0 < L)
    (hb : 2 < sps) (hb' : sps ≤ 256) (hw : sps ^ (L + 1) ≤ 2 ^ wide) (ks : List ℕ) (hnd : ks.Nodup) (hne : ks ≠ [])
    (hle : ∀ k ∈ ks, k ≤ L * (sps - 1)) :
    ∃ t basis, basisType L sps (some ks) = some t ∧
      plainBasis sort junk (ks.map fun k => hDim k L (sps - 1)).sum.toNat (ks.map (sectorBoson (widthOf t wide) sps L)) = some basis ∧
      (∀ s, s ∈ basis ↔ s < sps ^ L ∧ ((List.range L).map (occ sps L s)).sum ∈ ks) ∧ basis.Pairwise (· > ·) := by
  obtain ⟨t, ht⟩ : ∃ t, basisType L sps (some ks) = some t := by
    cases ks with
    | nil => exact absurd rfl hne
    | cons k ks => exact ⟨_, rfl⟩
  have hpow : sps ^ L ≤ 2 ^ wide ∧ sps ^ L + sps ≤ 2 ^ wide := by
    rw [Nat.pow_succ] at hw
    have h1 : sps ^ 1 ≤ sps ^ L := Nat.pow_le_pow_right (by omega) h0
    have h2 : sps ^ L * 3 ≤ sps ^ L * sps := Nat.mul_le_mul_left _ (by omega)
    rw [Nat.pow_one] at h1
    omega
  have e : ks.map (sectorBoson (widthOf t wide) sps L) = ks.map (sectorB sps L) := by
    apply List.map_congr_left
    intro k hk
    have key : (∀ x, x < sps ^ L → dsum sps L x ≤ k → x < 2 ^ widthOf t wide) ∧ Proof.Digits.topfill sps L k < 2 ^ widthOf t wide := by
      cases ks with
      | nil => simp at hk
      | cons a ks =>
        simp only [basisType, Option.some.injEq] at ht
        have hm : k ≤ ks.foldl max a := by
          rcases List.mem_cons.1 hk with rfl | h
          · exact (foldl_max_le ks k).1
          · exact (foldl_max_le ks a).2 k h
        have hmL : ks.foldl max a ≤ L * (sps - 1) := by
          rcases foldl_max_mem ks a with h | h
          · rw [h]; exact hle a (by simp)
          · exact hle _ (by simp [h])
        rw [Proof.Boson.smax_eq sps L _ hb hmL] at ht
        have hall : ∀ x, x < sps ^ L → dsum sps L x ≤ k → x < 2 ^ widthOf t wide := by
          intro x hx hd
          cases t with
          | none => exact Nat.lt_of_lt_of_le hx hpow.1
          | some w =>
            have := Proof.Digits.le_topfill sps L x (ks.foldl max a) (by omega) hx (by omega)
            exact Nat.lt_of_le_of_lt this (typeFor_spec ht).1
        exact ⟨hall, hall _ (Proof.Boson.topfill_lt sps L k hb) (topfill_dsum sps hb L k (hle k hk)).le⟩
    refine boson_sector_eq _ sps L k h0 hb (hle k hk) key.2 key.1 ?_
    intro h1 h2
    cases t with
    | none =>
      have := Proof.Boson.topfill_lt sps L k hb
      have h3 : k % (sps - 1) < sps - 1 := Nat.mod_lt _ (by omega)
      show _ < 2 ^ wide
      omega
    | some w =>
      refine Proof.Boson.room w sps L k ?_ hb hb' key.2 h1 h2
      cases ks with
      | nil => simp at hk
      | cons a ks =>
        simp only [basisType, Option.some.injEq] at ht
        rcases (typeFor_spec ht).2 with rfl | rfl <;> decide
  have hmem : ∀ k s, s ∈ sectorB sps L k ↔ s < sps ^ L ∧ ((List.range L).map (occ sps L s)).sum = k := by
    intro k s
    rw [← dsum_is_total_occupation]
    simp [sectorB]
  obtain ⟨n, rfl⟩ : ∃ n, L = n + 1 := ⟨L - 1, by omega⟩
  obtain ⟨basis, h1, h2, h3⟩ := plain_ok sort hs junk (ks.map fun k => hDim k (n + 1) (sps - 1)).sum.toNat (ks.map (sectorB sps (n + 1))) (by
      rw [sum_toNat_ge _ (fun k => (sectorB sps (n + 1) k).length) ks fun k _ => Proof.HDim.hDim_eq sps n k (by omega)]
      exact length_flatten_map _ _ _ fun k _ => Nat.le_refl _)
    (by
      intro l hl
      obtain ⟨k, _, rfl⟩ := List.mem_map.1 hl
      exact List.Pairwise.filter _ List.pairwise_lt_range)
    (by
      rw [List.pairwise_map]
      refine hnd.imp ?_
      intro a b hab x ha hb
      exact hab (((hmem _ x).1 ha).2.symm.trans ((hmem _ x).1 hb).2))
    (by
      intro _ hn
      obtain ⟨k, hk⟩ := List.exists_mem_of_ne_nil ks hne
      have := List.flatten_eq_nil_iff.1 hn _ (List.mem_map_of_mem hk)
      have h4 : Proof.Digits.topfill sps (n + 1) k ∈ sectorB sps (n + 1) k := by
        unfold sectorB
        rw [List.mem_filter, List.mem_range]
        exact ⟨Proof.Boson.topfill_lt sps (n + 1) k hb, by simpa using topfill_dsum sps hb (n + 1) k (hle k hk)⟩
      rw [this] at h4
      simp at h4)
  refine ⟨t, basis, ht, by rw [e]; exact h1, fun s => ?_, h3⟩
  rw [h2]
  constructor
  · rintro ⟨l, hl, hsl⟩
    obtain ⟨k, hk, rfl⟩ := List.mem_map.1 hl
    obtain ⟨h4, h5⟩ := (hmem k s).1 hsl
    exact ⟨h4, by rw [h5]; exact hk⟩
  · rintro ⟨h4, h5⟩
    exact ⟨_, List.mem_map_of_mem h5, (hmem _ s).2 ⟨h4, rfl⟩⟩

/-- Without particle numbers: all configurations of `L` sites with `sps` levels. -/
theorem C67_all (sort : List ℕ → List ℕ) (junk : ℕ → ℕ) (L wide sps : ℕ) (hb : 0 < sps) (hw : sps ^ L ≤ 2 ^ wide) :
    ∃ t, basisType L sps none = some t ∧
      plainBasis sort junk (sps ^ L) [visited (inc1 (widthOf t wide)) (sps ^ L) 0] = some (List.range (sps ^ L)).reverse := by
  refine ⟨_, rfl, ?_⟩
  have hp : 0 < sps ^ L := Nat.pow_pos hb
  rw [visited_full]
  · unfold plainBasis
    simp only [List.flatten_cons, List.flatten_nil, List.append_nil, List.length_range, List.length_singleton, Nat.lt_irrefl, if_false, if_true]
    rw [if_neg (by omega)]
  · cases ht : typeFor (bosonSMax L sps none) with
    | none => exact hw
    | some w =>
      have := (typeFor_spec ht).1
      change sps ^ L - 1 < 2 ^ w at this
      show sps ^ L ≤ 2 ^ w
      omega

/-- Fermions with spin: the pairs `ps` of particle numbers, with or without doubly occupied sites.  Missing for the full claim:
a single pair that allows no configuration (`C67_fails_empty`). -/
theorem C67_spinful_partial (sort : List ℕ → List ℕ) (hs : SortsStates sort) (junk : ℕ → ℕ) (L wide : ℕ) (h0 : 0 < L)
    (hw : 2 * L ≤ wide) (dbl : Bool) (ps : List (ℕ × ℕ)) (hnd : ps.Nodup) (hne : ps ≠ []) (hle : ∀ p ∈ ps, p.1 ≤ L ∧ p.2 ≤ L)
    (hsome : ps.length = 1 → ∃ p ∈ ps, ∃ s, InSector L dbl p s) :
    ∃ t basis, basisTypeSpf L (some ps) = some t ∧
      plainBasis sort junk (ps.map fun p => hDim p.1 L 1 * hDim p.2 L 1).sum.toNat (ps.map (sectorSpf (widthOf t wide) L dbl)) = some basis ∧
      (∀ s, s ∈ basis ↔ ∃ p ∈ ps, InSector L dbl p s) ∧ basis.Pairwise (· > ·) := by
  obtain ⟨t, ht⟩ : ∃ t, basisTypeSpf L (some ps) = some t := by
    cases ps with
    | nil => exact absurd rfl hne
    | cons k ks => exact ⟨_, rfl⟩
  have hspec : ∀ p ∈ ps, (sectorSpf (widthOf t wide) L dbl p).Pairwise (· < ·) ∧
      (sectorSpf (widthOf t wide) L dbl p).length ≤ L.choose p.1 * L.choose p.2 ∧
      ∀ s, s ∈ sectorSpf (widthOf t wide) L dbl p ↔ InSector L dbl p s := by
    intro p hp
    by_cases hz : p.1 = 0 ∧ p.2 = 0
    · exact spf_empty (widthOf t wide) L dbl p hz
    refine spf_sector_mem _ L dbl p ?_ (hle p hp).2
    cases ps with
    | nil => simp at hp
    | cons q ps =>
      simp only [basisTypeSpf, Option.some.injEq] at ht
      subst ht
      have m1 : p.1 ≤ (ps.map (·.1)).foldl max q.1 := by
        rcases List.mem_cons.1 hp with rfl | h
        · exact (foldl_max_le _ _).1
        · exact (foldl_max_le _ _).2 _ (List.mem_map_of_mem h)
      have m2 : p.2 ≤ (ps.map (·.2)).foldl max q.2 := by
        rcases List.mem_cons.1 hp with rfl | h
        · exact (foldl_max_le _ _).1
        · exact (foldl_max_le _ _).2 _ (List.mem_map_of_mem h)
      have n1 : (ps.map (·.1)).foldl max q.1 ≤ L := by
        rcases foldl_max_mem (ps.map (·.1)) q.1 with h | h
        · rw [h]; exact (hle q (by simp)).1
        · obtain ⟨r, hr, e⟩ := List.mem_map.1 h
          rw [← e]; exact (hle r (by simp [hr])).1
      have n2 : (ps.map (·.2)).foldl max q.2 ≤ L := by
        rcases foldl_max_mem (ps.map (·.2)) q.2 with h | h
        · rw [h]; exact (hle q (by simp)).2
        · obtain ⟨r, hr, e⟩ := List.mem_map.1 h
          rw [← e]; exact (hle r (by simp [hr])).2
      rw [smax_two L _ n1, smax_two L _ n2, Nat.shiftLeft_eq]
      generalize (ps.map (·.1)).foldl max q.1 = a at *
      generalize (ps.map (·.2)).foldl max q.2 = b at *
      by_cases ha : a = 0
      · right
        refine ⟨by omega, ?_⟩
        apply typeFor_width _ h0 (by omega)
        have := top_ge L b (by omega) n2
        omega
      · left
        apply typeFor_width _ (by omega) hw
        have := top_ge L a (by omega) n1
        have h2 := Nat.mul_le_mul_right (2 ^ L) this
        rw [← Nat.pow_add, show L - 1 + L = 2 * L - 1 by omega] at h2
        omega
  obtain ⟨basis, h1, h2, h3⟩ := plain_ok sort hs junk (ps.map fun p => hDim p.1 L 1 * hDim p.2 L 1).sum.toNat
    (ps.map (sectorSpf (widthOf t wide) L dbl)) (by
      rw [sum_toNat_ge _ (fun p => L.choose p.1 * L.choose p.2) ps fun p _ => by
        rw [hDim_two L _ h0, hDim_two L _ h0]; push_cast; rfl]
      exact length_flatten_map _ _ _ fun p hp => (hspec p hp).2.1)
    (by
      intro l hl
      obtain ⟨p, hp, rfl⟩ := List.mem_map.1 hl
      exact (hspec p hp).1)
    (by
      rw [List.pairwise_map]
      refine hnd.imp_of_mem ?_
      intro a b ha hb hab x hxa hxb
      rw [(hspec a ha).2.2] at hxa
      rw [(hspec b hb).2.2] at hxb
      exact hab (Prod.ext (hxa.2.1.symm.trans hxb.2.1) (hxa.2.2.1.symm.trans hxb.2.2.1)))
    (by
      intro hl hn
      rw [List.length_map] at hl
      obtain ⟨p, hp, s, hps⟩ := hsome hl
      have := List.flatten_eq_nil_iff.1 hn _ (List.mem_map_of_mem hp)
      rw [← (hspec p hp).2.2, this] at hps
      simp at hps)
  refine ⟨t, basis, ht, h1, fun s => ?_, h3⟩
  rw [h2]
  constructor
  · rintro ⟨l, hl, hsl⟩
    obtain ⟨p, hp, rfl⟩ := List.mem_map.1 hl
    exact ⟨p, hp, ((hspec p hp).2.2 s).1 hsl⟩
  · rintro ⟨p, hp, h⟩
    exact ⟨_, List.mem_map_of_mem hp, ((hspec p hp).2.2 s).2 h⟩

/-- Fermions with spin without particle numbers, for at most 16 or more than 64 sites.  Missing: from 17 to 64 sites the chosen
integer type is too narrow (`C67_fails_width`). -/
theorem C67_spinful_all_partial (sort : List ℕ → List ℕ) (junk : ℕ → ℕ) (L wide : ℕ) (hL : L ≤ 16 ∨ 64 < L) (hw : 2 * L ≤ wide) (dbl : Bool) :
    ∃ t basis, basisTypeSpf L none = some t ∧
      plainBasis sort junk (2 ^ (2 * L)) [(visited (inc1 (widthOf t wide)) (2 ^ (2 * L)) 0).filter (spfAllowed L dbl)] = some basis ∧
      (∀ s, s ∈ basis ↔ s < 2 ^ (2 * L) ∧ (dbl = false → ∀ i < L, ¬ ((s / 2 ^ L).testBit i = true ∧ (s % 2 ^ L).testBit i = true))) ∧
      basis.Pairwise (· > ·) := by
  obtain ⟨w, hw1, hw2⟩ : ∃ w, widthOf (typeFor (2 ^ L - 1)) wide = w ∧ 2 * L ≤ w := by
    refine ⟨_, rfl, ?_⟩
    rcases hL with h | h
    · have h1 : 2 ^ L ≤ 2 ^ 16 := Nat.pow_le_pow_right (by omega) h
      unfold typeFor
      rw [if_pos (by omega)]
      show 2 * L ≤ 32
      omega
    · have h1 : 2 ^ 65 ≤ 2 ^ L := Nat.pow_le_pow_right (by omega) h
      unfold typeFor
      rw [if_neg (by omega), if_neg (by omega)]
      exact hw
  have hvis : (visited (inc1 w) (2 ^ (2 * L)) 0) = List.range (2 ^ (2 * L)) := visited_full w _ (Nat.pow_le_pow_right (by omega) hw2)
  have hmem : ∀ s, s ∈ (List.range (2 ^ (2 * L))).filter (spfAllowed L dbl) ↔ s < 2 ^ (2 * L) ∧
      (dbl = false → ∀ i < L, ¬ ((s / 2 ^ L).testBit i = true ∧ (s % 2 ^ L).testBit i = true)) := by
    intro s
    rw [List.mem_filter, List.mem_range, spf_allowed w L (by omega)]
    simp only [ne_eq, Bool.not_eq_true', decide_eq_false_iff_not]
    rw [← ne_eq, doubly_iff w L s (by omega)]
    constructor
    · rintro ⟨h1, h4⟩
      exact ⟨h1, fun hd i hi h => h4 ⟨hd, i, hi, h⟩⟩
    · rintro ⟨h1, h4⟩
      exact ⟨h1, fun ⟨hd, i, hi, h⟩ => h4 hd i hi h⟩
  refine ⟨_, ((List.range (2 ^ (2 * L))).filter (spfAllowed L dbl)).reverse, rfl, ?_, ?_, ?_⟩
  · rw [hw1, hvis]
    unfold plainBasis
    have hlen : ((List.range (2 ^ (2 * L))).filter (spfAllowed L dbl)).length ≤ 2 ^ (2 * L) :=
      (List.length_filter_le _ _).trans (by rw [List.length_range])
    have hne : ((List.range (2 ^ (2 * L))).filter (spfAllowed L dbl)).length ≠ 0 := by
      rw [Ne, List.length_eq_zero_iff]
      apply List.ne_nil_of_mem (a := 0)
      rw [hmem]
      exact ⟨Nat.two_pow_pos _, fun _ i _ h => by simp at h⟩
    simp only [List.flatten_cons, List.flatten_nil, List.append_nil, List.length_singleton, if_true]
    rw [if_neg (by omega), if_neg hne]
  · intro s
    rw [List.mem_reverse, hmem]
  · rw [List.pairwise_reverse]
    exact List.pairwise_lt_range.filter _

/-! ### where it fails -/

/-- A basis of two sites with two particles of either spin and without doubly occupied sites has no configurations, but the
array of states is uninitialised memory. -/
theorem C67_fails_empty (sort : List ℕ → List ℕ) (junk : ℕ → ℕ) :
    (¬ ∃ s, InSector 2 false (2, 2) s) ∧ basisTypeSpf 2 (some [(2, 2)]) = some (some 32) ∧
    plainBasis sort junk (([(2, 2)] : List (ℕ × ℕ)).map fun p => hDim p.1 2 1 * hDim p.2 2 1).sum.toNat
      (([(2, 2)] : List (ℕ × ℕ)).map (sectorSpf 32 2 false)) = some [junk 0] := by
  refine ⟨?_, by decide +kernel, ?_⟩
  · rintro ⟨s, h1, h2, h3, h4⟩
    have : ∀ s < 2 ^ (2 * 2), ¬ (count 2 (s / 2 ^ 2) = 2 ∧ count 2 (s % 2 ^ 2) = 2 ∧ ∀ i < 2, ¬ ((s / 2 ^ 2).testBit i = true ∧ (s % 2 ^ 2).testBit i = true)) := by
      decide
    exact this s h1 ⟨h2, h3, h4 rfl⟩
  · have e1 : (([(2, 2)] : List (ℕ × ℕ)).map fun p => hDim p.1 2 1 * hDim p.2 2 1).sum.toNat = 1 := by decide +kernel
    have e2 : ([(2, 2)] : List (ℕ × ℕ)).map (sectorSpf 32 2 false) = [[]] := by decide +kernel
    rw [e1, e2]
    rfl

/-- Fermions with spin on 17 to 64 sites, without particle numbers: the integer type has fewer than `2L` bits, and the
configurations found repeat themselves. -/
theorem C67_fails_width (L : ℕ) (h1 : 17 ≤ L) (h2 : L ≤ 64) :
    ∃ w, basisTypeSpf L none = some (some w) ∧ w < 2 * L ∧ ¬ (visited (inc1 w) (2 ^ (2 * L)) 0).Nodup := by
  have key : ∀ w, w < 2 * L → ¬ (visited (inc1 w) (2 ^ (2 * L)) 0).Nodup := by
    intro w hw hnd
    rw [visited_wrap w _ 0 (Nat.two_pow_pos w)] at hnd
    have hlt : 2 ^ w < 2 ^ (2 * L) := Nat.pow_lt_pow_right (by omega) hw
    have hl : ((List.range (2 ^ (2 * L))).map fun (i : ℕ) => (0 + i) % 2 ^ w).length = 2 ^ (2 * L) := by simp
    have := (List.Nodup.getElem_inj_iff hnd (i := 0) (hi := by rw [hl]; exact Nat.two_pow_pos _) (j := 2 ^ w) (hj := by rw [hl]; exact hlt)).1 (by simp)
    have := Nat.two_pow_pos w
    omega
  by_cases h : L ≤ 32
  · have hp : 2 ^ L ≤ 2 ^ 32 := Nat.pow_le_pow_right (by omega) h
    have hp0 := Nat.two_pow_pos L
    refine ⟨32, ?_, by omega, key 32 (by omega)⟩
    show some (typeFor (2 ^ L - 1)) = _
    unfold typeFor
    rw [if_pos (by omega)]
  · have hp : 2 ^ L ≤ 2 ^ 64 := Nat.pow_le_pow_right (by omega) h2
    have hp1 : 2 ^ 33 ≤ 2 ^ L := Nat.pow_le_pow_right (by omega) (by omega)
    refine ⟨64, ?_, by omega, key 64 (by omega)⟩
    show some (typeFor (2 ^ L - 1)) = _
    unfold typeFor
    rw [if_neg (by omega), if_pos (by omega)]

/-- Repeated particle numbers give repeated configurations. -/
theorem C67_fails_repeated : plainBasis (fun l => l.insertionSort (· ≥ ·)) (fun _ => 0) 4 ([1, 1].map (sectorHcp 32 2)) = some [2, 2, 1, 1] := by
  decide +kernel

/-! ### the hypotheses are met -/

theorem insertion_sorts : SortsStates fun l => l.insertionSort (· ≥ ·) := by
  intro l
  refine ⟨List.perm_insertionSort _ l, ?_⟩
  exact List.pairwise_insertionSort (· ≥ ·) l

example : plainBasis (fun l => l.insertionSort (· ≥ ·)) (fun _ => 0) 8 ([1, 3].map (sectorHcp 32 4)) = some [14, 13, 11, 8, 7, 4, 2, 1] := by
  decide +kernel
example : plainBasis id (fun _ => 0) 6 [sectorBoson 32 3 3 4] = some [24, 22, 20, 16, 14, 8] := by decide +kernel
example : basisTypeSpf 3 (some [(1, 2)]) = some (some 32) ∧
    plainBasis id (fun _ => 0) 9 [sectorSpf 32 3 false (1, 2)] = some [35, 21, 14] := by decide +kernel

end Props
