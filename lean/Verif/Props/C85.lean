import Verif.Model.ChainInit
/-!
C85: the constructors of the one-dimensional bases either raise or make the block with all the quantum numbers they are given.
-/
namespace Props
open Spec.Labels Model.ChainInit

variable {V : Type} [AddCommGroup V] [Module ℂ V]

/-- The labels do not repeat or contradict each other: the product of reflection and inversion is given alone or is the product of the two labels, and
inversion is not given with a sublattice, or is the product of both. -/
structure Compatible (r : Request) : Prop where
  product : ∀ q, r.pz = some q → r.p = none ∧ r.z = none ∧ r.zA = none ∧ r.zB = none ∨ ∃ p z, r.p = some p ∧ r.z = some z ∧ q = p * z
  sublattices : ∀ z, r.z = some z → r.zA = none ∧ r.zB = none ∨ ∃ x y, r.zA = some x ∧ r.zB = some y ∧ z = x * y

theorem exp_mod (n : ℕ) (hn : 0 < n) (k : Int) :
    Complex.exp (2 * Real.pi * Complex.I * ((k % (n : Int) : Int) : ℂ) / n) = Complex.exp (2 * Real.pi * Complex.I * (k : ℂ) / n) := by
  have h0 : (n : ℂ) ≠ 0 := Nat.cast_ne_zero.mpr hn.ne'
  rw [Complex.exp_eq_exp_iff_exists_int]
  refine ⟨-(k / n), ?_⟩
  have h : (k : ℂ) = (n : ℂ) * ((k / (n : Int) : Int) : ℂ) + ((k % (n : Int) : Int) : ℂ) := by exact_mod_cast (Int.mul_ediv_add_emod k n).symm
  rw [h]
  push_cast
  field_simp
  ring

theorem cos_mod (n : ℕ) (hn : 0 < n) (k : Int) :
    Real.cos (2 * Real.pi * ((k % (n : Int) : Int) : ℝ) / n) = Real.cos (2 * Real.pi * (k : ℝ) / n) := by
  have h0 : (n : ℝ) ≠ 0 := Nat.cast_ne_zero.mpr hn.ne'
  have h : (k : ℝ) = (n : ℝ) * ((k / (n : Int) : Int) : ℝ) + ((k % (n : Int) : Int) : ℝ) := by exact_mod_cast (Int.mul_ediv_add_emod k n).symm
  have : 2 * Real.pi * (k : ℝ) / n = 2 * Real.pi * ((k % (n : Int) : Int) : ℝ) / n + ((k / (n : Int) : Int) : ℝ) * (2 * Real.pi) := by
    rw [h]; field_simp; ring
  rw [this, Real.cos_add_int_mul_two_pi]

/-- The momentum counts modulo the number of unit cells. -/
theorem satisfies_mod (S : Symmetries V) (n : ℕ) (hn : 0 < n) (r : Request) (v : V) :
    Satisfies S n { r with k := r.k.map fun (k : Int) => k % (n : Int) } v ↔ Satisfies S n r v := by
  constructor
  · rintro ⟨h1, h2, h3, h4, h5, h6, h7⟩
    refine ⟨fun k hk a b => ?_, fun k hk a => ?_, h3, h4, h5, h6, h7⟩
    · rw [← exp_mod n hn]
      exact h1 _ (by simpa using ⟨k, hk, rfl⟩) a b
    · rw [← cos_mod n hn]
      exact h2 _ (by simpa using ⟨k, hk, rfl⟩) a
  · rintro ⟨h1, h2, h3, h4, h5, h6, h7⟩
    refine ⟨fun k hk a b => ?_, fun k hk a => ?_, h3, h4, h5, h6, h7⟩
    · obtain ⟨k', hk', rfl⟩ := Option.map_eq_some_iff.mp hk
      rw [exp_mod n hn]
      exact h1 _ hk' a b
    · obtain ⟨k', hk', rfl⟩ := Option.map_eq_some_iff.mp hk
      rw [cos_mod n hn]
      exact h2 _ hk' a

theorem satisfies_iff (S : Symmetries V) (n : ℕ) (r : Request) (v : V) : Satisfies S n r v ↔
    (∀ k, r.k = some k → r.p = none → r.pz = none → S.T v = Complex.exp (2 * Real.pi * Complex.I * k / n) • v) ∧
    (∀ k, r.k = some k → r.p ≠ none ∨ r.pz ≠ none → S.T v + S.Tinv v = ((2 * Real.cos (2 * Real.pi * k / n) : ℝ) : ℂ) • v) ∧
    (∀ p, r.p = some p → S.P v = (p : ℂ) • v) ∧ (∀ z, r.z = some z → S.Z v = (z : ℂ) • v) ∧ (∀ z, r.zA = some z → S.ZA v = (z : ℂ) • v) ∧
    (∀ z, r.zB = some z → S.ZB v = (z : ℂ) • v) ∧ (∀ q, r.pz = some q → S.Z (S.P v) = (q : ℂ) • v) :=
  ⟨fun h => ⟨h.k, h.kk, h.p, h.z, h.zA, h.zB, h.pz⟩, fun h => ⟨h.1, h.2.1, h.2.2.1, h.2.2.2.1, h.2.2.2.2.1, h.2.2.2.2.2.1, h.2.2.2.2.2.2⟩⟩

/-- The label of the product follows from the labels of reflection and inversion, and likewise for the sublattices. -/
theorem satisfies_products (S : Symmetries V) (hS : ∀ v, S.ZA (S.ZB v) = S.Z v) (n : ℕ) (r : Request) (h : Compatible r)
    (hp : r.p = none ∨ r.zA = none ∧ r.zB = none) (v : V) :
    Satisfies S n (dispatch { r with pz := product r.p r.z r.pz, z := product r.zA r.zB r.z }).request v ↔ Satisfies S n r v := by
  have e1 : ∀ p z : Int, S.P v = (p : ℂ) • v → S.Z v = (z : ℂ) • v → S.Z (S.P v) = ((p * z : Int) : ℂ) • v := by
    intro p z h1 h2
    rw [Int.cast_mul, h1, map_smul, h2, smul_smul]
  have e2 : ∀ x y : Int, S.ZA v = (x : ℂ) • v → S.ZB v = (y : ℂ) • v → S.Z v = ((x * y : Int) : ℂ) • v := by
    intro x y h1 h2
    rw [Int.cast_mul, ← hS, h2, map_smul, h1, smul_smul, mul_comm]
  obtain ⟨k, p, z, zA, zB, pz⟩ := r
  obtain ⟨h1, h2⟩ := h
  simp only at h1 h2 hp
  rw [satisfies_iff, satisfies_iff]
  rcases k with _ | k <;> rcases p with _ | p <;> rcases z with _ | z <;> rcases zA with _ | zA <;> rcases zB with _ | zB <;> rcases pz with _ | pz <;>
    simp [product, dispatch, Call.request] at h1 h2 hp ⊢ <;> first
      | done
      | (exact fun a b => h2 ▸ e2 _ _ a b)
      | (exact fun _ a b => h2 ▸ e2 _ _ a b)
      | (exact fun a b => h1 ▸ e1 _ _ a b)
      | (exact fun _ a b => h1 ▸ e1 _ _ a b)

theorem base_some {L a : ℕ} {b : Request} {c : Call} (h : base1d L a b = some c) :
    0 < L ∧ 0 < a ∧ a ∣ L ∧ (unitLabel b.p ∧ unitLabel b.z ∧ unitLabel b.zA ∧ unitLabel b.zB ∧ unitLabel b.pz) ∧
    (b.p = none ∨ b.zA = none ∧ b.zB = none) ∧ c = dispatch { b with k := b.k.map fun (k : Int) => k % ((L / a : ℕ) : Int) } := by
  unfold base1d at h
  split_ifs at h with h1 h2 h3 h4
  refine ⟨by omega, by omega, Nat.dvd_of_mod_eq_zero (by omega), by simpa using h3, ?_, (Option.some.inj h).symm⟩
  rcases hp : b.p with _ | p
  · exact .inl rfl
  · right
    rw [hp] at h4
    simp only [Option.isSome_some, true_and, not_or, Bool.not_eq_true, Option.isSome_eq_false_iff, Option.isNone_iff_eq_none] at h4
    exact h4

theorem base_block (S : Symmetries V) (hS : ∀ v, S.ZA (S.ZB v) = S.Z v) {L a : ℕ} {r : Request} {c : Call} (hr : Compatible r)
    (h : base1d L a { r with pz := product r.p r.z r.pz, z := product r.zA r.zB r.z } = some c) (v : V) :
    Satisfies S (L / a) c.request v ↔ Satisfies S (L / a) r v := by
  obtain ⟨h1, h2, h3, _, h5, rfl⟩ := base_some h
  have hn : 0 < L / a := Nat.div_pos (Nat.le_of_dvd h1 h3) h2
  rw [← satisfies_mod S (L / a) hn r v]
  exact satisfies_products S hS (L / a) { r with k := r.k.map fun (k : Int) => k % ((L / a : ℕ) : Int) } ⟨hr.product, hr.sublattices⟩ h5 v

/-- `spin_basis_1d(L, ..., **blocks)` either raises or makes the block of exactly the vectors with all the quantum numbers in `blocks`.  Partial: labels that
repeat each other have to be compatible (`C85_fails_*`).  The inversions of the two sublattices together are the inversion of all sites. -/
theorem C85_spin_partial (S : Symmetries V) (hS : ∀ v, S.ZA (S.ZB v) = S.Z v) (sps L : ℕ) (nups : Option (List Int)) (check : Bool) (a : Option ℕ)
    (r : Request) (hr : Compatible r) (c : Call) (h : spinInit sps L nups check a r = some c) (v : V) :
    Satisfies S (L / a.getD 1) c.request v ↔ Satisfies S (L / a.getD 1) r v := by
  unfold spinInit at h
  simp only at h
  split_ifs at h
  exact base_block S hS hr h v

/-- `boson_basis_1d`: the same.  Partial: `pcblock` may not be given alone (`C85_fails_particle_hole`). -/
theorem C85_boson_partial (S : Symmetries V) (hS : ∀ v, S.ZA (S.ZB v) = S.Z v) (sps L : ℕ) (nbs : Option (List Int)) (check : Bool) (a : Option ℕ)
    (r : Request) (hr : Compatible r) (hpc : r.p = none → r.pz = none) (c : Call) (h : bosonInit sps L nbs check a r = some c) (v : V) :
    Satisfies S (L / a.getD 1) c.request v ↔ Satisfies S (L / a.getD 1) r v := by
  unfold bosonInit at h
  split_ifs at h
  refine base_block S hS hr ?_ v
  rw [← h]
  congr 2
  obtain ⟨k, p, z, zA, zB, pz⟩ := r
  rcases p with _ | p
  · rw [hpc rfl]
  · rcases z with _ | z
    · rcases pz with _ | pz
      · rfl
      · obtain ⟨h1, -⟩ | ⟨_, _, _, h1, _⟩ := hr.product pz rfl
        · exact absurd h1 (by simp)
        · exact absurd h1 (by simp)
    · rfl

/-- `spinless_fermion_basis_1d` either raises or makes the block of exactly the vectors with all the quantum numbers. -/
theorem C85_spinless (S : Symmetries V) (L : ℕ) (a : Option ℕ) (r : Request) (c : Call) (h : spinlessInit L a r = some c) (v : V) :
    Satisfies S (L / a.getD 1) c.request v ↔ Satisfies S (L / a.getD 1) r v := by
  unfold spinlessInit at h
  split_ifs at h with h1
  obtain ⟨k, p, z, zA, zB, pz⟩ := r
  simp only [not_or, Bool.not_eq_true, Option.isSome_eq_false_iff, Option.isNone_iff_eq_none] at h1
  obtain ⟨rfl, rfl, rfl, rfl⟩ := h1
  let S' : Symmetries V := { S with ZA := LinearMap.id, ZB := S.Z }
  have key := base_block S' (fun v => rfl) (r := ⟨k, p, none, none, none, none⟩) (L := L) (a := a.getD 1) (c := c)
    ⟨fun q hq => absurd hq (by simp), fun q hq => absurd hq (by simp)⟩ (by rw [← h]; rcases p with _ | p <;> rfl) v
  obtain ⟨-, -, -, -, -, rfl⟩ := base_some h
  have hl : ∀ (n : ℕ) (r : Request), r.zA = none → r.zB = none → (Satisfies S' n r v ↔ Satisfies S n r v) := by
    intro n r h1 h2
    rw [satisfies_iff, satisfies_iff, h1, h2]
    simp [S']
  rw [hl, hl _ _ rfl rfl] at key
  · exact key
  · rcases k with _ | k <;> rcases p with _ | p <;> rfl
  · rcases k with _ | k <;> rcases p with _ | p <;> rfl

/-- `spinful_fermion_basis_1d`: the same with the exchange of the spins as inversion.  Partial: labels that repeat each other have to be compatible. -/
theorem C85_spinful_partial (S : Symmetries V) (L : ℕ) (nfs : Option (List (Int × Int))) (check : Bool) (a : Option ℕ)
    (r : Request) (hr : Compatible r) (c : Call) (h : spinfulInit L nfs check a r = some c) (v : V) :
    Satisfies S (L / a.getD 1) c.request v ↔ Satisfies S (L / a.getD 1) r v := by
  obtain ⟨h1, h⟩ : ¬(r.zA.isSome ∨ r.zB.isSome) ∧ base1d L (a.getD 1) { r with pz := product r.p r.z r.pz } = some c := by
    unfold spinfulInit at h
    simp only at h
    split_ifs at h with h1
    all_goals exact ⟨h1, h⟩
  obtain ⟨k, p, z, zA, zB, pz⟩ := r
  simp only [not_or, Bool.not_eq_true, Option.isSome_eq_false_iff, Option.isNone_iff_eq_none] at h1
  obtain ⟨rfl, rfl⟩ := h1
  let S' : Symmetries V := { S with ZA := LinearMap.id, ZB := S.Z }
  have key := base_block S' (fun v => rfl) hr h v
  obtain ⟨-, -, -, -, -, rfl⟩ := base_some h
  have hl : ∀ (n : ℕ) (r : Request), r.zA = none → r.zB = none → (Satisfies S' n r v ↔ Satisfies S n r v) := by
    intro n r h1 h2
    rw [satisfies_iff, satisfies_iff, h1, h2]
    simp [S']
  rw [hl, hl _ _ rfl rfl] at key
  · exact key
  · rcases k with _ | k <;> rcases p with _ | p <;> rcases z with _ | z <;> rcases pz with _ | pz <;> rfl
  · rcases k with _ | k <;> rcases p with _ | p <;> rcases z with _ | z <;> rcases pz with _ | pz <;> rfl

/-- The labels of an accepted call are `±1` and the chain consists of whole unit cells; reflection is not combined with the inversion of a sublattice. -/
theorem C85_checks (sps L : ℕ) (nups : Option (List Int)) (check : Bool) (a : Option ℕ) (r : Request) (c : Call)
    (h : spinInit sps L nups check a r = some c) :
    0 < L ∧ a.getD 1 ∣ L ∧ (∀ p, r.p = some p → (p = 1 ∨ p = -1) ∧ r.zA = none ∧ r.zB = none) ∧ (∀ z, r.zA = some z → z = 1 ∨ z = -1) ∧
    (∀ z, r.zB = some z → z = 1 ∨ z = -1) := by
  unfold spinInit at h
  simp only at h
  split_ifs at h
  obtain ⟨h1, h2, h3, ⟨u1, -, u3, u4, -⟩, h5, -⟩ := base_some h
  simp only [unitLabel, Option.all_eq_true, beq_iff_eq] at u1 u3 u4
  simp only at h5
  refine ⟨h1, h3, fun p hp => ⟨Int.natAbs_eq_iff.mp (u1 p hp), ?_⟩, fun z hz => Int.natAbs_eq_iff.mp (u3 z hz), fun z hz => Int.natAbs_eq_iff.mp (u4 z hz)⟩
  rcases h5 with h5 | h5
  · rw [h5] at hp; exact absurd hp (by simp)
  · exact h5

theorem translate_parity {L a t j : ℕ} (ha : a % 2 = 0) (hL : a ∣ L) (hj : j < L) (ht : t = L - a % L ∨ t = a) : (j + (L - t % L)) % L % 2 = j % 2 := by
  have hL2 : L % 2 = 0 := by
    obtain ⟨m, rfl⟩ := hL
    rw [Nat.mul_mod, ha]; simp
  obtain ⟨m, hm⟩ : 2 ∣ L := Nat.dvd_of_mod_eq_zero hL2
  have h2 : ∀ x, x % L % 2 = x % 2 := fun x => Nat.mod_mod_of_dvd x ⟨m, hm⟩
  have hle : ∀ x, x % L < L := fun x => Nat.mod_lt _ (by omega)
  have h3 : t % L % 2 = 0 := by
    rw [h2]
    rcases ht with rfl | rfl
    · have := h2 a; have := hle a; omega
    · exact ha
  have := hle t
  rw [h2]; omega

/-- With the checks left on, translations accepted together with the inversion of a sublattice commute with it. -/
theorem C85_commute (sps L : ℕ) (nups : Option (List Int)) (a : Option ℕ) (r : Request) (c : Call) (h : spinInit sps L nups true a r = some c)
    (hk : r.k ≠ none) (hz : r.zA ≠ none ∨ r.zB ≠ none) (v : Conf L sps → ℂ) :
    let S := spins L sps (a.getD 1)
    S.T (S.ZA v) = S.ZA (S.T v) ∧ S.T (S.ZB v) = S.ZB (S.T v) := by
  unfold spinInit at h
  simp only at h
  split_ifs at h with ht
  obtain ⟨h1, h2, h3, -, -, -⟩ := base_some h
  have ha : a.getD 1 % 2 = 0 := by
    simp only [true_and, not_not, flipTests, Bool.and_eq_true] at ht
    have := ht.2
    rw [if_pos ⟨Option.isSome_iff_ne_none.mpr hk, hz.imp Option.isSome_iff_ne_none.mpr Option.isSome_iff_ne_none.mpr⟩] at this
    simpa using this
  have key : ∀ q : ℕ, ∀ s : Conf L sps, invertOf q (translate (L - a.getD 1 % L) s) = translate (L - a.getD 1 % L) (invertOf q s) := by
    intro q s
    funext j
    simp only [invertOf, translate]
    rw [translate_parity ha h3 j.2 (.inl rfl)]
  refine ⟨?_, ?_⟩ <;> funext s <;> simp only [spins, pull, LinearMap.funLeft_apply, key]

/-- The vector with equal amplitudes has reflection, inversion and all products `+1` and momentum zero. -/
theorem ones_satisfy (L b a n : ℕ) (r : Request) (hk : ∀ k, r.k = some k → k = 0) (hp : ∀ x, r.p = some x → x = 1) (hz : ∀ x, r.z = some x → x = 1)
    (hA : ∀ x, r.zA = some x → x = 1) (hB : ∀ x, r.zB = some x → x = 1) (hq : ∀ x, r.pz = some x → x = 1) :
    Satisfies (spins L b a) n r (fun _ => 1) := by
  have e : ∀ f : Conf L b → Conf L b, pull f (fun _ => (1 : ℂ)) = fun _ => 1 := fun f => rfl
  refine ⟨fun k h1 _ _ => ?_, fun k h1 _ => ?_, fun x h1 => ?_, fun x h1 => ?_, fun x h1 => ?_, fun x h1 => ?_, fun x h1 => ?_⟩
  · rw [hk k h1]; simp [spins, e]
  · rw [hk k h1]
    funext s
    simp only [spins, e, Pi.add_apply, Pi.smul_apply, smul_eq_mul]
    norm_num
  · rw [hp x h1]; simp [spins, e]
  · rw [hz x h1]; simp [spins, e]
  · rw [hA x h1]; simp [spins, e]
  · rw [hB x h1]; simp [spins, e]
  · rw [hq x h1]; simp [spins, e]

theorem ones_ne (L b : ℕ) (hb : 0 < b) : ¬((fun _ : Conf L b => (1 : ℂ)) = ((-1 : Int) : ℂ) • fun _ => (1 : ℂ)) := by
  intro h
  have := congrFun h fun _ => ⟨0, hb⟩
  norm_num at this

/-- The block made from the arguments `r` contains a vector that does not have the requested quantum numbers. -/
def Ignores (sps L : ℕ) (init : Request → Option Call) (r : Request) : Prop :=
  ∃ c v, init r = some c ∧ Satisfies (spins L sps 1) L c.request v ∧ ¬Satisfies (spins L sps 1) L r v

theorem ignores_of {sps L : ℕ} (hs : 0 < sps) {init : Request → Option Call} {r : Request} {c : Call} (h : init r = some c)
    (h1 : (∀ k, c.request.k = some k → k = 0) ∧ (∀ x, c.request.p = some x → x = 1) ∧ (∀ x, c.request.z = some x → x = 1) ∧
      (∀ x, c.request.zA = some x → x = 1) ∧ (∀ x, c.request.zB = some x → x = 1) ∧ (∀ x, c.request.pz = some x → x = 1))
    (h2 : r.p = some (-1) ∨ r.z = some (-1) ∨ r.zA = some (-1) ∨ r.pz = some (-1)) : Ignores sps L init r := by
  refine ⟨c, fun _ => 1, h, ones_satisfy L sps 1 L _ h1.1 h1.2.1 h1.2.2.1 h1.2.2.2.1 h1.2.2.2.2.1 h1.2.2.2.2.2, fun hv => ?_⟩
  rcases h2 with h2 | h2 | h2 | h2
  · exact ones_ne L sps hs (hv.p _ h2)
  · exact ones_ne L sps hs (hv.z _ h2)
  · exact ones_ne L sps hs (hv.zA _ h2)
  · exact ones_ne L sps hs (hv.pz _ h2)

/-- `zblock` with `pzblock`: the second is ignored without a warning, for every chain. -/
theorem C85_fails_inversion_product (sps L : ℕ) (hs : 0 < sps) (hL : 0 < L) :
    Ignores sps L (spinInit sps L none true none) { z := some 1, pz := some (-1) } :=
  ignores_of hs (c := .z 1) (by simp [spinInit, flipTests, product, base1d, unitLabel, dispatch, hL.ne', Nat.mod_one]) (by simp [Call.request]) (by simp)

/-- `pblock` with `pzblock`: the second is ignored. -/
theorem C85_fails_reflection_product (sps L : ℕ) (hs : 0 < sps) (hL : 0 < L) :
    Ignores sps L (spinInit sps L none true none) { p := some 1, pz := some (-1) } :=
  ignores_of hs (c := .p 1) (by simp [spinInit, flipTests, product, base1d, unitLabel, dispatch, hL.ne', Nat.mod_one]) (by simp [Call.request]) (by simp)

/-- With a momentum it is `pblock` that is ignored. -/
theorem C85_fails_momentum_reflection_product (sps L : ℕ) (hs : 0 < sps) (hL : 0 < L) :
    Ignores sps L (spinInit sps L none true none) { k := some 0, p := some (-1), pz := some 1 } :=
  ignores_of hs (c := .t_pz 1 0) (by simp [spinInit, flipTests, product, base1d, unitLabel, dispatch, hL.ne', Nat.mod_one]) (by simp [Call.request]) (by simp)

/-- With a momentum and `pzblock` it is `zblock` that is ignored. -/
theorem C85_fails_momentum_inversion_product (sps L : ℕ) (hs : 0 < sps) (hL : 0 < L) :
    Ignores sps L (spinInit sps L none true none) { k := some 0, z := some (-1), pz := some 1 } :=
  ignores_of hs (c := .t_pz 1 0) (by simp [spinInit, flipTests, product, base1d, unitLabel, dispatch, hL.ne', Nat.mod_one]) (by simp [Call.request]) (by simp)

/-- `zblock` with `zAblock`: the sublattice is ignored, although the two symmetries commute and the block exists. -/
theorem C85_fails_inversion_sublattice (sps L : ℕ) (hs : 0 < sps) (hL : 0 < L) :
    Ignores sps L (spinInit sps L none true none) { z := some 1, zA := some (-1) } :=
  ignores_of hs (c := .z 1) (by simp [spinInit, flipTests, product, base1d, unitLabel, dispatch, hL.ne', Nat.mod_one]) (by simp [Call.request]) (by simp)

/-- `pzblock` with `zAblock`: the product is ignored. -/
theorem C85_fails_sublattice_product (sps L : ℕ) (hs : 0 < sps) (hL : 0 < L) :
    Ignores sps L (spinInit sps L none true none) { zA := some 1, pz := some (-1) } :=
  ignores_of hs (c := .zA 1) (by simp [spinInit, flipTests, product, base1d, unitLabel, dispatch, hL.ne', Nat.mod_one]) (by simp [Call.request]) (by simp)

/-- Contradicting labels (`pblock = zblock = 1`, `pzblock = -1`, no vector has them) are accepted: the third is overwritten. -/
theorem C85_fails_contradiction (sps L : ℕ) (hs : 0 < sps) (hL : 0 < L) :
    Ignores sps L (spinInit sps L none true none) { p := some 1, z := some 1, pz := some (-1) } :=
  ignores_of hs (c := .p_z 1 1) (by simp [spinInit, flipTests, product, base1d, unitLabel, dispatch, hL.ne', Nat.mod_one]) (by simp [Call.request]) (by simp)

/-- Contradicting labels of the sublattices: `zblock` is overwritten. -/
theorem C85_fails_contradiction_sublattices (sps L : ℕ) (hs : 0 < sps) (hL : 0 < L) :
    Ignores sps L (spinInit sps L none true none) { z := some (-1), zA := some 1, zB := some 1 } :=
  ignores_of hs (c := .zA_zB 1 1) (by simp [spinInit, flipTests, product, base1d, unitLabel, dispatch, hL.ne', Nat.mod_one]) (by simp [Call.request]) (by simp)

/-- `boson_basis_1d(L, sps=2, pcblock=-1)` makes the whole space: `pcblock` alone is never passed on. -/
theorem C85_fails_particle_hole (sps L : ℕ) (hs : 0 < sps) (hL : 0 < L) :
    Ignores sps L (bosonInit sps L none true none) { pz := some (-1) } :=
  ignores_of hs (c := .plain) (by simp [bosonInit, product, base1d, unitLabel, dispatch, hL.ne', Nat.mod_one]) (by simp [Call.request]) (by simp)

/-- The hypotheses are met: momentum 7 of a chain of four sites, reflection and inversion. -/
example : spinInit 2 4 none true none { k := some 7, p := some (-1), z := some 1 } = some (.t_p_z (-1) 1 3) ∧
    Compatible { k := some 7, p := some (-1), z := some 1 } :=
  ⟨by decide, fun q hq => absurd hq (by simp), fun z _ => .inl ⟨rfl, rfl⟩⟩

example : spinInit 2 4 none true (some 2) { k := some 1, zA := some (-1), zB := some 1 } = some (.t_zA_zB (-1) 1 1) := by decide

example : spinfulInit 4 (some [(2, 2)]) true none { k := some 1, pz := some 1 } = some (.t_pz 1 1) := by decide

/-- The inversions of the two sublattices together are the inversion. -/
example (L b a : ℕ) (v : Conf L b → ℂ) : (spins L b a).ZA ((spins L b a).ZB v) = (spins L b a).Z v := by
  funext s
  simp only [spins, pull, LinearMap.funLeft_apply]
  congr 1
  funext j
  simp only [invertOf, invert]
  rcases Nat.mod_two_eq_zero_or_one (j : ℕ) with h | h <;> simp [h]

/-- Which labels are refused: spinless fermions take no inversion, spinful ones no inversion of a sublattice, bosons with more than two levels no inversion
but the product with the reflection, and under `check_z_symm` bosons of given number no inversion at all. -/
theorem C85_labels (sps L : ℕ) (nfs : Option (List (Int × Int))) (nbs : Option (List Int)) (check : Bool) (a : Option ℕ) (r : Spec.Labels.Request) :
    (spinlessInit L a r ≠ none → r.z = none ∧ r.zA = none ∧ r.zB = none ∧ r.pz = none) ∧
      (spinfulInit L nfs check a r ≠ none → r.zA = none ∧ r.zB = none) ∧
      (bosonInit sps L nbs check a r ≠ none → 2 < sps → r.z = none ∧ r.zA = none ∧ r.zB = none) ∧
      (bosonInit sps L nbs true a r ≠ none → nbs ≠ none → r.z = none ∧ r.zA = none ∧ r.zB = none ∧ r.pz = none) := by
  refine ⟨?_, ?_, ?_, ?_⟩
  · unfold spinlessInit
    split_ifs with h
    · simp
    · intro _; simpa [not_or, Option.isSome_iff_ne_none] using h
  · unfold spinfulInit
    split_ifs with h
    · simp
    · intro _; simpa [not_or, Option.isSome_iff_ne_none] using h
  · intro h hs
    have h1 : ¬(sps > 2 ∧ (r.z.isSome ∨ r.zA.isSome ∨ r.zB.isSome)) := fun h1 => h (by unfold bosonInit; rw [if_pos h1])
    simpa [hs, not_or, Option.isSome_iff_ne_none] using h1
  · intro h hn
    have hn' : nbs.isSome := Option.isSome_iff_ne_none.2 hn
    have h2 : ¬(r.z.isSome ∨ r.pz.isSome) := fun h2 => h (by unfold bosonInit; rw [if_pos (⟨rfl, hn', h2⟩ : true = true ∧ _)]; exact ite_self _)
    have h3 : ¬(r.zA.isSome ∨ r.zB.isSome) := fun h3 => h (by
      unfold bosonInit; rw [if_neg (show ¬(true = true ∧ nbs.isSome ∧ (r.z.isSome ∨ r.pz.isSome)) from fun h => h2 h.2.2), if_pos (⟨rfl, hn', h3⟩ : true = true ∧ _)]; exact ite_self _)
    simp only [Option.isSome_iff_ne_none, ne_eq, not_or, not_not] at h2 h3
    exact ⟨h2.1, h3.1, h3.2, h2.2⟩

example : Model.ChainInit.spinlessInit 6 none ⟨some 1, some 1, none, none, none, none⟩ ≠ none ∧
    Model.ChainInit.bosonInit 3 6 (some [4]) true none ⟨some 0, some (-1), none, none, none, none⟩ ≠ none := by decide

end Props
