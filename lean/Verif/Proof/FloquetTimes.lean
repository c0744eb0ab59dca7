import Verif.Model.FloquetTimes

/-! Lemmas on the model of `Floquet_t_vec`. -/

namespace Proof.FloquetTimes
open Model.FloquetTimes

/-- Time number `k`. -/
noncomputable def pt (T : ℝ) (Nup L k : ℕ) : ℝ := T * ((k : ℝ) / L - Nup)

theorem vals_eq (Omega : ℝ) (Nconst L Nup Ndown : ℕ) (hL : 0 < L) :
    (floquet Omega Nconst L Nup Ndown).vals =
      (List.range ((Nup + Nconst + Ndown) * L + 1)).map (pt (2 * Real.pi / Omega) Nup L) := by
  have h : (floquet Omega Nconst L Nup Ndown).vals =
      (linspace (-(Nup : ℝ)) ((Nconst + Ndown : ℕ) : ℝ) ((Nup + Nconst + Ndown) * L + 1)).map (2 * Real.pi / Omega * ·) := by
    unfold floquet; dsimp only; split_ifs <;> rfl
  rw [h, linspace, List.map_map]
  apply List.map_congr_left
  intro k hk
  simp only [List.mem_range] at hk
  simp only [Function.comp, pt, Nat.add_sub_cancel]
  rcases Nat.eq_zero_or_pos (Nup + Nconst + Ndown) with h0 | h0
  · have : k = 0 := by rw [h0] at hk; omega
    subst this
    simp
  · have hL' : (L : ℝ) ≠ 0 := by positivity
    have hN : ((Nup + Nconst + Ndown : ℕ) : ℝ) ≠ 0 := by exact_mod_cast h0.ne'
    congr 1
    have : (((Nconst + Ndown : ℕ) : ℝ) - -(Nup : ℝ)) = ((Nup + Nconst + Ndown : ℕ) : ℝ) := by push_cast; ring
    rw [this]
    push_cast at *
    field_simp
    ring

theorem getD_map_range {α : Type} (n : ℕ) (f : ℕ → α) (d : α) (i : ℕ) (h : i < n) : ((List.range n).map f).getD i d = f i := by
  simp [List.getD_eq_getElem?_getD, h]

theorem arange_mul (n L : ℕ) (hL : 0 < L) : arange (n * L) L = (List.range n).map (· * L) := by
  unfold arange
  have : (n * L + L - 1) / L = n := by
    have h : n * L + L - 1 = (L - 1) + L * n := by rw [Nat.mul_comm]; omega
    rw [h, Nat.add_mul_div_left _ _ hL, Nat.div_eq_of_lt (by omega)]; simp
  rw [this]

theorem arange_mul_one (n L : ℕ) (hL : 0 < L) : arange (n * L + 1) L = (List.range (n + 1)).map (· * L) := by
  unfold arange
  have : (n * L + 1 + L - 1) / L = n + 1 := by
    have h : n * L + 1 + L - 1 = 0 + L * (n + 1) := by rw [Nat.mul_comm, Nat.mul_add]; omega
    rw [h, Nat.add_mul_div_left _ _ hL]; simp
  rw [this]

/-- Stroboscopic times of a list of times. -/
theorem strobo_mul (f : ℕ → ℝ) (n L ind0 : ℕ) (hL : 0 < L) :
    strobo ((List.range (n * L)).map f) L ind0 =
      ⟨(List.range n).map fun j => j * L + ind0, (List.range n).map fun j => f (j * L)⟩ := by
  unfold strobo
  simp only [List.length_map, List.length_range, arange_mul n L hL, List.map_map, Strobo.mk.injEq]
  refine ⟨List.map_congr_left fun j _ => rfl, List.map_congr_left fun j hj => ?_⟩
  simp only [Function.comp]
  exact getD_map_range _ _ _ _ (Nat.mul_lt_mul_of_pos_right (List.mem_range.mp hj) hL)

theorem strobo_mul_one (f : ℕ → ℝ) (n L ind0 : ℕ) (hL : 0 < L) :
    strobo ((List.range (n * L + 1)).map f) L ind0 =
      ⟨(List.range (n + 1)).map fun j => j * L + ind0, (List.range (n + 1)).map fun j => f (j * L)⟩ := by
  unfold strobo
  simp only [List.length_map, List.length_range, arange_mul_one n L hL, List.map_map, Strobo.mk.injEq]
  refine ⟨List.map_congr_left fun j _ => rfl, List.map_congr_left fun j hj => ?_⟩
  simp only [Function.comp]
  apply getD_map_range
  have := Nat.mul_le_mul_right L (Nat.lt_succ_iff.mp (List.mem_range.mp hj))
  omega

theorem slice_map (f : ℕ → ℝ) (n a b : ℕ) (hb : b ≤ n) :
    slice ((List.range n).map f) a b = (List.range (b - a)).map fun k => f (a + k) := by
  unfold slice
  apply List.ext_getElem?
  intro i
  simp only [List.getElem?_drop, List.getElem?_take, List.getElem?_map]
  by_cases h : a + i < b
  · rw [if_pos h, List.getElem?_range (by omega), List.getElem?_range (by omega)]; rfl
  · rw [if_neg h, List.getElem?_eq_none (l := List.range _) (by simp; omega)]; rfl

theorem last_range (n L c : ℕ) : ((List.range (n + 1)).map fun j => j * L + c).getLastD 0 = n * L + c := by
  rw [List.range_succ, List.map_append]; simp

theorem strobo_eq (Omega : ℝ) (Nconst L Nup Ndown : ℕ) (hL : 0 < L) :
    (floquet Omega Nconst L Nup Ndown).strobo =
      ⟨(List.range (Nup + Nconst + Ndown + 1)).map (· * L),
        (List.range (Nup + Nconst + Ndown + 1)).map fun j => pt (2 * Real.pi / Omega) Nup L (j * L)⟩ := by
  have h : (floquet Omega Nconst L Nup Ndown).strobo = strobo (floquet Omega Nconst L Nup Ndown).vals L 0 := by
    unfold floquet; dsimp only; split_ifs <;> rfl
  rw [h, vals_eq _ _ _ _ _ hL, strobo_mul_one _ _ _ _ hL]
  rfl

theorem pt_mul (T : ℝ) (Nup L j : ℕ) (hL : 0 < L) : pt T Nup L (j * L) = T * ((j : ℝ) - Nup) := by
  have : (L : ℝ) ≠ 0 := by positivity
  simp [pt, this]

section
variable (Omega : ℝ) (Nconst L Nup Ndown : ℕ)

local notation "X" => floquet Omega Nconst L Nup Ndown
local notation "V" => List.map (pt (2 * Real.pi / Omega) Nup L) (List.range ((Nup + Nconst + Ndown) * L + 1))
local notation "I" => List.map (fun j => j * L) (List.range (Nup + Nconst + Ndown + 1))

theorem tUp_eq : tUp V I Nup = (List.range (Nup * L)).map (pt (2 * Real.pi / Omega) Nup L) := by
  unfold tUp
  rw [getD_map_range _ _ _ _ (by omega), ← List.map_take, List.take_range, Nat.min_eq_left]
  have := Nat.mul_le_mul_right L (show Nup ≤ Nup + Nconst + Ndown by omega)
  omega

theorem tConst_eq : tConst V I Nup Nconst = (List.range (Nconst * L + 1)).map fun k => pt (2 * Real.pi / Omega) Nup L (Nup * L + k) := by
  unfold tConst
  rw [getD_map_range _ _ _ _ (by omega), getD_map_range _ _ _ _ (by omega), slice_map]
  · congr 2
    rw [Nat.add_mul]; omega
  · have := Nat.mul_le_mul_right L (show Nup + Nconst ≤ Nup + Nconst + Ndown by omega)
    omega

theorem tDown_eq : tDown V I Nup Nconst =
    (List.range (Ndown * L)).map fun k => pt (2 * Real.pi / Omega) Nup L ((Nup + Nconst) * L + 1 + k) := by
  unfold tDown
  have h := last_range (Nup + Nconst + Ndown) L 0
  simp only [Nat.add_zero] at h
  rw [getD_map_range _ _ _ _ (by omega), h, slice_map _ _ _ _ le_rfl]
  congr 2
  rw [Nat.add_mul (Nup + Nconst)]; omega

/-- The three segments in closed form. -/
noncomputable def upR : Ramp := ramp Nup ((List.range (Nup * L)).map (pt (2 * Real.pi / Omega) Nup L)) (2 * Real.pi / Omega) L 0

noncomputable def constR : Ramp :=
  ramp Nconst ((List.range (Nconst * L + 1)).map fun k => pt (2 * Real.pi / Omega) Nup L (Nup * L + k)) (2 * Real.pi / Omega) L (Nup * L)

noncomputable def downR : Ramp :=
  ramp Ndown ((List.range (Ndown * L)).map fun k => pt (2 * Real.pi / Omega) Nup L ((Nup + Nconst) * L + 1 + k)) (2 * Real.pi / Omega) L
    ((Nup + Nconst + 1) * L)

variable (hL : 0 < L)
include hL

theorem upR_last (h : 0 < Nup) : (upR Omega L Nup).strobo.inds.getLastD 0 + L = Nup * L := by
  obtain ⟨m, rfl⟩ : ∃ m, Nup = m + 1 := ⟨Nup - 1, by omega⟩
  simp only [upR, ramp, strobo_mul _ _ _ _ hL]
  rw [last_range m L 0]
  ring

theorem constR_last : (constR Omega Nconst L Nup).strobo.inds.getLastD 0 + L = (Nup + Nconst + 1) * L := by
  simp only [constR, ramp, strobo_mul_one _ _ _ _ hL]
  rw [last_range]
  ring

theorem segments : ((X).up, (X).const, (X).down) =
    (if 0 < Nup then some (upR Omega L Nup) else none,
      if 0 < Nup ∨ 0 < Ndown then some (constR Omega Nconst L Nup) else none,
      if 0 < Ndown then some (downR Omega Nconst L Nup Ndown) else none) := by
  have hv := vals_eq Omega Nconst L Nup Ndown hL
  have hs := strobo_eq Omega Nconst L Nup Ndown hL
  have hv' : (linspace (-(Nup : ℝ)) ((Nconst + Ndown : ℕ) : ℝ) ((Nup + Nconst + Ndown) * L + 1)).map (2 * Real.pi / Omega * ·) = V := by
    rw [← hv]; unfold floquet; dsimp only; split_ifs <;> rfl
  have hs' : strobo V L 0 = ⟨I, (List.range (Nup + Nconst + Ndown + 1)).map fun j => pt (2 * Real.pi / Omega) Nup L (j * L)⟩ := by
    rw [← hs, ← hv']; unfold floquet; dsimp only; split_ifs <;> rfl
  unfold floquet
  dsimp only
  rw [hv', hs']
  dsimp only
  rw [tUp_eq, tConst_eq, tDown_eq]
  have eU : ramp Nup ((List.range (Nup * L)).map (pt (2 * Real.pi / Omega) Nup L)) (2 * Real.pi / Omega) L 0 = upR Omega L Nup := rfl
  rw [eU]
  rcases Nat.eq_zero_or_pos Nup with h1 | h1
  · rcases Nat.eq_zero_or_pos Ndown with h2 | h2
    · simp [h1, h2]
    · have eC : ramp Nconst ((List.range (Nconst * L + 1)).map fun k => pt (2 * Real.pi / Omega) Nup L (Nup * L + k))
          (2 * Real.pi / Omega) L 0 = constR Omega Nconst L Nup := by simp [constR, h1]
      rw [eC, constR_last Omega Nconst L Nup hL]
      simp [h1, h2, downR]
  · rw [upR_last Omega L Nup hL h1]
    rcases Nat.eq_zero_or_pos Ndown with h2 | h2
    · simp [h1, h2, constR]
    · have eC : ramp Nconst ((List.range (Nconst * L + 1)).map fun k => pt (2 * Real.pi / Omega) Nup L (Nup * L + k))
          (2 * Real.pi / Omega) L (Nup * L) = constR Omega Nconst L Nup := rfl
      rw [eC, constR_last Omega Nconst L Nup hL]
      simp [h1, h2, downR]

end

theorem range_append {α : Type} (f : ℕ → α) (a b : ℕ) :
    (List.range (a + b)).map f = (List.range a).map f ++ (List.range b).map fun k => f (a + k) := by
  rw [List.range_add, List.map_append, List.map_map]; rfl

/-! ### Coordinates -/

open Classical in
theorem searchsorted_pt (T : ℝ) (Nup L N k : ℕ) (eps : ℝ) (hL : 0 < L) (hT : 0 < T) (he : 0 < eps) (heT : eps < T / L) (hk : k ≤ N * L) :
    searchsorted ((List.range (N + 1)).map fun j => pt T Nup L (j * L)) (pt T Nup L k + eps) = k / L + 1 := by
  have hL' : (0 : ℝ) < L := by exact_mod_cast hL
  have key (j : ℕ) : pt T Nup L k + eps ≤ pt T Nup L (j * L) ↔ k / L < j := by
    rw [pt_mul _ _ _ _ hL]
    unfold pt
    constructor
    · intro h
      by_contra hc
      have h1 : j * L ≤ k := (Nat.le_div_iff_mul_le hL).mp (by omega)
      have h2 : (j : ℝ) ≤ (k : ℝ) / L := by rw [le_div_iff₀ hL']; exact_mod_cast h1
      nlinarith
    · intro h
      have h1 : k + 1 ≤ j * L := (Nat.div_lt_iff_lt_mul hL).mp h
      have h2 : ((k : ℝ) + 1) / L ≤ j := by rw [div_le_iff₀ hL']; exact_mod_cast h1
      have h3 : T * (((k : ℝ) + 1) / L) ≤ T * j := mul_le_mul_of_nonneg_left h2 hT.le
      have h4 : T * (((k : ℝ) + 1) / L) = T * (k / L) + T / L := by ring
      linarith
  unfold searchsorted
  have hkN : k / L ≤ N := Nat.div_le_of_le_mul (by rwa [Nat.mul_comm])
  rcases Nat.lt_or_ge (k / L + 1) (N + 1) with h | h
  · rw [List.findIdx_eq (by simpa using h)]
    refine ⟨?_, fun j hj => ?_⟩
    · simp only [List.getElem_map, List.getElem_range, decide_eq_true_eq]
      rw [key]; omega
    · simp only [List.getElem_map, List.getElem_range, decide_eq_false_iff_not]
      rw [key]; omega
  · have : k / L + 1 = ((List.range (N + 1)).map fun j => pt T Nup L (j * L)).length := by simp; omega
    rw [this]
    apply List.findIdx_eq_length_of_false
    intro x hx
    simp only [List.mem_map, List.mem_range] at hx
    obtain ⟨j, hj, rfl⟩ := hx
    simp only [decide_eq_false_iff_not]
    rw [key]; omega

open Classical in
theorem findIdx_pt (T : ℝ) (Nup L k : ℕ) (eps : ℝ) (hL : 0 < L) (hT : 0 < T) (he : 0 < eps) (heT : eps < T / L) :
    ((List.range L).map (pt T Nup L)).findIdx? (fun v => decide (|pt T Nup L k - ((k / L : ℕ) : ℝ) * T - v| < eps)) = some (k % L) := by
  have hL' : (0 : ℝ) < L := by exact_mod_cast hL
  have hmod := Nat.mod_lt k hL
  have hdiff (m : ℕ) : pt T Nup L k - ((k / L : ℕ) : ℝ) * T - pt T Nup L m = T / L * (((k % L : ℕ) : ℝ) - m) := by
    unfold pt
    have : (k : ℝ) = L * ((k / L : ℕ) : ℝ) + ((k % L : ℕ) : ℝ) := by exact_mod_cast (Nat.div_add_mod k L).symm
    rw [this]
    field_simp
    ring
  rw [List.findIdx?_eq_some_iff_getElem]
  refine ⟨by simpa using hmod, ?_, fun j hj => ?_⟩
  · simp only [List.getElem_map, List.getElem_range, hdiff, decide_eq_true_eq]
    simpa using he
  · simp only [List.getElem_map, List.getElem_range, hdiff, decide_eq_true_eq]
    have h1 : (1 : ℝ) ≤ ((k % L : ℕ) : ℝ) - j := by
      have : j + 1 ≤ k % L := hj
      have : ((j : ℝ) + 1) ≤ ((k % L : ℕ) : ℝ) := by exact_mod_cast this
      linarith
    have h2 : 0 < T / L := by positivity
    rw [abs_of_nonneg (by nlinarith)]
    nlinarith

theorem floquet_T (Omega : ℝ) (Nconst L Nup Ndown : ℕ) : (floquet Omega Nconst L Nup Ndown).T = 2 * Real.pi / Omega := by
  unfold floquet; dsimp only; split_ifs <;> rfl

theorem coordinates (Omega : ℝ) (Nconst L Nup Ndown : ℕ) (eps : ℝ) (k : ℕ) (hL : 0 < L) (hO : 0 < Omega) (he : 0 < eps)
    (heT : eps < 2 * Real.pi / Omega / L) (hN : 0 < Nup + Nconst + Ndown) (hk : k ≤ (Nup + Nconst + Ndown) * L) :
    getCoordinates (floquet Omega Nconst L Nup Ndown) eps k = some (k / L, k % L) := by
  have hT : 0 < 2 * Real.pi / Omega := by positivity
  unfold getCoordinates
  rw [strobo_eq _ _ _ _ _ hL, vals_eq _ _ _ _ _ hL, floquet_T]
  generalize 2 * Real.pi / Omega = T at *
  generalize Nup + Nconst + Ndown = N at *
  have h1 : ((List.range (N + 1)).map (· * L))[1]? = some L := by
    rw [List.getElem?_map, List.getElem?_range (by omega)]; simp
  have h2 : ((List.range (N * L + 1)).map (pt T Nup L))[k]? = some (pt T Nup L k) := by
    rw [List.getElem?_map, List.getElem?_range (by omega)]; rfl
  have h3 : ((List.range (N * L + 1)).map (pt T Nup L)).take L = (List.range L).map (pt T Nup L) := by
    rw [← List.map_take, List.take_range, Nat.min_eq_left]
    have := Nat.mul_le_mul_right L hN
    omega
  simp only [h1, h2, Option.bind_some]
  rw [searchsorted_pt T Nup L N k eps hL hT he heT hk, h3]
  simp only [Nat.add_sub_cancel]
  rw [findIdx_pt T Nup L k eps hL hT he heT]
  rfl

end Proof.FloquetTimes
