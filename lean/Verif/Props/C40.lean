import Verif.Proof.FloquetTimes
import Mathlib.Analysis.Real.Pi.Bounds

/-!
C40: the segments of a Floquet time vector.

`X = Floquet_t_vec(Omega, N_const, len_T, N_up, N_down)`; `T = 2π/Omega`, `N = N_up + N_const + N_down`.  A segment that is not
defined contributes nothing.
-/

namespace Props
open Model.FloquetTimes Proof.FloquetTimes

section
variable (Omega : ℝ) (Nconst L Nup Ndown : ℕ)

local notation "X" => floquet Omega Nconst L Nup Ndown
local notation "T" => (2 * Real.pi / Omega)

/-- The vector has `N len_T + 1` equally spaced times from `-N_up T` to `(N_const + N_down) T`; time zero is number `N_up len_T`. -/
theorem C40_times (hL : 0 < L) :
    (X).vals = List.map (fun k : ℕ => T * ((k : ℝ) / L - Nup)) (List.range ((Nup + Nconst + Ndown) * L + 1)) ∧
      (X).i = -(Nup * T) ∧ (X).f = (Nconst + Ndown) * T ∧ (X).tot = (Nup + Nconst + Ndown) * T ∧ (X).dt = T / L := by
  have hv := vals_eq Omega Nconst L Nup Ndown hL
  have hL' : (L : ℝ) ≠ 0 := by positivity
  have hi : (X).i = (X).vals.headD 0 := by unfold floquet; dsimp only; split_ifs <;> rfl
  have hf : (X).f = (X).vals.getLastD 0 := by unfold floquet; dsimp only; split_ifs <;> rfl
  have ht : (X).tot = (X).f - (X).i := by unfold floquet; dsimp only; split_ifs <;> rfl
  have hd : (X).dt = T / L := by unfold floquet; dsimp only; split_ifs <;> rfl
  have hi' : (X).i = -(Nup * T) := by
    rw [hi, hv, List.range_succ_eq_map]; simp [pt]; ring
  have hf' : (X).f = (Nconst + Ndown) * T := by
    rw [hf, hv, List.range_succ, List.map_append]; simp [pt]; field_simp; ring
  refine ⟨hv, hi', hf', ?_, hd⟩
  rw [ht, hf', hi']; ring

/-- The stroboscopic times are the multiples of the period, and their indices point at them. -/
theorem C40_strobo (hL : 0 < L) :
    (X).strobo.inds = List.map (fun j => j * L) (List.range (Nup + Nconst + Ndown + 1)) ∧
      (X).strobo.vals = List.map (fun j : ℕ => T * ((j : ℝ) - Nup)) (List.range (Nup + Nconst + Ndown + 1)) ∧
      (X).strobo.inds.map (fun i => (X).vals[i]?) = (X).strobo.vals.map some := by
  rw [strobo_eq _ _ _ _ _ hL, vals_eq _ _ _ _ _ hL]
  refine ⟨rfl, List.map_congr_left fun j _ => pt_mul _ _ _ _ hL, ?_⟩
  simp only [List.map_map]
  refine List.map_congr_left fun j hj => ?_
  have := Nat.mul_le_mul_right L (Nat.lt_succ_iff.mp (List.mem_range.mp hj))
  simp only [Function.comp, List.getElem?_map]
  rw [List.getElem?_range (by omega)]
  rfl

/-- The segments, in the order up, const, down, partition the vector, and their stroboscopic indices partition its stroboscopic
indices.  Partial: without ramps there is no segment `const` (`C40_fails_no_ramp`). -/
theorem C40_partition_partial (hL : 0 < L) (h : 0 < Nup ∨ 0 < Ndown) :
    [(X).up, (X).const, (X).down].flatMap (fun s => s.elim [] Ramp.vals) = (X).vals ∧
      [(X).up, (X).const, (X).down].flatMap (fun s => s.elim [] fun r => r.strobo.inds) = (X).strobo.inds := by
  have hs := segments Omega Nconst L Nup Ndown hL
  simp only [Prod.mk.injEq] at hs
  rw [hs.1, hs.2.1, hs.2.2, vals_eq _ _ _ _ _ hL, strobo_eq _ _ _ _ _ hL, if_pos h]
  have hu : (if 0 < Nup then some (upR Omega L Nup) else none).elim [] Ramp.vals = List.map (pt T Nup L) (List.range (Nup * L)) := by
    rcases Nat.eq_zero_or_pos Nup with h | h <;> simp [h, upR, ramp]
  have hd : (if 0 < Ndown then some (downR Omega Nconst L Nup Ndown) else none).elim [] Ramp.vals =
      List.map (fun k => pt T Nup L ((Nup + Nconst) * L + 1 + k)) (List.range (Ndown * L)) := by
    rcases Nat.eq_zero_or_pos Ndown with h | h <;> simp [h, downR, ramp]
  have hu' : (if 0 < Nup then some (upR Omega L Nup) else none).elim [] (fun r => r.strobo.inds) =
      List.map (fun j => j * L) (List.range Nup) := by
    rcases Nat.eq_zero_or_pos Nup with h | h <;> simp [h, upR, ramp, strobo_mul _ _ _ _ hL]
  have hd' : (if 0 < Ndown then some (downR Omega Nconst L Nup Ndown) else none).elim [] (fun r => r.strobo.inds) =
      List.map (fun j => j * L + (Nup + Nconst + 1) * L) (List.range Ndown) := by
    rcases Nat.eq_zero_or_pos Ndown with h | h <;> simp [h, downR, ramp, strobo_mul _ _ _ _ hL]
  constructor
  · simp only [List.flatMap_cons, List.flatMap_nil, List.append_nil, hu, hd, Option.elim_some, constR, ramp]
    have e : (Nup + Nconst + Ndown) * L + 1 = Nup * L + ((Nconst * L + 1) + Ndown * L) := by ring
    rw [e, range_append _ (Nup * L), range_append _ (Nconst * L + 1)]
    congr 2
    refine List.map_congr_left fun k _ => ?_
    congr 1
    ring
  · simp only [List.flatMap_cons, List.flatMap_nil, List.append_nil, hu', hd', Option.elim_some, constR, ramp, strobo_mul_one _ _ _ _ hL]
    have e : Nup + Nconst + Ndown + 1 = Nup + ((Nconst + 1) + Ndown) := by ring
    rw [e, range_append _ Nup, range_append _ (Nconst + 1)]
    congr 2
    · refine List.map_congr_left fun k _ => ?_
      ring
    · refine List.map_congr_left fun k _ => ?_
      ring

/-- The stroboscopic indices of the segments `up` and `const` point at their stroboscopic times in the whole vector.
Missing: the segment `down`, where it is false (`C40_fails_down`). -/
theorem C40_segment_strobo_partial (hL : 0 < L) (r : Ramp) (hr : (X).up = some r ∨ (X).const = some r) :
    r.strobo.inds.map (fun i => (X).vals[i]?) = r.strobo.vals.map some := by
  have hs := segments Omega Nconst L Nup Ndown hL
  simp only [Prod.mk.injEq] at hs
  rw [hs.1, hs.2.1] at hr
  rw [vals_eq _ _ _ _ _ hL]
  have get (k : ℕ) (hk : k ≤ (Nup + Nconst + Ndown) * L) :
      (List.map (pt T Nup L) (List.range ((Nup + Nconst + Ndown) * L + 1)))[k]? = some (pt T Nup L k) := by
    rw [List.getElem?_map, List.getElem?_range (by omega)]; rfl
  rcases hr with hr | hr
  · split_ifs at hr
    cases hr
    simp only [upR, ramp, strobo_mul _ _ _ _ hL, List.map_map]
    refine List.map_congr_left fun j hj => ?_
    exact get _ (Nat.mul_le_mul_right L (by have := List.mem_range.mp hj; omega))
  · split_ifs at hr
    cases hr
    simp only [constR, ramp, strobo_mul_one _ _ _ _ hL, List.map_map]
    refine List.map_congr_left fun j hj => ?_
    have hle : j * L + Nup * L ≤ (Nup + Nconst + Ndown) * L := by
      rw [← Nat.add_mul]; exact Nat.mul_le_mul_right L (by have := List.mem_range.mp hj; omega)
    simp only [Function.comp]
    rw [get _ hle, Nat.add_comm (j * L)]

/-- Ends and duration of the constant segment agree. -/
theorem C40_const (hL : 0 < L) (r : Ramp) (hr : (X).const = some r) :
    r.i = 0 ∧ r.f = Nconst * T ∧ r.tot = r.f - r.i ∧ r.len = Nconst * L + 1 := by
  have hs := segments Omega Nconst L Nup Ndown hL
  simp only [Prod.mk.injEq] at hs
  rw [hs.2.1] at hr
  split_ifs at hr
  cases hr
  have hL' : (L : ℝ) ≠ 0 := by positivity
  have h1 : (constR Omega Nconst L Nup).i = 0 := by
    simp only [constR, ramp]; rw [List.range_succ_eq_map]; simp [pt, hL']
  have h2 : (constR Omega Nconst L Nup).f = Nconst * T := by
    simp only [constR, ramp]; rw [List.range_succ, List.map_append]; simp [pt]; field_simp; ring
  refine ⟨h1, h2, ?_, ?_⟩
  · rw [h1, h2]; simp [constR, ramp]
  · simp [constR, ramp]

/-- `get_coordinates(index)` is the number of the period and the position in it, for every tolerance below the time step. -/
theorem C40_coordinates (eps : ℝ) (index : ℕ) (hL : 0 < L) (hO : 0 < Omega) (he : 0 < eps) (heT : eps < T / L)
    (hN : 0 < Nup + Nconst + Ndown) (hi : index < (X).vals.length) :
    ∃ i j s, getCoordinates X eps index = some (i, j) ∧ j < L ∧ (X).strobo.inds[i]? = some s ∧ s + j = index := by
  rw [vals_eq _ _ _ _ _ hL] at hi
  simp only [List.length_map, List.length_range] at hi
  refine ⟨index / L, index % L, index / L * L, coordinates Omega Nconst L Nup Ndown eps index hL hO he heT hN (by omega),
    Nat.mod_lt _ hL, ?_, Nat.div_add_mod' index L⟩
  rw [strobo_eq _ _ _ _ _ hL, List.getElem?_map, List.getElem?_range]
  · rfl
  · have := Nat.div_le_of_le_mul (m := index) (k := L) (n := Nup + Nconst + Ndown) (by rw [Nat.mul_comm]; omega)
    omega

/-- DEFECT: the stroboscopic times of `down` are taken one point after the beginning of the segment's periods: they are not the times
its indices point at, as soon as there are two points in a period. -/
theorem C40_fails_down (hO : 0 < Omega) (hL : 2 ≤ L) (hd : 0 < Ndown) :
    ∃ r, (X).down = some r ∧ ∀ j < Ndown, ∃ i a b, r.strobo.inds[j]? = some i ∧ r.strobo.vals[j]? = some a ∧ (X).vals[i]? = some b ∧
      a = T * (Nconst + j + 1 / L) ∧ b = T * (Nconst + j + 1) ∧ a ≠ b := by
  have hL0 : 0 < L := by omega
  have hs := segments Omega Nconst L Nup Ndown hL0
  simp only [Prod.mk.injEq] at hs
  have hL' : (L : ℝ) ≠ 0 := by positivity
  refine ⟨_, by rw [hs.2.2, if_pos hd], fun j hj => ⟨j * L + (Nup + Nconst + 1) * L, pt T Nup L ((Nup + Nconst) * L + 1 + j * L),
    pt T Nup L (j * L + (Nup + Nconst + 1) * L), ?_, ?_, ?_, ?_, ?_, ?_⟩⟩
  · simp [downR, ramp, strobo_mul _ _ _ _ hL0, hj]
  · simp [downR, ramp, strobo_mul _ _ _ _ hL0, hj]
  · rw [vals_eq _ _ _ _ _ hL0, List.getElem?_map, List.getElem?_range]
    · rfl
    · rw [← Nat.add_mul]
      have := Nat.mul_le_mul_right L (show j + (Nup + Nconst + 1) ≤ Nup + Nconst + Ndown by omega)
      omega
  · simp only [pt]; push_cast; field_simp; ring
  · simp only [pt]; push_cast; field_simp; ring
  · have hT : 0 < T := by positivity
    have hlt : (1 : ℝ) / L < 1 := by
      rw [div_lt_one (by positivity)]
      exact_mod_cast (by omega : 1 < L)
    have e1 : pt T Nup L ((Nup + Nconst) * L + 1 + j * L) = T * (Nconst + j + 1 / L) := by
      simp only [pt]; push_cast; field_simp; ring
    have e2 : pt T Nup L (j * L + (Nup + Nconst + 1) * L) = T * (Nconst + j + 1) := by
      simp only [pt]; push_cast; field_simp; ring
    rw [e1, e2]
    intro h
    have := mul_left_cancel₀ hT.ne' h
    linarith

/-- DEFECT: without ramps the segment `const` is missing. -/
theorem C40_fails_no_ramp (hL : 0 < L) : (floquet Omega Nconst L 0 0).const = none := by
  have hs := segments Omega Nconst L 0 0 hL
  simp only [Prod.mk.injEq] at hs
  rw [hs.2.1]; simp

/-- DEFECT: the duration of the ramp `up` is not the difference of its ends. -/
theorem C40_fails_up_duration (hO : 0 < Omega) (hL : 0 < L) (hu : 0 < Nup) :
    ∃ r, (X).up = some r ∧ r.tot = r.f - r.i + T / L ∧ r.tot ≠ r.f - r.i := by
  have hs := segments Omega Nconst L Nup Ndown hL
  simp only [Prod.mk.injEq] at hs
  have hL' : (L : ℝ) ≠ 0 := by positivity
  have key : (upR Omega L Nup).tot = (upR Omega L Nup).f - (upR Omega L Nup).i + T / L := by
    obtain ⟨m, hm⟩ : ∃ m, Nup * L = m + 1 := ⟨Nup * L - 1, by have := Nat.mul_pos hu hL; omega⟩
    have hm' : (Nup : ℝ) * L = m + 1 := by exact_mod_cast hm
    have h1 : (upR Omega L Nup).i = pt T Nup L 0 := by
      simp only [upR, ramp]; rw [hm, List.range_succ_eq_map]; simp
    have h2 : (upR Omega L Nup).f = pt T Nup L m := by
      simp only [upR, ramp]; rw [hm, List.range_succ, List.map_append]; simp
    have h3 : (upR Omega L Nup).tot = Nup * T := rfl
    have : (Nup : ℝ) = (m + 1) / L := by rw [← hm']; field_simp
    rw [h1, h2, h3]
    simp only [pt]
    rw [this]
    push_cast
    ring
  refine ⟨_, by rw [hs.1, if_pos hu], key, ?_⟩
  have : 0 < T / L := by positivity
  rw [key]
  intro h
  linarith

/-- DEFECT: for a vector without periods `get_coordinates` raises for the one index there is. -/
theorem C40_fails_coordinates (eps : ℝ) (hL : 0 < L) :
    (floquet Omega 0 L 0 0).vals.length = 1 ∧ getCoordinates (floquet Omega 0 L 0 0) eps 0 = none := by
  constructor
  · rw [vals_eq _ _ _ _ _ hL]; simp
  · unfold getCoordinates
    rw [strobo_eq _ _ _ _ _ hL]
    simp

end

/-- Non-vacuity: a ramp of one period up, two constant ones and one down, three points each. -/
example : (0 < 3) ∧ (0 < 1 ∨ 0 < 1) ∧ (floquet 1 2 3 1 1).vals.length = 13 ∧ (floquet 1 2 3 1 1).strobo.inds = [0, 3, 6, 9, 12] ∧
    (∃ r, (floquet 1 2 3 1 1).up = some r) ∧ (∃ r, (floquet 1 2 3 1 1).const = some r ∧ r.strobo.inds = [3, 6, 9]) := by
  refine ⟨by norm_num, by norm_num, ?_, ?_, ?_, ?_⟩
  · rw [vals_eq _ _ _ _ _ (by norm_num)]; simp
  · rw [strobo_eq _ _ _ _ _ (by norm_num)]; decide
  · have hs := segments 1 2 3 1 1 (by norm_num)
    simp only [Prod.mk.injEq] at hs
    exact ⟨_, hs.1⟩
  · have hs := segments 1 2 3 1 1 (by norm_num)
    simp only [Prod.mk.injEq] at hs
    refine ⟨_, hs.2.1, ?_⟩
    have := strobo_mul_one (fun k => pt (2 * Real.pi / 1) 1 3 (1 * 3 + k)) 2 3 3 (by norm_num)
    simp only [constR, ramp, Nat.one_mul] at this ⊢
    rw [this]
    decide

/-- Non-vacuity: the tolerance of the code, an index inside the vector. -/
example : (0 : ℝ) < 1 / 10 ^ 15 ∧ (1 : ℝ) / 10 ^ 15 < 2 * Real.pi / 1 / (3 : ℕ) ∧ 7 < (floquet 1 2 3 1 1).vals.length := by
  refine ⟨by norm_num, ?_, ?_⟩
  · have := Real.pi_gt_three
    norm_num
    linarith
  · rw [vals_eq _ _ _ _ _ (by norm_num)]; simp

end Props
