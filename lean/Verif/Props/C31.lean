import Verif.Proof.Tensor
import Mathlib.Tactic.LinearCombination

/-!
C31: strings of ladder operators of an oscillator with levels `0..Np`.

`Spec.Oscillator` has the operators on all levels; `element X m c` is `⟨m| X |c⟩`.
-/

namespace Props
open Model.Tensor Spec.Kronecker Proof.Tensor
open Spec.Oscillator (string element)

/-- One entry for every column `c`, in order: its row is a level `0..Np`, and it is the matrix element of the operator on all levels; all other
matrix elements between the levels `0..Np` vanish.  Partial: the type of the levels must have room for all levels that are reached
(`C31_fails_room`). -/
theorem C31_partial (Np : ℕ) (opstr : List Char) (indx : List ℕ) (J : ℂ) (X : Spec.Oscillator.Vec →ₗ[ℂ] Spec.Oscillator.Vec)
    (hX : string opstr = some X) (hlen : opstr.length = indx.length)
    (hroom : ∀ w, width (Np + 1) = some w → Np + opstr.length < 2 ^ (w - 1)) :
    ∃ l, hoOp Np opstr indx J = some l ∧ l.length = Np + 1 ∧
      ∀ c ≤ Np, ∃ me : ℂ, ∃ row : ℕ, l[c]? = some (me, (row : ℤ), (c : ℤ)) ∧ row ≤ Np ∧
        ∀ m ≤ Np, J * element X m c = if m = row then me else 0 := by
  have hcol := fun (c : ℕ) (hc : c ≤ Np) => column_string opstr X hX hroom J c hc
  let g : ℕ → ℂ × ℤ × ℤ := fun c => (column (Np + 1) opstr J c).getD (0, 0, 0)
  have hg : ∀ c ∈ List.range (Np + 1), column (Np + 1) opstr J c = some (g c) := by
    intro c hc
    obtain ⟨me, row, h, -⟩ := hcol c (by have := List.mem_range.mp hc; omega)
    simp only [g, h, Option.getD_some]
  refine ⟨(List.range (Np + 1)).map g, ?_, by simp, fun c hc => ?_⟩
  · unfold hoOp
    rw [if_neg (by simpa using hlen), mapM_some _ _ g hg]
  · obtain ⟨me, row, h, h1, h2⟩ := hcol c hc
    refine ⟨me, row, ?_, h1, h2⟩
    rw [List.getElem?_map, List.getElem?_range (by omega), Option.map_some]
    simp only [g, h, Option.getD_some]

theorem sum_one (n c : ℕ) (F : ℕ → ℂ) (h : ∀ i < n, i ≠ c → F i = 0) : ((List.range n).map F).sum = if c < n then F c else 0 := by
  induction n with
  | zero => simp
  | succ n ih =>
    rw [List.range_succ, List.map_append, List.sum_append, ih fun i hi => h i (by omega), List.map_singleton, List.sum_singleton]
    by_cases hc : c < n
    · rw [if_pos hc, if_pos (by omega), h n (by omega) (by omega), add_zero]
    · by_cases he : c = n
      · subst he
        rw [if_neg hc, if_pos (by omega), zero_add]
      · rw [if_neg hc, if_neg (by omega), h n (by omega) (fun e => he e.symm), add_zero]

/-- The same as a matrix: inside of the levels `0..Np` it is `J` times the operator on all levels.
Missing: levels beyond the integer type chosen from the cutoff (`C31_fails_room`). -/
theorem C31_matrix_partial (Np : ℕ) (opstr : List Char) (indx : List ℕ) (J : ℂ) (X : Spec.Oscillator.Vec →ₗ[ℂ] Spec.Oscillator.Vec)
    (hX : string opstr = some X) (hlen : opstr.length = indx.length)
    (hroom : ∀ w, width (Np + 1) = some w → Np + opstr.length < 2 ^ (w - 1)) :
    ∃ l, hoOp Np opstr indx J = some l ∧ Inside (Np + 1) l ∧ ∀ m ≤ Np, ∀ c ≤ Np, entry l m c = J * element X m c := by
  obtain ⟨l, h1, h2, h3⟩ := C31_partial Np opstr indx J X hX hlen hroom
  refine ⟨l, h1, ?_, fun m hm c hc => ?_⟩
  · intro t ht
    obtain ⟨c, hc, rfl⟩ := List.mem_iff_getElem.mp ht
    obtain ⟨me, row, e, hr, -⟩ := h3 c (by omega)
    rw [List.getElem?_eq_getElem hc] at e
    rw [Option.some.inj e]
    simp only
    omega
  · have hl : l = (List.range (Np + 1)).map fun c => (l[c]?).getD (0, 0, 0) := by
      apply List.ext_getElem?
      intro i
      by_cases hi : i < Np + 1
      · rw [List.getElem?_map, List.getElem?_range hi, Option.map_some, List.getElem?_eq_getElem (by omega), Option.getD_some]
      · rw [List.getElem?_eq_none (by omega), List.getElem?_eq_none (by simpa using hi)]
    rw [entry_sum]
    conv_lhs => rw [hl]
    rw [List.map_map, sum_one (Np + 1) c]
    · obtain ⟨me, row, e, hr, he⟩ := h3 c hc
      rw [if_pos (by omega), he m hm]
      simp only [Function.comp_apply, e, Option.getD_some, Nat.cast_inj, and_true]
      by_cases hmr : m = row
      · rw [if_pos hmr, if_pos hmr.symm]
      · rw [if_neg hmr, if_neg (fun h => hmr h.symm)]
    · intro i hi hne
      obtain ⟨me, row, e, -⟩ := h3 i (by omega)
      simp only [Function.comp_apply, e, Option.getD_some, Nat.cast_inj]
      rw [if_neg (fun h => hne h.2)]

/-- Any other symbol, and a wrong number of indices, end with an exception. -/
theorem C31_error (Np : ℕ) (opstr : List Char) (indx : List ℕ) (J : ℂ) (h : string opstr = none ∨ opstr.length ≠ indx.length) :
    hoOp Np opstr indx J = none := by
  unfold hoOp
  by_cases hl : opstr.length = indx.length
  · rw [if_neg (by simpa using hl)]
    have hs := h.resolve_right (not_not.mpr hl)
    have hnone : ∀ (os : List Char) (p : ℂ × ℤ), string os = none → symbols (Np + 1) os p = none := by
      intro os
      induction os with
      | nil => intro p hp; simp [string] at hp
      | cons o os ih =>
        intro p hp
        unfold string at hp
        unfold symbols
        rcases he : string os with _ | Y
        · rw [ih p he, Option.bind_none]
        · rcases hx : Spec.Oscillator.symbol o with _ | x
          · rcases symbols (Np + 1) os p with _ | q
            · rfl
            · rw [Option.bind_some]
              unfold Spec.Oscillator.symbol at hx
              unfold symbol
              split at hx <;> simp_all
          · rw [hx, he] at hp
            simp at hp
    rw [List.range_succ_eq_map, List.mapM_cons]
    have : column (Np + 1) opstr J 0 = none := by rw [column, hnone _ _ hs, Option.map_none]
    rw [this]
    rfl
  · rw [if_pos hl]

/-! ### Defect -/

/-- With 128 levels the levels are stored in eight bits.  The string `-+` is `n + 1`, but the element of the highest level comes out as `-128`
instead of `128` (for a real data type: NaN). -/
theorem C31_fails_room : column (127 + 1) ['-', '+'] 1 127 = some (-128, 127, 127) ∧
    ∃ X, string ['-', '+'] = some X ∧ element X 127 127 = 128 := by
  constructor
  · have h1 : store (127 + 1) ((127 : ℕ) : ℤ) = 127 := by decide
    have h2 : store (127 + 1) (127 + 1) = -128 := by decide
    have h3 : absolute (127 + 1) (-128) = -128 := by decide
    have h4 : store (127 + 1) (-128 - 1) = 127 := by decide
    have h5 : sqrt (-128) * sqrt (-128) = -128 := by
      have hs : ((Real.sqrt 128 : ℝ) : ℂ) * ((Real.sqrt 128 : ℝ) : ℂ) = 128 := by
        rw [← Complex.ofReal_mul, Real.mul_self_sqrt (by norm_num)]
        norm_num
      have hd : sqrt (-128) = Complex.I * ((Real.sqrt 128 : ℝ) : ℂ) := by
        unfold sqrt
        rw [if_neg (by norm_num)]
        norm_num
      rw [hd]
      linear_combination (Complex.I * Complex.I) * hs + 128 * Complex.I_mul_I
    unfold column
    simp only [symbols, symbol, h1, h2, h3, h4, Option.bind_some, Option.map_some, if_true, reduceCtorEq, if_false, Char.reduceEq, one_mul, h5]
    norm_num
  · refine ⟨_, rfl, ?_⟩
    simp only [element, LinearMap.comp_apply, LinearMap.id_apply, raise_single, lower_single]
    have hs : ((Real.sqrt 128 : ℝ) : ℂ) * ((Real.sqrt 128 : ℝ) : ℂ) = 128 := by
      rw [← Complex.ofReal_mul, Real.mul_self_sqrt (by norm_num)]
      norm_num
    norm_num [Finsupp.single_apply]
    exact hs

/-! ### Non-vacuity -/

/-- Ten levels: room for strings of up to 118 symbols, so that intermediate levels may leave `0..9`. -/
example : ∀ w, width (9 + 1) = some w → 9 + 118 < 2 ^ (w - 1) := by
  intro w hw
  have : width (9 + 1) = some 8 := by decide
  rw [this] at hw
  obtain rfl := Option.some.inj hw
  norm_num

example : ∃ X, string ['n', '-', '+', 'I'] = some X := ⟨_, rfl⟩

end Props
