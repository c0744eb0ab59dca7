import Verif.Proof.Levels
import Verif.Props.C10
import Verif.Props.C02
/-!
C12  Boson and higher-spin operator strings act as products of truncated single-site matrices.
C35  The integer type chosen for a basis is wide enough.

`Spec.boson sps`, `Spec.spin sps` are the textbook single-site matrices truncated to `sps` levels.
Vocabulary for the number of quanta during the application of a string: `times o l` is the number of
symbols `o` in `l`.
-/
namespace Props
open Spec Model Proof.Ops Proof.Digits

/-- Bosons, when all `sps^N` configurations fit the integer type (always the case for a basis without
a fixed number of particles, `C35_all_states_fit`).
Missing: `z` of the general boson basis, which is wrong (`C12_boson_z_wrong`), and configurations that do not fit the integer type (C35). -/
theorem C12_boson_partial (w N sps : Nat) [NeZero sps] (h1 : 1 < sps) (hw : sps ^ N ≤ 2 ^ w) (str : List (Char × Fin N))
    (hstr : ∀ p ∈ str, p.1 ∈ ['I', 'n', '+', '-']) (s : Nat) (hs : s < sps ^ N) (A : ℂ) :
    IsColumn (b := sps) (A • stringOp (fun o i => onSite (boson sps o) i) str) s
      (bosonOp w sps N (sites str) s A) := by
  obtain ⟨y, h, hy, hC⟩ := level_full w h1 hw (boson sps) (bosonStep w sps N) _ (boson_stepOk w)
    (fun x => x.diag = 0 ∨ x.off = 0) (fun _ h => h) (fun y h e => h (.inr e)) str hstr s hs A
  refine ⟨_, _, ?_, hy, hC⟩
  rw [bosonOp, sites_reverse, h]; rfl

/-- Higher spins, when all configurations fit. -/
theorem C12_higher_spin (w N sps : Nat) [NeZero sps] (h1 : 1 < sps) (hw : sps ^ N ≤ 2 ^ w) (str : List (Char × Fin N))
    (hstr : ∀ p ∈ str, p.1 ∈ ['I', 'z', '+', '-']) (s : Nat) (hs : s < sps ^ N) (A : ℂ) :
    IsColumn (b := sps) (A • stringOp (fun o i => onSite (spin sps o) i) str) s
      (higherSpinOp w sps N (sites str) s A) := by
  obtain ⟨y, h, hy, hC⟩ := level_full w h1 hw (spin sps) (higherSpinStep w sps N) _ (higherSpin_stepOk w)
    (fun x => x.diag = 0 ∨ x.off = 0) (fun _ h => h) (fun y h e => h (.inr e)) str hstr s hs A
  refine ⟨_, _, ?_, hy, hC⟩
  rw [higherSpinOp, sites_reverse, h]; rfl

/-- One-dimensional boson (`spinMe = false`) and spin-S (`spinMe = true`) bases. -/
theorem C12_one_dimensional (spinMe : Bool) (w L sps : Nat) [NeZero sps] (h1 : 1 < sps) (hw : sps ^ L ≤ 2 ^ w)
    (str : List (Char × Fin L))
    (hstr : ∀ p ∈ str, p.1 ∈ (if spinMe then ['I', 'z', '+', '-'] else ['I', 'z', 'n', '+', '-']))
    (s : Nat) (hs : s < sps ^ L) (J : ℂ) :
    IsColumn (b := sps) (J • stringOp (fun o i => onSite ((if spinMe then spin sps else boson sps) o) i) str) s
      (boson1dOp spinMe w sps L (sites str) s J) := by
  obtain ⟨y, h, hy, hC⟩ := level_full w h1 hw _ (boson1dStep spinMe w sps L) _ (boson1d_step spinMe w)
    (fun x => x.off = 0) (fun _ h => .inr h) (fun _ h => h) str hstr s hs J
  refine ⟨_, _, ?_, hy, hC⟩
  rw [boson1dOp, sites_reverse, h, Option.map_some, mul_comm y.diag]

/-- With a fixed number of quanta `Np > 0` the library selects a type that holds the configurations
with at most `Np` quanta.  A string is applied correctly if, applying its symbols from the right, the
number of quanta never exceeds `Np` (in particular every normal ordered string, and every string in
which each `+` has its own `-` to its right).
`C35_overflow_loses_matrix_element` shows that this condition is needed.
Missing: strings that exceed the number on the way, which can overflow (`C35_overflow_loses_matrix_element`). -/
theorem C35_number_bounded_partial (N sps Np w : Nat) [NeZero sps] (hs2 : 2 < sps) (hNp : 0 < Np)
    (hw : getBasisType N (some Np) sps = some w) (str : List (Char × Fin N)) (s : Nat) (hs : s < sps ^ N)
    (hpeak : ∀ l, l <:+ str → dsum sps N s + times '+' l ≤ Np + times '-' l) (A : ℂ) :
    ((∀ p ∈ str, p.1 ∈ ['I', 'n', '+', '-']) →
      IsColumn (b := sps) (A • stringOp (fun o i => onSite (boson sps o) i) str) s
        (bosonOp w sps N (sites str) s A)) ∧
    ((∀ p ∈ str, p.1 ∈ ['I', 'z', '+', '-']) →
      IsColumn (b := sps) (A • stringOp (fun o i => onSite (spin sps o) i) str) s
        (higherSpinOp w sps N (sites str) s A)) := by
  obtain ⟨_, _, hfit⟩ := Proof.Boson.basisType_fits N sps Np w hs2 hw
  have hpow : ∀ k < N, sps ^ k < 2 ^ w := by
    intro k hk
    have hlt : sps ^ k < sps ^ N := Nat.pow_lt_pow_right (by omega) hk
    refine hfit _ hlt ?_
    have := dsum_set (N := N) (b := sps) 0 (0 + sps ^ k) k _ hk (fun j => digit_inc 0 k j (by
      simp [digit]; omega))
    rw [Nat.zero_add, dsum_of_zero] at this
    omega
  have hB : Below Np sps str.reverse s := by
    intro l hl
    have h := hpeak l.reverse (by
      rw [← List.reverse_prefix, List.reverse_reverse]; exact hl)
    simpa [times] using h
  refine ⟨fun hstr => ?_, fun hstr => ?_⟩
  · obtain ⟨y, h, hy, hC⟩ := level_bounded w Np hfit hpow (boson sps) (bosonStep w sps N) _ (boson_stepOk w)
      (fun x => x.diag = 0 ∨ x.off = 0) (fun _ h => h) (fun y h e => h (.inr e)) str hstr s hs hB A
    refine ⟨_, _, ?_, hy, hC⟩
    rw [bosonOp, sites_reverse, h]; rfl
  · obtain ⟨y, h, hy, hC⟩ := level_bounded w Np hfit hpow (spin sps) (higherSpinStep w sps N) _ (higherSpin_stepOk w)
      (fun x => x.diag = 0 ∨ x.off = 0) (fun _ h => h) (fun y h e => h (.inr e)) str hstr s hs hB A
    refine ⟨_, _, ?_, hy, hC⟩
    rw [higherSpinOp, sites_reverse, h]; rfl

/-- Without a fixed number of particles every configuration fits the selected type: `sps > 2`, and
two levels per site. -/
theorem C35_all_states_fit (N sps w : Nat) (hs : 2 ≤ sps) (hw : getBasisType N none sps = some w) :
    sps ^ N ≤ 2 ^ w := by
  unfold getBasisType at hw
  simp only [Option.map_none, Option.getD_none, Bool.false_eq_true, if_false] at hw
  split at hw
  · have h1 := Proof.HcbBasis.widthFor_ge _ _ hw
    have hpos : 0 < sps ^ N := Nat.pow_pos (by omega)
    have h1 : bitLength (sps ^ N - 1) (sps ^ N - 1) ≤ w := h1
    have h2 := Proof.Boson.bitLength_lt (sps ^ N - 1) (sps ^ N - 1) (Nat.le_refl _)
    have h3 := Nat.pow_le_pow_right (n := 2) (by omega) h1
    omega
  · split at hw
    · rename_i h2; subst h2
      exact Nat.pow_le_pow_right (by omega) (Proof.HcbBasis.widthFor_ge _ _ hw)
    · simp at hw

/-- With a fixed number of quanta every configuration of the basis fits the selected type. -/
theorem C35_sector_fits (N sps Np w : Nat) (hs : 2 < sps) (hw : getBasisType N (some Np) sps = some w)
    (s : Nat) (h1 : s < sps ^ N) (h2 : ((List.range N).map (occ sps N s)).sum ≤ Np) : s < 2 ^ w := by
  rw [← dsum_is_total_occupation] at h2
  exact (Proof.Boson.basisType_fits N sps Np w hs hw).2.2 s h1 h2

/-- Defect: a basis of 21 three-level sites with one quantum is stored in 32 bits; moving the quantum
from site 1 to site 0 with the string `"-+"` on sites `[1,0]` gives zero (the raised
intermediate state does not fit), while the operator has the matrix element 1 there. -/
theorem C35_overflow_loses_matrix_element :
    getBasisType 21 (some 1) 3 = some 32 ∧
    (∃ r, bosonOp 32 3 21 [('-', 1), ('+', 0)] (3 ^ 19) 1 = some (r, 0)) ∧
    (stringOp (b := 3) (N := 21) (fun o i => onSite (boson 3 o) i) [('-', 1), ('+', 0)])
      (conf 3 21 (3 ^ 20)) (conf 3 21 (3 ^ 19)) = 1 := by
  refine ⟨by decide +kernel, ?_, ?_⟩
  · have d1 : digitM 32 3 (3 ^ 19) 20 = 0 := by decide +kernel
    have d2 : digitM 32 3 (Word.add 32 (3 ^ 19) (powM 32 3 20)) 19 = 0 := by decide +kernel
    generalize (3 ^ 19 : Nat) = q at *
    have e1 : bosonStep 32 3 21 '+' 0 ⟨q, 1, 1⟩ = some ⟨Word.add 32 q (powM 32 3 20), 1, 1⟩ := by
      simp [bosonStep, d1]
    have e2 : bosonStep 32 3 21 '-' 1 ⟨Word.add 32 q (powM 32 3 20), 1, 1⟩
        = some ⟨Word.sub 32 (Word.add 32 q (powM 32 3 20)) 0, 1, 0⟩ := by
      simp [bosonStep, d2]
    exact ⟨q, by simp [bosonOp, levelLoop, e1, e2]⟩
  · obtain ⟨r, m, h, _, hC⟩ := C12_boson_partial 64 21 3 (by decide) (by decide) [('-', 1), ('+', 0)]
      (by decide) (3 ^ 19) (by decide) 1
    have d1 : digitM 64 3 (3 ^ 19) 20 = 0 := by decide +kernel
    have d2 : digitM 64 3 (Word.add 64 (3 ^ 19) (powM 64 3 20)) 19 = 1 := by decide +kernel
    have d3 : Word.sub 64 (Word.add 64 (3 ^ 19) (powM 64 3 20)) (powM 64 3 19) = 3 ^ 20 := by decide +kernel
    generalize (3 ^ 19 : Nat) = q at *
    have e1 : bosonStep 64 3 21 '+' 0 ⟨q, 1, 1⟩ = some ⟨Word.add 64 q (powM 64 3 20), 1, 1⟩ := by
      simp [bosonStep, d1]
    have e2 : bosonStep 64 3 21 '-' 1 ⟨Word.add 64 q (powM 64 3 20), 1, 1⟩ = some ⟨3 ^ 20, 1, 1⟩ := by
      rw [← d3]; simp [bosonStep, d2]
    generalize (3 ^ 20 : Nat) = q' at *
    have e : bosonOp 64 3 21 (sites (N := 21) [('-', 1), ('+', 0)]) q 1 = some (q', 1) := by
      simp [bosonOp, levelLoop, sites, e1, e2]
    rw [e] at h
    simp only [Option.some.injEq, Prod.mk.injEq] at h
    obtain ⟨rfl, rfl⟩ := h
    have := hC (conf 3 21 q')
    rwa [one_smul, if_pos rfl] at this

/-- Defect: in the general boson basis the symbol `z` multiplies `(n - (sps-1)/2) * n` instead of
`n - (sps-1)/2`: an empty site gives 0. -/
theorem C12_boson_z_wrong (w N sps : Nat) [NeZero sps] (h1 : 1 < sps) (i : Fin N) :
    (∃ r, bosonOp w sps N [('z', i)] 0 1 = some (r, 0)) ∧
    onSite (boson sps 'z') i (conf sps N 0) (conf sps N 0) = -((sps : ℂ) - 1) / 2 ∧
    -((sps : ℂ) - 1) / 2 ≠ 0 := by
  refine ⟨⟨0, ?_⟩, ?_, ?_⟩
  · have d : digitM w sps 0 (N - i - 1) = 0 := by simp [digitM]
    simp [bosonOp, levelLoop, bosonStep, d]
  · have : occ sps N 0 i = 0 := by simp [occ, digit]
    simp [onSite, boson, conf, this]; ring
  · have : (sps : ℂ) ≠ 1 := by
      have : sps ≠ 1 := by omega
      exact_mod_cast this
    intro h
    apply this
    have h2 : (sps : ℂ) - 1 = 0 := by linear_combination (-2) * h
    linear_combination h2

example : (3 : Nat) ^ 20 ≤ 2 ^ 32 ∧ ∀ p ∈ ([('+', 3), ('-', 7), ('n', 7)] : List (Char × Fin 20)),
    p.1 ∈ ['I', 'n', '+', '-'] := by decide
/-- `"+-"` on a basis with one quantum meets the condition of `C35_number_bounded_partial`. -/
example : ∀ l, l <:+ ([('+', 0), ('-', 1)] : List (Char × Fin 21)) →
    dsum 3 21 (3 ^ 19) + times '+' l ≤ 1 + times '-' l := by
  intro l hl
  have h : dsum 3 21 (3 ^ 19) = 1 := by decide +kernel
  rw [h]
  simp only [List.suffix_cons_iff, List.suffix_nil] at hl
  rcases hl with rfl | rfl | rfl <;> decide

end Props
