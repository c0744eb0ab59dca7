import Verif.Proof.Fermion
import Verif.Props.C10
/-!
C11  Fermionic operators satisfy the canonical anticommutation relations.

Two forms: operator strings act as products of Jordan-Wigner operators (`Spec.fermion`), and the
two-operator strings themselves satisfy the relations.  Spinful fermions use the same code on `2N`
sites (up species first), so the relations also hold within and between species.
Both are true up to 256 sites and fail from 257 sites on (the sign is computed with the bit count of
C03), which is proved as well.
-/
namespace Props
open Spec Model Proof.Ops

/-- Strings act as products of Jordan-Wigner operators.  Full statement: for every number of sites;
missing: more than 256 sites, where it is false (`C11_fails_at_257_sites`). -/
theorem C11_strings_partial (B N : Nat) (hw : N ≤ 8 * B) (hN : N ≤ 256) (str : List (Char × Fin N))
    (hstr : ∀ p ∈ str, p.1 ∈ ['I', 'z', '+', '-', 'n']) (s : Nat) (hs : s < 2 ^ N) (A : ℂ) :
    IsColumn (b := 2) (A • stringOp fermion str) s (fermionOp (8 * B) N (sites str) s A) := by
  obtain ⟨r, m, h, hr, hC⟩ := opLoop_spec (b := 2) fermion (fermionStep (8 * B) N)
    (fun o => o ∈ ['I', 'z', '+', '-', 'n'])
    (fun o i r x ho hr => fermion_step B hw hN o i r x ho hr) s hs str.reverse (by simpa using hstr)
    (A • 1) s A hs (col_one s A)
  refine ⟨r, m, ?_, hr, ?_⟩
  · rw [fermionOp, sites_reverse]; exact h
  · simpa [Col] using hC

/-- `⟨t|str|s⟩` as returned by the library for coupling 1. -/
noncomputable def amp (w N : Nat) (str : List (Char × Nat)) (s t : Nat) : ℂ :=
  match fermionOp w N str s 1 with
  | none => 0
  | some (r, m) => if t = r then m else 0

/-- Sign convention of the library at site `i`. -/
theorem step_pm (w N : Nat) (i : Fin N) (hN : N ≤ w) (r : Nat) (x : ℂ) (σ : Int)
    (h : fermionSign w r (N - i - 1) = some σ) :
    fermionStep w N '+' i (r, x) = some (r ^^^ 2 ^ (N - i - 1 : Nat), x * (if digit 2 r (N - i - 1) = 1 then 0 else (σ : ℂ))) ∧
    fermionStep w N '-' i (r, x) = some (r ^^^ 2 ^ (N - i - 1 : Nat), x * (if digit 2 r (N - i - 1) = 1 then (σ : ℂ) else 0)) := by
  have hi := i.2
  have hf : N - (i : Nat) - 1 < w := by omega
  unfold fermionStep
  simp only [h, shl_one w _ hf, shr_and_one]
  exact ⟨trivial, trivial⟩

/-- Weight of creation (`c = true`) or annihilation at bit position `p`. -/
noncomputable def weightOf (c : Bool) (r p : Nat) (σ : Int) : ℂ :=
  if (digit 2 r p = 1) = (c = true) then 0 else (σ : ℂ)

def sym : Bool → Char
  | true => '+'
  | false => '-'

theorem amp_two (w N : Nat) (hN : N ≤ w) (i j : Fin N) (c d : Bool) (s t : Nat) (σ τ : Int)
    (h1 : fermionSign w s (N - j - 1) = some σ)
    (h2 : fermionSign w (s ^^^ 2 ^ (N - j - 1 : Nat)) (N - i - 1) = some τ) :
    amp w N [(sym c, i), (sym d, j)] s t =
      if t = s ^^^ 2 ^ (N - j - 1 : Nat) ^^^ 2 ^ (N - i - 1 : Nat) then
        weightOf d s (N - j - 1) σ * weightOf c (s ^^^ 2 ^ (N - j - 1 : Nat)) (N - i - 1) τ else 0 := by
  obtain ⟨p1, m1⟩ := step_pm w N j hN s 1 σ h1
  have e1 : fermionStep w N (sym d) j (s, 1) = some (s ^^^ 2 ^ (N - j - 1 : Nat), weightOf d s (N - j - 1) σ) := by
    cases d
    · rw [show sym false = '-' from rfl, m1]; simp [weightOf]
    · rw [show sym true = '+' from rfl, p1]; simp [weightOf]
  have e2 : ∀ x : ℂ, fermionStep w N (sym c) i (s ^^^ 2 ^ (N - j - 1 : Nat), x)
      = some (s ^^^ 2 ^ (N - j - 1 : Nat) ^^^ 2 ^ (N - i - 1 : Nat), x * weightOf c (s ^^^ 2 ^ (N - j - 1 : Nat)) (N - i - 1) τ) := by
    intro x
    obtain ⟨p2, m2⟩ := step_pm w N i hN (s ^^^ 2 ^ (N - j - 1 : Nat)) x τ h2
    cases c
    · rw [show sym false = '-' from rfl, m2]; simp [weightOf]
    · rw [show sym true = '+' from rfl, p2]; simp [weightOf]
  unfold amp fermionOp
  simp only [List.reverse_cons, List.reverse_nil, List.nil_append, List.singleton_append, opLoop, e1]
  by_cases hz : weightOf d s (N - j - 1) σ = 0
  · simp [hz]
  · simp only [hz, if_false, e2]
    by_cases hz2 : weightOf d s (N - j - 1) σ * weightOf c (s ^^^ 2 ^ (N - j - 1 : Nat)) (N - i - 1) τ = 0
    · simp [hz2]
    · simp [hz2]

/-- Parity below a position after flipping a bit. -/
theorem parity_flip (s p q : Nat) :
    ((-1 : Int)) ^ count p (s ^^^ 2 ^ q) = (-1) ^ count p s * (if q < p then -1 else 1) := by
  rw [← prod_count, ← prod_count]
  by_cases h : q < p
  · rw [if_pos h, ← Finset.prod_erase_mul _ _ (Finset.mem_range.2 h),
      ← Finset.prod_erase_mul (Finset.range p) (fun k => if digit 2 s k = 1 then (-1 : Int) else 1)
        (Finset.mem_range.2 h), mul_assoc]
    congr 1
    · apply Finset.prod_congr rfl
      intro k hk
      rw [digit_flip, if_neg (Finset.ne_of_mem_erase hk)]
    · rw [digit_flip, if_pos rfl]
      rcases digit2_cases s q with h' | h' <;> simp [h']
  · rw [if_neg h, mul_one]
    apply Finset.prod_congr rfl
    intro k hk
    rw [Finset.mem_range] at hk
    have hkq : k ≠ q := by omega
    rw [digit_flip]; simp [hkq]

theorem sign_ok (B N : Nat) (hw : N ≤ 8 * B) (hN : N ≤ 256) (i : Fin N) (r : Nat) :
    fermionSign (8 * B) r (N - i - 1) = some ((-1) ^ count (N - i - 1) r) := by
  have hi := i.2
  refine fermionSign_eq B r _ (by omega) ?_
  have h2 := Proof.Gosper.count_le (N - i - 1) r
  omega

/-- Canonical anticommutation relations of the returned matrix elements, for all sites `i`, `j`, all
configurations `s` and all targets `t`:
`c_i c_j^† + c_j^† c_i = δ_ij`, `c_i c_j + c_j c_i = 0`, `c_i^† c_j^† + c_j^† c_i^† = 0`.
Full statement: for every number of sites; missing: more than 256 sites, where it is false. -/
theorem C11_anticommutation_partial (B N : Nat) (hw : N ≤ 8 * B) (hN : N ≤ 256) (i j : Fin N) (s t : Nat) :
    amp (8 * B) N [('-', i), ('+', j)] s t + amp (8 * B) N [('+', j), ('-', i)] s t
        = (if i = j ∧ t = s then 1 else 0) ∧
    amp (8 * B) N [('-', i), ('-', j)] s t + amp (8 * B) N [('-', j), ('-', i)] s t = 0 ∧
    amp (8 * B) N [('+', i), ('+', j)] s t + amp (8 * B) N [('+', j), ('+', i)] s t = 0 := by
  have hi := i.2
  have hj := j.2
  have key := fun (i j : Fin N) (c d : Bool) => amp_two (8 * B) N hw i j c d s t _ _
    (sign_ok B N hw hN j s) (sign_ok B N hw hN i _)
  have k1 := key i j false true
  have k2 := key j i true false
  have k3 := key i j false false
  have k4 := key j i false false
  have k5 := key i j true true
  have k6 := key j i true true
  simp only [sym, parity_flip] at k1 k2 k3 k4 k5 k6
  rw [k1, k2, k3, k4, k5, k6]
  have hx : s ^^^ 2 ^ (N - (i : Nat) - 1) ^^^ 2 ^ (N - (j : Nat) - 1)
      = s ^^^ 2 ^ (N - (j : Nat) - 1) ^^^ 2 ^ (N - (i : Nat) - 1) := by
    rw [Nat.xor_assoc, Nat.xor_comm (2 ^ _) (2 ^ _), ← Nat.xor_assoc]
  rw [hx]
  have hss : ∀ p, s ^^^ 2 ^ p ^^^ 2 ^ p = s := fun p => by rw [Nat.xor_assoc, Nat.xor_self, Nat.xor_zero]
  have sq : ∀ n : Nat, ((-1 : ℂ)) ^ n * (-1) ^ n = 1 := fun n => by rw [← pow_add, ← two_mul]; simp
  by_cases hij : i = j
  · subst hij
    simp only [hss, digit_flip, if_true, weightOf, Nat.lt_irrefl, if_false, mul_one]
    rcases digit2_cases s (N - i - 1) with h | h <;> by_cases hts : t = s <;> simp [h, hts, sq]
  · have hne : N - (i : Nat) - 1 ≠ N - (j : Nat) - 1 := by
      intro e; apply hij; apply Fin.ext; omega
    have hne' := hne.symm
    by_cases htt : t = s ^^^ 2 ^ (N - (j : Nat) - 1) ^^^ 2 ^ (N - (i : Nat) - 1)
    · simp only [htt, weightOf, digit_flip, hij, if_true, false_and, if_false, hne, hne']
      rcases Nat.lt_or_gt_of_ne hne with h | h
      · have h' : ¬ (N - (j : Nat) - 1 < N - (i : Nat) - 1) := by omega
        rcases digit2_cases s (N - i - 1) with h1 | h1 <;> rcases digit2_cases s (N - j - 1) with h2 | h2 <;>
          simp [h1, h2, h, h'] <;> ring
      · have h' : ¬ (N - (i : Nat) - 1 < N - (j : Nat) - 1) := by omega
        rcases digit2_cases s (N - i - 1) with h1 | h1 <;> rcases digit2_cases s (N - j - 1) with h2 | h2 <;>
          simp [h1, h2, h, h'] <;> ring
    · simp only [htt, hij, if_false, add_zero, false_and]; simp

/-- Spinful fermions: site `i` of the up species is site `i`, site `i` of the down species is site
`N + i` of `2N` sites; the relations hold within and between species.
Missing: more than 256 modes, where it is false (`C11_fails_at_257_sites`). -/
theorem C11_spinful_partial (B N : Nat) (hw : 2 * N ≤ 8 * B) (hN : N ≤ 128) (i j : Fin (2 * N)) (s t : Nat) :
    amp (8 * B) (2 * N) [('-', i), ('+', j)] s t + amp (8 * B) (2 * N) [('+', j), ('-', i)] s t
        = (if i = j ∧ t = s then 1 else 0) ∧
    amp (8 * B) (2 * N) [('-', i), ('-', j)] s t + amp (8 * B) (2 * N) [('-', j), ('-', i)] s t = 0 ∧
    amp (8 * B) (2 * N) [('+', i), ('+', j)] s t + amp (8 * B) (2 * N) [('+', j), ('+', i)] s t = 0 :=
  C11_anticommutation_partial B (2 * N) hw (by omega) i j s t

example : (40 : Nat) ≤ 8 * 8 ∧ (40 : Nat) ≤ 256 ∧ 2 * 30 ≤ 8 * 8 := by decide

/-- Defect: on 257 sites (1024-bit type, the type the library selects for 257 sites) the full
configuration violates `c_0 c_256 + c_256 c_0 = 0`. -/
theorem C11_fails_at_257_sites :
    amp 1024 257 [('-', 0), ('-', 256)] (2 ^ 257 - 1) (2 ^ 256 - 2)
      + amp 1024 257 [('-', 256), ('-', 0)] (2 ^ 257 - 1) (2 ^ 256 - 2) = -2 := by
  have a1 : fermionSign 1024 (2 ^ 257 - 1) (257 - (256 : Nat) - 1) = some 1 := by decide +kernel
  have a2 : fermionSign 1024 ((2 ^ 257 - 1) ^^^ 2 ^ (257 - (256 : Nat) - 1)) (257 - (0 : Nat) - 1) = some (-1) := by
    decide +kernel
  have a3 : fermionSign 1024 (2 ^ 257 - 1) (257 - (0 : Nat) - 1) = some (-1) := by decide +kernel
  have a4 : fermionSign 1024 ((2 ^ 257 - 1) ^^^ 2 ^ (257 - (0 : Nat) - 1)) (257 - (256 : Nat) - 1) = some 1 := by
    decide +kernel
  have k1 := amp_two 1024 257 (by decide) ⟨0, by decide⟩ ⟨256, by decide⟩ false false (2 ^ 257 - 1) (2 ^ 256 - 2) 1 (-1) a1 a2
  have k2 := amp_two 1024 257 (by decide) ⟨256, by decide⟩ ⟨0, by decide⟩ false false (2 ^ 257 - 1) (2 ^ 256 - 2) (-1) 1 a3 a4
  simp only [sym] at k1 k2
  rw [k1, k2]
  have d1 : digit 2 (2 ^ 257 - 1) (257 - (256 : Nat) - 1) = 1 := by decide +kernel
  have d2 : digit 2 ((2 ^ 257 - 1) ^^^ 2 ^ (257 - (256 : Nat) - 1)) (257 - (0 : Nat) - 1) = 1 := by decide +kernel
  have d3 : digit 2 (2 ^ 257 - 1) (257 - (0 : Nat) - 1) = 1 := by decide +kernel
  have d4 : digit 2 ((2 ^ 257 - 1) ^^^ 2 ^ (257 - (0 : Nat) - 1)) (257 - (256 : Nat) - 1) = 1 := by decide +kernel
  rw [if_pos (by decide +kernel), if_pos (by decide +kernel)]
  simp only [weightOf, d1, d2, d3, d4]
  norm_num

/-- One-dimensional spinless-fermion operator strings (flag `fermionic`), and with `L` replaced by
`2L` the one-dimensional spinful ones: products of Jordan-Wigner operators, with no bound on the
number of sites. -/
theorem C11_one_dimensional (w L : Nat) (hL : L ≤ w) (str : List (Char × Fin L))
    (hstr : ∀ p ∈ str, p.1 ∈ ['I', 'z', '+', '-', 'n']) (s : Nat) (hs : s < 2 ^ L) (J : ℂ) :
    IsColumn (b := 2) (J • stringOp fermion str) s (hcp1dOp true w L (sites str) s J) := by
  obtain ⟨r, m, h, hr, hC⟩ := opLoop_spec (b := 2) fermion (hcp1dStep true w L)
    (fun o => o ∈ ['I', 'z', '+', '-', 'n'])
    (fun o i r x ho hr => fermion1d_step w hL o i r x ho hr) s hs str.reverse (by simpa using hstr)
    1 s 1 hs (by simpa using col_one (b := 2) (N := L) s 1)
  refine ⟨r, m * J, ?_, hr, fun t => ?_⟩
  · rw [hcp1dOp, sites_reverse, h]; rfl
  · have := hC t
    rw [List.reverse_reverse, Matrix.mul_one] at this
    rw [Matrix.smul_apply, this]
    split <;> simp [mul_comm]

end Props
