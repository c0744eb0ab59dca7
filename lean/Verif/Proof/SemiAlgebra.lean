import Mathlib.Algebra.Star.Module
import Mathlib.Algebra.Algebra.Basic
import Mathlib.Algebra.BigOperators.Ring.Finset
import Mathlib.Algebra.BigOperators.Module
import Mathlib.Algebra.Star.BigOperators
import Mathlib.Data.Complex.Basic
import Mathlib.Tactic.Module
import Mathlib.Tactic.LinearCombination
import Mathlib.Tactic.NormNum
/-! Algebra of a translation of order `n`, a reflection that inverts it and waves with momenta `θ` and `-θ`. -/
namespace Proof.Semi
open scoped BigOperators ComplexConjugate

set_option linter.unusedSectionVars false

variable {A : Type} [Ring A] [StarRing A] [Algebra ℂ A] [StarModule ℂ A]

/-- translation and reflection -/
structure Dih (U R : A) (n : ℕ) : Prop where
  pos : 0 < n
  pow : U ^ n = 1
  left : star U * U = 1
  right : U * star U = 1
  sq : R * R = 1
  herm : star R = R
  refl : U * R * U = R

/-- wave with phase `ω` -/
noncomputable def proj (U : A) (n : ℕ) (ω : ℂ) : A := ∑ j ∈ Finset.range n, (conj ω) ^ j • U ^ j

section
variable {U R : A} {n : ℕ} {ω : ℂ}

theorem mul_proj (h : Dih U R n) (h1 : ω * conj ω = 1) (hn : ω ^ n = 1) : U * proj U n ω = ω • proj U n ω := by
  have e1 : U * proj U n ω = ω • ∑ j ∈ Finset.range n, (conj ω) ^ (j + 1) • U ^ (j + 1) := by
    unfold proj
    rw [Finset.mul_sum, Finset.smul_sum]
    apply Finset.sum_congr rfl
    intro j _
    rw [mul_smul_comm, ← pow_succ', smul_smul, pow_succ' (conj ω), ← mul_assoc, h1, one_mul]
  have e2 : ∑ j ∈ Finset.range n, (conj ω) ^ (j + 1) • U ^ (j + 1) = proj U n ω := by
    have a := Finset.sum_range_succ (fun j => (conj ω) ^ j • U ^ j) n
    have b := Finset.sum_range_succ' (fun j => (conj ω) ^ j • U ^ j) n
    rw [a] at b
    have hc : (conj ω) ^ n = 1 := by rw [← map_pow, hn, map_one]
    rw [hc, h.pow, pow_zero, pow_zero] at b
    exact (add_right_cancel b).symm
  rw [e1, e2]

theorem proj_mul_comm (j : ℕ) : proj U n ω * U ^ j = U ^ j * proj U n ω := by
  unfold proj
  rw [Finset.sum_mul, Finset.mul_sum]
  apply Finset.sum_congr rfl
  intro i _
  rw [smul_mul_assoc, mul_smul_comm, ← pow_add, ← pow_add, add_comm]

theorem pow_mul_proj (h : Dih U R n) (h1 : ω * conj ω = 1) (hn : ω ^ n = 1) (j : ℕ) : U ^ j * proj U n ω = ω ^ j • proj U n ω := by
  induction j with
  | zero => simp
  | succ j ih => rw [pow_succ, mul_assoc, mul_proj h h1 hn, mul_smul_comm, ih, smul_smul, ← pow_succ']

theorem star_mul_of {X : A} (h : Dih U R n) (h1 : ω * conj ω = 1) (hX : U * X = ω • X) : star U * X = conj ω • X := by
  have : star U * (U * X) = X := by rw [← mul_assoc, h.left, one_mul]
  rw [hX, mul_smul_comm] at this
  calc star U * X = conj ω • (ω • (star U * X)) := by rw [smul_smul, mul_comm, h1, one_smul]
    _ = conj ω • X := by rw [this]

theorem proj_mul_of {X : A} (h1 : ω * conj ω = 1) (hX : U * X = ω • X) : proj U n ω * X = (n : ℂ) • X := by
  have hp : ∀ j : ℕ, U ^ j * X = ω ^ j • X := by
    intro j
    induction j with
    | zero => simp
    | succ j ih => rw [pow_succ, mul_assoc, hX, mul_smul_comm, ih, smul_smul, ← pow_succ']
  unfold proj
  rw [Finset.sum_mul]
  have : ∀ j ∈ Finset.range n, (conj ω) ^ j • U ^ j * X = X := by
    intro j _
    rw [smul_mul_assoc, hp, smul_smul, ← mul_pow, mul_comm, h1, one_pow, one_smul]
  rw [Finset.sum_congr rfl this, Finset.sum_const, Finset.card_range, Nat.cast_smul_eq_nsmul]

theorem proj_sq (h : Dih U R n) (h1 : ω * conj ω = 1) (hn : ω ^ n = 1) : proj U n ω * proj U n ω = (n : ℂ) • proj U n ω :=
  proj_mul_of h1 (mul_proj h h1 hn)

theorem n_ne (h : Dih U R n) : (n : ℂ) ≠ 0 := by exact_mod_cast Nat.pos_iff_ne_zero.1 h.pos

theorem star_proj (h : Dih U R n) (h1 : ω * conj ω = 1) (hn : ω ^ n = 1) : star (proj U n ω) = proj U n ω := by
  have e1 : star U * proj U n ω = conj ω • proj U n ω := star_mul_of h h1 (mul_proj h h1 hn)
  have e1' : proj U n ω * star U = conj ω • proj U n ω := by
    have a : proj U n ω * U = ω • proj U n ω := by
      have := proj_mul_comm (U := U) (n := n) (ω := ω) 1
      rw [pow_one] at this
      rw [this, mul_proj h h1 hn]
    have b : proj U n ω * U * star U = proj U n ω := by rw [mul_assoc, h.right, mul_one]
    rw [a, smul_mul_assoc] at b
    calc proj U n ω * star U = conj ω • (ω • (proj U n ω * star U)) := by rw [smul_smul, mul_comm, h1, one_smul]
      _ = conj ω • proj U n ω := by rw [b]
  have e2 : U * star (proj U n ω) = ω • star (proj U n ω) := by
    have := congrArg star e1'
    rw [star_mul, star_star, star_smul] at this
    simpa using this
  have e3 : proj U n ω * star (proj U n ω) = (n : ℂ) • star (proj U n ω) := proj_mul_of h1 e2
  have e4 := congrArg star e3
  rw [star_mul, star_star, star_smul, star_star, e3] at e4
  have e5 : star (n : ℂ) = (n : ℂ) := by simp
  rw [e5] at e4
  have := congrArg (fun x => ((n : ℂ)⁻¹) • x) e4
  simpa [smul_smul, inv_mul_cancel₀ (n_ne h)] using this

theorem refl_star (h : Dih U R n) : R * U = star U * R := by
  have : star U * (U * R * U) = R * U := by rw [mul_assoc U, ← mul_assoc, h.left, one_mul]
  rw [← this, h.refl]

theorem refl_pow (h : Dih U R n) (j : ℕ) : R * U ^ j = star U ^ j * R := by
  induction j with
  | zero => simp
  | succ j ih => rw [pow_succ, ← mul_assoc, ih, mul_assoc, refl_star h, ← mul_assoc, ← pow_succ]

theorem refl_proj (h : Dih U R n) (h1 : ω * conj ω = 1) (hn : ω ^ n = 1) : R * proj U n ω = proj U n (conj ω) * R := by
  have hn' : (conj ω) ^ n = 1 := by rw [← map_pow, hn, map_one]
  have h1' : conj ω * conj (conj ω) = 1 := by rw [Complex.conj_conj, mul_comm, h1]
  rw [← star_proj (ω := conj ω) h h1' hn']
  unfold proj
  rw [Finset.mul_sum, star_sum, Finset.sum_mul]
  apply Finset.sum_congr rfl
  intro j _
  rw [mul_smul_comm, refl_pow h, star_smul, star_pow, star_pow, smul_mul_assoc]
  congr 1
  simp

theorem proj_conj_zero (h : Dih U R n) (h1 : ω * conj ω = 1) (hn : ω ^ n = 1) (hne : ω ^ 2 ≠ 1) : proj U n ω * proj U n (conj ω) = 0 := by
  have hn' : (conj ω) ^ n = 1 := by rw [← map_pow, hn, map_one]
  have h1' : conj ω * conj (conj ω) = 1 := by rw [Complex.conj_conj, mul_comm, h1]
  have a : proj U n ω * U * proj U n (conj ω) = ω • (proj U n ω * proj U n (conj ω)) := by
    have := proj_mul_comm (U := U) (n := n) (ω := ω) 1
    rw [pow_one] at this
    rw [this, mul_proj h h1 hn, smul_mul_assoc]
  have b : proj U n ω * U * proj U n (conj ω) = conj ω • (proj U n ω * proj U n (conj ω)) := by
    rw [mul_assoc, mul_proj h h1' hn', mul_smul_comm]
  rw [a] at b
  have c : (ω - conj ω) • (proj U n ω * proj U n (conj ω)) = 0 := by rw [sub_smul, b, sub_self]
  rcases smul_eq_zero.1 c with e | e
  · exact absurd (by have : ω = conj ω := sub_eq_zero.1 e; rw [← this] at h1; rw [sq, h1]) hne
  · exact e

end

/-! ### the two waves -/

/-- cosine wave -/
noncomputable def cosW (U : A) (n : ℕ) (ω : ℂ) : A := (1 / 2 : ℂ) • (proj U n ω + proj U n (conj ω))

/-- sine wave -/
noncomputable def sinW (U : A) (n : ℕ) (ω : ℂ) : A := (Complex.I / 2 : ℂ) • (proj U n ω - proj U n (conj ω))

section
variable {U R : A} {n : ℕ} {ω : ℂ}

theorem cosW_comm (h : Dih U R n) (h1 : ω * conj ω = 1) (hn : ω ^ n = 1) : cosW U n ω * R = R * cosW U n ω := by
  have hn' : (conj ω) ^ n = 1 := by rw [← map_pow, hn, map_one]
  have h1' : conj ω * conj (conj ω) = 1 := by rw [Complex.conj_conj, mul_comm, h1]
  have a := refl_proj h h1 hn
  have b := refl_proj h h1' hn'
  rw [Complex.conj_conj] at b
  unfold cosW
  rw [smul_mul_assoc, mul_smul_comm, add_mul, mul_add, a, b, add_comm]

theorem sinW_comm (h : Dih U R n) (h1 : ω * conj ω = 1) (hn : ω ^ n = 1) : sinW U n ω * R = -(R * sinW U n ω) := by
  have hn' : (conj ω) ^ n = 1 := by rw [← map_pow, hn, map_one]
  have h1' : conj ω * conj (conj ω) = 1 := by rw [Complex.conj_conj, mul_comm, h1]
  have a := refl_proj h h1 hn
  have b := refl_proj h h1' hn'
  rw [Complex.conj_conj] at b
  unfold sinW
  rw [smul_mul_assoc, mul_smul_comm, sub_mul, mul_sub, a, b, ← smul_neg, neg_sub]

theorem star_cosW (h : Dih U R n) (h1 : ω * conj ω = 1) (hn : ω ^ n = 1) : star (cosW U n ω) = cosW U n ω := by
  have hn' : (conj ω) ^ n = 1 := by rw [← map_pow, hn, map_one]
  have h1' : conj ω * conj (conj ω) = 1 := by rw [Complex.conj_conj, mul_comm, h1]
  unfold cosW
  rw [star_smul, star_add, star_proj h h1 hn, star_proj h h1' hn']
  congr 1
  simp

theorem star_sinW (h : Dih U R n) (h1 : ω * conj ω = 1) (hn : ω ^ n = 1) : star (sinW U n ω) = -sinW U n ω := by
  have hn' : (conj ω) ^ n = 1 := by rw [← map_pow, hn, map_one]
  have h1' : conj ω * conj (conj ω) = 1 := by rw [Complex.conj_conj, mul_comm, h1]
  unfold sinW
  rw [star_smul, star_sub, star_proj h h1 hn, star_proj h h1' hn', ← neg_smul]
  congr 1
  simp [neg_div]

theorem cosW_sq (h : Dih U R n) (h1 : ω * conj ω = 1) (hn : ω ^ n = 1) (hne : ω ^ 2 ≠ 1) :
    cosW U n ω * cosW U n ω = (n / 2 : ℂ) • cosW U n ω ∧ sinW U n ω * sinW U n ω = -((n / 2 : ℂ) • cosW U n ω) ∧
    cosW U n ω * sinW U n ω = (n / 2 : ℂ) • sinW U n ω ∧ sinW U n ω * cosW U n ω = (n / 2 : ℂ) • sinW U n ω := by
  have hn' : (conj ω) ^ n = 1 := by rw [← map_pow, hn, map_one]
  have h1' : conj ω * conj (conj ω) = 1 := by rw [Complex.conj_conj, mul_comm, h1]
  have hne' : (conj ω) ^ 2 ≠ 1 := fun e => hne (by
    have := congrArg conj e
    simpa using this)
  have a := proj_sq h h1 hn
  have b := proj_sq h h1' hn'
  have c := proj_conj_zero h h1 hn hne
  have d := proj_conj_zero h h1' hn' hne'
  rw [Complex.conj_conj] at d
  unfold cosW sinW
  generalize proj U n ω = E at *
  generalize proj U n (conj ω) = F at *
  have hI : Complex.I * Complex.I = -1 := Complex.I_mul_I
  refine ⟨?_, ?_, ?_, ?_⟩ <;>
    (simp only [smul_mul_assoc, mul_smul_comm, add_mul, mul_add, sub_mul, mul_sub, a, b, c, d]
     match_scalars <;> first | ring1 | linear_combination (n / 4 : ℂ) * hI)

theorem cosW_sq_real (h : Dih U R n) (h1 : ω * conj ω = 1) (hn : ω ^ n = 1) (he : ω ^ 2 = 1) :
    cosW U n ω * cosW U n ω = (n : ℂ) • cosW U n ω ∧ sinW U n ω = 0 := by
  have e : conj ω = ω := by
    have : ω * (conj ω - ω) = 0 := by rw [mul_sub, h1, ← sq, he, sub_self]
    rcases mul_eq_zero.1 this with h0 | h0
    · rw [h0] at he; simp at he
    · exact sub_eq_zero.1 h0
  have a := proj_sq h h1 hn
  unfold cosW sinW
  rw [e]
  generalize proj U n ω = E at *
  refine ⟨?_, by rw [sub_self, smul_zero]⟩
  simp only [smul_mul_assoc, mul_smul_comm, add_mul, mul_add, a]
  module

/-- translations turn the waves into each other -/
theorem waves_turn (h : Dih U R n) (h1 : ω * conj ω = 1) (hn : ω ^ n = 1) (l : ℕ) (c s : ℝ) (hl : ω ^ l = c + s * Complex.I) :
    cosW U n ω * star U ^ l = (c : ℂ) • cosW U n ω - (s : ℂ) • sinW U n ω ∧
    sinW U n ω * star U ^ l = (c : ℂ) • sinW U n ω + (s : ℂ) • cosW U n ω := by
  have key : ∀ ω : ℂ, ω * conj ω = 1 → ω ^ n = 1 → proj U n ω * star U ^ l = (conj ω) ^ l • proj U n ω := by
    intro ω h1 hn
    have := congrArg star (pow_mul_proj h h1 hn l)
    rw [star_mul, star_pow, star_smul, star_proj h h1 hn] at this
    rw [this]
    congr 1
    simp
  have hn' : (conj ω) ^ n = 1 := by rw [← map_pow, hn, map_one]
  have h1' : conj ω * conj (conj ω) = 1 := by rw [Complex.conj_conj, mul_comm, h1]
  have a := key ω h1 hn
  have b := key (conj ω) h1' hn'
  rw [Complex.conj_conj] at b
  have hl' : (conj ω) ^ l = c - s * Complex.I := by
    rw [← map_pow, hl]; simp [sub_eq_add_neg]
  rw [hl'] at a
  rw [hl] at b
  have hI : Complex.I * Complex.I = -1 := Complex.I_mul_I
  unfold cosW sinW
  generalize proj U n ω = E at *
  generalize proj U n (conj ω) = F at *
  refine ⟨?_, ?_⟩ <;>
    (simp only [smul_mul_assoc, add_mul, sub_mul, a, b]
     match_scalars <;> first | ring1 | linear_combination (s / 2 : ℂ) * hI | linear_combination (-s / 2 : ℂ) * hI)

theorem waves_momentum (h : Dih U R n) (h1 : ω * conj ω = 1) (hn : ω ^ n = 1) :
    (U + star U) * cosW U n ω = (ω + conj ω) • cosW U n ω ∧ (U + star U) * sinW U n ω = (ω + conj ω) • sinW U n ω := by
  have hn' : (conj ω) ^ n = 1 := by rw [← map_pow, hn, map_one]
  have h1' : conj ω * conj (conj ω) = 1 := by rw [Complex.conj_conj, mul_comm, h1]
  have a := mul_proj h h1 hn
  have b := star_mul_of h h1 a
  have c := mul_proj h h1' hn'
  have d := star_mul_of h h1' c
  rw [Complex.conj_conj] at d
  unfold cosW sinW
  generalize proj U n ω = E at *
  generalize proj U n (conj ω) = F at *
  refine ⟨?_, ?_⟩ <;>
    (simp only [mul_smul_comm, add_mul, mul_add, mul_sub, a, b, c, d]
     module)

/-! ### semi-momentum waves -/

/-- further symmetries, that commute with translation and reflection -/
structure Central (U R K : A) (g : ℂ) : Prop where
  herm : star K = K
  sq : K * K = g • K
  comm : U * K = K * U
  refl : R * K = K * R

theorem central_one : Central U R 1 1 := ⟨star_one _, by rw [mul_one, one_smul], by rw [mul_one, one_mul], by rw [mul_one, one_mul]⟩

variable {K : A} {g p : ℂ}

theorem Central.pow (hK : Central U R K g) (j : ℕ) : U ^ j * K = K * U ^ j := (Commute.pow_left (show Commute U K from hK.comm) j).eq

theorem Central.proj (hK : Central U R K g) (ω : ℂ) : Proof.Semi.proj U n ω * K = K * Proof.Semi.proj U n ω := by
  unfold Proof.Semi.proj
  rw [Finset.sum_mul, Finset.mul_sum]
  apply Finset.sum_congr rfl
  intro j _
  rw [smul_mul_assoc, mul_smul_comm, hK.pow]

theorem Central.cosW (hK : Central U R K g) (ω : ℂ) : Proof.Semi.cosW U n ω * K = K * Proof.Semi.cosW U n ω := by
  unfold Proof.Semi.cosW
  rw [smul_mul_assoc, mul_smul_comm, add_mul, mul_add, hK.proj, hK.proj]

theorem Central.sinW (hK : Central U R K g) (ω : ℂ) : Proof.Semi.sinW U n ω * K = K * Proof.Semi.sinW U n ω := by
  unfold Proof.Semi.sinW
  rw [smul_mul_assoc, mul_smul_comm, sub_mul, mul_sub, hK.proj, hK.proj]

/-- `(1 + p R) C K` -/
noncomputable def bPlus (U R K : A) (n : ℕ) (ω p : ℂ) : A := (1 + p • R) * cosW U n ω * K

/-- `(1 + p R) S K` -/
noncomputable def bMinus (U R K : A) (n : ℕ) (ω p : ℂ) : A := (1 + p • R) * sinW U n ω * K

/-- `1 + p R` is twice a projection -/
theorem one_add_sq (h : Dih U R n) (hp : p * p = 1) : (1 + p • R) * (1 + p • R) = (2 : ℂ) • (1 + p • R) := by
  simp only [add_mul, mul_add, one_mul, mul_one, smul_mul_assoc, mul_smul_comm, h.sq]
  match_scalars <;> first | ring1 | linear_combination hp

theorem star_one_add (h : Dih U R n) (hp : conj p = p) : star (1 + p • R) = 1 + p • R := by
  rw [star_add, star_one, star_smul, h.herm]
  congr 2

theorem cosW_one_add (h : Dih U R n) (h1 : ω * conj ω = 1) (hn : ω ^ n = 1) : cosW U n ω * (1 + p • R) = (1 + p • R) * cosW U n ω := by
  rw [mul_add, add_mul, mul_one, one_mul, mul_smul_comm, smul_mul_assoc, cosW_comm h h1 hn]

theorem sinW_one_add (h : Dih U R n) (h1 : ω * conj ω = 1) (hn : ω ^ n = 1) : sinW U n ω * (1 + p • R) = (1 - p • R) * sinW U n ω := by
  rw [mul_add, sub_mul, mul_one, one_mul, mul_smul_comm, smul_mul_assoc, sinW_comm h h1 hn, smul_neg, sub_eq_add_neg]

theorem star_bPlus (h : Dih U R n) (h1 : ω * conj ω = 1) (hn : ω ^ n = 1) (hK : Central U R K g) (hp : conj p = p) :
    star (bPlus U R K n ω p) = K * cosW U n ω * (1 + p • R) := by
  unfold bPlus
  rw [star_mul, star_mul, star_one_add h hp, star_cosW h h1 hn, hK.herm, mul_assoc]

theorem star_bMinus (h : Dih U R n) (h1 : ω * conj ω = 1) (hn : ω ^ n = 1) (hK : Central U R K g) (hp : conj p = p) :
    star (bMinus U R K n ω p) = -(K * sinW U n ω * (1 + p • R)) := by
  unfold bMinus
  rw [star_mul, star_mul, star_one_add h hp, star_sinW h h1 hn, hK.herm, neg_mul, mul_neg, mul_assoc]

/-- the middle of a product of two waves -/
theorem middle (h : Dih U R n) (hp : p * p = 1) (X Y : A) :
    (K * X * (1 + p • R)) * ((1 + p • R) * Y * K) = (2 : ℂ) • (K * (X * (1 + p • R)) * Y * K) := by
  have : (K * X * (1 + p • R)) * ((1 + p • R) * Y * K) = K * X * ((1 + p • R) * (1 + p • R)) * Y * K := by
    simp only [mul_assoc]
  rw [this, one_add_sq h hp, mul_smul_comm, smul_mul_assoc, smul_mul_assoc]
  simp only [mul_assoc]

theorem Central.pull (hK : Central U R K g) {Y Q : A} (hY : Y * K = K * Y) (hQ : Q * K = K * Q) : K * (Q * Y) * K = g • (Q * Y * K) := by
  rw [← mul_assoc, ← hQ, mul_assoc Q, ← hY, mul_assoc, mul_assoc, hK.sq, mul_smul_comm, mul_smul_comm, ← mul_assoc]

theorem Central.add (hK : Central U R K g) : (1 + p • R) * K = K * (1 + p • R) := by
  rw [mul_add, add_mul, mul_one, one_mul, mul_smul_comm, smul_mul_assoc, hK.refl]

theorem Central.sub (hK : Central U R K g) : (1 - p • R) * K = K * (1 - p • R) := by
  rw [mul_sub, sub_mul, mul_one, one_mul, mul_smul_comm, smul_mul_assoc, hK.refl]

theorem gram (h : Dih U R n) (h1 : ω * conj ω = 1) (hn : ω ^ n = 1) (hne : ω ^ 2 ≠ 1) (hK : Central U R K g) (hp : p * p = 1) (hpc : conj p = p) :
    star (bPlus U R K n ω p) * bPlus U R K n ω p = (n * g : ℂ) • ((1 + p • R) * cosW U n ω * K) ∧
    star (bMinus U R K n ω p) * bMinus U R K n ω p = (n * g : ℂ) • ((1 - p • R) * cosW U n ω * K) ∧
    star (bPlus U R K n ω p) * bMinus U R K n ω p = (n * g : ℂ) • ((1 + p • R) * sinW U n ω * K) ∧
    star (bMinus U R K n ω p) * bPlus U R K n ω p = -((n * g : ℂ) • ((1 - p • R) * sinW U n ω * K)) := by
  obtain ⟨s1, s2, s3, s4⟩ := cosW_sq h h1 hn hne
  have a := cosW_one_add (p := p) h h1 hn
  have b := sinW_one_add (p := p) h h1 hn
  rw [star_bPlus h h1 hn hK hpc, star_bMinus h h1 hn hK hpc]
  unfold bPlus bMinus
  refine ⟨?_, ?_, ?_, ?_⟩
  · rw [middle h hp, a, mul_assoc K, mul_assoc (1 + p • R), s1, mul_smul_comm, mul_smul_comm, smul_mul_assoc, hK.pull (hK.cosW ω) hK.add,
      smul_smul, smul_smul]
    congr 1; ring
  · rw [neg_mul, middle h hp, b, mul_assoc K, mul_assoc (1 - p • R), s2, mul_neg, mul_neg, neg_mul, mul_smul_comm, mul_smul_comm, smul_mul_assoc,
      hK.pull (hK.cosW ω) hK.sub, smul_neg, neg_neg, smul_smul, smul_smul]
    congr 1; ring
  · rw [middle h hp, a, mul_assoc K, mul_assoc (1 + p • R), s3, mul_smul_comm, mul_smul_comm, smul_mul_assoc, hK.pull (hK.sinW ω) hK.add,
      smul_smul, smul_smul]
    congr 1; ring
  · rw [neg_mul, middle h hp, b, mul_assoc K, mul_assoc (1 - p • R), s4, mul_smul_comm, mul_smul_comm, smul_mul_assoc,
      hK.pull (hK.sinW ω) hK.sub, smul_smul, smul_smul]
    congr 2; ring

theorem gram_real (h : Dih U R n) (h1 : ω * conj ω = 1) (hn : ω ^ n = 1) (he : ω ^ 2 = 1) (hK : Central U R K g) (hp : p * p = 1) (hpc : conj p = p) :
    star (bPlus U R K n ω p) * bPlus U R K n ω p = (2 * n * g : ℂ) • ((1 + p • R) * cosW U n ω * K) := by
  obtain ⟨s1, _⟩ := cosW_sq_real h h1 hn he
  have a := cosW_one_add (p := p) h h1 hn
  rw [star_bPlus h h1 hn hK hpc]
  unfold bPlus
  rw [middle h hp, a, mul_assoc K, mul_assoc (1 + p • R), s1, mul_smul_comm, mul_smul_comm, smul_mul_assoc, hK.pull (hK.cosW ω) hK.add,
    smul_smul, smul_smul]

/-- reflection on the right -/
theorem b_refl (h : Dih U R n) (h1 : ω * conj ω = 1) (hn : ω ^ n = 1) (hK : Central U R K g) (hp : p * p = 1) :
    bPlus U R K n ω p * R = p • bPlus U R K n ω p ∧ bMinus U R K n ω p * R = -(p • bMinus U R K n ω p) := by
  have hq : (1 + p • R) * R = p • (1 + p • R) := by
    rw [add_mul, one_mul, smul_mul_assoc, h.sq, smul_add, smul_smul, hp, one_smul, add_comm]
  unfold bPlus bMinus
  refine ⟨?_, ?_⟩
  · rw [mul_assoc _ K, ← hK.refl, ← mul_assoc, mul_assoc _ _ R, cosW_comm h h1 hn, ← mul_assoc, hq, smul_mul_assoc, smul_mul_assoc]
  · rw [mul_assoc _ K, ← hK.refl, ← mul_assoc, mul_assoc _ _ R, sinW_comm h h1 hn, mul_neg, ← mul_assoc, hq, smul_mul_assoc, neg_mul, smul_mul_assoc]

/-- translation on the right -/
theorem b_turn (h : Dih U R n) (h1 : ω * conj ω = 1) (hn : ω ^ n = 1) (hK : Central U R K g) (l : ℕ) (c s : ℝ) (hl : ω ^ l = c + s * Complex.I) :
    bPlus U R K n ω p * star U ^ l = (c : ℂ) • bPlus U R K n ω p - (s : ℂ) • bMinus U R K n ω p ∧
    bMinus U R K n ω p * star U ^ l = (c : ℂ) • bMinus U R K n ω p + (s : ℂ) • bPlus U R K n ω p := by
  obtain ⟨a, b⟩ := waves_turn h h1 hn l c s hl
  have hc : K * star U ^ l = star U ^ l * K := by
    have := congrArg star (hK.pow l)
    rw [star_mul, star_mul, star_pow, hK.herm] at this
    exact this
  unfold bPlus bMinus
  refine ⟨?_, ?_⟩
  · rw [mul_assoc _ K, hc, ← mul_assoc, mul_assoc _ _ (star U ^ l), a]
    simp only [mul_sub, sub_mul, mul_smul_comm, smul_mul_assoc]
  · rw [mul_assoc _ K, hc, ← mul_assoc, mul_assoc _ _ (star U ^ l), b]
    simp only [mul_add, add_mul, mul_smul_comm, smul_mul_assoc]

/-- the waves belong to the block -/
theorem b_block (h : Dih U R n) (h1 : ω * conj ω = 1) (hn : ω ^ n = 1) (hp : p * p = 1) :
    R * bPlus U R K n ω p = p • bPlus U R K n ω p ∧ R * bMinus U R K n ω p = p • bMinus U R K n ω p ∧
    (U + star U) * bPlus U R K n ω p = (ω + conj ω) • bPlus U R K n ω p ∧
    (U + star U) * bMinus U R K n ω p = (ω + conj ω) • bMinus U R K n ω p := by
  have hq : R * (1 + p • R) = p • (1 + p • R) := by
    rw [mul_add, mul_one, mul_smul_comm, h.sq, smul_add, smul_smul, hp, one_smul, add_comm]
  have hu : (U + star U) * R = R * (U + star U) := by
    have a := refl_star h
    have b := congrArg star a
    rw [star_mul, star_mul, star_star, h.herm] at b
    rw [add_mul, mul_add, a]
    have c : U * R = R * star U := by
      have := congrArg (fun X => R * X * R) a
      simp only [← mul_assoc, h.sq, one_mul] at this
      rw [mul_assoc (R * star U), h.sq, mul_one] at this
      exact this
    rw [c, add_comm]
  have hu' : (U + star U) * (1 + p • R) = (1 + p • R) * (U + star U) := by
    rw [mul_add _ (1 : A), add_mul (1 : A), mul_one, one_mul, mul_smul_comm, smul_mul_assoc, hu]
  obtain ⟨a, b⟩ := waves_momentum h h1 hn
  unfold bPlus bMinus
  refine ⟨?_, ?_, ?_, ?_⟩
  · rw [← mul_assoc, ← mul_assoc, hq, smul_mul_assoc, smul_mul_assoc]
  · rw [← mul_assoc, ← mul_assoc, hq, smul_mul_assoc, smul_mul_assoc]
  · rw [← mul_assoc, ← mul_assoc, hu', mul_assoc _ (U + star U), a, mul_smul_comm, smul_mul_assoc]
  · rw [← mul_assoc, ← mul_assoc, hu', mul_assoc _ (U + star U), b, mul_smul_comm, smul_mul_assoc]

/-- what commutes with the symmetries passes through the waves -/
theorem b_commute {X : A} (hU : X * U = U * X) (hR : X * R = R * X) (hX : X * K = K * X) :
    X * bPlus U R K n ω p = bPlus U R K n ω p * X ∧ X * bMinus U R K n ω p = bMinus U R K n ω p * X := by
  have hpow : ∀ j : ℕ, X * U ^ j = U ^ j * X := fun j => (Commute.pow_right (show Commute X U from hU) j).eq
  have hpr : ∀ ω : ℂ, X * proj U n ω = proj U n ω * X := by
    intro ω
    unfold proj
    rw [Finset.sum_mul, Finset.mul_sum]
    apply Finset.sum_congr rfl
    intro j _
    rw [smul_mul_assoc, mul_smul_comm, hpow]
  have hq : X * (1 + p • R) = (1 + p • R) * X := by
    rw [mul_add, add_mul, mul_one, one_mul, mul_smul_comm, smul_mul_assoc, hR]
  have hc : X * cosW U n ω = cosW U n ω * X := by
    unfold cosW; rw [smul_mul_assoc, mul_smul_comm, add_mul, mul_add, hpr, hpr]
  have hs : X * sinW U n ω = sinW U n ω * X := by
    unfold sinW; rw [smul_mul_assoc, mul_smul_comm, sub_mul, mul_sub, hpr, hpr]
  unfold bPlus bMinus
  refine ⟨?_, ?_⟩
  · rw [← mul_assoc, ← mul_assoc, hq, mul_assoc _ X, hc, ← mul_assoc, mul_assoc _ X, hX, ← mul_assoc]
  · rw [← mul_assoc, ← mul_assoc, hq, mul_assoc _ X, hs, ← mul_assoc, mul_assoc _ X, hX, ← mul_assoc]

end
end Proof.Semi
