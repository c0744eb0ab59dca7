import Verif.Spec.SemiMomentum
import Verif.Proof.SemiAlgebra
import Verif.Proof.SemiOrbit
import Mathlib.LinearAlgebra.Matrix.NonsingularInverse
import Mathlib.Analysis.Complex.Basic
/-! Translation and reflection as matrices; overlaps of semi-momentum states. -/
namespace Proof.Semi
open Spec Spec.Semi Model.Chain Proof.Chain
open scoped BigOperators ComplexConjugate Matrix

variable {N : ℕ}

/-- a configuration with a sign as a vector -/
noncomputable def vec (N : ℕ) (x : ℕ × Int) : Fin N → ℂ := (x.2 : ℂ) • basisVec N x.1

theorem vec_one (s : ℕ) : vec N (s, 1) = basisVec N s := by simp [vec]

theorem vec_scale (s : ℕ) (a : Int) : vec N (s, a) = (a : ℂ) • basisVec N s := rfl

/-- the matrix of a bit operation -/
noncomputable abbrev opMat (N : ℕ) (f : BitOp) : Matrix (Fin N) (Fin N) ℂ := matrixOf N (gen f 1 0)

theorem matrixOf_gen (f : BitOp) (a : ℕ) (b : Int) : matrixOf N (gen f a b) = opMat N f := rfl

theorem basisVec_eq (s : ℕ) (hs : s < N) : basisVec N s = Pi.single ⟨s, hs⟩ 1 := by
  funext t
  unfold basisVec
  rw [Pi.single_apply]
  simp only [Fin.ext_iff]

theorem mulVec_basis (M : Matrix (Fin N) (Fin N) ℂ) (s : ℕ) (hs : s < N) (t : Fin N) : (M *ᵥ basisVec N s) t = M t ⟨s, hs⟩ := by
  rw [basisVec_eq s hs]; simp

theorem opMat_basis (f : BitOp) (s : ℕ) (hs : s < N) : opMat N f *ᵥ basisVec N s = vec N (f s) := by
  funext t
  rw [mulVec_basis _ _ hs]
  unfold opMat matrixOf vec basisVec gen
  simp only [Pi.smul_apply, smul_eq_mul]
  by_cases h : (f s).1 = t
  · rw [if_pos h, if_pos h.symm, mul_one]
  · rw [if_neg h, if_neg (Ne.symm h), mul_zero]

theorem opMat_vec (f : BitOp) (x : ℕ × Int) (hx : x.1 < N) : opMat N f *ᵥ vec N x = vec N (step f x) := by
  rw [vec, Matrix.mulVec_smul, opMat_basis f x.1 hx]
  unfold vec
  rw [smul_smul]
  congr 1
  unfold step
  push_cast
  ring

/-- equality of matrices on the configurations -/
theorem ext_basis {A B : Matrix (Fin N) (Fin N) ℂ} (h : ∀ s, s < N → A *ᵥ basisVec N s = B *ᵥ basisVec N s) : A = B := by
  ext i j
  have := congrFun (h j j.2) i
  rwa [mulVec_basis, mulVec_basis] at this

theorem pow_vec {Tr : BitOp} {n : ℕ} (h : Cyclic (· < N) Tr n) (j : ℕ) (x : ℕ × Int) (hx : x.1 < N) :
    opMat N Tr ^ j *ᵥ vec N x = vec N ((step Tr)^[j] x) := by
  induction j with
  | zero => simp
  | succ j ih =>
    rw [pow_succ', ← Matrix.mulVec_mulVec, ih, opMat_vec _ _ (iter_closed h x hx j), Function.iterate_succ_apply']

theorem star_basis (s : ℕ) : star (basisVec N s) = basisVec N s := by
  funext t
  unfold basisVec
  simp only [Pi.star_apply]
  split_ifs <;> simp

/-- overlap of two vectors -/
noncomputable def ip (v w : Fin N → ℂ) : ℂ := ∑ t, conj (v t) * w t

theorem ip_eq (v w : Fin N → ℂ) : ip v w = star v ⬝ᵥ w := rfl

theorem ip_basis (s : ℕ) (hs : s < N) (w : Fin N → ℂ) : ip (basisVec N s) w = w ⟨s, hs⟩ := by
  rw [ip_eq, star_basis, basisVec_eq s hs]; simp

theorem ip_adjoint (A B : Matrix (Fin N) (Fin N) ℂ) (v w : Fin N → ℂ) : ip (A *ᵥ v) (B *ᵥ w) = ip v ((Aᴴ * B) *ᵥ w) := by
  rw [ip_eq, ip_eq, Matrix.star_mulVec, ← Matrix.dotProduct_mulVec, Matrix.mulVec_mulVec]

theorem ip_add (v w w' : Fin N → ℂ) : ip v (w + w') = ip v w + ip v w' := dotProduct_add _ _ _

theorem ip_sub (v w w' : Fin N → ℂ) : ip v (w - w') = ip v w - ip v w' := by
  rw [ip_eq, ip_eq, ip_eq, dotProduct_sub]

theorem ip_neg (v w : Fin N → ℂ) : ip v (-w) = -ip v w := by
  rw [ip_eq, ip_eq, dotProduct_neg]

theorem ip_smul (a : ℂ) (v w : Fin N → ℂ) : ip v (a • w) = a * ip v w := by
  rw [ip_eq, ip_eq, dotProduct_smul, smul_eq_mul]

theorem ip_add_left (v v' w : Fin N → ℂ) : ip (v + v') w = ip v w + ip v' w := by
  rw [ip_eq, ip_eq, ip_eq, star_add, add_dotProduct]

theorem ip_smul_left (a : ℂ) (v w : Fin N → ℂ) : ip (a • v) w = conj a * ip v w := by
  rw [ip_eq, ip_eq, star_smul, smul_dotProduct, smul_eq_mul]
  rfl

theorem ip_zero (v : Fin N → ℂ) : ip v 0 = 0 := by rw [ip_eq, dotProduct_zero]

theorem ip_sum {ι : Type} (I : Finset ι) (v : Fin N → ℂ) (w : ι → Fin N → ℂ) : ip v (∑ i ∈ I, w i) = ∑ i ∈ I, ip v (w i) := by
  rw [ip_eq, dotProduct_sum]; rfl

theorem ip_self (v : Fin N → ℂ) : ip v v = ((∑ t, ‖v t‖ ^ 2 : ℝ) : ℂ) := by
  unfold ip
  push_cast
  apply Finset.sum_congr rfl
  intro t _
  rw [mul_comm, Complex.mul_conj, Complex.normSq_eq_norm_sq]
  push_cast; rfl

theorem eq_zero_of_ip {v : Fin N → ℂ} (h : ip v v = 0) : v = 0 := by
  rw [ip_self] at h
  have h' : ∑ t, ‖v t‖ ^ 2 = 0 := by exact_mod_cast h
  rw [Finset.sum_eq_zero_iff_of_nonneg (fun t _ => sq_nonneg _)] at h'
  funext t
  have := h' t (Finset.mem_univ t)
  simpa using this

theorem ip_vec (s : ℕ) (hs : s < N) (x : ℕ × Int) : ip (basisVec N s) (vec N x) = if x.1 = s then (x.2 : ℂ) else 0 := by
  rw [ip_basis s hs]
  unfold vec basisVec
  simp only [Pi.smul_apply, smul_eq_mul]
  by_cases h : x.1 = s
  · rw [if_pos h, if_pos h.symm, mul_one]
  · rw [if_neg h, if_neg (Ne.symm h), mul_zero]

/-! ### the relations -/

/-- a signed permutation is unitary -/
theorem unitary_of {f : BitOp} (hcl : ∀ s, s < N → (f s).1 < N) (hs : ∀ s, s < N → (f s).2 = 1 ∨ (f s).2 = -1)
    (hinj : ∀ s t, s < N → t < N → (f s).1 = (f t).1 → s = t) : (opMat N f)ᴴ * opMat N f = 1 := by
  apply ext_basis
  intro s hs'
  rw [Matrix.one_mulVec]
  funext t
  have e : ((opMat N f)ᴴ * opMat N f) *ᵥ basisVec N s = (opMat N f)ᴴ *ᵥ (opMat N f *ᵥ basisVec N s) := by rw [Matrix.mulVec_mulVec]
  have e2 : (((opMat N f)ᴴ * opMat N f) *ᵥ basisVec N s) t = ip (opMat N f *ᵥ basisVec N t) (opMat N f *ᵥ basisVec N s) := by
    rw [ip_adjoint, ip_basis t t.2]
  rw [e2, opMat_basis f t t.2, opMat_basis f s hs']
  unfold vec
  rw [ip_smul_left, ip_smul, ip_basis _ (hcl t t.2)]
  unfold basisVec
  by_cases h : (t : ℕ) = s
  · rw [if_pos h, if_pos (show (f t).1 = (f s).1 by rw [h]), h]
    rcases hs s hs' with e | e <;> rw [e] <;> simp
  · rw [if_neg h, if_neg (fun e => h (hinj _ _ t.2 hs' e))]; simp

theorem dih {Tr Z : BitOp} {n : ℕ} (h : Dihedral (· < N) Tr Z n) : Dih (opMat N Tr) (opMat N Z) n := by
  have hT : (opMat N Tr)ᴴ * opMat N Tr = 1 := by
    apply unitary_of h.cyc.closed h.cyc.sign
    intro s t hs ht e
    have e1 := congrArg Prod.fst (h.cyc.period s hs)
    have e2 := congrArg Prod.fst (h.cyc.period t ht)
    obtain ⟨m, rfl⟩ : ∃ m, n = m + 1 := ⟨n - 1, by have := h.cyc.pos; omega⟩
    have key : ∀ u, (tr Tr u (m + 1)).1 = (tr Tr (Tr u).1 m).1 := by
      intro u
      unfold tr
      rw [Function.iterate_succ_apply, iter_fst]
      rfl
    rw [key, e, ← key, e2] at e1
    exact e1.symm
  have hZ : (opMat N Z)ᴴ * opMat N Z = 1 := by
    apply unitary_of h.closed h.sign
    intro s t hs ht e
    have e1 : (Z (Z s).1).1 = s := congrArg Prod.fst (h.square s hs)
    have e2 : (Z (Z t).1).1 = t := congrArg Prod.fst (h.square t ht)
    rw [e, e2] at e1
    exact e1.symm
  have hZ2 : opMat N Z * opMat N Z = 1 := by
    apply ext_basis
    intro s hs
    rw [← Matrix.mulVec_mulVec, ← vec_one, opMat_vec _ _ (by exact hs), opMat_vec _ (step Z (s, 1)) (h.closed s hs), h.square s hs,
      Matrix.one_mulVec]
  refine ⟨h.cyc.pos, ?_, hT, ?_, hZ2, ?_, ?_⟩
  · apply ext_basis
    intro s hs
    rw [← vec_one, pow_vec h.cyc n _ (by exact hs), iter_period h.cyc _ (by exact hs), Matrix.one_mulVec]
  · exact mul_eq_one_comm.1 hT
  · have := congrArg (· * opMat N Z) hZ
    simp only [mul_assoc, hZ2, mul_one, one_mul] at this
    exact this
  · apply ext_basis
    intro s hs
    rw [← vec_one, ← Matrix.mulVec_mulVec, opMat_vec _ _ (by exact hs), ← Matrix.mulVec_mulVec, opMat_vec _ (step Tr (s, 1)) (h.cyc.closed s hs),
      opMat_vec _ (step Z (step Tr (s, 1))) (h.closed _ (h.cyc.closed s hs)), opMat_vec _ _ (by exact hs), h.reflect s hs]

/-! ### entries of the waves -/

section
variable {Tr Z : BitOp} {n : ℕ} {ω : ℂ}

theorem proj_entry (h : Cyclic (· < N) Tr n) (s : ℕ) (hs : s < N) (x : ℕ × Int) (hx : x.1 < N) :
    ip (basisVec N s) (proj (opMat N Tr) n ω *ᵥ vec N x)
      = ∑ j ∈ Finset.range n, (conj ω) ^ j * (if ((step Tr)^[j] x).1 = s then (((step Tr)^[j] x).2 : ℂ) else 0) := by
  unfold proj
  rw [Matrix.sum_mulVec, ip_sum]
  apply Finset.sum_congr rfl
  intro j _
  rw [Matrix.smul_mulVec, ip_smul, pow_vec h j x hx, ip_vec s hs]

theorem card_residue (n r m : ℕ) (hr : 0 < r) (hd : r ∣ n) (hm : m < r) : ((Finset.range n).filter fun c => c % r = m).card * r = n := by
  exact count_residue n r m hr hd hm

/-- the sum over the returns to `s` -/
theorem residue_sum (h : Cyclic (· < N) Tr n) {s r t m : ℕ} {a : Int} (hs : s < N) (ht : t < N) (hr : Least Tr s r) (hm : m < r)
    (hit : ∀ c, (tr Tr t c).1 = s ↔ c % r = m) (hf : (conj ω) ^ r * (tr Tr s r).2 = 1) :
    ip (basisVec N s) (proj (opMat N Tr) n ω *ᵥ vec N (t, a)) = (n : ℂ) / r * ((conj ω) ^ m * (a * (tr Tr t m).2)) := by
  rw [proj_entry h s hs _ ht]
  have hd : r ∣ n := (hr.iff_dvd n).1 (by rw [h.period s hs])
  have hmt : (tr Tr t m).1 = s := (hit m).2 (Nat.mod_eq_of_lt hm)
  have key : ∀ j ∈ Finset.range n, (conj ω) ^ j * (if ((step Tr)^[j] (t, a)).1 = s then (((step Tr)^[j] (t, a)).2 : ℂ) else 0)
      = if j % r = m then (conj ω) ^ m * (a * (tr Tr t m).2) else 0 := by
    intro j _
    rw [iter_step_scale]
    simp only [hit]
    by_cases hj : j % r = m
    · rw [if_pos hj, if_pos hj]
      have e : j = r * (j / r) + m := by rw [← hj, Nat.div_add_mod]
      generalize j / r = i at e
      have e2 := tr_add Tr t (r * i) m
      rw [hmt, tr_multiple hr.tr_eq] at e2
      rw [e, e2]
      push_cast
      rw [pow_add, pow_mul]
      have hf' : ((conj ω) ^ r) ^ i * ((tr Tr s r).2 : ℂ) ^ i = 1 := by rw [← mul_pow, hf, one_pow]
      linear_combination ((conj ω) ^ m * a * (tr Tr t m).2) * hf'
    · rw [if_neg hj, if_neg hj, mul_zero]
  rw [Finset.sum_congr rfl key, ← Finset.sum_filter, Finset.sum_const, nsmul_eq_mul]
  congr 1
  have hc := card_residue n r m hr.pos hd hm
  have hr0 : (r : ℂ) ≠ 0 := by exact_mod_cast Nat.pos_iff_ne_zero.1 hr.pos
  rw [eq_div_iff hr0]
  exact_mod_cast hc

theorem no_entry (h : Cyclic (· < N) Tr n) {s t : ℕ} {a : Int} (hs : s < N) (ht : t < N) (hno : ∀ c, (tr Tr t c).1 ≠ s) :
    ip (basisVec N s) (proj (opMat N Tr) n ω *ᵥ vec N (t, a)) = 0 := by
  rw [proj_entry h s hs _ ht]
  apply Finset.sum_eq_zero
  intro j _
  rw [iter_step_scale, if_neg (hno j), mul_zero]

/-- the momentum does not fit: nothing remains -/
theorem no_fit (h : Cyclic (· < N) Tr n) {s r : ℕ} (hs : s < N) (hr : Least Tr s r) (h1 : ω * conj ω = 1) (hn : ω ^ n = 1)
    (hf : (conj ω) ^ r * (tr Tr s r).2 ≠ 1) (hd : Dih (opMat N Tr) R n) : proj (opMat N Tr) n ω *ᵥ basisVec N s = 0 := by
  have e1 := pow_vec h r (s, 1) hs
  rw [show (step Tr)^[r] (s, 1) = (s, (tr Tr s r).2) from hr.tr_eq, vec_one, vec_scale] at e1
  have e2 := congrArg (fun v => proj (opMat N Tr) n ω *ᵥ v) e1
  simp only [Matrix.mulVec_mulVec, Matrix.mulVec_smul] at e2
  rw [proj_mul_comm, pow_mul_proj hd h1 hn, Matrix.smul_mulVec] at e2
  generalize proj (opMat N Tr) n ω *ᵥ basisVec N s = v at e2 ⊢
  have hsg := h.sign_iter hs r
  have hne : ω ^ r - ((tr Tr s r).2 : ℂ) ≠ 0 := by
    intro h0
    apply hf
    have h0' : ω ^ r = ((tr Tr s r).2 : ℂ) := sub_eq_zero.1 h0
    rw [← map_pow, h0']
    rcases hsg with e | e <;> rw [e] <;> simp
  have e3 : (ω ^ r - ((tr Tr s r).2 : ℂ)) • v = 0 := by rw [sub_smul, e2, sub_self]
  exact (smul_eq_zero.1 e3).resolve_left hne

/-! ### overlaps -/

/-- the wave with sign `σ` -/
noncomputable def bMat (U R : Matrix (Fin N) (Fin N) ℂ) (n : ℕ) (ω p : ℂ) (σ : Int) : Matrix (Fin N) (Fin N) ℂ :=
  if 0 < σ then bPlus U R 1 n ω p else bMinus U R 1 n ω p

theorem ip_cos (s t : Fin N → ℂ) (U : Matrix (Fin N) (Fin N) ℂ) : ip s (cosW U n ω *ᵥ t)
    = 1 / 2 * (ip s (proj U n ω *ᵥ t) + ip s (proj U n (conj ω) *ᵥ t)) := by
  unfold cosW
  rw [Matrix.smul_mulVec, ip_smul, Matrix.add_mulVec, ip_add]

theorem ip_sin (s t : Fin N → ℂ) (U : Matrix (Fin N) (Fin N) ℂ) : ip s (sinW U n ω *ᵥ t)
    = Complex.I / 2 * (ip s (proj U n ω *ᵥ t) - ip s (proj U n (conj ω) *ᵥ t)) := by
  unfold sinW
  rw [Matrix.smul_mulVec, ip_smul, Matrix.sub_mulVec, ip_sub]

/-- real and imaginary part of the phase at the reflected return, with the sign; zero if there is none -/
structure Hit (Tr Z : BitOp) (ω : ℂ) (s r : ℕ) (γ δ : ℝ) : Prop where
  cases : (∃ m f, m < r ∧ (tr Tr (Z s).1 m).1 = s ∧ f = (Z s).2 * (tr Tr (Z s).1 m).2 ∧ (γ : ℂ) + δ * Complex.I = f * ω ^ m) ∨
    ((∀ c, (tr Tr (Z s).1 c).1 ≠ s) ∧ γ = 0 ∧ δ = 0)

variable (h : Dihedral (· < N) Tr Z n) (h1 : ω * conj ω = 1) (hn : ω ^ n = 1)
include h h1 hn

omit h1 hn in
theorem conj_fit {s r : ℕ} (hs : s < N) (hf : (conj ω) ^ r * (tr Tr s r).2 = 1) : (conj (conj ω)) ^ r * (tr Tr s r).2 = 1 := by
  have := congrArg conj hf
  rw [map_mul, map_pow, map_one] at this
  rcases h.cyc.sign_iter hs r with e | e <;> rw [e] at this ⊢ <;> simpa using this

/-- entries at a state with fitting momentum -/
theorem wave_entries {s r : ℕ} (hs : s < N) (hr : Least Tr s r) (hf : (conj ω) ^ r * (tr Tr s r).2 = 1) {γ δ : ℝ}
    (hh : Hit Tr Z ω s r γ δ) :
    ip (basisVec N s) (cosW (opMat N Tr) n ω *ᵥ basisVec N s) = n / r ∧
    ip (basisVec N s) (sinW (opMat N Tr) n ω *ᵥ basisVec N s) = 0 ∧
    ip (basisVec N s) ((opMat N Z * cosW (opMat N Tr) n ω) *ᵥ basisVec N s) = n / r * γ ∧
    ip (basisVec N s) ((opMat N Z * sinW (opMat N Tr) n ω) *ᵥ basisVec N s) = -(n / r * δ) := by
  have hf' := conj_fit h hs hf
  have hsame : ∀ c, (tr Tr s c).1 = s ↔ c % r = 0 := fun c => by rw [hr.iff_dvd c, Nat.dvd_iff_mod_eq_zero]
  have a1 := residue_sum (a := 1) h.cyc hs hs hr hr.pos hsame hf
  have a2 := residue_sum (a := 1) h.cyc hs hs hr hr.pos hsame hf'
  rw [vec_one] at a1 a2
  simp only [pow_zero, tr, Function.iterate_zero, id, Int.cast_one, mul_one] at a1 a2
  have hd := dih h
  have c1 : opMat N Z * cosW (opMat N Tr) n ω = cosW (opMat N Tr) n ω * opMat N Z := (cosW_comm hd h1 hn).symm
  have c2 : opMat N Z * sinW (opMat N Tr) n ω = -(sinW (opMat N Tr) n ω * opMat N Z) := by rw [sinW_comm hd h1 hn, neg_neg]
  have hz : opMat N Z *ᵥ basisVec N s = vec N ((Z s).1, (Z s).2) := opMat_basis Z s hs
  rw [c1, c2, Matrix.neg_mulVec, ip_neg, ← Matrix.mulVec_mulVec, ← Matrix.mulVec_mulVec, hz, ip_cos, ip_sin, ip_cos, ip_sin, a1, a2]
  refine ⟨by ring, by ring, ?_, ?_⟩ <;> rcases hh.cases with ⟨m, f, hm, e, ef, eg⟩ | ⟨hno, e1, e2⟩
  · rw [residue_sum h.cyc hs (h.closed s hs) hr hm (hit_mod_of (h.least hs hr) hr hm e) hf,
      residue_sum h.cyc hs (h.closed s hs) hr hm (hit_mod_of (h.least hs hr) hr hm e) hf']
    have eg' := congrArg conj eg
    simp only [map_add, map_mul, map_pow, Complex.conj_ofReal, Complex.conj_I, map_intCast] at eg'
    rw [Complex.conj_conj]
    rw [ef] at eg eg'
    push_cast at eg eg'
    linear_combination (-(n : ℂ) / r / 2) * eg + (-(n : ℂ) / r / 2) * eg'
  · rw [no_entry h.cyc hs (h.closed s hs) hno, no_entry h.cyc hs (h.closed s hs) hno, e1]; simp
  · rw [residue_sum h.cyc hs (h.closed s hs) hr hm (hit_mod_of (h.least hs hr) hr hm e) hf,
      residue_sum h.cyc hs (h.closed s hs) hr hm (hit_mod_of (h.least hs hr) hr hm e) hf']
    have eg' := congrArg conj eg
    simp only [map_add, map_mul, map_pow, Complex.conj_ofReal, Complex.conj_I, map_intCast] at eg'
    rw [Complex.conj_conj]
    rw [ef] at eg eg'
    push_cast at eg eg'
    have hI : Complex.I * Complex.I = -1 := Complex.I_mul_I
    linear_combination (-(Complex.I * (n : ℂ) / r / 2)) * eg + ((Complex.I * (n : ℂ) / r / 2)) * eg' + (n : ℂ) / r * δ * hI
  · rw [no_entry h.cyc hs (h.closed s hs) hno, no_entry h.cyc hs (h.closed s hs) hno, e2]; simp

/-- overlap of states from different orbits -/
theorem orbit_zero {s t : ℕ} (hs : s < N) (ht : t < N) (ho : ¬ InOrbit Tr Z t s) :
    ip (basisVec N s) (cosW (opMat N Tr) n ω *ᵥ basisVec N t) = 0 ∧
    ip (basisVec N s) (sinW (opMat N Tr) n ω *ᵥ basisVec N t) = 0 ∧
    ip (basisVec N s) ((opMat N Z * cosW (opMat N Tr) n ω) *ᵥ basisVec N t) = 0 ∧
    ip (basisVec N s) ((opMat N Z * sinW (opMat N Tr) n ω) *ᵥ basisVec N t) = 0 := by
  have n1 : ∀ c, (tr Tr t c).1 ≠ s := fun c e => ho (Or.inl ⟨c, e⟩)
  have n2 : ∀ c, (tr Tr (Z t).1 c).1 ≠ s := fun c e => ho (Or.inr ⟨c, e⟩)
  have hd := dih h
  have c1 : opMat N Z * cosW (opMat N Tr) n ω = cosW (opMat N Tr) n ω * opMat N Z := (cosW_comm hd h1 hn).symm
  have c2 : opMat N Z * sinW (opMat N Tr) n ω = -(sinW (opMat N Tr) n ω * opMat N Z) := by rw [sinW_comm hd h1 hn, neg_neg]
  have hz : opMat N Z *ᵥ basisVec N t = vec N ((Z t).1, (Z t).2) := opMat_basis Z t ht
  have a1 : ∀ ω : ℂ, ip (basisVec N s) (proj (opMat N Tr) n ω *ᵥ basisVec N t) = 0 := by
    intro ω; rw [← vec_one t]; exact no_entry h.cyc hs ht n1
  have a2 : ∀ ω : ℂ, ip (basisVec N s) (proj (opMat N Tr) n ω *ᵥ vec N ((Z t).1, (Z t).2)) = 0 := by
    intro ω; exact no_entry h.cyc hs (h.closed t ht) n2
  rw [c1, c2, Matrix.neg_mulVec, ip_neg, ← Matrix.mulVec_mulVec, ← Matrix.mulVec_mulVec, hz, ip_cos, ip_sin, ip_cos, ip_sin, a1, a1, a2, a2]
  simp

/-- the overlaps as entries of products -/
theorem ip_waves {p : ℂ} (hp : p * p = 1) (hpc : conj p = p) (hne : ω ^ 2 ≠ 1) (s t : ℕ) :
    let U := opMat N Tr
    let R := opMat N Z
    let c := ip (basisVec N s) (cosW U n ω *ᵥ basisVec N t)
    let d := ip (basisVec N s) (sinW U n ω *ᵥ basisVec N t)
    let c' := ip (basisVec N s) ((R * cosW U n ω) *ᵥ basisVec N t)
    let d' := ip (basisVec N s) ((R * sinW U n ω) *ᵥ basisVec N t)
    ip (bPlus U R 1 n ω p *ᵥ basisVec N s) (bPlus U R 1 n ω p *ᵥ basisVec N t) = n * (c + p * c') ∧
    ip (bMinus U R 1 n ω p *ᵥ basisVec N s) (bMinus U R 1 n ω p *ᵥ basisVec N t) = n * (c - p * c') ∧
    ip (bPlus U R 1 n ω p *ᵥ basisVec N s) (bMinus U R 1 n ω p *ᵥ basisVec N t) = n * (d + p * d') ∧
    ip (bMinus U R 1 n ω p *ᵥ basisVec N s) (bPlus U R 1 n ω p *ᵥ basisVec N t) = -(n * (d - p * d')) := by
  intro U R c d c' d'
  obtain ⟨g1, g2, g3, g4⟩ := gram (dih h) h1 hn hne (central_one (U := opMat N Tr) (R := opMat N Z)) hp hpc
  rw [Matrix.star_eq_conjTranspose] at g1 g2 g3 g4
  refine ⟨?_, ?_, ?_, ?_⟩
  · rw [ip_adjoint]; refine (congrArg (fun M => ip (basisVec N s) (M *ᵥ basisVec N t)) g1).trans ?_
    simp only [mul_one, add_mul, one_mul, smul_mul_assoc, Matrix.smul_mulVec, Matrix.add_mulVec, ip_smul, ip_add]; rfl
  · rw [ip_adjoint]; refine (congrArg (fun M => ip (basisVec N s) (M *ᵥ basisVec N t)) g2).trans ?_
    simp only [mul_one, sub_mul, one_mul, smul_mul_assoc, Matrix.smul_mulVec, Matrix.sub_mulVec, ip_smul, ip_sub]; rfl
  · rw [ip_adjoint]; refine (congrArg (fun M => ip (basisVec N s) (M *ᵥ basisVec N t)) g3).trans ?_
    simp only [mul_one, add_mul, one_mul, smul_mul_assoc, Matrix.smul_mulVec, Matrix.add_mulVec, ip_smul, ip_add]; rfl
  · rw [ip_adjoint]; refine (congrArg (fun M => ip (basisVec N s) (M *ᵥ basisVec N t)) g4).trans ?_
    simp only [mul_one, sub_mul, one_mul, smul_mul_assoc, Matrix.neg_mulVec, ip_neg, Matrix.smul_mulVec, Matrix.sub_mulVec, ip_smul, ip_sub]; rfl

theorem ip_waves_real {p : ℂ} (hp : p * p = 1) (hpc : conj p = p) (he : ω ^ 2 = 1) (s t : ℕ) :
    ip (bPlus (opMat N Tr) (opMat N Z) 1 n ω p *ᵥ basisVec N s) (bPlus (opMat N Tr) (opMat N Z) 1 n ω p *ᵥ basisVec N t)
      = 2 * n * (ip (basisVec N s) (cosW (opMat N Tr) n ω *ᵥ basisVec N t)
        + p * ip (basisVec N s) ((opMat N Z * cosW (opMat N Tr) n ω) *ᵥ basisVec N t)) ∧
    bMinus (opMat N Tr) (opMat N Z) 1 n ω p = 0 := by
  have g1 := gram_real (dih h) h1 hn he (central_one (U := opMat N Tr) (R := opMat N Z)) hp hpc
  rw [Matrix.star_eq_conjTranspose] at g1
  refine ⟨?_, ?_⟩
  · rw [ip_adjoint, g1]
    simp only [mul_one, add_mul, one_mul, smul_mul_assoc, Matrix.smul_mulVec, Matrix.add_mulVec, ip_smul, ip_add]
  · unfold bMinus
    rw [(cosW_sq_real (dih h) h1 hn he).2]
    simp

end

end Proof.Semi
