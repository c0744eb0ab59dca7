import Verif.Model.Evolution
import Verif.Proof.Evaluate
import Verif.Spec.Motion
import Mathlib.Analysis.SpecialFunctions.ExpDeriv
import Mathlib.Analysis.Calculus.Deriv.Star
import Mathlib.Analysis.Calculus.MeanValue
import Mathlib.Tactic.LinearCombination
import Mathlib.Tactic.Positivity
import Mathlib.Data.List.GetD

namespace Proof.Evolution
open Complex Model.Eval Model.Evolution Proof.Eval Spec.Motion

variable {N : Nat} {κ : Type}

/-! ### Right-hand sides -/

theorem schroedinger_ok (H : Ham ℝ ℂ) (t : ℝ) (V out : Matrix (Fin N) κ ℂ) :
    Model.Eval.schroedinger H t V out = some (Spec.Motion.schroedinger (instantOf N H) t V) := by
  rw [Model.Eval.schroedinger, dotInto_own, Option.bind_some, addDynamic_ok, Option.map_some, Spec.Motion.schroedinger, instantOf_eq]
  simp [Matrix.add_mul]

theorem imaginary_ok (H : Ham ℝ ℂ) (t : ℝ) (V out : Matrix (Fin N) κ ℂ) :
    Model.Eval.imaginary H t V out = some (Spec.Motion.imaginary (instantOf N H) t V) := by
  rw [Model.Eval.imaginary, dotInto_own, Option.bind_some, addDynamic_ok, Option.map_some, Spec.Motion.imaginary, instantOf_eq]
  simp [Matrix.add_mul, add_comm]

theorem stacked_ok (H : Ham ℝ ℝ) (t : ℝ) (V out : Matrix (Fin N) κ ℝ × Matrix (Fin N) κ ℝ) :
    stacked H t V out = some (instantOf N H t * V.2, -(instantOf N H t * V.1)) := by
  have loop : ∀ (d : List ((ℝ → ℝ) × Stored ℝ)) (p : Matrix (Fin N) κ ℝ × Matrix (Fin N) κ ℝ),
      d.foldlM (fun p e =>
        (dotInto N (routineOf e.2) e.2 V.2 false (e.1 t) p.1).bind fun u =>
          (dotInto N (routineOf e.2) e.2 V.1 false (-e.1 t) p.2).map fun w => (u, w)) p =
        some (p.1 + drivenOf N d t * V.2, p.2 - drivenOf N d t * V.1) := by
    intro d
    induction d with
    | nil => intro p; simp [drivenOf_nil]
    | cons e d ih =>
      intro p
      rw [List.foldlM_cons, dotInto_own, Option.bind_some, dotInto_own, Option.map_some]
      show List.foldlM _ _ d = _
      rw [ih, drivenOf_cons]
      simp only [Bool.false_eq_true, if_false, Matrix.add_mul, Matrix.smul_mul, neg_smul]
      congr 2 <;> abel
  rw [stacked, dotInto_own, Option.bind_some, dotInto_own, Option.bind_some, loop, instantOf_eq]
  simp only [if_true, Matrix.add_mul, one_smul, neg_smul, zero_add]
  congr 2
  abel

/-- What the routine of `S` reads in the arrays of the transpose of `S`. -/
def misread (N : Nat) (S : Stored ℂ) : Matrix (Fin N) (Fin N) ℂ :=
  match S with
  | .csr A => (Stored.csr A).mat N
  | .csc A => (Stored.csc A).mat N
  | S => (S.mat N).transpose

theorem dotIntoT_ok (S : Stored ℂ) (x out : Matrix (Fin N) (Fin N) ℂ) (a : ℂ) :
    dotIntoT (routineOf S) S.trans x.transpose a out = some (out + a • (x * (misread N S).transpose)) := by
  unfold dotIntoT
  cases S with
  | csr A =>
    rw [dotInto_read (E := (Stored.csr A).entry) rfl]
    simp only [Bool.false_eq_true, if_false, Option.map_some, Matrix.transpose_add, Matrix.transpose_smul, Matrix.transpose_mul,
      Matrix.transpose_transpose]
    rfl
  | csc A =>
    rw [dotInto_read (E := (Stored.csc A).entry) rfl]
    simp only [Bool.false_eq_true, if_false, Option.map_some, Matrix.transpose_add, Matrix.transpose_smul, Matrix.transpose_mul,
      Matrix.transpose_transpose]
    rfl
  | dia E =>
    rw [dotInto_read (E := (Stored.dia E).trans.entry) rfl]
    simp only [Bool.false_eq_true, if_false, Option.map_some, Matrix.transpose_add, Matrix.transpose_smul, Matrix.transpose_mul,
      Matrix.transpose_transpose]
    rfl
  | dense E =>
    rw [dotInto_read (E := (Stored.dense E).trans.entry) rfl]
    simp only [Bool.false_eq_true, if_false, Option.map_some, Matrix.transpose_add, Matrix.transpose_smul, Matrix.transpose_mul,
      Matrix.transpose_transpose]
    rfl

/-- What `__LO` multiplies with from the right. -/
noncomputable def misreadOf (N : Nat) (H : Ham ℝ ℂ) (t : ℝ) : Matrix (Fin N) (Fin N) ℂ :=
  (misread N H.static).transpose + (H.dynamic.map fun e => e.1 t • (misread N e.2).transpose).sum

theorem liouville_ok (H : Ham ℝ ℂ) (t : ℝ) (rho out : Matrix (Fin N) (Fin N) ℂ) :
    liouville H t rho out = some ((-I) • (instantOf N H t * rho - rho * misreadOf N H t)) := by
  have loop : ∀ (d : List ((ℝ → ℂ) × Stored ℂ)) (y : Matrix (Fin N) (Fin N) ℂ),
      d.foldlM (fun y e =>
        (dotInto N (routineOf e.2) e.2 rho false (e.1 t) y).bind fun y =>
          dotIntoT (routineOf e.2) e.2.trans rho.transpose (-e.1 t) y) y =
        some (y + drivenOf N d t * rho - rho * (d.map fun e => e.1 t • (misread N e.2).transpose).sum) := by
    intro d
    induction d with
    | nil => intro y; simp [drivenOf_nil]
    | cons e d ih =>
      intro y
      rw [List.foldlM_cons, dotInto_own, Option.bind_some, dotIntoT_ok]
      show List.foldlM _ _ d = _
      rw [ih, drivenOf_cons]
      simp only [Bool.false_eq_true, if_false, Matrix.add_mul, Matrix.smul_mul, neg_smul, List.map_cons, List.sum_cons,
        Matrix.mul_add, Matrix.mul_smul]
      congr 1
      abel
  rw [liouville, dotInto_own, Option.bind_some, dotIntoT_ok, Option.bind_some, loop, Option.map_some, instantOf_eq, misreadOf]
  simp only [if_true, Matrix.add_mul, one_smul, neg_smul, zero_add, Matrix.mul_add]
  congr 3
  abel

/-! ### Solutions -/

theorem stacked_solution (A : ℝ → Matrix (Fin N) (Fin N) ℝ) (u w : ℝ → Matrix (Fin N) κ ℝ)
    (hu : ∀ t i j, HasDerivAt (fun s => u s i j) ((A t * w t) i j) t)
    (hw : ∀ t i j, HasDerivAt (fun s => w s i j) ((-(A t * u t)) i j) t) :
    Solves (Spec.Motion.schroedinger fun t => (A t).map ofReal) fun t => Matrix.of fun i j => (u t i j : ℂ) + I * (w t i j : ℂ) := by
  intro t i j
  have h1 := (hu t i j).ofReal_comp
  have h2 := ((hw t i j).ofReal_comp).const_mul I
  refine (h1.add h2).congr_deriv ?_
  simp only [Spec.Motion.schroedinger, Matrix.smul_apply, Matrix.mul_apply, Matrix.map_apply, Matrix.of_apply, Matrix.neg_apply,
    smul_eq_mul, ofReal_neg, ofReal_sum, ofReal_mul, Finset.mul_sum, mul_neg]
  rw [← Finset.sum_neg_distrib, ← Finset.sum_add_distrib]
  refine Finset.sum_congr rfl fun k _ => ?_
  linear_combination ((A t i k : ℂ) * (w t k j : ℂ)) * I_sq

/-- Overlaps do not change along solutions of the Schrödinger equation with Hermitian `H`. -/
theorem overlap_constant (H : ℝ → Matrix (Fin N) (Fin N) ℂ) (hH : ∀ t, (H t).IsHermitian) (ψ : ℝ → Matrix (Fin N) κ ℂ)
    (h : Solves (Spec.Motion.schroedinger H) ψ) (j k : κ) (s t : ℝ) :
    ∑ i, star (ψ s i j) * ψ s i k = ∑ i, star (ψ t i j) * ψ t i k := by
  have hd : ∀ t, HasDerivAt (fun s => ∑ i, star (ψ s i j) * ψ s i k) 0 t := by
    intro t
    have h1 : HasDerivAt (fun s => ∑ i, star (ψ s i j) * ψ s i k)
        (∑ i, (star ((-I • (H t * ψ t)) i j) * ψ t i k + star (ψ t i j) * (-I • (H t * ψ t)) i k)) t :=
      HasDerivAt.fun_sum fun i _ => ((h t i j).star).mul (h t i k)
    refine h1.congr_deriv ?_
    rw [Finset.sum_add_distrib]
    have e1 : ∑ i, star ((-I • (H t * ψ t)) i j) * ψ t i k = I * ((ψ t).conjTranspose * (H t * ψ t)) j k := by
      have : I * ((ψ t).conjTranspose * (H t * ψ t)) j k = ((-I • (H t * ψ t)).conjTranspose * ψ t) j k := by
        rw [Matrix.conjTranspose_smul, Matrix.conjTranspose_mul, (hH t).eq, Matrix.smul_mul, Matrix.mul_assoc]
        simp
      rw [this, Matrix.mul_apply]; rfl
    have e2 : ∑ i, star (ψ t i j) * (-I • (H t * ψ t)) i k = -I * ((ψ t).conjTranspose * (H t * ψ t)) j k := by
      rw [Matrix.mul_apply, Finset.mul_sum]
      refine Finset.sum_congr rfl fun i _ => ?_
      rw [Matrix.smul_apply, Matrix.conjTranspose_apply, smul_eq_mul]
      ring
    rw [e1, e2]
    ring
  exact is_const_of_deriv_eq_zero (fun t => (hd t).differentiableAt) (fun t => (hd t).deriv) s t

/-! ### The wrapper -/

theorem evolveLoop_exact {Y : Type} (φ : ℝ → ℝ → Y → Y) (step : ℝ → Y → ℝ → Option Y) (hs : ∀ s y t, step s y t = some (φ t s y))
    (hid : ∀ t y, φ t t y = y) (hcomp : ∀ r s t y, φ t s (φ s r y) = φ t r y) (t0 : ℝ) (v0 : Y) (times : List ℝ) :
    ∀ (b : Bool) (s : ℝ), (b = true → s = t0) →
      evolveLoop step id t0 (v0, b, ⟨s, φ s t0 v0⟩) times = some (times.map fun t => φ t t0 v0) := by
  induction times with
  | nil => intro b s _; rfl
  | cons t ts ih =>
    intro b s hb
    rw [evolveLoop, listStep]
    by_cases ht : t = t0
    · rw [if_pos ht]
      simp only [id, Option.bind_some]
      have : (if b = true then (⟨s, v0⟩ : Solver Y) else ⟨s, φ s t0 v0⟩) = ⟨s, φ s t0 v0⟩ := by
        split
        · rename_i h; rw [hb h, hid]
        · rfl
      rw [this, ih b s hb, ht, List.map_cons, hid]
      rfl
    · rw [if_neg ht]
      simp only [hs, Option.map_some, Option.bind_some, hcomp, id]
      rw [ih false t (by simp)]
      rfl

section Imag
variable {n : Type} [Fintype n]

theorem columnNorm_eq (v : Matrix n κ ℂ) (j : κ) : columnNorm v j = Spec.Motion.norm v j := rfl

theorem norm_scale (v : Matrix n κ ℂ) (a : ℝ) (ha : 0 ≤ a) (w : Matrix n κ ℂ) (j : κ) (h : ∀ i, w i j = a * v i j) :
    Spec.Motion.norm w j = a * Spec.Motion.norm v j := by
  unfold Spec.Motion.norm
  have : ∑ i, ‖w i j‖ ^ 2 = a ^ 2 * ∑ i, ‖v i j‖ ^ 2 := by
    rw [Finset.mul_sum]
    refine Finset.sum_congr rfl fun i _ => ?_
    rw [h, norm_mul, mul_pow, Complex.norm_real, Real.norm_eq_abs, sq_abs]
  rw [this, Real.sqrt_mul (by positivity), Real.sqrt_sq ha]

/-- The columns of `w` are positive multiples of those of `v`. -/
def Scaled (v w : Matrix n κ ℂ) : Prop := ∀ j, ∃ a : ℝ, 0 < a ∧ ∀ i, w i j = a * v i j

omit [Fintype n] in
theorem Scaled.refl (v : Matrix n κ ℂ) : Scaled v v := fun _ => ⟨1, one_pos, fun _ => by simp⟩

theorem imagFormat_scaled (c : ℝ) {v w : Matrix n κ ℂ} (h : Scaled v w) : imagFormat c w = imagFormat c v := by
  funext i j
  obtain ⟨a, ha, h⟩ := h j
  have ha' : (a : ℂ) ≠ 0 := by exact_mod_cast ha.ne'
  rw [imagFormat, imagFormat, columnNorm_eq, columnNorm_eq, norm_scale v a ha.le w j h, h]
  push_cast
  rw [mul_div_assoc (a : ℂ) (Spec.Motion.norm v j : ℂ), mul_div_mul_left _ _ ha']

theorem imagFormat_spec (c : ℝ) (hc : 0 < c) (v : Matrix n κ ℂ) (hv : ∀ j, Spec.Motion.norm v j ≠ 0) :
    Rescaled v (imagFormat c v) fun _ => c := by
  have hp : ∀ j, 0 < Spec.Motion.norm v j := fun j => lt_of_le_of_ne (Real.sqrt_nonneg _) (hv j).symm
  have key : ∀ i j, imagFormat c v i j = ((c / Spec.Motion.norm v j : ℝ) : ℂ) * v i j := by
    intro i j
    rw [imagFormat, columnNorm_eq, div_eq_mul_inv, ← ofReal_inv, inv_div, mul_comm]
  refine ⟨fun j => ⟨c / Spec.Motion.norm v j, div_pos hc (hp j), fun i => key i j⟩, fun j => ?_⟩
  rw [norm_scale v _ (div_pos hc (hp j)).le _ j fun i => key i j, div_mul_cancel₀ _ (hv j)]

theorem Scaled.mul [DecidableEq n] (U : Matrix n n ℂ) {v w : Matrix n κ ℂ} (h : Scaled v w) : Scaled (U * v) (U * w) := by
  intro j
  obtain ⟨a, ha, h⟩ := h j
  refine ⟨a, ha, fun i => ?_⟩
  rw [Matrix.mul_apply, Matrix.mul_apply, Finset.mul_sum]
  refine Finset.sum_congr rfl fun k _ => ?_
  rw [h]; ring

omit [Fintype n] in
theorem Scaled.trans {u v w : Matrix n κ ℂ} (h : Scaled u v) (h' : Scaled v w) : Scaled u w := by
  intro j
  obtain ⟨a, ha, h⟩ := h j
  obtain ⟨b, hb, h'⟩ := h' j
  exact ⟨b * a, mul_pos hb ha, fun i => by rw [h', h]; push_cast; ring⟩

theorem evolveLoop_imag [DecidableEq n] (U : ℝ → ℝ → Matrix n n ℂ) (hU : Propagator U)
    (step : ℝ → Matrix n κ ℂ → ℝ → Option (Matrix n κ ℂ)) (hs : ∀ s y t, step s y t = some (U t s * y)) (t0 : ℝ)
    (v0 : Matrix n κ ℂ) (c : ℝ) (hc : 0 < c) (hv : ∀ t j, Spec.Motion.norm (U t t0 * v0) j ≠ 0) (times : List ℝ) :
    ∀ (b : Bool) (s : ℝ) (v y : Matrix n κ ℂ), Scaled v0 v → Scaled (U s t0 * v0) y → (b = true → s = t0) →
      evolveLoop step (imagFormat c) t0 (v, b, ⟨s, y⟩) times = some (times.map fun t => imagFormat c (U t t0 * v0)) := by
  induction times with
  | nil => intro b s v y _ _ _; rfl
  | cons t ts ih =>
    intro b s v y h1 h2 hb
    rw [evolveLoop, listStep]
    by_cases ht : t = t0
    · rw [if_pos ht]
      simp only [Option.bind_some]
      have e : imagFormat c v = imagFormat c (U t0 t0 * v0) := by rw [imagFormat_scaled c h1, hU.same, Matrix.one_mul]
      have h3 : Scaled v0 (imagFormat c v) := by
        have := (imagFormat_spec c hc _ (hv t0)).1
        rw [e]
        rw [hU.same, Matrix.one_mul] at this ⊢
        exact this
      rw [show (if b = true then (⟨s, imagFormat c v⟩ : Solver (Matrix n κ ℂ)) else ⟨s, y⟩) =
        ⟨s, if b = true then imagFormat c v else y⟩ from by split <;> rfl]
      rw [ih b s _ _ h3 ?_ hb, ht, e]
      · rfl
      · split
        · rename_i h
          rw [hb h, hU.same, Matrix.one_mul]
          exact h3
        · exact h2
    · rw [if_neg ht]
      simp only [hs, Option.map_some, Option.bind_some]
      have h4 : Scaled (U t t0 * v0) (U t s * y) := by
        have := h2.mul (U t s)
        rwa [← Matrix.mul_assoc, hU.comp] at this
      rw [ih false t _ _ h1 ((h4.trans (imagFormat_spec c hc _ fun j => ?_).1)) (by simp), List.map_cons, imagFormat_scaled c h4]
      · rfl
      · obtain ⟨a, ha, h⟩ := h4 j
        rw [norm_scale _ a ha.le _ j h]
        exact mul_ne_zero ha.ne' (hv t j)

end Imag

/-! ### Stacked arrays -/

section Stack
variable {k : Nat}

theorem stackPack_length (v : Matrix (Fin N) (Fin k) ℂ) : (stackPack v).length = N * k + N * k := by simp [stackPack]

theorem index_lt (i : Fin N) (j : Fin k) : i.val * k + j.val < N * k := by
  calc i.val * k + j.val < i.val * k + k := Nat.add_lt_add_left j.isLt _
    _ = (i.val + 1) * k := by ring
    _ ≤ N * k := Nat.mul_le_mul_right k i.isLt

theorem divMod (i : Fin N) (j : Fin k) (h : i.val * k + j.val < N * k) :
    (⟨i.val * k + j.val, h⟩ : Fin (N * k)).divNat = i ∧ (⟨i.val * k + j.val, h⟩ : Fin (N * k)).modNat = j := by
  have hk : 0 < k := j.pos
  constructor
  · refine Fin.ext ?_
    show (i.val * k + j.val) / k = i.val
    rw [Nat.mul_comm, Nat.mul_add_div hk, Nat.div_eq_of_lt j.isLt, Nat.add_zero]
  · refine Fin.ext ?_
    show (i.val * k + j.val) % k = j.val
    rw [Nat.mul_comm, Nat.mul_add_mod, Nat.mod_eq_of_lt j.isLt]

theorem stackPack_re (v : Matrix (Fin N) (Fin k) ℂ) (i : Fin N) (j : Fin k) :
    (stackPack v).getD (i.val * k + j.val) 0 = (v i j).re := by
  have h := index_lt i j
  have hd := divMod i j h
  rw [stackPack, List.getD_append _ _ _ _ (by simpa using h), List.getD_eq_getElem _ _ (by simpa using h), List.getElem_ofFn, hd.1, hd.2]

theorem stackPack_im (v : Matrix (Fin N) (Fin k) ℂ) (i : Fin N) (j : Fin k) :
    (stackPack v).getD (N * k + (i.val * k + j.val)) 0 = (v i j).im := by
  have h := index_lt i j
  have hd := divMod i j h
  rw [stackPack, List.getD_append_right _ _ _ _ (by simp)]
  simp only [List.length_ofFn, Nat.add_sub_cancel_left]
  rw [List.getD_eq_getElem _ _ (by simpa using h), List.getElem_ofFn, hd.1, hd.2]

theorem stackView_pack (v : Matrix (Fin N) (Fin k) ℂ) : stackView N k (stackPack v) = (v.map re, v.map im) := by
  unfold stackView
  refine Prod.ext ?_ ?_
  · funext i j
    exact stackPack_re v i j
  · funext i j
    show (stackPack v).getD _ 0 = _
    rw [show (N + i.val) * k + j.val = N * k + (i.val * k + j.val) by ring]
    exact stackPack_im v i j

end Stack

/-! ### Exact diagonalisation -/

section Exact

variable {H V : Matrix (Fin N) (Fin N) ℂ} {E : Fin N → ℝ}

theorem _root_.Spec.Motion.Eigensystem.matrix (h : Eigensystem H E V) : H * V = V * Matrix.diagonal fun a => (E a : ℂ) := by
  ext i a
  rw [Matrix.mul_apply, h.eig, Matrix.mul_diagonal]

theorem _root_.Spec.Motion.Eigensystem.left (h : Eigensystem H E V) : V.conjTranspose * H = (Matrix.diagonal fun a => (E a : ℂ)) * V.conjTranspose := by
  have hu : V.conjTranspose * V = 1 := mul_eq_one_comm.mp h.unit
  calc V.conjTranspose * H = V.conjTranspose * H * (V * V.conjTranspose) := by rw [h.unit, Matrix.mul_one]
    _ = V.conjTranspose * (H * V) * V.conjTranspose := by simp only [Matrix.mul_assoc]
    _ = (V.conjTranspose * V) * (Matrix.diagonal fun a => (E a : ℂ)) * V.conjTranspose := by rw [h.matrix]; simp only [Matrix.mul_assoc]
    _ = _ := by rw [hu, Matrix.one_mul]

theorem _root_.Spec.Motion.Eigensystem.left_entry (h : Eigensystem H E V) (b l : Fin N) : ∑ k, star (V k b) * H k l = E b * star (V l b) := by
  have := congrFun (congrFun h.left b) l
  rw [Matrix.mul_apply, Matrix.diagonal_mul] at this
  exact this

theorem deriv_phase (e : ℝ) (t : ℝ) : HasDerivAt (fun s : ℝ => exp (-I * s * e)) (-I * e * exp (-I * t * e)) t := by
  have h1 : HasDerivAt (fun s : ℝ => -I * (s : ℂ) * e) (-I * 1 * e) t :=
    (((hasDerivAt_id t).ofReal_comp).const_mul (-I)).mul_const (e : ℂ)
  refine (h1.cexp).congr_deriv ?_
  ring

theorem phase_star (e t : ℝ) : star (exp (-I * t * e)) = exp (I * t * e) := by
  have h : star (exp (-I * t * e)) = exp (star (-I * t * e)) := (exp_conj _).symm
  rw [h]
  congr 1
  simp

theorem deriv_phase_star (e : ℝ) (t : ℝ) : HasDerivAt (fun s : ℝ => star (exp (-I * s * e))) (I * e * star (exp (-I * t * e))) t := by
  refine (deriv_phase e t).star.congr_deriv ?_
  simp

/-- The state as a function of time. -/
noncomputable def pureState (psi : Fin N → ℂ) (E : Fin N → ℝ) (V : Matrix (Fin N) (Fin N) ℂ) (t : ℝ) : Matrix (Fin N) Unit ℂ :=
  Matrix.of fun i _ => ∑ a, V i a * (exp (-I * t * E a) * ∑ k, star (V k a) * psi k)

theorem pureState_zero (h : Eigensystem H E V) (psi : Fin N → ℂ) (i : Fin N) : pureState psi E V 0 i () = psi i := by
  have : ∀ k, ∑ a, V i a * star (V k a) = if i = k then 1 else 0 := by
    intro k
    have := congrFun (congrFun h.unit i) k
    rwa [Matrix.mul_apply, Matrix.one_apply] at this
  simp only [pureState, Matrix.of_apply, ofReal_zero, mul_zero, zero_mul, exp_zero, one_mul, Finset.mul_sum]
  rw [Finset.sum_comm]
  simp only [← mul_assoc, ← Finset.sum_mul, this]
  simp

theorem pureState_solves (h : Eigensystem H E V) (psi : Fin N → ℂ) :
    Solves (Spec.Motion.schroedinger fun _ => H) (pureState psi E V) := by
  intro t i j
  have h1 : HasDerivAt (fun s => pureState psi E V s i j)
      (∑ a, V i a * (-I * E a * exp (-I * t * E a) * ∑ k, star (V k a) * psi k)) t :=
    show HasDerivAt (fun s : ℝ => ∑ a, V i a * (exp (-I * s * E a) * ∑ k, star (V k a) * psi k)) _ t from
      HasDerivAt.fun_sum fun a _ => ((deriv_phase (E a) t).mul_const _).const_mul _
  refine h1.congr_deriv ?_
  simp only [Spec.Motion.schroedinger, Matrix.smul_apply, Matrix.mul_apply, smul_eq_mul, pureState, Matrix.of_apply]
  simp only [Finset.mul_sum (s := Finset.univ) (f := fun a => V _ a * _)]
  rw [Finset.sum_comm, Finset.mul_sum]
  refine Finset.sum_congr rfl fun a _ => ?_
  rw [show ∑ k, H i k * (V k a * (exp (-I * t * E a) * ∑ k, star (V k a) * psi k)) =
    (∑ k, H i k * V k a) * (exp (-I * t * E a) * ∑ k, star (V k a) * psi k) from by
      rw [Finset.sum_mul]; exact Finset.sum_congr rfl fun k _ => by ring]
  rw [h.eig]
  ring

/-- The density matrix as a function of time. -/
noncomputable def mixedState (psi : Matrix (Fin N) (Fin N) ℂ) (E : Fin N → ℝ) (V : Matrix (Fin N) (Fin N) ℂ) (t : ℝ) :
    Matrix (Fin N) (Fin N) ℂ :=
  Matrix.of fun i l => ∑ a, ∑ b, V i a * exp (-I * t * E a) * (∑ i, star (V i a) * ∑ j, psi i j * V j b) *
    star (exp (-I * t * E b)) * star (V l b)

theorem mixedState_zero (h : Eigensystem H E V) (psi : Matrix (Fin N) (Fin N) ℂ) : mixedState psi E V 0 = psi := by
  have hu := h.unit
  have : mixedState psi E V 0 = V * (V.conjTranspose * (psi * V)) * V.conjTranspose := by
    ext i l
    simp only [mixedState, Matrix.of_apply, ofReal_zero, mul_zero, zero_mul, exp_zero, mul_one, star_one]
    rw [Matrix.mul_apply, Finset.sum_comm]
    refine Finset.sum_congr rfl fun b _ => ?_
    rw [Matrix.mul_apply, Finset.sum_mul]
    refine Finset.sum_congr rfl fun a _ => ?_
    rw [Matrix.mul_apply]
    simp only [Matrix.mul_apply]
    rfl
  rw [this, ← Matrix.mul_assoc, hu, Matrix.one_mul, Matrix.mul_assoc, hu, Matrix.mul_one]

theorem mixedState_solves (h : Eigensystem H E V) (psi : Matrix (Fin N) (Fin N) ℂ) :
    Solves (Spec.Motion.vonNeumann fun _ => H) (mixedState psi E V) := by
  intro t i l
  set r : Fin N → Fin N → ℂ := fun a b => ∑ i, star (V i a) * ∑ j, psi i j * V j b with hr
  set e : Fin N → ℂ := fun a => exp (-I * t * E a) with he
  have h1 : HasDerivAt (fun s => mixedState psi E V s i l)
      (∑ a, ∑ b, ((V i a * (-I * E a * e a)) * r a b * star (e b) + (V i a * e a * r a b) * (I * E b * star (e b))) * star (V l b)) t := by
    show HasDerivAt (fun s : ℝ => ∑ a, ∑ b, V i a * exp (-I * s * E a) * r a b * star (exp (-I * s * E b)) * star (V l b)) _ t
    refine HasDerivAt.fun_sum fun a _ => HasDerivAt.fun_sum fun b _ => ?_
    exact ((((deriv_phase (E a) t).const_mul _).mul_const _).mul (deriv_phase_star (E b) t)).mul_const _
  refine h1.congr_deriv ?_
  have h2 : (H * mixedState psi E V t) i l = ∑ a, ∑ b, V i a * E a * e a * r a b * star (e b) * star (V l b) := by
    rw [Matrix.mul_apply]
    simp only [mixedState, Matrix.of_apply, Finset.mul_sum (s := Finset.univ) (f := fun a => ∑ b, V _ a * _ * _ * _ * _)]
    rw [Finset.sum_comm]
    refine Finset.sum_congr rfl fun a _ => ?_
    rw [show ∀ f : Fin N → Fin N → ℂ, ∑ k, H i k * ∑ b, f k b = ∑ b, ∑ k, H i k * f k b from fun f => by
      simp only [Finset.mul_sum]; exact Finset.sum_comm]
    refine Finset.sum_congr rfl fun b _ => ?_
    rw [← h.eig, Finset.sum_mul, Finset.sum_mul, Finset.sum_mul, Finset.sum_mul]
    exact Finset.sum_congr rfl fun k _ => by ring
  have h3 : (mixedState psi E V t * H) i l = ∑ a, ∑ b, V i a * e a * r a b * star (e b) * (E b * star (V l b)) := by
    rw [Matrix.mul_apply]
    have : ∀ k, mixedState psi E V t i k * H k l =
        ∑ a, ∑ b, V i a * e a * r a b * star (e b) * (star (V k b) * H k l) := by
      intro k
      show (∑ a, ∑ b, V i a * e a * r a b * star (e b) * star (V k b)) * H k l = _
      rw [Finset.sum_mul]
      refine Finset.sum_congr rfl fun a _ => ?_
      rw [Finset.sum_mul]
      exact Finset.sum_congr rfl fun b _ => by ring
    simp only [this]
    rw [Finset.sum_comm]
    refine Finset.sum_congr rfl fun a _ => ?_
    rw [Finset.sum_comm]
    refine Finset.sum_congr rfl fun b _ => ?_
    rw [← h.left_entry]
    exact (Finset.mul_sum _ _ _).symm
  rw [Spec.Motion.vonNeumann, Matrix.smul_apply, Matrix.sub_apply, h2, h3, ← Finset.sum_sub_distrib, smul_eq_mul, Finset.mul_sum]
  refine Finset.sum_congr rfl fun a _ => ?_
  rw [← Finset.sum_sub_distrib, Finset.mul_sum]
  refine Finset.sum_congr rfl fun b _ => ?_
  ring

end Exact

end Proof.Evolution
