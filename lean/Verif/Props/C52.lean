import Verif.Proof.Evolution
import Verif.Props.C51
import Mathlib.Tactic.NormNum

/-!
C52: time evolution follows the equations of motion.
C56: time evolution in the eigenbasis.

`toMatrix N H t` is the operator at time `t` (C51).  `scipy.integrate.ode` enters as an exact solver: a function that takes the
state at one time to the state at another.
-/

namespace Props
open Complex Model.Eval Model.Evolution Proof.Eval Proof.Evolution Spec.Motion

variable {N : Nat} {κ : Type}

theorem toMatrix_fun {R T : Type} [CommRing R] (H : Ham T R) : toMatrix N H = instantOf N H := funext fun t => toMatrix_ok H t

/-! ### C52 -/

/-- C52: the right-hand side given to the solver is `-i H(t) ψ`; for imaginary time `-H(t) ψ`; whatever the output array
held before. -/
theorem C52_schroedinger (H : Ham ℝ ℂ) (t : ℝ) (ψ out : Matrix (Fin N) κ ℂ) :
    Model.Eval.schroedinger H t ψ out = some (Spec.Motion.schroedinger (toMatrix N H) t ψ) ∧
      Model.Eval.imaginary H t ψ out = some (Spec.Motion.imaginary (toMatrix N H) t ψ) := by
  rw [toMatrix_fun]
  exact ⟨schroedinger_ok H t ψ out, imaginary_ok H t ψ out⟩

/-- C52: with `stack_state` a solution `(u, w)` of the real equations given to the solver is a solution `u + i w` of the
Schrödinger equation. -/
theorem C52_stacked (H : Ham ℝ ℝ) (u w : ℝ → Matrix (Fin N) κ ℝ)
    (h : ∀ t out, ∃ r, stacked H t (u t, w t) out = some r ∧
      ∀ i j, HasDerivAt (fun s => u s i j) (r.1 i j) t ∧ HasDerivAt (fun s => w s i j) (r.2 i j) t) :
    Solves (Spec.Motion.schroedinger fun t => (toMatrix N H t).map ofReal)
      fun t => Matrix.of fun i j => (u t i j : ℂ) + I * (w t i j : ℂ) := by
  rw [toMatrix_fun]
  have h' : ∀ t i j, HasDerivAt (fun s => u s i j) ((instantOf N H t * w t) i j) t ∧
      HasDerivAt (fun s => w s i j) ((-(instantOf N H t * u t)) i j) t := by
    intro t
    obtain ⟨r, hr, hd⟩ := h t (u t, w t)
    rw [stacked_ok] at hr
    obtain rfl := Option.some.inj hr
    exact hd
  exact stacked_solution _ u w (fun t i j => (h' t i j).1) fun t i j => (h' t i j).2

/-- C52: if `H` is Hermitian at all times, overlaps of evolved states, and so their norms, do not change. -/
theorem C52_overlaps (H : Ham ℝ ℂ) (hH : ∀ t, (toMatrix N H t).IsHermitian) (ψ : ℝ → Matrix (Fin N) κ ℂ)
    (h : ∀ t out, ∃ r, Model.Eval.schroedinger H t (ψ t) out = some r ∧ ∀ i j, HasDerivAt (fun s => ψ s i j) (r i j) t)
    (j k : κ) (s t : ℝ) : ∑ i, star (ψ s i j) * ψ s i k = ∑ i, star (ψ t i j) * ψ t i k := by
  refine overlap_constant (toMatrix N H) hH ψ (fun t i j => ?_) j k s t
  obtain ⟨r, hr, hd⟩ := h t (ψ t)
  rw [(C52_schroedinger H t _ _).1] at hr
  obtain rfl := Option.some.inj hr
  exact hd i j

/-- C52, part: for density matrices (`eom="LvNE"`) the right-hand side is `-i [H(t), ρ]` if every matrix of the operator is
stored in diagonal or dense format, or is symmetric.  Missing: CSR and CSC matrices that are not symmetric
(`C52_vonNeumann_fails`). -/
theorem C52_vonNeumann_partial (H : Ham ℝ ℂ)
    (hf : ∀ S ∈ H.static :: H.dynamic.map Prod.snd, (∃ E, S = .dia E ∨ S = .dense E) ∨ (S.mat N).transpose = S.mat N)
    (t : ℝ) (ρ out : Matrix (Fin N) (Fin N) ℂ) :
    liouville H t ρ out = some (vonNeumann (toMatrix N H) t ρ) := by
  have hm : ∀ S ∈ H.static :: H.dynamic.map Prod.snd, (misread N S).transpose = S.mat N := by
    intro S hS
    rcases hf S hS with ⟨E, rfl | rfl⟩ | h
    · rfl
    · rfl
    · cases S <;> first | exact h | rfl
  have : misreadOf N H t = instantOf N H t := by
    rw [instantOf_eq, misreadOf, drivenOf, hm _ (by simp)]
    congr 2
    refine List.map_congr_left fun e he => ?_
    rw [hm e.2 (List.mem_cons_of_mem _ (List.mem_map_of_mem he))]
  rw [liouville_ok, this, vonNeumann, toMatrix_ok]

/-- C52: for an operator whose matrices are all in CSR or CSC format the right-hand side is `-i (H ρ - ρ Hᵀ)`. -/
theorem C52_vonNeumann_sparse (H : Ham ℝ ℂ) (hf : ∀ S ∈ H.static :: H.dynamic.map Prod.snd, ∃ A, S = .csr A ∨ S = .csc A)
    (t : ℝ) (ρ out : Matrix (Fin N) (Fin N) ℂ) :
    liouville H t ρ out = some ((-I) • (toMatrix N H t * ρ - ρ * (toMatrix N H t).transpose)) := by
  have hm : ∀ S ∈ H.static :: H.dynamic.map Prod.snd, misread N S = S.mat N := by
    intro S hS
    obtain ⟨A, rfl | rfl⟩ := hf S hS <;> rfl
  have aux : ∀ d : List ((ℝ → ℂ) × Stored ℂ), (∀ e ∈ d, misread N e.2 = e.2.mat N) →
      (d.map fun e => e.1 t • (misread N e.2).transpose).sum = (drivenOf N d t).transpose := by
    intro d
    induction d with
    | nil => intro _; simp [drivenOf_nil]
    | cons e d ih =>
      intro h
      rw [List.map_cons, List.sum_cons, ih fun e he => h e (by simp [he]), drivenOf_cons, Matrix.transpose_add, Matrix.transpose_smul,
        h e (by simp)]
  have : misreadOf N H t = (instantOf N H t).transpose := by
    rw [instantOf_eq, misreadOf, Matrix.transpose_add, hm _ (by simp),
      aux _ fun e he => hm e.2 (List.mem_cons_of_mem _ (List.mem_map_of_mem he))]
  rw [liouville_ok, this, toMatrix_ok]

/-- `sigma_y` in CSR format. -/
noncomputable def sigmaY : Ham ℝ ℂ := ⟨.csr ⟨fun k => k, fun k => 1 - k, fun k => if k = 0 then -I else I⟩, []⟩

theorem sigmaY_matrix (t : ℝ) : toMatrix 2 sigmaY t = !![0, -I; I, 0] := by
  rw [toMatrix_ok, instantOf_eq, sigmaY, drivenOf_nil, add_zero]
  ext i j
  fin_cases i <;> fin_cases j <;> simp [Stored.mat, Stored.entry, Spec.csrEntry]

/-- C52 fails for density matrices and operators that are not symmetric, for example `H = sigma_y` in CSR format, the
format of every operator that is not diagonal: the state `ρ = 1`, which commutes with `H`, does not stay constant. -/
theorem C52_vonNeumann_fails (t : ℝ) (out : Matrix (Fin 2) (Fin 2) ℂ) : ∃ r,
    liouville sigmaY t (1 : Matrix (Fin 2) (Fin 2) ℂ) out = some r ∧ r 0 1 = -2 ∧
      vonNeumann (toMatrix 2 sigmaY) t 1 = 0 ∧ (toMatrix 2 sigmaY t).IsHermitian := by
  refine ⟨_, C52_vonNeumann_sparse sigmaY ?_ t 1 out, ?_, ?_, ?_⟩
  · intro S hS
    rw [show sigmaY.static :: sigmaY.dynamic.map Prod.snd = [sigmaY.static] from rfl, List.mem_singleton] at hS
    exact ⟨_, Or.inl hS⟩
  · rw [sigmaY_matrix, Matrix.mul_one, Matrix.one_mul]
    simp [Matrix.transpose_apply]
    linear_combination (-2) * I_mul_I
  · rw [vonNeumann, Matrix.mul_one, Matrix.one_mul, sub_self, smul_zero]
  · rw [sigmaY_matrix]
    ext i j
    fin_cases i <;> fin_cases j <;> simp

/-- C52: `evolve` with an array of times, in any order and with repetitions, returns for every time the state the exact
solution `φ` reaches from `v0` at that time; so does `evolve` with one time. -/
theorem C52_times {Y : Type} (φ : ℝ → ℝ → Y → Y) (step : ℝ → Y → ℝ → Option Y) (hs : ∀ s y t, step s y t = some (φ t s y))
    (hid : ∀ t y, φ t t y = y) (hcomp : ∀ r s t y, φ t s (φ s r y) = φ t r y) (t0 : ℝ) (v0 : Y) :
    (∀ times, evolveList step id t0 v0 times = some (times.map fun t => φ t t0 v0)) ∧
      ∀ t, evolveScalar step id t0 v0 t = some (φ t t0 v0) := by
  constructor
  · intro times
    have := evolveLoop_exact φ step hs hid hcomp t0 v0 times true t0 fun _ => rfl
    rwa [hid] at this
  · intro t
    rw [evolveScalar]
    split
    · rename_i h; rw [h, hid]; rfl
    · rw [hs]; rfl

/-- C52, part: in imaginary time one state is rescaled to the norm of the initial state at every time of the list, also
though the array of the solver is rescaled in place.  Missing: several states (`C52_imaginary_fails`). -/
theorem C52_imaginary_partial {n : Type} [Fintype n] [DecidableEq n] (U : ℝ → ℝ → Matrix n n ℂ) (hU : Propagator U)
    (step : ℝ → Matrix n Unit ℂ → ℝ → Option (Matrix n Unit ℂ)) (hs : ∀ s y t, step s y t = some (U t s * y))
    (t0 : ℝ) (v0 : Matrix n Unit ℂ) (hv : ∀ t, Spec.Motion.norm (U t t0 * v0) () ≠ 0) (times : List ℝ) :
    ∃ out : ℝ → Matrix n Unit ℂ, evolveImag step t0 v0 times = some (times.map out) ∧
      ∀ t, Rescaled (U t t0 * v0) (out t) fun j => Spec.Motion.norm v0 j := by
  have hn : totalNorm v0 = Spec.Motion.norm v0 () := by simp [totalNorm, Spec.Motion.norm]
  have hc : 0 < totalNorm v0 := by
    have := hv t0
    rw [hU.same, Matrix.one_mul] at this
    rw [hn]
    exact lt_of_le_of_ne (Real.sqrt_nonneg _) this.symm
  refine ⟨fun t => imagFormat (totalNorm v0) (U t t0 * v0), ?_, fun t => ?_⟩
  · exact evolveLoop_imag U hU step hs t0 v0 _ hc (fun t _ => hv t) times true t0 v0 v0 (Scaled.refl v0)
      (by rw [hU.same, Matrix.one_mul]; exact Scaled.refl v0) fun _ => rfl
  · have := imagFormat_spec _ hc (U t t0 * v0) fun _ => hv t
    rw [hn] at this ⊢
    exact this

/-- C52: for several states the columns are all rescaled to the norm of the whole array. -/
theorem C52_imaginary_several {n : Type} [Fintype n] [DecidableEq n] [Fintype κ] (U : ℝ → ℝ → Matrix n n ℂ) (hU : Propagator U)
    (step : ℝ → Matrix n κ ℂ → ℝ → Option (Matrix n κ ℂ)) (hs : ∀ s y t, step s y t = some (U t s * y))
    (t0 : ℝ) (v0 : Matrix n κ ℂ) (hc : 0 < totalNorm v0) (hv : ∀ t j, Spec.Motion.norm (U t t0 * v0) j ≠ 0) (times : List ℝ) :
    ∃ out : ℝ → Matrix n κ ℂ, evolveImag step t0 v0 times = some (times.map out) ∧
      ∀ t, Rescaled (U t t0 * v0) (out t) fun _ => totalNorm v0 :=
  ⟨fun t => imagFormat (totalNorm v0) (U t t0 * v0),
    evolveLoop_imag U hU step hs t0 v0 _ hc hv times true t0 v0 v0 (Scaled.refl v0)
      (by rw [hU.same, Matrix.one_mul]; exact Scaled.refl v0) fun _ => rfl,
    fun t => imagFormat_spec _ hc (U t t0 * v0) (hv t)⟩

/-- C52 fails in imaginary time for several states: with `H = 0` and two normalised states the result at every time,
also at the initial time, is two states of norm `√2`. -/
theorem C52_imaginary_fails (t : ℝ) : ∃ (v0 : Matrix (Fin 2) (Fin 2) ℂ) (out : Matrix (Fin 2) (Fin 2) ℂ),
    evolveImag (fun _ y _ => some y) 0 v0 [t] = some [out] ∧ (∀ j, Spec.Motion.norm v0 j = 1) ∧
      ∀ j, Spec.Motion.norm out j = Real.sqrt 2 := by
  have hn : ∀ j, Spec.Motion.norm (1 : Matrix (Fin 2) (Fin 2) ℂ) j = 1 := by
    intro j
    rw [Spec.Motion.norm, Fin.sum_univ_two]
    rcases j with ⟨_ | _ | j, hj⟩
    · simp [Matrix.one_apply]
    · simp [Matrix.one_apply]
    · omega
  have ht : totalNorm (1 : Matrix (Fin 2) (Fin 2) ℂ) = Real.sqrt 2 := by
    simp [totalNorm, Fin.sum_univ_two]; norm_num
  obtain ⟨out, h1, h2⟩ := C52_imaginary_several (κ := Fin 2) (fun _ _ => (1 : Matrix (Fin 2) (Fin 2) ℂ))
    ⟨fun _ => rfl, fun _ _ _ => Matrix.one_mul _⟩ (fun _ y _ => some y) (fun _ _ _ => by rw [Matrix.one_mul]) 0 1
    (by rw [ht]; positivity) (fun t j => by rw [Matrix.one_mul, hn]; exact one_ne_zero) [t]
  refine ⟨1, out t, h1, hn, fun j => ?_⟩
  rw [(h2 t).2, ht]

/-- C52, part: with `stack_state` the array given to the solver holds the real and the imaginary parts where the
right-hand side reads them; for one state it is converted back.  Missing: several states (`C52_stack_fails`). -/
theorem C52_stack_partial {k : Nat} (v : Matrix (Fin N) (Fin k) ℂ) (w : Matrix (Fin N) (Fin 1) ℂ) :
    stackView N k (stackPack v) = (v.map re, v.map im) ∧ stackFormat N 1 (stackPack w) = some w := by
  refine ⟨stackView_pack v, ?_⟩
  have hl := stackPack_length w
  rw [stackFormat, if_pos (by rw [List.length_take, List.length_drop, hl]; omega)]
  congr 1
  funext i j
  have hi := i.isLt
  have h1 : ((stackPack w).take N).getD (i.val * 1 + j.val) 0 = (w i j).re := by
    rw [← stackPack_re w i j, List.getD_eq_getElem?_getD, List.getD_eq_getElem?_getD, List.getElem?_take_of_lt (by omega)]
  have h2 : ((stackPack w).drop N).getD (i.val * 1 + j.val) 0 = (w i j).im := by
    rw [← stackPack_im w i j, List.getD_eq_getElem?_getD, List.getD_eq_getElem?_getD, List.getElem?_drop, Nat.mul_one N]
  rw [h1, h2, mul_comm, re_add_im]

/-- C52 fails with `stack_state` for an array of several states: the output is never converted back, the call raises. -/
theorem C52_stack_fails {k : Nat} (hN : 0 < N) (hk : 1 < k) (y : List ℝ) (hy : y.length = N * k + N * k) : stackFormat N k y = none := by
  rw [stackFormat, if_neg]
  rintro ⟨h, h'⟩
  rw [List.length_take, hy] at h
  have : N * 2 ≤ N * k := Nat.mul_le_mul_left N hk
  omega

/-! ### C56 -/

/-- C56: given the eigensystem of a Hermitian operator, the state at the requested times is the solution of the
Schrödinger equation that starts at `psi`; array and generator agree. -/
theorem C56_pure (hN : N ≠ 1) {H V : Matrix (Fin N) (Fin N) ℂ} {E : Fin N → ℝ} (h : Eigensystem H E V) (psi : Fin N → ℂ) :
    ∃ ψ : ℝ → Matrix (Fin N) Unit ℂ, Solves (Spec.Motion.schroedinger fun _ => H) ψ ∧ (∀ i, ψ 0 i () = psi i) ∧
      (∀ (m : Nat) (times : Fin m → ℝ), edPure psi E V times = some fun i k => ψ (times k) i ()) ∧
      ∀ times : List ℝ, edPureIter psi E V times = some (times.map fun t i => ψ t i ()) := by
  refine ⟨pureState psi E V, pureState_solves h psi, pureState_zero h psi, fun m times => ?_, fun times => ?_⟩
  · rw [edPure, if_neg hN]; rfl
  · rw [edPureIter, if_neg hN]
    refine congrArg some (List.map_congr_left fun t _ => funext fun i => ?_)
    refine Finset.sum_congr rfl fun a _ => ?_
    rw [mul_comm (E a : ℂ)]

/-- C56: the same for density matrices and the von Neumann equation. -/
theorem C56_mixed (hN : N ≠ 1) {H V : Matrix (Fin N) (Fin N) ℂ} {E : Fin N → ℝ} (h : Eigensystem H E V)
    (psi : Matrix (Fin N) (Fin N) ℂ) :
    ∃ ρ : ℝ → Matrix (Fin N) (Fin N) ℂ, Solves (vonNeumann fun _ => H) ρ ∧ ρ 0 = psi ∧
      (∀ (m : Nat) (times : Fin m → ℝ), edMixed psi E V times = some fun i l k => ρ (times k) i l) ∧
      ∀ times : List ℝ, edMixedIter psi E V times = some (times.map ρ) := by
  refine ⟨mixedState psi E V, mixedState_solves h psi, mixedState_zero h psi, fun m times => ?_, fun times => ?_⟩
  · rw [edMixed, if_neg hN]; rfl
  · rw [edMixedIter, if_neg hN]; rfl

/-- C56 fails in a space of dimension one: every call raises. -/
theorem C56_fails (psi : Fin 1 → ℂ) (rho : Matrix (Fin 1) (Fin 1) ℂ) (E : Fin 1 → ℝ) (V : Matrix (Fin 1) (Fin 1) ℂ) {m : Nat}
    (times : Fin m → ℝ) : edPure psi E V times = none ∧ edMixed rho E V times = none := ⟨rfl, rfl⟩

/-! ### The hypotheses are met -/

/-- A driven operator with parts in diagonal and dense format. -/
example : ∀ S ∈ (Ham.mk (T := ℝ) (R := ℂ) (.dia fun i j => if i = j then 1 else 0) [(fun t => t, .dense fun i j => i + 2 * j)]).static ::
    (Ham.mk (T := ℝ) (R := ℂ) (.dia fun i j => if i = j then 1 else 0) [(fun t => t, .dense fun i j => i + 2 * j)]).dynamic.map Prod.snd,
    (∃ E, S = .dia E ∨ S = .dense E) ∨ (S.mat 2).transpose = S.mat 2 := by
  intro S hS
  simp only [List.map_cons, List.map_nil, List.mem_cons, List.not_mem_nil, or_false] at hS
  rcases hS with rfl | rfl
  · exact Or.inl ⟨_, Or.inl rfl⟩
  · exact Or.inl ⟨_, Or.inr rfl⟩

/-- The propagator of `H = 1` in imaginary time. -/
example : Propagator (n := Fin 2) fun t s => ((Real.exp (s - t) : ℝ) : ℂ) • (1 : Matrix (Fin 2) (Fin 2) ℂ) := by
  refine ⟨fun t => by simp, fun r s t => ?_⟩
  rw [Matrix.smul_mul, Matrix.one_mul, smul_smul, ← ofReal_mul, ← Real.exp_add]
  congr 3
  ring

/-- The eigensystem of a diagonal operator. -/
example : Eigensystem (Matrix.diagonal ![3, -1]) ![3, -1] (1 : Matrix (Fin 2) (Fin 2) ℂ) := by
  constructor
  · intro i a
    rw [Finset.sum_eq_single i (fun k _ hk => by rw [Matrix.diagonal_apply_ne _ hk.symm, zero_mul]) (by simp), Matrix.diagonal_apply_eq]
    by_cases h : i = a
    · subst h
      fin_cases i <;> simp
    · rw [Matrix.one_apply_ne h]
      simp
  · simp

/-- The solution `exp(-i t)` for `H = 1`. -/
example : Solves (Spec.Motion.schroedinger fun _ => (1 : Matrix (Fin 1) (Fin 1) ℂ))
    (pureState (fun _ => 1) (fun _ => 1) (1 : Matrix (Fin 1) (Fin 1) ℂ)) :=
  pureState_solves ⟨fun i a => by rw [Subsingleton.elim i 0, Subsingleton.elim a 0]; simp [Matrix.one_apply], by simp⟩ _

end Props
