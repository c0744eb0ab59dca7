import Verif.Proof.Floquet
import Mathlib.Analysis.SpecialFunctions.Trigonometric.Basic
import Mathlib.Analysis.SpecialFunctions.Trigonometric.Deriv
import Mathlib.Data.Fin.Tuple.Sort
import Mathlib.Tactic.NormNum
import Mathlib.Tactic.FinCases

/-!
C79  `Floquet` describes the evolution over one period: unitary, phases, quasienergies, states and Floquet Hamiltonian.

`DescribesPeriod o U`: every attribute that was asked for is right for the evolution operator `U`.  What holds: phases and quasienergies are
those of the period (`C79_phases`), and all attributes are right when the evolution operator equals its transpose
(`C79_states_partial`), as for palindromic protocols of real Hamiltonians (`C79_palindromes`).  What fails: in general the attributes
describe the transpose of the evolution operator (`C79_transposed`), since the evolved states are stacked as rows.
-/

namespace Props
open Matrix Model.Floquet Spec.Floquet Spec.Reads Proof.Floquet

variable {n : Nat}

/-- The Hamiltonians of the protocol are Hermitian. -/
def HermitianProtocol : Protocol n → Prop
  | .continuous H _ _ => ∀ t, (H t).IsHermitian
  | .stepTimes H _ _ _ => ∀ t, (H t).IsHermitian
  | .stepList Hs _ _ => ∀ H ∈ Hs, H.IsHermitian

/-- `U` is the evolution operator of one period of the protocol. -/
def EvolvesOver : Protocol n → Matrix (Fin n) (Fin n) ℂ → Prop
  | .continuous H _ T, U => ∃ W, Evolution H W ∧ U = W T
  | .stepTimes H ts dts _, U => U = steps ((ts.zip dts).map fun p => (p.2, H p.1))
  | .stepList Hs dts _, U => U = steps (dts.zip Hs)

/-- The length of the period: the given one, or the sum of the steps. -/
def periodOf : Protocol n → ℝ
  | .continuous _ _ T => T
  | .stepTimes _ _ dts T => T.getD dts.sum
  | .stepList _ dts T => T.getD dts.sum

/-- `evolve` returns the values of a solution of the Schrödinger equation. -/
def EvolvesRightly (tl : Tools n) : Protocol n → Prop
  | .continuous H _ _ => ∀ ψ0 ts r, tl.evolve H ψ0 ts = some r → ∃ ψ : ℝ → Matrix (Fin n) (Fin 1) ℂ,
      Spec.Motion.Solves (Spec.Motion.schroedinger H) ψ ∧ (∀ j, ψ 0 j 0 = ψ0 j) ∧ r = ts.map fun t j => ψ t j 0
  | _ => True

/-- The routines of scipy and numpy are right for `U`: `eig` gives a basis of normalised eigenvectors, `qr` orthonormalises it column by
column, `eigvals` gives the eigenvalues, `logm` the principal logarithm, and `argsort` sorts. -/
structure ToolsRight (tl : Tools n) (U : Matrix (Fin n) (Fin n) ℂ) : Prop where
  eig : U * (tl.eig U).2 = (tl.eig U).2 * diagonal (tl.eig U).1
  independent : IsUnit (tl.eig U).2.det
  normalised : ∀ k, ∑ i, star ((tl.eig U).2 i k) * (tl.eig U).2 i k = 1
  orthonormal : (tl.qr (tl.eig U).2)ᴴ * tl.qr (tl.eig U).2 = 1
  columns : ∃ R : Matrix (Fin n) (Fin n) ℂ, R.BlockTriangular id ∧ (tl.eig U).2 = tl.qr (tl.eig U).2 * R
  eigvals : Spectrum U (tl.eigvals U)
  logm : PrincipalLog U (tl.logm U)
  argsort : ∀ E, Function.Bijective (tl.argsort E) ∧ Monotone fun k => E (tl.argsort E k)

/-- The attributes of the object are those of the evolution operator `U`. -/
def DescribesPeriod (o : Object n) (U : Matrix (Fin n) (Fin n) ℂ) : Prop :=
  ∃ θ, Spectrum U θ ∧ Quasienergies o.T θ o.EF ∧ (∀ θ', o.thetaF = some θ' → θ' = θ) ∧ (∀ UF, o.UF = some UF → UF = U) ∧
    (∀ V, o.VF = some V → Eigenbasis U θ V) ∧
    ∀ K, o.HF = some K → K.IsHermitian ∧ expo (-Complex.I * o.T) K = U ∧ ∀ V, o.VF = some V → K * V = V * diagonal fun k => (o.EF k : ℂ)

/-- Which attributes there are, and when the constructor raises: exactly the attributes asked for, and the period of the protocol;
step lists of different lengths are rejected, step protocols at given times never, and continuous drives with period `T` pass the test. -/
theorem C79_attributes (tl : Tools n) (t0 tol eps : ℝ) (fl : Flags) (p : Protocol n) :
    (∀ o, create tl t0 tol eps fl p = some o → o.T = periodOf p ∧ o.HF.isSome = fl.HF ∧ o.UF.isSome = fl.UF ∧ o.VF.isSome = fl.VF ∧ o.thetaF.isSome = fl.thetaF) ∧
    (∀ Hs dts T, p = .stepList Hs dts T → ((create tl t0 tol eps fl p).isSome ↔ dts.length = Hs.length ∧ Hs ≠ [])) ∧
    (∀ H ts dts T, p = .stepTimes H ts dts T → (create tl t0 tol eps fl p).isSome) ∧
    (∀ H drives T, p = .continuous H drives T → 0 ≤ tol → (∀ f ∈ drives, Periodic T f) → (∀ i ts, (tl.evolve H (unit i) ts).isSome) →
      (∀ i ts r, ts ≠ [] → tl.evolve H (unit i) ts = some r → r ≠ []) → (create tl t0 tol eps fl p).isSome) := by
  refine ⟨fun o h => ?_, ?_, ?_, ?_⟩
  · obtain ⟨r, hr, rfl⟩ := Option.map_eq_some_iff.1 h
    refine ⟨?_, ?_, ?_, ?_, ?_⟩
    · cases p <;> rw [period] at hr
      · split at hr
        · split at hr
          · cases hr; rfl
          · cases hr
        · cases hr
      · cases hr; rfl
      · split at hr
        · cases hr; rfl
        · cases hr
    · cases h : fl.HF <;> simp
    · cases h : fl.UF <;> simp
    · cases h : fl.VF <;> simp [diagonalise]
    · cases h : fl.thetaF <;> simp
  · rintro Hs dts T rfl
    rw [create, Option.isSome_map, period]
    split <;> simp_all
  · rintro H ts dts T rfl
    rw [create, Option.isSome_map, period]
    rfl
  · rintro H drives T rfl htol hf he hne
    rw [create, Option.isSome_map, period]
    have h1 : periodTest t0 tol T drives := by
      intro f hf'
      rw [hf f hf' t0, sub_self, norm_zero]
      exact not_lt.2 htol
    have h2 : ∀ i, (evolveCont tl H T i).isSome := by
      intro i
      rw [evolveCont, attempts, if_pos (by norm_num)]
      obtain ⟨r, hr⟩ := Option.isSome_iff_exists.1 (he i (if 1 = 1 then [0, T] else times T 1))
      rw [hr]
      exact List.getLast?_isSome.2 (hne i _ r (by simp) hr)
    rw [if_pos h1, dif_pos h2]
    rfl

/-- The matrix of the constructor is the transpose of the evolution operator. -/
theorem period_transpose (tl : Tools n) (t0 tol : ℝ) (p : Protocol n) (hp : HermitianProtocol p) (he : EvolvesRightly tl p)
    {r} (h : period tl t0 tol p = some r) {U} (hU : EvolvesOver p U) : r = (Uᵀ, periodOf p) ∧ Uᴴ * U = 1 := by
  cases p with
  | «continuous» H drives T =>
    obtain ⟨W, hW, rfl⟩ := hU
    refine ⟨?_, evolution_unitary H hp hW T⟩
    rw [period] at h
    split at h
    · split at h
      · rename_i hs
        cases h
        refine Prod.ext ?_ rfl
        ext i j
        show (evolveCont tl H T i).get (hs i) j = W T j i
        obtain ⟨v, hv⟩ := Option.isSome_iff_exists.1 (hs i)
        obtain ⟨ts, h1, h2, h3⟩ := attempts_some Nat.one_pos hv
        obtain ⟨q, hq⟩ := Option.ne_none_iff_exists'.1 h1
        obtain ⟨ψ, k1, k2, k3⟩ := he _ _ _ hq
        have h4 := h3 q hq
        rw [k3, List.getLast?_map, h2] at h4
        refine (congrFun (Option.get_of_eq_some (hs i) hv) j).trans ?_
        rw [← Option.some_inj.1 h4]
        exact column_unique H hp hW i ψ k1 k2 T j
      · cases h
    · cases h
  | stepTimes H ts dts T =>
    cases hU
    cases h
    refine ⟨Prod.ext ?_ rfl, steps_unitary _ fun q hq => ?_⟩
    · show vstack (evolveStep2 H ts dts) = _
      rw [← vstack_eq]
      congr 1
      funext i
      exact step2_eq H ts dts (unit i)
    · obtain ⟨q, -, rfl⟩ := List.mem_map.1 hq
      exact hp _
  | stepList Hs dts T =>
    cases hU
    rw [period] at h
    split at h
    · cases h
      refine ⟨Prod.ext ?_ rfl, steps_unitary _ fun q hq => hp _ (List.of_mem_zip hq).2⟩
      show vstack (evolveStep3 Hs dts) = _
      rw [← vstack_eq]
      congr 1
      funext i
      exact foldl_steps _ (unit i)
    · cases h

/-- The attributes describe the transpose of the evolution operator over one period, for all Hermitian protocols. -/
theorem C79_transposed (tl : Tools n) (t0 tol eps : ℝ) (heps : 0 < eps) (fl : Flags) (p : Protocol n) (hp : HermitianProtocol p)
    (he : EvolvesRightly tl p) (hT : periodOf p ≠ 0) {o : Object n} (h : create tl t0 tol eps fl p = some o) {U : Matrix (Fin n) (Fin n) ℂ}
    (hU : EvolvesOver p U) (ht : ToolsRight tl Uᵀ) : DescribesPeriod o Uᵀ := by
  classical
  obtain ⟨r, hr, rfl⟩ := Option.map_eq_some_iff.1 h
  obtain ⟨rfl, hu⟩ := period_transpose tl t0 tol p hp he hr hU
  have hut := unitary_transpose hu
  generalize Uᵀ = A at *
  have hV : fl.VF → Eigenbasis A (tl.eig A).1 (if degenerate eps (tl.eig A).1 then tl.qr (tl.eig A).2 else (tl.eig A).2) := by
    intro _
    split
    · obtain ⟨R, hR, h1⟩ := ht.columns
      exact ⟨qr_eigen hut ht.eig ht.independent ht.orthonormal hR h1, ht.orthonormal⟩
    · rename_i hd
      refine ⟨ht.eig, distinct_orthonormal hut ht.eig (fun k => ?_) (distinct_of_test heps hd)⟩
      rw [Matrix.mul_apply]
      exact ht.normalised k
  have hS : Spectrum A (diagonalise tl eps fl.VF A).1 := by
    unfold diagonalise
    split
    · exact spectrum_of ht.eig ht.independent
    · exact ht.eigvals
  have hB := (ht.argsort (energies (periodOf p) (diagonalise tl eps fl.VF A).1))
  have hVs : ∀ V, Option.map (fun V : Matrix (Fin n) (Fin n) ℂ => V.submatrix id (tl.argsort (energies (periodOf p) (diagonalise tl eps fl.VF A).1)))
      (diagonalise tl eps fl.VF A).2 = some V →
      Eigenbasis A (fun k => (diagonalise tl eps fl.VF A).1 (tl.argsort (energies (periodOf p) (diagonalise tl eps fl.VF A).1) k)) V := by
    intro V hVV
    generalize tl.argsort (energies (periodOf p) (diagonalise tl eps fl.VF A).1) = ind at *
    unfold diagonalise at hVV ⊢
    split at hVV
    · rename_i hf
      rw [if_pos hf]
      have h1 := hV hf
      cases hVV
      generalize (if degenerate eps (tl.eig A).1 then tl.qr (tl.eig A).2 else (tl.eig A).2) = V at *
      refine ⟨?_, ?_⟩
      · ext i k
        have := congrFun (congrFun h1.1 i) (ind k)
        rw [Matrix.mul_diagonal] at this ⊢
        exact this
      · ext i k
        have := congrFun (congrFun h1.2 (ind i)) (ind k)
        refine Eq.trans this ?_
        rw [Matrix.one_apply, Matrix.one_apply]
        exact if_congr hB.1.1.eq_iff rfl rfl
    · cases hVV
  refine ⟨_, spectrum_reorder hS hB.1, ⟨fun k => ⟨?_, ?_⟩, hB.2⟩, ?_, ?_, hVs, ?_⟩
  · exact energies_phase hT (spectrum_modulus hut hS _)
  · exact energies_zone hT _ _
  · intro θ' hθ
    dsimp only at hθ
    split at hθ
    · cases hθ; rfl
    · cases hθ
  · intro UF hUF
    dsimp only at hUF
    split at hUF
    · cases hUF; rfl
    · cases hUF
  · intro K hK
    dsimp only at hK
    split at hK
    · cases hK
      refine ⟨log_hermitian hut ht.logm _, ?_, fun V hVV => ?_⟩
      · rw [expo, smul_smul]
        have : -Complex.I * (periodOf p : ℂ) * (Complex.I / (periodOf p : ℂ)) = 1 := by
          have hT' : (periodOf p : ℂ) ≠ 0 := by exact_mod_cast hT
          field_simp
          simp
        rw [this, one_smul]
        exact log_exp hut ht.logm
      · have hEV := hVs V hVV
        ext i k
        have h1 : A.mulVec (fun j => V j k) = (diagonalise tl eps fl.VF A).1 (tl.argsort (energies (periodOf p) (diagonalise tl eps fl.VF A).1) k) • fun j => V j k := by
          ext j
          have := congrFun (congrFun hEV.1 j) k
          rw [Matrix.mul_diagonal] at this
          rw [Pi.smul_apply, smul_eq_mul, mul_comm]
          exact this
        have h2 := congrFun (log_vector ht.logm h1) i
        rw [Matrix.mul_diagonal, Matrix.smul_mul, Matrix.smul_apply]
        refine (congrArg (fun z => (Complex.I / (periodOf p : ℂ)) • z) h2).trans ?_
        rw [Pi.smul_apply, smul_eq_mul, smul_eq_mul]
        dsimp only
        have h3 := spectrum_modulus hut hS (tl.argsort (energies (periodOf p) (diagonalise tl eps fl.VF A).1) k)
        rw [energies_eq]
        generalize (diagonalise tl eps fl.VF A).1 (tl.argsort _ k) = z at h3 ⊢
        have hl : Complex.log z = z.arg * Complex.I := by
          apply Complex.ext
          · simp [Complex.log_re, h3]
          · simp [Complex.log_im]
        rw [hl]
        push_cast
        linear_combination (z.arg / (periodOf p : ℂ) * V i k) * Complex.I_sq
    · cases hK

/-- The phases and quasienergies are those of the evolution operator over one period, for all Hermitian protocols. -/
theorem C79_phases (tl : Tools n) (t0 tol eps : ℝ) (heps : 0 < eps) (fl : Flags) (p : Protocol n) (hp : HermitianProtocol p)
    (he : EvolvesRightly tl p) (hT : periodOf p ≠ 0) {o : Object n} (h : create tl t0 tol eps fl p = some o) {U : Matrix (Fin n) (Fin n) ℂ}
    (hU : EvolvesOver p U) (ht : ToolsRight tl Uᵀ) :
    ∃ θ, Spectrum U θ ∧ Quasienergies o.T θ o.EF ∧ ∀ θ', o.thetaF = some θ' → θ' = θ := by
  obtain ⟨θ, h1, h2, h3, -⟩ := C79_transposed tl t0 tol eps heps fl p hp he hT h hU ht
  exact ⟨θ, spectrum_transpose h1, h2, h3⟩

/-- All attributes are right when the evolution operator is equal to its transpose.
Missing: other evolution operators, for which the attributes are those of the transpose (`C79_transposed`, `C79_fails_order`). -/
theorem C79_states_partial (tl : Tools n) (t0 tol eps : ℝ) (heps : 0 < eps) (fl : Flags) (p : Protocol n) (hp : HermitianProtocol p)
    (he : EvolvesRightly tl p) (hT : periodOf p ≠ 0) {o : Object n} (h : create tl t0 tol eps fl p = some o) {U : Matrix (Fin n) (Fin n) ℂ}
    (hU : EvolvesOver p U) (hs : Uᵀ = U) (ht : ToolsRight tl U) : DescribesPeriod o U := by
  have := C79_transposed tl t0 tol eps heps fl p hp he hT h hU (hs.symm ▸ ht)
  rwa [hs] at this

/-- Protocols of real symmetric Hamiltonians that read the same backwards have an evolution operator equal to its transpose. -/
theorem C79_palindromes (Hs : List (Matrix (Fin n) (Fin n) ℂ)) (dts : List ℝ) (T : Option ℝ) (hr : (dts.zip Hs).reverse = dts.zip Hs)
    (hs : ∀ H ∈ Hs, Hᵀ = H) {U : Matrix (Fin n) (Fin n) ℂ} (hU : EvolvesOver (.stepList Hs dts T) U) : Uᵀ = U := by
  cases hU
  exact steps_palindrome _ hr fun q hq => hs _ (List.of_mem_zip hq).2

/-! ### An example -/

/-- An exponential from eigenvectors. -/
theorem expo_of {A V E : Matrix (Fin n) (Fin n) ℂ} {d : Fin n → ℂ} (t : ℂ) (hV : IsUnit V.det) (hA : A * V = V * diagonal d)
    (hE : E * V = V * diagonal fun k => Complex.exp (t * d k)) : expo t A = E := by
  have hi : V * V⁻¹ = 1 := Matrix.mul_nonsing_inv V hV
  have h1 : t • A = V * (diagonal fun k => t * d k) * V⁻¹ := by
    have : (diagonal fun k => t * d k) = t • diagonal d := by
      ext i j
      by_cases h : i = j
      · subst h; simp
      · simp [h]
    rw [this, Matrix.mul_smul, Matrix.smul_mul, ← hA, Matrix.mul_assoc, hi, Matrix.mul_one]
  rw [expo, h1, Matrix.exp_conj V _ ((Matrix.isUnit_iff_isUnit_det V).2 hV), Matrix.exp_diagonal]
  have : NormedSpace.exp (fun k => t * d k) = fun k => Complex.exp (t * d k) := by
    ext k
    rw [Pi.coe_exp, ← Complex.exp_eq_exp_ℂ]
  rw [this, ← hE, Matrix.mul_assoc, hi, Matrix.mul_one]

/-- `σʸ`. -/
def spinY : Matrix (Fin 2) (Fin 2) ℂ := !![0, -Complex.I; Complex.I, 0]

theorem spinY_hermitian : spinY.IsHermitian := by
  ext i j
  fin_cases i <;> fin_cases j <;> simp [spinY]

theorem exp_quarter_turn : Complex.exp (-(Complex.I * (Real.pi / 2))) = -Complex.I ∧ Complex.exp (Complex.I * (Real.pi / 2)) = Complex.I := by
  rw [mul_comm Complex.I, Complex.exp_neg, Complex.exp_pi_div_two_mul_I, Complex.inv_I]
  exact ⟨rfl, rfl⟩

theorem expo_spinY : expo (-Complex.I * (Real.pi / 2 : ℝ)) spinY = !![0, -1; 1, 0] := by
  refine expo_of (V := !![1, 1; Complex.I, -Complex.I]) (d := ![1, -1]) _ ?_ ?_ ?_
  · rw [Matrix.det_fin_two_of]
    simp only [isUnit_iff_ne_zero]
    intro h
    have := congrArg Complex.im h
    simp at this
    norm_num at this
  · ext i j
    fin_cases i <;> fin_cases j <;> simp [spinY, Matrix.mul_apply, Fin.sum_univ_two]
  · ext i j
    fin_cases i <;> fin_cases j <;> simp only [Matrix.mul_apply, Fin.sum_univ_two] <;> simp [exp_quarter_turn.1, exp_quarter_turn.2]

/-- `σˣ`. -/
def spinX : Matrix (Fin 2) (Fin 2) ℂ := !![0, 1; 1, 0]

/-- `σᶻ`. -/
def spinZ : Matrix (Fin 2) (Fin 2) ℂ := !![1, 0; 0, -1]

theorem expo_spinX : expo (-Complex.I * (Real.pi / 2 : ℝ)) spinX = !![0, -Complex.I; -Complex.I, 0] := by
  refine expo_of (V := !![1, 1; 1, -1]) (d := ![1, -1]) _ ?_ ?_ ?_
  · rw [Matrix.det_fin_two_of]
    norm_num
  · ext i j
    fin_cases i <;> fin_cases j <;> simp [spinX, Matrix.mul_apply, Fin.sum_univ_two]
  · ext i j
    fin_cases i <;> fin_cases j <;> simp only [Matrix.mul_apply, Fin.sum_univ_two] <;> simp [exp_quarter_turn.1, exp_quarter_turn.2]

theorem expo_spinZ : expo (-Complex.I * (Real.pi / 2 : ℝ)) spinZ = !![-Complex.I, 0; 0, Complex.I] := by
  refine expo_of (V := 1) (d := ![1, -1]) _ ?_ ?_ ?_
  · simp
  · ext i j
    fin_cases i <;> fin_cases j <;> simp [spinZ]
  · ext i j
    fin_cases i <;> fin_cases j <;> simp [exp_quarter_turn.1, exp_quarter_turn.2]

/-- Routines that return the given eigenbasis. -/
noncomputable def toolsOf (θ : Fin n → ℂ) (V : Matrix (Fin n) (Fin n) ℂ)
    (evolve : (ℝ → Matrix (Fin n) (Fin n) ℂ) → (Fin n → ℂ) → List ℝ → Option (List (Fin n → ℂ))) : Tools n :=
  ⟨fun _ => (θ, V), fun _ => θ, id, fun _ => V * diagonal (fun k => Complex.log (θ k)) * Vᴴ, fun E => Tuple.sort E, evolve⟩

/-- Routines as required exist whenever there is an orthonormal basis of eigenvectors. -/
theorem toolsOf_right {U V : Matrix (Fin n) (Fin n) ℂ} {θ : Fin n → ℂ} (h : Eigenbasis U θ V) (ev) : ToolsRight (toolsOf θ V ev) U where
  eig := h.1
  independent := (Matrix.isUnit_iff_isUnit_det V).1 (IsUnit.of_mul_eq_one_right _ h.2)
  normalised k := by
    have := congrFun (congrFun h.2 k) k
    rwa [Matrix.mul_apply, Matrix.one_apply_eq] at this
  orthonormal := h.2
  columns := ⟨1, Matrix.blockTriangular_one, by simp [toolsOf]⟩
  eigvals := spectrum_of h.1 ((Matrix.isUnit_iff_isUnit_det V).1 (IsUnit.of_mul_eq_one_right _ h.2))
  logm := ⟨θ, V, h, rfl⟩
  argsort E := ⟨(Tuple.sort E).bijective, Tuple.monotone_sort E⟩

theorem half_half : (((Real.sqrt 2)⁻¹ : ℝ) : ℂ) * ((Real.sqrt 2)⁻¹ : ℝ) = 1 / 2 := by
  rw [← Complex.ofReal_mul, ← mul_inv, Real.mul_self_sqrt (by norm_num)]
  norm_num

/-- The eigenbasis of the transposed evolution with `σʸ`. -/
theorem basisY : Eigenbasis !![0, 1; -1, 0] ![Complex.I, -Complex.I]
    ((((Real.sqrt 2)⁻¹ : ℝ) : ℂ) • (!![1, 1; Complex.I, -Complex.I] : Matrix (Fin 2) (Fin 2) ℂ)) := by
  constructor
  · rw [Matrix.mul_smul, Matrix.smul_mul]
    congr 1
    ext i j
    fin_cases i <;> fin_cases j <;> simp [Matrix.mul_apply, Fin.sum_univ_two]
  · rw [Matrix.conjTranspose_smul, Matrix.smul_mul, Matrix.mul_smul, smul_smul]
    simp only [Complex.star_def, Complex.conj_ofReal]
    rw [half_half]
    ext i j
    fin_cases i <;> fin_cases j <;> simp [Matrix.mul_apply, Fin.sum_univ_two] <;> norm_num

/-- The eigenbasis of the evolution with `σˣ`. -/
theorem basisX : Eigenbasis !![0, -Complex.I; -Complex.I, 0] ![-Complex.I, Complex.I]
    ((((Real.sqrt 2)⁻¹ : ℝ) : ℂ) • (!![1, 1; 1, -1] : Matrix (Fin 2) (Fin 2) ℂ)) := by
  constructor
  · rw [Matrix.mul_smul, Matrix.smul_mul]
    congr 1
    ext i j
    fin_cases i <;> fin_cases j <;> simp [Matrix.mul_apply, Fin.sum_univ_two]
  · rw [Matrix.conjTranspose_smul, Matrix.smul_mul, Matrix.mul_smul, smul_smul]
    simp only [Complex.star_def, Complex.conj_ofReal]
    rw [half_half]
    ext i j
    fin_cases i <;> fin_cases j <;> simp [Matrix.mul_apply, Fin.sum_univ_two] <;> norm_num

/-- The hypotheses are met by one step with `σʸ` (`C79_transposed`, `C79_phases`), … -/
example : ∃ tl : Tools 2, ∃ U, HermitianProtocol (.stepList [spinY] [Real.pi / 2] none) ∧ EvolvesRightly tl (.stepList [spinY] [Real.pi / 2] none) ∧
    periodOf (.stepList [spinY] [Real.pi / 2] none) ≠ 0 ∧ (create tl 0 0 1 ⟨true, true, true, true⟩ (.stepList [spinY] [Real.pi / 2] none)).isSome ∧
    EvolvesOver (.stepList [spinY] [Real.pi / 2] none) U ∧ ToolsRight tl Uᵀ := by
  refine ⟨toolsOf ![Complex.I, -Complex.I] ((((Real.sqrt 2)⁻¹ : ℝ) : ℂ) • (!![1, 1; Complex.I, -Complex.I] : Matrix (Fin 2) (Fin 2) ℂ)) (fun _ _ _ => none),
    !![0, -1; 1, 0], ?_, trivial, ?_, ?_, ?_, ?_⟩
  · simpa [HermitianProtocol] using spinY_hermitian
  · simp [periodOf, Real.pi_ne_zero]
  · exact ((C79_attributes _ 0 0 1 _ _).2.1 _ _ _ rfl).2 ⟨rfl, by simp⟩
  · show _ = steps _
    simp only [List.zip_cons_cons, List.zip_nil_right, steps, Matrix.one_mul]
    exact expo_spinY.symm
  · have : (!![0, -1; 1, 0] : Matrix (Fin 2) (Fin 2) ℂ)ᵀ = !![0, 1; -1, 0] := by
      ext i j
      fin_cases i <;> fin_cases j <;> rfl
    rw [this]
    exact toolsOf_right basisY _

/-- … by one step with `σˣ` (`C79_states_partial`, `C79_palindromes`), … -/
example : ∃ tl : Tools 2, ∃ U, HermitianProtocol (.stepList [spinX] [Real.pi / 2] none) ∧ (([Real.pi / 2].zip [spinX]).reverse = [Real.pi / 2].zip [spinX]) ∧
    (∀ H ∈ [spinX], Hᵀ = H) ∧ EvolvesOver (.stepList [spinX] [Real.pi / 2] none) U ∧ Uᵀ = U ∧ ToolsRight tl U := by
  have hs : spinXᵀ = spinX := by
    ext i j
    fin_cases i <;> fin_cases j <;> rfl
  have he : EvolvesOver (.stepList [spinX] [Real.pi / 2] none) !![0, -Complex.I; -Complex.I, 0] := by
    show _ = steps _
    simp only [List.zip_cons_cons, List.zip_nil_right, steps, Matrix.one_mul]
    exact expo_spinX.symm
  refine ⟨toolsOf _ _ (fun _ _ _ => none), !![0, -Complex.I; -Complex.I, 0], ?_, by simp, by simpa using hs, he, ?_, toolsOf_right basisX _⟩
  · have : spinX.IsHermitian := by
      ext i j
      fin_cases i <;> fin_cases j <;> simp [spinX]
    simpa [HermitianProtocol] using this
  · exact C79_palindromes [spinX] [Real.pi / 2] none (by simp) (by simpa using hs) he

/-- … and by the continuous drive `cos t` of one level. -/
example : ∃ tl : Tools 1, ∃ U, HermitianProtocol (.continuous (fun t => !![(Real.cos t : ℂ)]) [fun t => (Real.cos t : ℂ)] (2 * Real.pi)) ∧
    EvolvesRightly tl (.continuous (fun t => !![(Real.cos t : ℂ)]) [fun t => (Real.cos t : ℂ)] (2 * Real.pi)) ∧
    (create tl 0 0 1 ⟨true, true, true, true⟩ (.continuous (fun t => !![(Real.cos t : ℂ)]) [fun t => (Real.cos t : ℂ)] (2 * Real.pi))).isSome ∧
    EvolvesOver (.continuous (fun t => !![(Real.cos t : ℂ)]) [fun t => (Real.cos t : ℂ)] (2 * Real.pi)) U ∧ ToolsRight tl Uᵀ := by
  have hd : ∀ (c : ℂ) (t : ℝ), HasDerivAt (fun s : ℝ => Complex.exp (-Complex.I * Real.sin s) * c)
      (-Complex.I * (Real.cos t * (Complex.exp (-Complex.I * Real.sin t) * c))) t := by
    intro c t
    have h1 : HasDerivAt (fun s : ℝ => -Complex.I * ((Real.sin s : ℝ) : ℂ)) (-Complex.I * ((Real.cos t : ℝ) : ℂ)) t :=
      (Real.hasDerivAt_sin t).ofReal_comp.const_mul _
    refine (h1.cexp.mul_const c).congr_deriv ?_
    ring
  refine ⟨toolsOf (fun _ => 1) 1 fun _ ψ0 ts => some (ts.map fun t j => Complex.exp (-Complex.I * Real.sin t) * ψ0 j), 1, ?_, ?_, ?_, ?_, ?_⟩
  · intro t
    ext i j
    fin_cases i; fin_cases j
    simp [Complex.conj_ofReal, -Complex.ofReal_cos]
  · intro ψ0 ts r hr
    refine ⟨fun t => Matrix.of fun j _ => Complex.exp (-Complex.I * Real.sin t) * ψ0 j, ?_, fun j => by simp, (Option.some_inj.1 hr).symm⟩
    intro t i j
    fin_cases i
    refine (hd (ψ0 0) t).congr_deriv ?_
    simp only [Spec.Motion.schroedinger, Matrix.smul_apply, Matrix.mul_apply, Finset.univ_unique, Finset.sum_singleton, Matrix.of_apply, smul_eq_mul]
    rfl
  · refine (C79_attributes _ 0 0 1 _ _).2.2.2 _ _ _ rfl le_rfl ?_ ?_ ?_
    · intro f hf
      rw [List.mem_singleton] at hf
      subst hf
      intro t
      show ((Real.cos (t + 2 * Real.pi) : ℝ) : ℂ) = Real.cos t
      rw [Real.cos_add_two_pi]
    · intro i ts
      rfl
    · intro i ts r hts hr
      cases hr
      simpa using hts
  · refine ⟨fun t => Matrix.of fun _ _ => Complex.exp (-Complex.I * Real.sin t), ⟨?_, ?_⟩, ?_⟩
    · ext i j
      fin_cases i; fin_cases j
      simp
    · intro t i j
      refine ((hd 1 t).congr_deriv ?_).congr_of_eventuallyEq ?_
      · fin_cases i
        simp [Spec.Motion.schroedinger, Matrix.mul_apply, -Complex.ofReal_cos, -Complex.ofReal_sin]
      · simp
    · ext i j
      fin_cases i; fin_cases j
      simp
  · exact toolsOf_right ⟨by ext i j; fin_cases i; fin_cases j; simp, by simp⟩ _

/-! ### What fails -/

/-- For a static spin `σʸ` the Floquet Hamiltonian has the wrong sign, and the Floquet unitary turns backwards. -/
theorem C79_fails_static (tl : Tools 2) (t0 tol eps : ℝ) (heps : 0 < eps) {o : Object 2}
    (h : create tl t0 tol eps ⟨true, true, false, false⟩ (.stepList [spinY] [Real.pi / 2] none) = some o) (ht : ToolsRight tl !![0, 1; -1, 0]) :
    steps [(Real.pi / 2, spinY)] = !![0, -1; 1, 0] ∧ o.UF = some !![0, 1; -1, 0] ∧ o.HF = some (-spinY) := by
  have hU : EvolvesOver (.stepList [spinY] [Real.pi / 2] none) !![0, -1; 1, 0] := by
    show _ = steps _
    simp only [List.zip_cons_cons, List.zip_nil_right, steps, Matrix.one_mul]
    exact expo_spinY.symm
  have htr : (!![0, -1; 1, 0] : Matrix (Fin 2) (Fin 2) ℂ)ᵀ = !![0, 1; -1, 0] := by
    ext i j
    fin_cases i <;> fin_cases j <;> rfl
  have hHp : HermitianProtocol (.stepList [spinY] [Real.pi / 2] none) := by
    simpa [HermitianProtocol] using spinY_hermitian
  obtain ⟨r, hr, rfl⟩ := Option.map_eq_some_iff.1 h
  obtain ⟨rfl, -⟩ := period_transpose tl t0 tol _ hHp trivial hr hU
  refine ⟨?_, by simp only [htr]; rfl, ?_⟩
  · have := hU
    exact this.symm
  · have hT : periodOf (n := 2) (.stepList [spinY] [Real.pi / 2] none) = Real.pi / 2 := by simp [periodOf]
    simp only [htr, hT, if_true, Option.some_inj]
    have hpi : (Real.pi : ℂ) ≠ 0 := by exact_mod_cast Real.pi_ne_zero
    have l1 := log_vector ht.logm (v := ![1, Complex.I]) (μ := Complex.I) (by ext i; fin_cases i <;> simp)
    have l2 := log_vector ht.logm (v := ![1, -Complex.I]) (μ := -Complex.I) (by ext i; fin_cases i <;> simp)
    rw [Complex.log_I] at l1
    rw [Complex.log_neg_I] at l2
    generalize tl.logm !![0, 1; -1, 0] = L at l1 l2
    have a1 := congrFun l1 0
    have a2 := congrFun l1 1
    have b1 := congrFun l2 0
    have b2 := congrFun l2 1
    simp [Matrix.mulVec, dotProduct, Fin.sum_univ_two] at a1 a2 b1 b2
    have c0 : L 0 0 = 0 := by linear_combination (a1 + b1) / 2
    have c1 : L 0 1 = Real.pi / 2 := by linear_combination (-Complex.I) * (a1 - b1) / 2 + (L 0 1 - Real.pi / 2) * Complex.I_sq
    have c2 : L 1 0 = -(Real.pi / 2) := by linear_combination (a2 + b2) / 2 + Real.pi / 2 * Complex.I_sq
    have c3 : L 1 1 = 0 := by linear_combination (-Complex.I) * (a2 - b2) / 2 + L 1 1 * Complex.I_sq
    ext i j
    fin_cases i <;> fin_cases j <;> simp [spinY, c0, c1, c2, c3] <;> field_simp

/-- With several steps the Floquet unitary has them in the wrong order, also for real Hamiltonians: first `σˣ`, then `σᶻ`. -/
theorem C79_fails_order (tl : Tools 2) (t0 tol : ℝ) :
    (period tl t0 tol (.stepList [spinX, spinZ] [Real.pi / 2, Real.pi / 2] none)).map Prod.fst = some (steps [(Real.pi / 2, spinZ), (Real.pi / 2, spinX)]) ∧
    steps [(Real.pi / 2, spinZ), (Real.pi / 2, spinX)] ≠ steps [(Real.pi / 2, spinX), (Real.pi / 2, spinZ)] := by
  constructor
  · rw [period, if_pos ⟨rfl, by simp⟩, Option.map_some, Option.some_inj]
    show vstack (fun i => evolveStep3 _ _ i) = _
    have : (fun i => evolveStep3 [spinX, spinZ] [Real.pi / 2, Real.pi / 2] i) =
        fun i => (steps ([Real.pi / 2, Real.pi / 2].zip [spinX, spinZ])).mulVec (unit i) := funext fun i => foldl_steps _ _
    rw [this, vstack_eq, steps_transpose]
    have hx : spinXᵀ = spinX := by
      ext i j
      fin_cases i <;> fin_cases j <;> rfl
    have hz : spinZᵀ = spinZ := by
      ext i j
      fin_cases i <;> fin_cases j <;> rfl
    simp [hx, hz]
  · simp only [steps, Matrix.one_mul]
    rw [expo_spinX, expo_spinZ]
    intro h
    have := congrFun (congrFun h 0) 1
    simp [Matrix.mul_apply, Fin.sum_univ_two] at this
    norm_num at this

/-- Times and durations of different number are accepted: with one time and two durations only the first step is made, but the period is
the sum of both, so that the quasienergies are wrong. -/
theorem C79_fails_lengths (tl : Tools n) (t0 tol : ℝ) (H : ℝ → Matrix (Fin n) (Fin n) ℂ) (a b : ℝ) :
    period tl t0 tol (.stepTimes H [0] [a, b] none) = some ((steps [(a, H 0)])ᵀ, a + b) := by
  have : (fun i => evolveStep2 H [0] [a, b] i) = fun i => (steps [(a, H 0)]).mulVec (unit i) := funext fun i => step2_eq H [0] [a, b] (unit i)
  have h2 : vstack (evolveStep2 H [0] [a, b]) = (steps [(a, H 0)])ᵀ := by
    rw [← vstack_eq]
    exact congrArg vstack this
  simp only [period, h2]
  simp

/-- A drive that is not periodic passes the test of its period if it takes the same value at one time and one period later. -/
theorem C79_fails_period (t0 tol T : ℝ) (htol : 0 ≤ tol) (hT : 0 < T) :
    ∃ f : ℝ → ℂ, Continuous f ∧ periodTest t0 tol T [f] ∧ ¬Periodic T f := by
  refine ⟨fun t => Complex.sin (Real.pi * (t - t0) / T), by fun_prop, ?_, ?_⟩
  · intro f hf
    rw [List.mem_singleton] at hf
    subst hf
    have hT' : (T : ℂ) ≠ 0 := by exact_mod_cast hT.ne'
    have h1 : (Real.pi : ℂ) * ((t0 + T : ℝ) - t0) / T = Real.pi := by push_cast; field_simp; ring
    simp only [h1, sub_self, mul_zero, zero_div, Complex.sin_zero, Complex.sin_pi, norm_zero]
    exact not_lt.2 htol
  · intro h
    have hT' : (T : ℂ) ≠ 0 := by exact_mod_cast hT.ne'
    have h1 := h (t0 + T / 2)
    have e1 : (Real.pi : ℂ) * ((t0 + T / 2 + T : ℝ) - t0) / T = Real.pi / 2 + Real.pi := by push_cast; field_simp; ring
    have e2 : (Real.pi : ℂ) * ((t0 + T / 2 : ℝ) - t0) / T = Real.pi / 2 := by push_cast; field_simp; ring
    simp only [e1, e2, Complex.sin_add_pi, Complex.sin_pi_div_two] at h1
    norm_num at h1

end Props
