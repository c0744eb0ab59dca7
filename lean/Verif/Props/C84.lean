import Verif.Model.EntWrapper
import Mathlib.LinearAlgebra.Matrix.Symmetric
import Mathlib.LinearAlgebra.UnitaryGroup
import Mathlib.Data.Fintype.BigOperators
import Mathlib.Tactic.FinCases

/-!
C84: `ent_entropy` describes the state it is given: its entropy, reduced density matrices and singular values.
-/

namespace Props
open Model.EntWrapper

variable {N : ℕ}

/-- What there is to know about a density matrix and a division of the system: entropies and reduced density matrices of
both parts, eigenvalues of the first. -/
structure Division (N : ℕ) where
  sA : Matrix (Fin N) (Fin N) ℂ → ℝ
  sB : Matrix (Fin N) (Fin N) ℂ → ℝ
  rA : Matrix (Fin N) (Fin N) ℂ → ℕ → ℕ → ℂ
  rB : Matrix (Fin N) (Fin N) ℂ → ℕ → ℕ → ℂ
  pA : Matrix (Fin N) (Fin N) ℂ → List ℝ

/-- The density matrix of a state. -/
def projector (v : Fin N → ℂ) : Matrix (Fin N) (Fin N) ℂ := fun i k => v i * star (v k)

/-- `Σ_j d_j |j><j|`, the states `j` being the columns of `V`. -/
def mixture (V : Matrix (Fin N) (Fin N) ℂ) (d : Fin N → ℂ) : Matrix (Fin N) (Fin N) ℂ :=
  fun i k => ∑ j, d j * projector (fun x => V x j) i k

/-- `basis.ent_entropy` answers correctly about one density matrix or one state: it returns the entropy of the parts asked
for, their reduced density matrices, and the eigenvalues on demand. -/
def AnswersRightly (T : Division N) (basis : Call N → Option Answer) : Prop :=
  ∀ c : Call N, ∀ ρ : Matrix (Fin N) (Fin N) ℂ,
    (c.state = .array N ρ ∧ c.enforcePure = false ∨ ∃ v, c.state = .vector v ∧ ρ = projector v) →
    ∃ a, basis c = some a ∧ (c.returnRdm ≠ .B → a.sentA = some (T.sA ρ)) ∧
      (c.returnRdm = .B ∨ c.returnRdm = .both → a.sentB = some (T.sB ρ) ∧ a.rdmB = some (T.rB ρ)) ∧
      (c.returnRdm = .A ∨ c.returnRdm = .both → a.rdmA = some (T.rA ρ)) ∧
      (c.returnEVs = true → a.pA = some (T.pA ρ))

/-- The output that describes the density matrix `ρ`. -/
noncomputable def outputFor (T : Division N) (ρ : Matrix (Fin N) (Fin N) ℂ) (dm : DM) (lmbda : Bool) : Output where
  sent := match dm with
    | .otherSubsys => T.sB ρ
    | _ => T.sA ρ
  chain := match dm with
    | .chainSubsys => some (T.rA ρ)
    | .both => some (T.rA ρ)
    | _ => none
  other := match dm with
    | .otherSubsys => some (T.rB ρ)
    | .both => some (T.rB ρ)
    | _ => none
  lmbda := if lmbda then some ((T.pA ρ).map Real.sqrt) else none

theorem wrapper_ok (T : Division N) (basis : Call N → Option Answer) (hb : AnswersRightly T basis) (s : SystemState N)
    (g : Given N) (hs : stateOf s = some (g, false)) (ρ : Matrix (Fin N) (Fin N) ℂ)
    (hg : g = .array N ρ ∨ ∃ v, g = .vector v ∧ ρ = projector v) (dm : DM) (hd : dm ≠ .wrong) (lmbda : Bool) :
    entEntropy basis s dm lmbda = some (outputFor T ρ dm lmbda) := by
  have key : ∀ r, ∃ a, basis ⟨g, false, r, lmbda⟩ = some a ∧ (r ≠ .B → a.sentA = some (T.sA ρ)) ∧
      (r = .B ∨ r = .both → a.sentB = some (T.sB ρ) ∧ a.rdmB = some (T.rB ρ)) ∧
      (r = .A ∨ r = .both → a.rdmA = some (T.rA ρ)) ∧ (lmbda = true → a.pA = some (T.pA ρ)) := fun r =>
    hb ⟨g, false, r, lmbda⟩ ρ (by
      rcases hg with h | ⟨v, h, h'⟩
      · exact Or.inl ⟨h, rfl⟩
      · exact Or.inr ⟨v, h, h'⟩)
  cases dm with
  | wrong => exact absurd rfl hd
  | no =>
    obtain ⟨a, h1, h2, -, -, h5⟩ := key .nothing
    cases lmbda <;> simp [entEntropy, entEntropy.pure', Model.EntWrapper.rdmOf, hs, h1, h2, h5] <;> rfl
  | chainSubsys =>
    obtain ⟨a, h1, h2, -, h4, h5⟩ := key .A
    cases lmbda <;> simp [entEntropy, entEntropy.pure', Model.EntWrapper.rdmOf, hs, h1, h2, h4, h5] <;> rfl
  | otherSubsys =>
    obtain ⟨a, h1, -, h3, -, h5⟩ := key .B
    cases lmbda <;> simp [entEntropy, entEntropy.pure', Model.EntWrapper.rdmOf, hs, h1, h3, h5] <;> rfl
  | both =>
    obtain ⟨a, h1, h2, h3, h4, h5⟩ := key .both
    cases lmbda <;> simp [entEntropy, entEntropy.pure', Model.EntWrapper.rdmOf, hs, h1, h2, h3, h4, h5] <;> rfl

/-- C84, part: for a state or a density matrix, `ent_entropy` describes it.  Missing: density matrices given by their
eigensystem (`C84_fails_diagonal`, `C84_symmetric_partial`); several states at once are handed on as they are. -/
theorem C84_states_partial (T : Division N) (basis : Call N → Option Answer) (hb : AnswersRightly T basis) (dm : DM)
    (hd : dm ≠ .wrong) (lmbda : Bool) :
    (∀ v, entEntropy basis (.vector v) dm lmbda = some (outputFor T (projector v) dm lmbda)) ∧
      ∀ ρ, entEntropy basis (.array N ρ) dm lmbda = some (outputFor T ρ dm lmbda) :=
  ⟨fun v => wrapper_ok T basis hb _ _ rfl _ (Or.inr ⟨v, rfl, rfl⟩) dm hd lmbda,
    fun ρ => wrapper_ok T basis hb _ _ rfl ρ (Or.inl rfl) dm hd lmbda⟩

/-- C84: for `{"V_rho": V, "rho_d": d}` the result describes the mixture of the rows of `V`. -/
theorem C84_rows (T : Division N) (basis : Call N → Option Answer) (hb : AnswersRightly T basis) (dm : DM)
    (hd : dm ≠ .wrong) (lmbda : Bool) (V : Matrix (Fin N) (Fin N) ℂ) (d : Fin N → ℂ) :
    entEntropy basis (.diagonal V d) dm lmbda = some (outputFor T (mixture V.transpose d) dm lmbda) := by
  refine wrapper_ok T basis hb _ _ rfl _ (Or.inl ?_) dm hd lmbda
  refine congrArg _ (Matrix.ext fun i k => ?_)
  simp only [mixture, projector, Matrix.transpose_apply]
  exact Finset.sum_congr rfl fun j _ => by ring

/-- C84, part: it describes the mixture of the columns if the matrix is symmetric.
Missing: other matrices of eigenvectors, since the rows are mixed (`C84_fails_diagonal`). -/
theorem C84_symmetric_partial (T : Division N) (basis : Call N → Option Answer) (hb : AnswersRightly T basis) (dm : DM)
    (hd : dm ≠ .wrong) (lmbda : Bool) (V : Matrix (Fin N) (Fin N) ℂ) (hV : V.IsSymm) (d : Fin N → ℂ) :
    entEntropy basis (.diagonal V d) dm lmbda = some (outputFor T (mixture V d) dm lmbda) := by
  rw [C84_rows T basis hb dm hd lmbda V d, hV.eq]

/-- The permutation of three states `0 -> 1 -> 2 -> 0` (the columns are orthonormal). -/
def cycle3 : Matrix (Fin 3) (Fin 3) ℂ := !![0, 0, 1; 1, 0, 0; 0, 1, 0]

/-- C84 fails for density matrices given by eigenvectors (in columns) and eigenvalues: for the pure state in the first
column of `cycle3`, which is the state 1, the result is that of the state 2. -/
theorem C84_fails_diagonal (T : Division 3) (basis : Call 3 → Option Answer) (hb : AnswersRightly T basis) :
    cycle3 ∈ Matrix.unitaryGroup (Fin 3) ℂ ∧ mixture cycle3 ![1, 0, 0] = projector ![0, 1, 0] ∧
      entEntropy basis (.diagonal cycle3 ![1, 0, 0]) .no false = some (outputFor T (projector ![0, 0, 1]) .no false) := by
  refine ⟨?_, ?_, ?_⟩
  · rw [Matrix.mem_unitaryGroup_iff]
    ext i j
    fin_cases i <;> fin_cases j <;> simp [cycle3, Matrix.mul_apply, Fin.sum_univ_three, Matrix.star_apply]
  · ext i j
    fin_cases i <;> fin_cases j <;> simp [mixture, projector, cycle3, Fin.sum_univ_three]
  · rw [C84_rows T basis hb .no (by simp) false]
    congr 2
    ext i j
    fin_cases i <;> fin_cases j <;> simp [mixture, projector, cycle3, Fin.sum_univ_three]

/-- A basis that answers rightly. -/
example (T : Division N) : AnswersRightly T fun c =>
    match c.state with
    | .vector v => some ⟨some (T.sA (projector v)), some (T.sB (projector v)), some (T.rA (projector v)), some (T.rB (projector v)),
        some (T.pA (projector v))⟩
    | .array c' M => if h : c' = N then
        let ρ : Matrix (Fin N) (Fin N) ℂ := M.submatrix id (Fin.cast h.symm)
        some ⟨some (T.sA ρ), some (T.sB ρ), some (T.rA ρ), some (T.rB ρ), some (T.pA ρ)⟩ else none := by
  rintro ⟨g, p, r, l⟩ ρ (⟨h, -⟩ | ⟨v, h, rfl⟩)
  · simp only at h
    subst h
    exact ⟨_, dif_pos rfl, by simp⟩
  · simp only at h
    subst h
    exact ⟨_, rfl, by simp⟩

end Props
