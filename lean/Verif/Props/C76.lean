import Verif.Proof.ThreeBasis
import Verif.Props.C74
/-!
C76: in the blocks of momentum, reflection and inversion of a one-dimensional basis (`kblock`, `pblock` and `zblock` together; for fermions with spin `sblock`)
the basis states are an orthonormal basis of all vectors of the block, and the matrix built for an operator that commutes with the three symmetries is its matrix in
these states.

The vectors of the block are those made of waves with momentum `k` and `-k` that have the given eigenvalues of reflection and inversion (`Spec.Semi.InBlock3`).  The
entry `(s, (N, m))` of the basis stands for the normalised state `Spec.Semi.state3` with the sign of `N`; which of the ten values of `m / (L+1)^2` it carries decides about the
norms used by the code.
-/
namespace Props
open Spec Spec.Semi Model Model.Chain Proof.Chain Proof.Semi
open Spec.Chain (Fits HasFlip)
open scoped BigOperators Matrix

/-- The normalised state an entry of the basis stands for. -/
noncomputable def semiState3 (N : ℕ) (U R I : Matrix (Fin N) (Fin N) ℂ) (n k : ℕ) (p z : Int) (basis : List (ℕ × (Int × ℕ))) (i : Fin basis.length) : Fin N → ℂ :=
  normalized (state3 U R I n (2 * Real.pi * k / n) p z basis[i].2.1 basis[i].1)

/-- translation, reflection and inversion of a chain -/
theorem triad_chain {w : Option ℕ} {c : Spec.Chain} (h : Fits w c) (hF : HasFlip c) (T n : ℕ) (hT : 0 < T) (hn : 0 < n) (hL : c.length = T * n) :
    Triad (· < c.size) (shiftOf w T c) (flipLROf w c) (flipAllOf w c) n := by
  have hTL : T ≤ c.length := by rw [hL]; exact Nat.le_mul_of_pos_right _ hn
  have aTZ : Acts (· < c.size) [gen (shiftOf w T c) n 0, gen (flipAllOf w c) 2 0] := pair_acts h (shift_site c T n hT hn hL) (flip_site c hF)
    (shift_isSymmetry h T hT hTL n 0) (flip_isSymmetry h hF 2 0) (shift_flip c T hTL)
  have aPZ : Acts (· < c.size) [gen (flipLROf w c) 2 0, gen (flipAllOf w c) 2 0] := pair_acts h (parity_site c) (flip_site c hF)
    (parity_isSymmetry h 2 0) (flip_isSymmetry h hF 2 0) (Proof.Chain.parity_flip c)
  exact ⟨dihedral_chain h T n hT hn hL, fun s hs' => aTZ.closed (gen (flipAllOf w c) 2 0) (by simp) s hs',
      fun s hs' => aTZ.sign (gen (flipAllOf w c) 2 0) (by simp) s hs', fun s hs' => aTZ.period (gen (flipAllOf w c) 2 0) (by simp) s hs',
      fun s hs' => aTZ.commute (gen (shiftOf w T c) n 0) (by simp) (gen (flipAllOf w c) 2 0) (by simp) s hs',
      fun s hs' => aPZ.commute (gen (flipLROf w c) 2 0) (by simp) (gen (flipAllOf w c) 2 0) (by simp) s hs'⟩

theorem state3_sign {N n : ℕ} (hn : 0 < n) {Tr P Z : BitOp} {k : ℕ} {p z : Int} (x : ℕ × (Int × ℕ)) :
    normalized (state3 (opMat N Tr) (opMat N P) (opMat N Z) n (2 * Real.pi * k / n) p z x.2.1 x.1) = ent3 N Tr P Z n k p z x := by
  unfold ent3 st3 state3 kMat
  rw [← state_eq hn]
  congr 2
  unfold state sigmaOf
  by_cases h : 0 < x.2.1
  · rw [if_pos (show x.2.1 > 0 from h)]
    simp [h]
  · rw [if_neg (show ¬ x.2.1 > 0 from h)]
    simp [h]

/-- Momentum, reflection and inversion, `L = T n`. -/
theorem C76_momentum_reflection_inversion (w : Option ℕ) (c : Spec.Chain) (h : Fits w c) (hF : HasFlip c) (next : ℕ → ℕ) (nosymm : ℕ → Bool) (MAX s0 : ℕ)
    (hinc : (visited next MAX s0).Pairwise (· < ·)) (T n k : ℕ) (hT : 0 < T) (hn : 0 < n) (hL : c.length = T * n)
    (p z : Int) (hp : p = 1 ∨ p = -1) (hz : z = 1 ∨ z = -1)
    (yT yP yZ : Generator) (hyT : c.IsSymmetry (c.shift T) yT) (hyP : c.IsSymmetry c.parity yP) (hyZ : c.IsSymmetry c.flip yZ)
    (hs : IsSectorOf c.size [yT, yP, yZ] ((visited next MAX s0).filter nosymm)) :
    let U := matrixOf c.size yT
    let R := matrixOf c.size yP
    let I := matrixOf c.size yZ
    let basis := blockBasisList next nosymm (keepT_P_Z (shiftOf w T c) (flipLROf w c) (flipAllOf w c) p z k c.length T) MAX s0
    IsBasisOf (InBlock3 U R I (2 * Real.pi * k / n) p z) ((visited next MAX s0).filter nosymm) (semiState3 c.size U R I n k p z basis) ∧
    ∀ terms : List (ℕ → Option (ℕ × ℂ)), TermsWithin c.size terms → Commute (restrict c.size (operatorOf terms)) U →
      Commute (restrict c.size (operatorOf terms)) R → Commute (restrict c.size (operatorOf terms)) I →
      ∃ M, matrixT_P k c.length T (refT_P_Z (shiftOf w T c) (flipLROf w c) (flipAllOf w c) c.length T) (factorT_P_Z p z k c.length T) basis terms = some M ∧
        IsMatrixIn (semiState3 c.size U R I n k p z basis) (restrict c.size (operatorOf terms)) M := by
  have hTL : T ≤ c.length := by rw [hL]; exact Nat.le_mul_of_pos_right _ hn
  obtain ⟨e1, i1⟩ := matrixOf_isSymmetry (shift_site c T n hT hn hL) hyT (shift_isSymmetry h T hT hTL)
  obtain ⟨e2, i2⟩ := matrixOf_isSymmetry (parity_site c) hyP (parity_isSymmetry h)
  obtain ⟨e3, i3⟩ := matrixOf_isSymmetry (flip_site c hF) hyZ (flip_isSymmetry h hF)
  have ht := triad_chain h hF T n hT hn hL
  simp only [e1, e2, e3]
  rw [hL]
  generalize hb : blockBasisList next nosymm (keepT_P_Z (shiftOf w T c) (flipLROf w c) (flipAllOf w c) p z k (T * n) T) MAX s0 = basis
  have hl : Listed (keepT_P_Z (shiftOf w T c) (flipLROf w c) (flipAllOf w c) p z k (T * n) T) ((visited next MAX s0).filter nosymm) basis := by
    rw [← hb]
    exact listed_block _ next nosymm MAX s0 hinc (fun s hs' => (keep3_list (k := k) ht hp hz hT (hs.below s hs')).1)
  have e : semiState3 c.size (opMat c.size (shiftOf w T c)) (opMat c.size (flipLROf w c)) (opMat c.size (flipAllOf w c)) n k p z basis
      = fun i : Fin basis.length => ent3 c.size (shiftOf w T c) (flipLROf w c) (flipAllOf w c) n k p z basis[i] := by
    funext i
    exact state3_sign hn basis[i]
  rw [e]
  exact ⟨three_basis ht hT hp hz hs.below
    (fun s hs' => by rw [← i1 s (hs.below s hs')]; exact hs.closed yT (by simp) s hs')
    (fun s hs' => by rw [← i2 s (hs.below s hs')]; exact hs.closed yP (by simp) s hs')
    (fun s hs' => by rw [← i3 s (hs.below s hs')]; exact hs.closed yZ (by simp) s hs') hl,
    fun terms h1 h2 h3 h4 => three_matrix ht hT hp hz hs.below hl terms h1 h2 h3 h4⟩

/-- Up to 64 sites (more sites have wider arrays, `base_1d.py:153-161`) the integers stored with a configuration fit the signed byte `N` and the 16 bits of `M`. -/
theorem C76_widths (w : Option ℕ) (c : Spec.Chain) (h : Fits w c) (hF : HasFlip c) (h64 : c.length ≤ 64) (T n k : ℕ) (hT : 0 < T) (hn : 0 < n) (hL : c.length = T * n)
    (p z : Int) (s : ℕ) (hs : s < c.size) :
    ∀ d ∈ keepT_P_Z (shiftOf w T c) (flipLROf w c) (flipAllOf w c) p z k c.length T s, -128 ≤ d.1 ∧ d.1 < 128 ∧ d.2 < 2 ^ 16 := by
  intro d hd
  rw [hL] at hd
  obtain ⟨h1, h2⟩ := three_widths (triad_chain h hF T n hT hn hL) hT hs hd
  have hnL : n ≤ c.length := by rw [hL]; exact Nat.le_mul_of_pos_left _ hT
  rw [← hL] at h2
  refine ⟨by omega, by omega, ?_⟩
  have : (c.length + 1) ^ 2 ≤ 65 ^ 2 := Nat.pow_le_pow_left (by omega) 2
  omega

/-! ### the hypotheses are met -/

/-- Six spins, three of them up, momentum 1, reflection and inversion: the operations of the code satisfy all hypotheses. -/
example :
    let c : Spec.Chain := .twoLevel 6
    let yT := gen (shiftOf (some 32) 1 c) 6 1
    let yP := gen (flipLROf (some 32) c) 2 1
    let yZ := gen (flipAllOf (some 32) c) 2 1
    Fits (some 32) c ∧ HasFlip c ∧ c.IsSymmetry (c.shift 1) yT ∧ c.IsSymmetry c.parity yP ∧ c.IsSymmetry c.flip yZ ∧ c.length = 1 * 6 ∧
    (visited (nextStatePcon 32) (Nat.choose 6 3) (s0Pcon 3)).Pairwise (· < ·) ∧
    IsSectorOf c.size [yT, yP, yZ] ((visited (nextStatePcon 32) (Nat.choose 6 3) (s0Pcon 3)).filter fun _ => true) := by
  have hF : Fits (some 32) (.twoLevel 6) := ⟨by omega, fun v hv => by cases hv; omega⟩
  have hT := shift_isSymmetry hF 1 (by omega) (show 1 ≤ 6 by omega) 6 1
  have hP := parity_isSymmetry hF 2 1
  have hZ := flip_isSymmetry hF trivial 2 1
  have := C65_fixed_number 32 (.twoLevel 6) (Or.inl rfl) (show 6 ≤ 32 by omega) 3 (show 3 ≤ 6 by omega)
    [gen (shiftOf (some 32) 1 (.twoLevel 6)) 6 1, gen (flipLROf (some 32) (.twoLevel 6)) 2 1, gen (flipAllOf (some 32) (.twoLevel 6)) 2 1] (by
      intro y hy
      rcases List.mem_cons.1 hy with rfl | hy
      · exact ⟨_, hT, Or.inl ⟨1, (show 1 ≤ 6 by omega), rfl⟩⟩
      · rcases List.mem_cons.1 hy with rfl | hy
        · exact ⟨_, hP, Or.inr (Or.inl rfl)⟩
        · rw [List.mem_singleton.1 hy]
          exact ⟨_, hZ, Or.inr (Or.inr ⟨rfl, rfl, rfl⟩)⟩)
  refine ⟨hF, trivial, hT, hP, hZ, rfl, this.1, ?_⟩
  rw [show Nat.choose 6 3 = ((Spec.Chain.twoLevel 6).length).choose 3 from rfl, this.2.1]
  exact this.2.2

/-- Momentum 1.  Only the product of reflection and inversion takes `110100` to a translate (itself), and the entry has code 6; all three do for `111000` (code 10);
`1110100` is not taken to a translate by any of them and is kept twice. -/
example : keepT_P_Z (shiftOf (some 32) 1 (.twoLevel 6)) (flipLROf (some 32) (.twoLevel 6)) (flipAllOf (some 32) (.twoLevel 6)) 1 (-1) 1 6 1 52 = [(-6, 294)] ∧
    keepT_P_Z (shiftOf (some 32) 1 (.twoLevel 6)) (flipLROf (some 32) (.twoLevel 6)) (flipAllOf (some 32) (.twoLevel 6)) 1 (-1) 1 6 1 56 = [(-6, 514)] ∧
    keepT_P_Z (shiftOf (some 32) 1 (.twoLevel 7)) (flipLROf (some 32) (.twoLevel 7)) (flipAllOf (some 32) (.twoLevel 7)) 1 (-1) 1 7 1 116 = [(-7, 0), (7, 0)] := by
  have e1 : checkT_P_Z (shiftOf (some 32) 1 (.twoLevel 6)) (flipLROf (some 32) (.twoLevel 6)) (flipAllOf (some 32) (.twoLevel 6)) 1 6 1 52 = some ⟨6, -1, -1, 0, 1, 1, 1⟩ := by decide +kernel
  have e2 : checkT_P_Z (shiftOf (some 32) 1 (.twoLevel 6)) (flipLROf (some 32) (.twoLevel 6)) (flipAllOf (some 32) (.twoLevel 6)) 1 6 1 56 = some ⟨6, 3, 3, 0, 1, 1, 1⟩ := by decide +kernel
  have e3 : checkT_P_Z (shiftOf (some 32) 1 (.twoLevel 7)) (flipLROf (some 32) (.twoLevel 7)) (flipAllOf (some 32) (.twoLevel 7)) 1 7 1 116 = some ⟨7, -1, -1, -1, 1, 1, 1⟩ := by decide +kernel
  have hs : sigmas 1 6 1 = [-1, 1] := by decide
  have hs' : sigmas 1 7 1 = [-1, 1] := by decide
  have hw : (3 : ℝ) * wave 1 6 1 = Real.pi := by unfold wave; push_cast; ring
  refine ⟨?_, ?_, ?_⟩
  · unfold keepT_P_Z keptSigmas
    simp only [e1, hs]
    simp
  · unfold keepT_P_Z keptSigmas
    simp only [e2, hs]
    simp [hw]
  · unfold keepT_P_Z keptSigmas
    simp only [e3, hs']
    simp

/-- The inversion itself, as an operator with one term, commutes with all three. -/
example :
    let c : Spec.Chain := .twoLevel 6
    let term : ℕ → Option (ℕ × ℂ) := fun s => some ((flipAllOf (some 32) c s).1, (flipAllOf (some 32) c s).2)
    TermsWithin c.size [term] ∧ Commute (restrict c.size (operatorOf [term])) (matrixOf c.size (gen (shiftOf (some 32) 1 c) 6 1)) ∧
    Commute (restrict c.size (operatorOf [term])) (matrixOf c.size (gen (flipLROf (some 32) c) 2 1)) ∧
    Commute (restrict c.size (operatorOf [term])) (matrixOf c.size (gen (flipAllOf (some 32) c) 2 1)) := by
  have h : Fits (some 32) (.twoLevel 6) := ⟨by omega, fun v hv => by cases hv; omega⟩
  have ht := triad_chain h trivial 1 6 (by omega) (by omega) rfl
  have e : restrict (Spec.Chain.twoLevel 6).size (operatorOf [fun s => some ((flipAllOf (some 32) (.twoLevel 6) s).1, ((flipAllOf (some 32) (.twoLevel 6) s).2 : ℂ))])
      = matrixOf (Spec.Chain.twoLevel 6).size (gen (flipAllOf (some 32) (.twoLevel 6)) 1 0) := by
    ext t s
    unfold restrict operatorOf matrixOf gen
    simp
  refine ⟨?_, ?_, ?_, ?_⟩
  · intro f hf s hs
    rw [List.mem_singleton] at hf
    subst hf
    exact ⟨_, ht.closed s hs, _, rfl⟩
  · simp only [e]
    exact opZ_tr ht
  · simp only [e]
    exact opZ_refl ht
  · simp only [e]
    exact Commute.refl _

/-- The widths are needed: 514 in the example above does not fit a byte. -/
example : (Spec.Chain.twoLevel 6).length ≤ 64 ∧ 56 < (Spec.Chain.twoLevel 6).size ∧ ¬ (514 < 2 ^ 8) := ⟨by show 6 ≤ 64; omega, by decide, by decide⟩

end Props
