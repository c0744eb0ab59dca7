import Verif.Proof.SemiChain
import Verif.Props.C65
/-!
C74: in the blocks of momentum and reflection of a one-dimensional basis (and of momentum and the product of reflection and inversion) the basis states
are an orthonormal basis of all vectors of the block, although a configuration may appear twice, and the matrix built for an operator that commutes with
the symmetries is its matrix in these states.

The reflection turns momentum `k` into `-k`; the vectors of the block are those made of waves with momentum `k` and `-k` that have the given eigenvalue of the
reflection (`Spec.Semi.InBlock`).  The entry `(s, (N, m))` of the basis stands for the normalised state `Spec.Semi.state` with the sign of `N`.
-/
namespace Props
open Spec Spec.Semi Model Model.Chain Proof.Chain Proof.Semi
open Spec.Chain (Fits HasFlip)
open scoped BigOperators Matrix

/-- The normalised state an entry of the basis stands for. -/
noncomputable def semiState (N : ℕ) (U R : Matrix (Fin N) (Fin N) ℂ) (n k : ℕ) (p : Int) (basis : List (ℕ × (Int × ℕ))) (i : Fin basis.length) : Fin N → ℂ :=
  normalized (state U R n (2 * Real.pi * k / n) p basis[i].2.1 basis[i].1)

section
variable (w : Option ℕ) (c : Spec.Chain) (h : Fits w c) (next : ℕ → ℕ) (nosymm : ℕ → Bool) (MAX s0 : ℕ)
  (hinc : (visited next MAX s0).Pairwise (· < ·)) (T n k : ℕ) (hT : 0 < T) (hn : 0 < n) (hL : c.length = T * n) (p : Int) (hp : p = 1 ∨ p = -1)

include h hinc hT hn hL hp

/-- Momentum and reflection, `L = T n`. -/
theorem C74_momentum_reflection (yT yP : Generator) (hyT : c.IsSymmetry (c.shift T) yT) (hyP : c.IsSymmetry c.parity yP)
    (hs : IsSectorOf c.size [yT, yP] ((visited next MAX s0).filter nosymm)) :
    let U := matrixOf c.size yT
    let R := matrixOf c.size yP
    let basis := blockBasisList next nosymm (keepT_P (checkT_Z (shiftOf w T c) (flipLROf w c) k c.length T) p k c.length T) MAX s0
    IsBasisOf (InBlock U R (2 * Real.pi * k / n) p) ((visited next MAX s0).filter nosymm) (semiState c.size U R n k p basis) ∧
    ∀ terms : List (ℕ → Option (ℕ × ℂ)), TermsWithin c.size terms → Commute (restrict c.size (operatorOf terms)) U → Commute (restrict c.size (operatorOf terms)) R →
      ∃ M, matrixT_P k c.length T (refT_Z (shiftOf w T c) (flipLROf w c) c.length T) (factorT_P p k c.length T) basis terms = some M ∧
        IsMatrixIn (semiState c.size U R n k p basis) (restrict c.size (operatorOf terms)) M := by
  have hTL : T ≤ c.length := by rw [hL]; exact Nat.le_mul_of_pos_right _ hn
  obtain ⟨e1, i1⟩ := matrixOf_isSymmetry (shift_site c T n hT hn hL) hyT (shift_isSymmetry h T hT hTL)
  obtain ⟨e2, i2⟩ := matrixOf_isSymmetry (parity_site c) hyP (parity_isSymmetry h)
  simp only [e1, e2]
  have key := semi_block (k := k) (p := p) (T := T) (dihedral_chain h T n hT hn hL) hT hp
    (keep := keepT_P (checkT_Z (shiftOf w T c) (flipLROf w c) k (T * n) T) p k (T * n) T) (fun _ _ => rfl) hinc hs.below
    (fun s hs' => by rw [← i1 s (hs.below s hs')]; exact hs.closed yT (by simp) s hs')
    (fun s hs' => by rw [← i2 s (hs.below s hs')]; exact hs.closed yP (by simp) s hs') rfl
  rw [hL]
  exact key

/-- Momentum and the product of reflection and inversion (for fermions with spin: exchange of the spins). -/
theorem C74_momentum_product (hF : HasFlip c) (yT yP yZ : Generator) (hyT : c.IsSymmetry (c.shift T) yT) (hyP : c.IsSymmetry c.parity yP)
    (hyZ : c.IsSymmetry c.flip yZ) (hs : IsSectorOf c.size [yT, both yZ yP 0] ((visited next MAX s0).filter nosymm)) :
    let U := matrixOf c.size yT
    let R := matrixOf c.size yZ * matrixOf c.size yP
    let basis := blockBasisList next nosymm (keepT_P (checkT_PZ (shiftOf w T c) (flipLROf w c) (flipAllOf w c) k c.length T) p k c.length T) MAX s0
    IsBasisOf (InBlock U R (2 * Real.pi * k / n) p) ((visited next MAX s0).filter nosymm) (semiState c.size U R n k p basis) ∧
    ∀ terms : List (ℕ → Option (ℕ × ℂ)), TermsWithin c.size terms → Commute (restrict c.size (operatorOf terms)) U → Commute (restrict c.size (operatorOf terms)) R →
      ∃ M, matrixT_P k c.length T (refT_Z (shiftOf w T c) (andThen (flipLROf w c) (flipAllOf w c)) c.length T) (factorT_P p k c.length T) basis terms = some M ∧
        IsMatrixIn (semiState c.size U R n k p basis) (restrict c.size (operatorOf terms)) M := by
  have hTL : T ≤ c.length := by rw [hL]; exact Nat.le_mul_of_pos_right _ hn
  obtain ⟨e1, i1⟩ := matrixOf_isSymmetry (shift_site c T n hT hn hL) hyT (shift_isSymmetry h T hT hTL)
  obtain ⟨e2, i2⟩ := matrixOf_isSymmetry (parity_site c) hyP (parity_isSymmetry h)
  obtain ⟨e3, i3⟩ := matrixOf_isSymmetry (flip_site c hF) hyZ (flip_isSymmetry h hF)
  have hd := dihedral_chain h T n hT hn hL
  have aTZ : Acts (· < c.size) [gen (shiftOf w T c) n 0, gen (flipAllOf w c) 2 0] := pair_acts h (shift_site c T n hT hn hL) (flip_site c hF)
    (shift_isSymmetry h T hT hTL n 0) (flip_isSymmetry h hF 2 0) (shift_flip c T hTL)
  have aPZ : Acts (· < c.size) [gen (flipLROf w c) 2 0, gen (flipAllOf w c) 2 0] := pair_acts h (parity_site c) (flip_site c hF)
    (parity_isSymmetry h 2 0) (flip_isSymmetry h hF 2 0) (Proof.Chain.parity_flip c)
  have hcomm : ∀ s, s < c.size → step (flipLROf w c) (step (flipAllOf w c) (s, 1)) = step (flipAllOf w c) (step (flipLROf w c) (s, 1)) :=
    fun s hs' => aPZ.commute (gen (flipLROf w c) 2 0) (by simp) (gen (flipAllOf w c) 2 0) (by simp) s hs'
  have hd' : Dihedral (· < c.size) (shiftOf w T c) (andThen (flipLROf w c) (flipAllOf w c)) n := by
    refine dihedral_comp hd (fun s hs' => aTZ.closed (gen (flipAllOf w c) 2 0) (by simp) s hs')
      (fun s hs' => aTZ.sign (gen (flipAllOf w c) 2 0) (by simp) s hs') (fun s hs' => aTZ.period (gen (flipAllOf w c) 2 0) (by simp) s hs')
      (fun s hs' => aTZ.commute (gen (shiftOf w T c) n 0) (by simp) (gen (flipAllOf w c) 2 0) (by simp) s hs') hcomm
  simp only [e1, e2, e3, ← opMat_comp (Z := flipAllOf w c) hd.closed]
  have key := semi_block (k := k) (p := p) (T := T) hd' hT hp
    (keep := keepT_P (checkT_PZ (shiftOf w T c) (flipLROf w c) (flipAllOf w c) k (T * n) T) p k (T * n) T)
    (fun s hs' => keep_product (hcomm s hs')) hinc hs.below
    (fun s hs' => by rw [← i1 s (hs.below s hs')]; exact hs.closed yT (by simp) s hs')
    (fun s hs' => by
      have := hs.closed (both yZ yP 0) (by simp) s hs'
      simp only [both] at this
      have hs2 := hs.below s hs'
      rw [i2 s hs2, i3 _ (hd.closed s hs2)] at this
      exact this) rfl
  rw [hL]
  exact key

end

/-! ### the hypotheses are met -/

/-- Six spins, three of them up, momentum 1 and reflection -1: the operations of the code satisfy all hypotheses. -/
example :
    let c : Spec.Chain := .twoLevel 6
    let yT := gen (shiftOf (some 32) 1 c) 6 1
    let yP := gen (flipLROf (some 32) c) 2 1
    Fits (some 32) c ∧ c.IsSymmetry (c.shift 1) yT ∧ c.IsSymmetry c.parity yP ∧ c.length = 1 * 6 ∧
    (visited (nextStatePcon 32) (Nat.choose 6 3) (s0Pcon 3)).Pairwise (· < ·) ∧
    IsSectorOf c.size [yT, yP] ((visited (nextStatePcon 32) (Nat.choose 6 3) (s0Pcon 3)).filter fun _ => true) := by
  have hF : Fits (some 32) (.twoLevel 6) := ⟨by omega, fun v hv => by cases hv; omega⟩
  have hT := shift_isSymmetry hF 1 (by omega) (show 1 ≤ 6 by omega) 6 1
  have hP := parity_isSymmetry hF 2 1
  have := C65_fixed_number 32 (.twoLevel 6) (Or.inl rfl) (show 6 ≤ 32 by omega) 3 (show 3 ≤ 6 by omega)
    [gen (shiftOf (some 32) 1 (.twoLevel 6)) 6 1, gen (flipLROf (some 32) (.twoLevel 6)) 2 1] (by
      intro y hy
      rcases List.mem_cons.1 hy with rfl | hy
      · exact ⟨_, hT, Or.inl ⟨1, (show 1 ≤ 6 by omega), rfl⟩⟩
      · rw [List.mem_singleton.1 hy]
        exact ⟨_, hP, Or.inr (Or.inl rfl)⟩)
  refine ⟨hF, hT, hP, rfl, this.1, ?_⟩
  rw [show Nat.choose 6 3 = ((Spec.Chain.twoLevel 6).length).choose 3 from rfl, this.2.1]
  exact this.2.2

/-- The configuration `110100` of six spins and its reflection are not translates of each other: it is kept twice for momentum 1.  `111000` is kept once. -/
example : keepT_P (checkT_Z (shiftOf (some 32) 1 (.twoLevel 6)) (flipLROf (some 32) (.twoLevel 6)) 1 6 1) 1 1 6 1 52 = [(-6, 0), (6, 0)] ∧
    keepT_P (checkT_Z (shiftOf (some 32) 1 (.twoLevel 6)) (flipLROf (some 32) (.twoLevel 6)) 1 6 1) 1 1 6 1 56 = [(-6, 11)] := by
  have e1 : checkT_Z (shiftOf (some 32) 1 (.twoLevel 6)) (flipLROf (some 32) (.twoLevel 6)) 1 6 1 52 = (6, -1, 1) := by decide +kernel
  have e2 : checkT_Z (shiftOf (some 32) 1 (.twoLevel 6)) (flipLROf (some 32) (.twoLevel 6)) 1 6 1 56 = (6, 3, 1) := by decide +kernel
  have hs : sigmas 1 6 1 = [-1, 1] := by decide
  have hw : (3 : ℝ) * wave 1 6 1 = Real.pi := by unfold wave; push_cast; ring
  constructor
  · unfold keepT_P
    rw [e1, hs]
    simp
  · unfold keepT_P
    rw [e2, hs]
    simp [hw]

theorem opMat_commute {N : ℕ} {f g : BitOp} (hf : ∀ s, s < N → (f s).1 < N) (hg : ∀ s, s < N → (g s).1 < N)
    (hc : ∀ s, s < N → step f (step g (s, 1)) = step g (step f (s, 1))) : Commute (matrixOf N (gen f 1 0)) (matrixOf N (gen g 1 0)) := by
  show opMat N f * opMat N g = opMat N g * opMat N f
  rw [← opMat_comp hg, ← opMat_comp hf]
  ext t s
  have := hc s s.2
  unfold step at this
  simp only [one_mul, Prod.mk.injEq] at this
  unfold opMat matrixOf gen andThen step
  simp only
  rw [this.1, this.2]

/-- The inversion of all spins, as one term, commutes with translation and reflection. -/
example :
    let c : Spec.Chain := .twoLevel 6
    let term : ℕ → Option (ℕ × ℂ) := fun s => some ((flipAllOf (some 32) c s).1, (flipAllOf (some 32) c s).2)
    TermsWithin c.size [term] ∧ Commute (restrict c.size (operatorOf [term])) (matrixOf c.size (gen (shiftOf (some 32) 1 c) 6 1)) ∧
    Commute (restrict c.size (operatorOf [term])) (matrixOf c.size (gen (flipLROf (some 32) c) 2 1)) := by
  have h : Fits (some 32) (.twoLevel 6) := ⟨by omega, fun v hv => by cases hv; omega⟩
  have aTZ := pair_acts h (shift_site (.twoLevel 6) 1 6 (by omega) (by omega) rfl) (flip_site (.twoLevel 6) trivial)
    (shift_isSymmetry h 1 (by omega) (show 1 ≤ 6 by omega) 6 0) (flip_isSymmetry h trivial 2 0) (shift_flip (.twoLevel 6) 1 (show 1 ≤ 6 by omega))
  have aPZ := pair_acts h (parity_site (.twoLevel 6)) (flip_site (.twoLevel 6) trivial)
    (parity_isSymmetry h 2 0) (flip_isSymmetry h trivial 2 0) (Proof.Chain.parity_flip (.twoLevel 6))
  have e : restrict (Spec.Chain.twoLevel 6).size (operatorOf [fun s => some ((flipAllOf (some 32) (.twoLevel 6) s).1, ((flipAllOf (some 32) (.twoLevel 6) s).2 : ℂ))])
      = matrixOf (Spec.Chain.twoLevel 6).size (gen (flipAllOf (some 32) (.twoLevel 6)) 1 0) := by
    ext t s
    unfold restrict operatorOf matrixOf gen
    simp
  have cZ := fun s hs => aPZ.closed (gen (flipAllOf (some 32) (.twoLevel 6)) 2 0) (by simp) s hs
  refine ⟨?_, ?_, ?_⟩
  · intro f hf s hs
    rw [List.mem_singleton] at hf
    subst hf
    exact ⟨_, cZ s hs, _, rfl⟩
  · simp only [e]
    exact opMat_commute cZ (fun s hs => aTZ.closed (gen (shiftOf (some 32) 1 (.twoLevel 6)) 6 0) (by simp) s hs)
      (fun s hs => aTZ.commute (gen (flipAllOf (some 32) (.twoLevel 6)) 2 0) (by simp) (gen (shiftOf (some 32) 1 (.twoLevel 6)) 6 0) (by simp) s hs)
  · simp only [e]
    exact opMat_commute cZ (fun s hs => aPZ.closed (gen (flipLROf (some 32) (.twoLevel 6)) 2 0) (by simp) s hs)
      (fun s hs => aPZ.commute (gen (flipAllOf (some 32) (.twoLevel 6)) 2 0) (by simp) (gen (flipLROf (some 32) (.twoLevel 6)) 2 0) (by simp) s hs)

end Props
