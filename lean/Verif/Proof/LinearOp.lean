import Verif.Model.LinearOp

/-!
Proofs about `quantum_LinearOperator` (C24).
-/

namespace Proof.LinearOp
open Matrix Model.LinearOp Spec.Reads

variable {n : Type} [Fintype n] [DecidableEq n]

omit [Fintype n] in
theorem after_append (l l' : List Read) (M : Matrix n n ℂ) : after (l ++ l') M = after l' (after l M) := by
  rw [after, List.foldl_append]
  rfl

/-- The operator or its transpose. -/
def side (F : Matrix n n ℂ) (b : Bool) : Matrix n n ℂ := if b then F else Fᵀ

/-- Hermitian operators: the flags select the operator or its transpose. -/
theorem matvec_hermitian (S : Matrix n n ℂ) (D : n → ℂ) (hS : Sᴴ = S) (t c : Bool) (V : n → ℂ) :
    matvec ⟨S, D, t, c⟩ V = side (S + diagonal D) (t == c) *ᵥ V := by
  have hT : S.map star = Sᵀ := by
    conv_rhs => rw [← hS]
    rfl
  have hTT : Sᵀ.map star = S := by
    conv_rhs => rw [← hS]
    rfl
  have hd : (fun i => D i * V i) = diagonal D *ᵥ V := by
    ext i
    rw [mulVec_diagonal]
  unfold matvec inplaceOp side
  simp only
  rw [hd]
  cases t <;> cases c <;> simp only [if_true, if_false, Bool.false_eq_true, hT, hTT, ← Matrix.add_mulVec, transpose_add, diagonal_transpose,
    add_comm, beq_self_eq_true, show (true == false) = false from rfl, show (false == true) = false from rfl, Bool.not_true]

omit [Fintype n] [DecidableEq n] in
theorem read_side (F : Matrix n n ℂ) (hF : Fᴴ = F) (x : Obj n) (r : Read) :
    r.of (side F (x.transposed == x.conjugated)) = side F ((readSelf r x).transposed == (readSelf r x).conjugated) := by
  have h1 : F.map star = Fᵀ := by
    conv_rhs => rw [← hF]
    rfl
  have h2 : Fᵀ.map star = F := by
    conv_rhs => rw [← hF]
    rfl
  have h3 : Fᵀᴴ = Fᵀ := by
    conv_rhs => rw [← h1]
    rfl
  obtain ⟨S, D, t, c⟩ := x
  cases r <;> cases t <;> cases c <;>
    simp only [Read.of, side, readSelf, transposeSelf, conjSelf, getHSelf, Bool.not_true, Bool.not_false, beq_self_eq_true, if_true,
      show (true == false) = false from rfl, show (false == true) = false from rfl, Bool.false_eq_true, if_false, transpose_transpose, hF, h1, h2, h3]

/-- A history of reads of a Hermitian operator. -/
theorem reads_hermitian (F : Matrix n n ℂ) (hF : Fᴴ = F) (l : List Read) : ∀ x : Obj n,
    (run x (l.map Stmt.read)).1.S = x.S ∧ (run x (l.map Stmt.read)).1.D = x.D ∧
      after l (side F (x.transposed == x.conjugated)) =
        side F ((run x (l.map Stmt.read)).1.transposed == (run x (l.map Stmt.read)).1.conjugated) := by
  induction l with
  | nil => intro x; exact ⟨rfl, rfl, rfl⟩
  | cons r l ih =>
    intro x
    obtain ⟨h1, h2, h3⟩ := ih (readSelf r x)
    refine ⟨h1.trans (by cases r <;> rfl), h2.trans (by cases r <;> rfl), ?_⟩
    rw [← read_side F hF] at h3
    exact h3

end Proof.LinearOp
