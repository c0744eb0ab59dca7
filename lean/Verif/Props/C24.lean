import Verif.Proof.ExpOp
import Verif.Proof.LinearOp
import Mathlib.LinearAlgebra.Matrix.Notation
import Mathlib.Tactic.Ring

/-!
C24: reading `.T`, `.H` or `conj()` of an operator leaves the operator as it was.

The full statement is false for `exp_op` and `quantum_LinearOperator` (`C24_fails_*` below).  Proved: what is returned has the right value
at the moment of the read, exactly what a history of reads does to the object, which statements leave all objects unchanged, and for which
linear operators histories of reads and products are harmless.
-/

namespace Props
open Matrix Spec.Reads

section
open Model.ExpOp
variable {n : Type} [Fintype n] [DecidableEq n]

/-- Nothing has happened yet. -/
def noExp : World n := ⟨[], [], none⟩

/-- After any program, the object a read returns has the value of the read: the transpose, conjugate or adjoint of `exp(a O)`. -/
theorem C24_exp_returned (p : List (Stmt n)) (r : Read) (v : Nat) (E : Matrix n n ℂ) (hE : (run noExp p).value v = some E) :
    (run noExp (p ++ [.read r v])).value (run noExp p).vars.length = some (r.of E) := by
  rw [Proof.ExpOp.run_snoc]
  generalize run noExp p = w at *
  obtain ⟨x, hx, rfl⟩ := Option.map_eq_some_iff.mp hE
  have h1 : (w.change v (readSelf r x)).obj v = some (readSelf r x) := by rw [Proof.ExpOp.obj_change hx, if_pos rfl]
  have h2 := (Proof.ExpOp.obj_again h1).1
  have hs : step w (.read r v) = (w.change v (readSelf r x)).again v := by simp [step, hx]
  rw [hs]
  change Option.map _ (World.obj _ (w.change v (readSelf r x)).vars.length) = _
  rw [h2, Option.map_some, Proof.ExpOp.getMat_read]

/-- What a history of reads of one object does to this object: its value is the original one with all the reads applied.
Missing: the object itself is changed by reads (`C24_fails_exp_T`, `C24_fails_exp_H`, `C24_fails_linear_left`, `C24_fails_linear_T`). -/
theorem C24_exp_object_partial (p : List (Stmt n)) (v : Nat) (E : Matrix n n ℂ) (hE : (run noExp p).value v = some E) (l : List Read) :
    (run noExp (p ++ l.map fun r => .read r v)).value v = some (after l E) := by
  have hr : run noExp (p ++ l.map fun r => .read r v) = run (run noExp p) (l.map fun r => .read r v) := by rw [run, List.foldl_append]; rfl
  rw [hr]
  generalize run noExp p = w at *
  clear hr
  induction l generalizing w E with
  | nil => exact hE
  | cons r l ih =>
    obtain ⟨x, hx, rfl⟩ := Option.map_eq_some_iff.mp hE
    have h1 : (w.change v (readSelf r x)).obj v = some (readSelf r x) := by rw [Proof.ExpOp.obj_change hx, if_pos rfl]
    have hv : v < (w.change v (readSelf r x)).vars.length := by
      obtain ⟨i, hi, -⟩ := Proof.ExpOp.obj_idx h1
      exact (List.getElem?_eq_some_iff.mp hi).1
    have h2 := ((Proof.ExpOp.obj_again h1).2 v hv).trans h1
    have hs : step w (.read r v) = (w.change v (readSelf r x)).again v := by simp [step, hx]
    refine ih (r.of (Model.ExpOp.getMat x)) (step w (.read r v)) ?_
    rw [hs, World.value, h2, Option.map_some, Proof.ExpOp.getMat_read]

/-- So reading twice leaves the object as it was.
Missing: the object itself is changed by reads (`C24_fails_exp_T`, `C24_fails_exp_H`, `C24_fails_linear_left`, `C24_fails_linear_T`). -/
theorem C24_exp_twice_partial (p : List (Stmt n)) (v : Nat) (E : Matrix n n ℂ) (hE : (run noExp p).value v = some E) (r : Read) :
    (run noExp (p ++ [.read r v, .read r v])).value v = some E := by
  have h := C24_exp_object_partial p v E hE [r, r]
  rw [List.map_cons, List.map_cons, List.map_nil] at h
  rw [h]
  congr 1
  ext i j
  cases r <;> simp [after, Read.of]

/-- Statements that make a new object or only compute a result. -/
def Harmless : Stmt n → Prop
  | .read _ _ => False
  | .setA _ _ => False
  | .sandwich _ _ => False
  | _ => True

/-- Copies, `transpose(copy=True)`, `getH(copy=True)`, `get_mat`, `dot` and `rdot` leave all objects as they were, after any program and in
any number. -/
theorem C24_exp_copies (p q : List (Stmt n)) (hq : ∀ s ∈ q, Harmless s) :
    ∀ u < (run noExp p).vars.length, (run noExp (p ++ q)).value u = (run noExp p).value u := by
  have hr : run noExp (p ++ q) = run (run noExp p) q := by rw [run, List.foldl_append]; rfl
  have wf := Proof.ExpOp.run_wf p noExp (by intro i hi; simp [noExp] at hi)
  rw [hr]
  generalize run noExp p = w at *
  clear hr
  induction q generalizing w with
  | nil => intro u _; rfl
  | cons s q ih =>
    intro u hu
    have key : u < (step w s).vars.length ∧ (step w s).value u = w.value u := by
      have emit : ∀ x, u < (w.emit x).vars.length ∧ (w.emit x).value u = w.value u := fun x =>
        ⟨by simp [World.emit]; omega, by rw [World.value, Proof.ExpOp.obj_emit wf hu]; rfl⟩
      have stay : u < w.vars.length ∧ w.value u = w.value u := ⟨hu, rfl⟩
      have hs := hq s (by simp)
      cases s with
      | new O a => exact emit _
      | read r v => exact absurd hs (by simp [Harmless])
      | transposeCopy v => simp only [step]; rcases w.obj v with _ | x; exacts [stay, emit _]
      | getHCopy v => simp only [step]; rcases w.obj v with _ | x; exacts [stay, emit _]
      | copy v => simp only [step]; rcases w.obj v with _ | x; exacts [stay, emit _]
      | setA v a => exact absurd hs (by simp [Harmless])
      | getMat v => simp only [step]; rcases w.obj v with _ | x; exacts [stay, ⟨hu, rfl⟩]
      | dot v V => simp only [step]; rcases w.obj v with _ | x; exacts [stay, ⟨hu, rfl⟩]
      | rdot v V => simp only [step]; rcases w.obj v with _ | x; exacts [stay, ⟨hu, rfl⟩]
      | sandwich v C => exact absurd hs (by simp [Harmless])
    exact (ih (fun s hs => hq s (by simp [hs])) _ (Proof.ExpOp.step_wf wf s) u key.1).trans key.2

/-- With `copy=True` the returned object has the right value. -/
theorem C24_exp_copy_returned (p : List (Stmt n)) (v : Nat) (E : Matrix n n ℂ) (hE : (run noExp p).value v = some E) :
    (run noExp (p ++ [.transposeCopy v])).value (run noExp p).vars.length = some Eᵀ ∧
      (run noExp (p ++ [.getHCopy v])).value (run noExp p).vars.length = some Eᴴ ∧
      (run noExp (p ++ [.copy v])).value (run noExp p).vars.length = some E := by
  simp only [Proof.ExpOp.run_snoc]
  generalize run noExp p = w at *
  obtain ⟨x, hx, rfl⟩ := Option.map_eq_some_iff.mp hE
  have emit : ∀ y, (w.emit y).value w.vars.length = some (Model.ExpOp.getMat y) := fun y => by simp [World.value, World.obj, World.emit]
  refine ⟨?_, ?_, ?_⟩
  · have hs : step w (.transposeCopy v) = w.emit (transposeSelf x) := by simp [step, hx]
    rw [hs, emit]
    exact congrArg some (Proof.ExpOp.getMat_read .T x)
  · have hs : step w (.getHCopy v) = w.emit (getHSelf x) := by simp [step, hx]
    rw [hs, emit]
    exact congrArg some (Proof.ExpOp.getMat_read .H x)
  · have hs : step w (.copy v) = w.emit x := by simp [step, hx]
    rw [hs, emit]

end

/-! ### Examples and defects of `exp_op` -/

/-- A matrix that is not symmetric. -/
def raise2 : Matrix (Fin 2) (Fin 2) ℂ := !![0, 1; 0, 0]

theorem exp_raise2 : NormedSpace.exp raise2 = !![1, 1; 0, 1] := by
  have h2 : ∀ k, raise2 ^ (k + 2) = 0 := by
    intro k
    rw [pow_add, pow_two]
    have : raise2 * raise2 = 0 := by
      ext i j
      fin_cases i <;> fin_cases j <;> simp [raise2, Matrix.mul_apply]
    rw [this, mul_zero]
  rw [NormedSpace.exp_eq_tsum_rat]
  simp only
  rw [tsum_eq_sum (s := Finset.range 2)]
  · rw [Finset.sum_range_succ, Finset.sum_range_succ, Finset.sum_range_zero]
    ext i j
    fin_cases i <;> fin_cases j <;> simp [raise2]
  · intro k hk
    obtain ⟨j, rfl⟩ : ∃ j, k = j + 2 := ⟨k - 2, by simp at hk; omega⟩
    rw [h2, smul_zero]

theorem transpose_ones : (!![1, 1; 0, 1] : Matrix (Fin 2) (Fin 2) ℂ)ᵀ = !![1, 0; 1, 1] := by
  ext i j
  fin_cases i <;> fin_cases j <;> rfl

/-- One object. -/
def oneExp : List (Model.ExpOp.Stmt (Fin 2)) := [.new raise2 1]

theorem oneExp_value : (Model.ExpOp.run noExp oneExp).value 0 = some !![1, 1; 0, 1] := by
  simp [Model.ExpOp.run, oneExp, Model.ExpOp.step, Model.ExpOp.World.value, Model.ExpOp.World.obj, Model.ExpOp.World.emit, noExp,
    Model.ExpOp.getMat, exp_raise2]

example : (Model.ExpOp.run noExp (oneExp ++ [.read .T 0])).value 1 = some !![1, 0; 1, 1] := by
  have h := C24_exp_returned oneExp .T 0 _ oneExp_value
  simpa [Model.ExpOp.run, oneExp, Model.ExpOp.step, Model.ExpOp.World.emit, noExp, Read.of, transpose_ones] using h

example : ∀ s ∈ ([.copy 0, .transposeCopy 0, .getMat 0] : List (Model.ExpOp.Stmt (Fin 2))), Harmless s := by simp [Harmless]

/-- Defect: reading `.T` transposes the object itself. -/
theorem C24_fails_exp_T : (Model.ExpOp.run noExp (oneExp ++ [.read .T 0])).value 0 = some !![1, 0; 1, 1] ∧
    (Model.ExpOp.run noExp oneExp).value 0 = some !![1, 1; 0, 1] := by
  refine ⟨?_, oneExp_value⟩
  have h := C24_exp_object_partial oneExp 0 _ oneExp_value [.T]
  simpa [after, Read.of, transpose_ones] using h

/-- Defect: so does reading `.H`. -/
theorem C24_fails_exp_H : (Model.ExpOp.run noExp (oneExp ++ [.read .H 0])).value 0 = some !![1, 0; 1, 1] := by
  have h := C24_exp_object_partial oneExp 0 _ oneExp_value [.H]
  have e : after [.H] (!![1, 1; 0, 1] : Matrix (Fin 2) (Fin 2) ℂ) = !![1, 0; 1, 1] := by
    ext i j
    fin_cases i <;> fin_cases j <;> simp [after, Read.of]
  rw [e] at h
  exact h

/-- Defect: the same call `sandwich(C)` twice gives two different results, because the first call takes the adjoint of the object. -/
theorem C24_fails_exp_sandwich :
    (Model.ExpOp.run noExp (oneExp ++ [.sandwich 0 !![0, 0; 0, 1]])).out = some !![1, 1; 1, 1] ∧
      (Model.ExpOp.run noExp (oneExp ++ [.sandwich 0 !![0, 0; 0, 1], .sandwich 0 !![0, 0; 0, 1]])).out = some !![0, 0; 0, 1] := by
  have e1 : NormedSpace.exp raise2ᵀ = !![1, 0; 1, 1] := by
    rw [Matrix.exp_transpose, exp_raise2]
    ext i j
    fin_cases i <;> fin_cases j <;> simp
  have hs : raise2.map (star : ℂ → ℂ) = raise2 := by
    ext i j
    fin_cases i <;> fin_cases j <;> simp [raise2]
  have hH : raise2ᴴ = raise2ᵀ := by
    ext i j
    fin_cases i <;> fin_cases j <;> simp [raise2]
  constructor
  · simp only [Model.ExpOp.run, oneExp, List.cons_append, List.nil_append, List.foldl_cons, List.foldl_nil, Model.ExpOp.step,
      Model.ExpOp.World.obj, Model.ExpOp.World.emit, noExp, List.length_nil, List.getElem?_cons_zero, Option.bind_some, Option.elim_some,
      Model.ExpOp.World.print, Model.ExpOp.sandwich, Model.ExpOp.rdot, Model.ExpOp.dot, Model.ExpOp.expmMultiply, Model.ExpOp.exponent,
      Model.ExpOp.getHSelf, star_one, one_smul, exp_raise2, hH, transpose_transpose]
    congr 1
    ext i j
    fin_cases i <;> fin_cases j <;> simp [Matrix.vecMul, dotProduct, Fin.sum_univ_two]
  · simp only [Model.ExpOp.run, oneExp, List.cons_append, List.nil_append, List.foldl_cons, List.foldl_nil, Model.ExpOp.step,
      Model.ExpOp.World.obj, Model.ExpOp.World.emit, noExp, List.length_nil, List.getElem?_cons_zero, Option.bind_some, Option.elim_some,
      Model.ExpOp.World.print, Model.ExpOp.sandwich, Model.ExpOp.rdot, Model.ExpOp.dot, Model.ExpOp.expmMultiply, Model.ExpOp.exponent,
      Model.ExpOp.getHSelf, Model.ExpOp.World.change, List.getD_cons_zero, List.set_cons_zero, star_one, one_smul, exp_raise2, hH,
      transpose_transpose, e1]
    have hHH : raise2ᵀᴴ = raise2 := by
      rw [← hH, conjTranspose_conjTranspose]
    rw [hHH, e1]
    congr 1
    ext i j
    fin_cases i <;> fin_cases j <;> simp [Matrix.vecMul, dotProduct, Fin.sum_univ_two]

/-! ### `quantum_LinearOperator` -/

section
open Model.LinearOp
variable {n : Type} [Fintype n] [DecidableEq n]

/-- A Hermitian operator, after any history of reads, acts as the matrix with all these reads applied.
Missing: the object itself is changed by reads (`C24_fails_exp_T`, `C24_fails_exp_H`, `C24_fails_linear_left`, `C24_fails_linear_T`). -/
theorem C24_linear_reads_partial (S : Matrix n n ℂ) (D : n → ℂ) (hS : Sᴴ = S) (hD : ∀ i, star (D i) = D i) (l : List Read) (V : n → ℂ) :
    matvec (run (new S D) (l.map .read)).1 V = after l (S + diagonal D) *ᵥ V := by
  have hF : (S + diagonal D)ᴴ = S + diagonal D := by
    rw [conjTranspose_add, hS, diagonal_conjTranspose]
    congr 2
    ext i
    exact hD i
  obtain ⟨h1, h2, h3⟩ := Proof.LinearOp.reads_hermitian (S + diagonal D) hF l (new S D)
  generalize run (new S D) (l.map .read) = y at *
  obtain ⟨⟨S', D', t, c⟩, o⟩ := y
  obtain rfl : S' = S := h1
  obtain rfl : D' = D := h2
  rw [Proof.LinearOp.matvec_hermitian _ _ hS]
  exact congrArg (· *ᵥ V) h3.symm

/-- What a statement asks for. -/
def vector : Stmt n → Option (n → ℂ)
  | .read _ => none
  | .matvec V => some V
  | .rmatvec V => some V
  | .rmul V => some V

/-- A real symmetric operator gives the right products in every history of reads and products.
Missing: the object itself is changed by reads (`C24_fails_exp_T`, `C24_fails_exp_H`, `C24_fails_linear_left`, `C24_fails_linear_T`). -/
theorem C24_linear_symmetric_partial (S : Matrix n n ℂ) (D : n → ℂ) (hS : Sᴴ = S) (hT : Sᵀ = S) (p : List (Stmt n)) :
    (run (new S D) p).2 = p.filterMap fun s => (vector s).map fun V => (S + diagonal D) *ᵥ V := by
  have key : ∀ t c V, matvec ⟨S, D, t, c⟩ V = (S + diagonal D) *ᵥ V := by
    intro t c V
    rw [Proof.LinearOp.matvec_hermitian _ _ hS, Proof.LinearOp.side]
    split
    · rfl
    · rw [transpose_add, hT, diagonal_transpose]
  have : ∀ (p : List (Stmt n)) (t c : Bool),
      (run ⟨S, D, t, c⟩ p).2 = p.filterMap fun s => (vector s).map fun V => (S + diagonal D) *ᵥ V := by
    intro p
    induction p with
    | nil => intro t c; rfl
    | cons s p ih =>
      intro t c
      have hst : ∃ t' c', (step ⟨S, D, t, c⟩ s).1 = ⟨S, D, t', c'⟩ ∧ (step ⟨S, D, t, c⟩ s).2 = (vector s).map fun V => (S + diagonal D) *ᵥ V := by
        cases s with
        | read r => cases r <;> exact ⟨_, _, rfl, rfl⟩
        | matvec V => exact ⟨_, _, rfl, congrArg some (key _ _ V)⟩
        | rmatvec V => exact ⟨_, _, rfl, congrArg some (key _ _ V)⟩
        | rmul V => exact ⟨_, _, rfl, congrArg some (key _ _ V)⟩
      obtain ⟨t', c', e1, e2⟩ := hst
      rw [run, e1, e2, ih t' c', List.filterMap_cons]
      rcases vector s with _ | V <;> rfl
  exact this p false false

/-- Products from the left with the adjoint are harmless for every Hermitian operator.
Missing: the object itself is changed by reads (`C24_fails_exp_T`, `C24_fails_exp_H`, `C24_fails_linear_left`, `C24_fails_linear_T`). -/
theorem C24_linear_adjoint_partial (S : Matrix n n ℂ) (D : n → ℂ) (hS : Sᴴ = S) (p : List (Stmt n))
    (hp : ∀ s ∈ p, s = .read .H ∨ (∃ V, s = .matvec V) ∨ ∃ V, s = .rmatvec V) :
    (run (new S D) p).2 = p.filterMap fun s => (vector s).map fun V => (S + diagonal D) *ᵥ V := by
  have key : ∀ b V, matvec ⟨S, D, b, b⟩ V = (S + diagonal D) *ᵥ V := by
    intro b V
    rw [Proof.LinearOp.matvec_hermitian _ _ hS, Proof.LinearOp.side, beq_self_eq_true, if_pos rfl]
  have : ∀ (p : List (Stmt n)) (b : Bool), (∀ s ∈ p, s = .read .H ∨ (∃ V, s = .matvec V) ∨ ∃ V, s = .rmatvec V) →
      (run ⟨S, D, b, b⟩ p).2 = p.filterMap fun s => (vector s).map fun V => (S + diagonal D) *ᵥ V := by
    intro p
    induction p with
    | nil => intro b _; rfl
    | cons s p ih =>
      intro b hp
      have hst : ∃ b', (step ⟨S, D, b, b⟩ s).1 = ⟨S, D, b', b'⟩ ∧ (step ⟨S, D, b, b⟩ s).2 = (vector s).map fun V => (S + diagonal D) *ᵥ V := by
        rcases hp s (by simp) with rfl | ⟨V, rfl⟩ | ⟨V, rfl⟩
        · exact ⟨_, rfl, rfl⟩
        · exact ⟨_, rfl, congrArg some (key _ V)⟩
        · exact ⟨_, rfl, congrArg some (key _ V)⟩
      obtain ⟨b', e1, e2⟩ := hst
      rw [run, e1, e2, ih b' fun s hs => hp s (by simp [hs]), List.filterMap_cons]
      rcases vector s with _ | V <;> rfl
  exact this p false hp

/-- Without reads and products from the left every operator keeps giving the right products. -/
theorem C24_linear_products (S : Matrix n n ℂ) (D : n → ℂ) (l : List (n → ℂ)) :
    run (new S D) (l.map .matvec) = (new S D, l.map fun V => (S + diagonal D) *ᵥ V) := by
  induction l with
  | nil => rfl
  | cons V l ih =>
    have h : matvec (new S D) V = (S + diagonal D) *ᵥ V := by
      have hd : (fun i => D i * V i) = diagonal D *ᵥ V := by
        ext i
        rw [mulVec_diagonal]
      change (fun i => D i * V i) + S *ᵥ V = _
      rw [hd, add_mulVec, add_comm]
    simp only [List.map_cons, run, step, ih, h, Option.toList_some, List.singleton_append]

end

/-- The Pauli matrix `σ^y`. -/
def pauliY : Matrix (Fin 2) (Fin 2) ℂ := !![0, -Complex.I; Complex.I, 0]

example : pauliYᴴ = pauliY := by
  ext i j
  fin_cases i <;> fin_cases j <;> simp [pauliY]

/-- Defect: for a Hermitian operator, `V * A` changes the results of later `A * V`. -/
theorem C24_fails_linear_left : (Model.LinearOp.run (Model.LinearOp.new pauliY 0) [.matvec ![1, 0], .rmul ![1, 0], .matvec ![1, 0]]).2 =
    [![0, Complex.I], ![0, -Complex.I], ![0, -Complex.I]] := by
  simp only [Model.LinearOp.run, Model.LinearOp.step, Model.LinearOp.new, Model.LinearOp.matvec, Model.LinearOp.inplaceOp,
    Model.LinearOp.transposeSelf, Option.toList_some, List.singleton_append, List.cons.injEq, and_true]
  refine ⟨?_, ?_, ?_⟩ <;> ext i <;> fin_cases i <;> simp [pauliY, Matrix.mulVec, dotProduct, Fin.sum_univ_two]

/-- Defect: for other operators `.T` is the complex conjugate instead of the transpose. -/
theorem C24_fails_linear_T : Model.LinearOp.matvec (Model.LinearOp.run (Model.LinearOp.new raise2 0) [.read .T]).1 ![0, 1] = ![1, 0] ∧
    (raise2 + diagonal 0)ᵀ *ᵥ ![0, 1] = ![0, 0] := by
  simp only [Model.LinearOp.run, Model.LinearOp.step, Model.LinearOp.new, Model.LinearOp.matvec, Model.LinearOp.inplaceOp,
    Model.LinearOp.readSelf, Model.LinearOp.transposeSelf]
  constructor <;> ext i <;> fin_cases i <;> simp [raise2, Matrix.mulVec, dotProduct, Fin.sum_univ_two]

/-- Defect: the diagonal is never conjugated. -/
theorem C24_fails_linear_diagonal (r : Read) :
    Model.LinearOp.matvec (Model.LinearOp.run (Model.LinearOp.new (0 : Matrix (Fin 1) (Fin 1) ℂ) fun _ => Complex.I) [.read r]).1 ![1] = ![Complex.I] := by
  cases r <;> ext i <;> fin_cases i <;>
    simp [Model.LinearOp.run, Model.LinearOp.step, Model.LinearOp.new, Model.LinearOp.matvec, Model.LinearOp.inplaceOp,
      Model.LinearOp.readSelf, Model.LinearOp.transposeSelf, Model.LinearOp.conjSelf, Model.LinearOp.getHSelf, Matrix.mulVec, dotProduct]

/-- Defect: an operator with an off-diagonal string cannot be copied, so neither `copy()` nor `transpose(copy=True)` works. -/
theorem C24_fails_linear_copy {n : Type} (k : ℕ) (x : Model.LinearOp.Obj n) : Model.LinearOp.copy (k + 1) x = none := rfl

end Props
