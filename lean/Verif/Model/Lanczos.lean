import Verif.Spec.Lanczos

/-!
Model of the Lanczos routines (quspin/tools/lanczos/_lanczos_utils.py).

Simplifications: exact complex arithmetic; the operator is a matrix; `eigh_tridiagonal(a, b)` is not modelled, the functions return
`(a, b)` in its place; a division by zero, which numpy answers with `nan`, is `none`; the argument `full_ortho` (a QR decomposition by
LAPACK) is left out; checks of shapes and dtypes other than the size of the basis are left out.
-/

namespace Model.Lanczos
open Matrix
open Spec.Lanczos (ip norm)

variable {n : Type} [Fintype n]

/-- Variables of the loops after iteration `i`: `q = Q[i]`, `r`, `a[i]`, `b[i]`. -/
structure State (n : Type) where
  q : n → ℂ
  r : n → ℂ
  a : ℝ
  b : ℝ

omit [Fintype n] in
/-- `_np.divide(x, c)`. -/
noncomputable def divide (x : n → ℂ) (c : ℝ) : n → ℂ := fun i => x i / (c : ℂ)

open Classical in
/-- `if |‖q‖ - 1| > eps: q /= ‖q‖` (_lanczos_utils.py:15-17, 155-158, 299-302). -/
noncomputable def normalize (eps : ℝ) (v : n → ℂ) : Option (n → ℂ) :=
  if |norm v - 1| > eps then (if norm v = 0 then none else some (divide v (norm v))) else some v

/-- Before the loop (_lanczos_utils.py:160-170, 304-313). -/
noncomputable def start (A : Matrix n n ℂ) (q : n → ℂ) : State n :=
  let r := A *ᵥ q
  let a := (ip q r).re
  let r := r - (a : ℂ) • q
  ⟨q, r, a, norm r⟩

/-- Loop body (_lanczos_utils.py:174-188, 317-330); `b[i-1]` is not zero. -/
noncomputable def next (A : Matrix n n ℂ) (s : State n) : State n :=
  let q := divide s.r s.b
  let r := A *ᵥ q - (s.b : ℂ) • s.q
  let a := (ip q r).re
  let r := r - (a : ℂ) • q
  ⟨q, r, a, norm r⟩

open Classical in
/-- The loop, `k` iterations at most (_lanczos_utils.py:173-191, 316-332): the states, and whether `break` was reached. -/
noncomputable def loop (A : Matrix n n ℂ) (eps : ℝ) : ℕ → State n → Option (List (State n) × Bool)
  | 0, _ => some ([], false)
  | k + 1, s =>
    if s.b = 0 then none
    else if (next A s).b < eps then some ([next A s], true)
    else (loop A eps k (next A s)).map fun p => (next A s :: p.1, p.2)

/-- What both functions have in common; `none` also for `ValueError` if `m >= n` and `IndexError` if `m = 0`
(_lanczos_utils.py:127-128, 142, 283-284, 311). -/
noncomputable def states (A : Matrix n n ℂ) (v0 : n → ℂ) (m : ℕ) (eps : ℝ) : Option (List (State n) × Bool) :=
  if m = 0 ∨ Fintype.card n ≤ m then none
  else (normalize eps v0).bind fun q => (loop A eps (m - 1) (start A q)).map fun p => (start A q :: p.1, p.2)

/-- The number `m` after the loop of `lanczos_full` (_lanczos_utils.py:190): the index of the iteration that was left with `break`. -/
def fullSize (m : ℕ) (p : List (State n) × Bool) : ℕ := if p.2 then p.1.length - 1 else m

/-- `lanczos_full(A, v0, m, eps=eps)` (_lanczos_utils.py:68-216): `a[:m]`, `b[:m-1]`, `Q[:m]`. -/
noncomputable def full (A : Matrix n n ℂ) (v0 : n → ℂ) (m : ℕ) (eps : ℝ) : Option (List ℝ × List ℝ × List (n → ℂ)) :=
  (states A v0 m eps).map fun p =>
    ((p.1.map State.a).take (fullSize m p), (p.1.map State.b).take (fullSize m p - 1), (p.1.map State.q).take (fullSize m p))

/-- `lanczos_iter(A, v0, m, eps=eps)` (_lanczos_utils.py:219-343): `a[:i+1]`, `b[:i]`. -/
noncomputable def iter (A : Matrix n n ℂ) (v0 : n → ℂ) (m : ℕ) (eps : ℝ) : Option (List ℝ × List ℝ) :=
  (states A v0 m eps).map fun p => (p.1.map State.a, (p.1.map State.b).dropLast)

/-- Loop of `_lanczos_vec_iter_core` (_lanczos_utils.py:40-53): the vectors it yields, from the vectors `q`, `r` before it. -/
noncomputable def vecLoop (A : Matrix n n ℂ) : (q r : n → ℂ) → List (ℝ × ℝ) → Option (List (n → ℂ))
  | _, _, [] => some []
  | q, r, (a, b) :: l =>
    if b = 0 then none
    else (vecLoop A (divide r b) (A *ᵥ divide r b - (b : ℂ) • q - (a : ℂ) • divide r b) l).map fun Q => divide r b :: Q

/-- `_lanczos_vec_iter_core(A, v0, a, b)` (_lanczos_utils.py:10-53); `feps` is the precision of the dtype. -/
noncomputable def vectors (feps : ℝ) (A : Matrix n n ℂ) (v0 : n → ℂ) (a b : List ℝ) : Option (List (n → ℂ)) :=
  match a with
  | [] => none
  | a0 :: as => (normalize feps v0).bind fun q => (vecLoop A q (A *ᵥ q - (a0 : ℂ) • q) (as.zip b)).map fun Q => q :: Q

/-! ### The generator object -/

/-- `_lanczos_vec_iter` (_lanczos_utils.py:56-64): own copies (`some`) or the objects of the caller (`none`) (274-278, 341). -/
structure VecIter (n : Type) where
  A : Option (Matrix n n ℂ)
  v0 : Option (n → ℂ)
  a : List ℝ
  b : List ℝ

/-- The object `lanczos_iter` returns (_lanczos_utils.py:274-278, 340-341). -/
noncomputable def vecIter (copyV0 copyA : Bool) (A : Matrix n n ℂ) (v0 : n → ℂ) (m : ℕ) (eps : ℝ) : Option (VecIter n) :=
  (iter A v0 m eps).map fun p => ⟨if copyA then some A else none, if copyV0 then some v0 else none, p.1, p.2⟩

/-- What a program does with the caller's operator and vector and the generator object. -/
inductive Event (n : Type) where
  | changeA (A : Matrix n n ℂ)
  | changeV (v : n → ℂ)
  | iterate

/-- The vectors of every loop over the generator in a program (_lanczos_utils.py:63-64). -/
noncomputable def history (feps : ℝ) (g : VecIter n) : Matrix n n ℂ → (n → ℂ) → List (Event n) → List (Option (List (n → ℂ)))
  | _, _, [] => []
  | _, v, .changeA A :: p => history feps g A v p
  | A, _, .changeV v :: p => history feps g A v p
  | A, v, .iterate :: p => vectors feps (g.A.getD A) (g.v0.getD v) g.a g.b :: history feps g A v p

omit [Fintype n] in
/-- `list(Q_T)` for the generator: every element is the array `q_view`, which holds the last vector in the end
(_lanczos_utils.py:19-22, 43-45). -/
def collected (Q : List (n → ℂ)) : List (n → ℂ) := List.replicate Q.length (Q.getLastD 0)

/-! ### Functions of the operator -/

omit [Fintype n] in
/-- Loop of `lin_comb_Q_T` (_lanczos_utils.py:414-415): stops with the shorter list. -/
def combLoop : (n → ℂ) → List (ℂ × (n → ℂ)) → n → ℂ
  | out, [] => out
  | out, (c, q) :: l => combLoop (out + c • q) l

omit [Fintype n] in
/-- `lin_comb_Q_T(coeff, Q_T)` (_lanczos_utils.py:358-417); `none`: `StopIteration` for no vectors, `IndexError` for no coefficients. -/
def linComb : List ℂ → List (n → ℂ) → Option (n → ℂ)
  | c :: cs, q :: qs => some (combLoop (c • q) (cs.zip qs))
  | _, _ => none

end Model.Lanczos
