import Verif.Model.Matvec
import Mathlib.Analysis.SpecialFunctions.Exponential
import Mathlib.Analysis.SpecialFunctions.Pow.Real
/-!
Model of `expm_multiply_parallel`: `tools/expm_multiply_parallel_core/source/{expm_multiply_parallel,math_functions,csr_utils}.h`
and `expm_multiply_parallel_core.py`.

Simplifications: exact complex numbers (for real types the imaginary parts are zero); the threads' work on one element of the
vectors is one indivisible operation (no other thread touches this element between two barriers); the maxima, which the threads
compute on the way, are taken of the finished vectors.  `s` and `m_star`, which scipy chooses, are inputs.
-/
namespace Model.ExpmParallel
open Spec Model.Matvec

variable {M : ℕ}

/-- `compare_abs`, `math_functions.h:53-77`. -/
noncomputable def compareAbs (R : ℝ) (B : ℂ) : ℝ :=
  let x := |B.re|
  let y := |B.im|
  if x + y ≤ R then R
  else if x > R ∨ y > R then Real.sqrt (x ^ 2 + y ^ 2)
  else if Real.sqrt (x ^ 2 + y ^ 2) ≤ R then R else Real.sqrt (x ^ 2 + y ^ 2)

/-- The vectors `F`, `B1`, `B2`. -/
structure Vectors (M : ℕ) where
  F : Mem M ℂ
  B1 : Mem M ℂ
  B2 : Mem M ℂ

/-- The elements of thread `tid`, `expm_multiply_parallel.h:89-91`; `num_threads` is `omp_get_max_threads()`. -/
def share (n numThreads tid : ℕ) : List ℕ :=
  let items := (n + numThreads - 1) / numThreads
  let first := min (items * tid) n
  let last := min (first + items) n
  List.range' first (last - first)

/-- A loop over the elements of all threads between two barriers, by a team of `team` threads: `f k` is the body for element `k`. -/
def Phase (n numThreads team : ℕ) (f : ℕ → Vectors M → Vectors M) (v v' : Vectors M) : Prop :=
  ∃ l, Interleaving team (share n numThreads) l ∧ v' = l.foldl (fun v e => f e.2 v) v

/-- Body of the first loop, `expm_multiply_parallel.h:97-101`. -/
def copyBody (k : ℕ) (v : Vectors M) : Vectors M := { v with B1 := Function.update v.B1 (k : ZMod M) (v.F k) }

/-- Body of the loop over a term, `expm_multiply_parallel.h:127-134`. -/
noncomputable def termBody (b : ℂ) (k : ℕ) (v : Vectors M) : Vectors M :=
  let b2 := v.B2 k - b * v.B1 k
  { v with F := Function.update v.F (k : ZMod M) (v.F k + b2), B1 := Function.update v.B1 (k : ZMod M) b2 }

/-- Body of the last loop, `expm_multiply_parallel.h:151-156`. -/
noncomputable def endBody (eta : ℂ) (k : ℕ) (v : Vectors M) : Vectors M :=
  { v with F := Function.update v.F (k : ZMod M) (v.F k * eta), B1 := Function.update v.B1 (k : ZMod M) (v.F k * eta) }

/-- `c2_thread`, `c3_thread`, `c1_thread` of one thread, e.g. `expm_multiply_parallel.h:124,132`. -/
noncomputable def threadMax (n numThreads tid : ℕ) (x : Mem M ℂ) : ℝ :=
  (share n numThreads tid).foldl (fun c (k : ℕ) => compareAbs c (x (k : ZMod M))) 0

/-- `*std::max_element(c_threads, c_threads+num_threads)`, `expm_multiply_parallel.h:142`: the entries of threads that are not in the
team keep the value 0 they are created with (73-75). -/
noncomputable def maxElement (n numThreads team : ℕ) (x : Mem M ℂ) : ℝ :=
  ((List.range numThreads).map fun tid => if tid < team then threadMax n numThreads tid x else 0).foldl max 0

/-- What stays the same during a call. -/
structure Input where
  n : ℕ
  A : Compressed ℂ
  s : ℕ
  mStar : ℕ
  tol : ℝ
  mu : ℂ
  a : ℂ
  numThreads : ℕ
  team : ℕ

/-- `csrmv_merge(true,n,Ap,Aj,Ax,a/T2(j*s),B1,rco,vco,B2)`, `expm_multiply_parallel.h:119`: any execution of the parallel product. -/
def Product (p : Input) (j : ℕ) (v v' : Vectors M) : Prop :=
  ∃ st y', st.y = v.B2 ∧ CsrOmp true p.team p.n p.A (p.a / ((j * p.s : ℕ) : ℂ)) 1 v.B1 1 st y' ∧ v' = { v with B2 := y' }

/-- One pass of the loop over `j`: the vectors, and `c2`, `c3`; `expm_multiply_parallel.h:118-142`. -/
def Term (p : Input) (j : ℕ) (v v' : Vectors M) (c2 c3 : ℝ) : Prop :=
  ∃ u, Product p j v u ∧ Phase p.n p.numThreads p.team (termBody (p.a * p.mu / ((j * p.s : ℕ) : ℂ))) u v' ∧
    c2 = maxElement p.n p.numThreads p.team v'.B1 ∧ c3 = maxElement p.n p.numThreads p.team v'.F

/-- The loop over `j` from `j` on, `expm_multiply_parallel.h:116-148`; `c1` of thread 0 before. -/
inductive Terms (p : Input) : ℕ → ℝ → Vectors M → Vectors M → Prop
  | done {j c1 v} : p.mStar < j → Terms p j c1 v v
  | stop {j c1 v v' c2 c3} : j ≤ p.mStar → Term p j v v' c2 c3 → c1 + c2 ≤ p.tol * c3 → Terms p j c1 v v'
  | next {j c1 v v' c2 c3 w} : j ≤ p.mStar → Term p j v v' c2 c3 → ¬ c1 + c2 ≤ p.tol * c3 → Terms p (j + 1) c2 v' w → Terms p j c1 v w

/-- The loop over `i` from `i` on, `expm_multiply_parallel.h:109-164`. -/
inductive Steps (p : Input) : ℕ → ℝ → Vectors M → Vectors M → Prop
  | done {i c1 v} : p.s ≤ i → Steps p i c1 v v
  | next {i c1 v u u' w} : i < p.s → Terms p 1 c1 v u →
      Phase p.n p.numThreads p.team (endBody (Complex.exp (p.a * (p.mu / (p.s : ℂ))))) u u' →
      Steps p (i + 1) (maxElement p.n p.numThreads p.team u'.F) u' w → Steps p i c1 v w

/-- `expm_multiply`, `expm_multiply_parallel.h:55-166`.  `c1` starts from 0: what the threads find (96-101) is not stored in
`c1_threads`. -/
def ExpmMultiply (p : Input) (F F' : Mem M ℂ) : Prop :=
  ∃ work1 work2 v v', Phase p.n p.numThreads p.team copyBody ⟨F, work1, work2⟩ v ∧ Steps p 0 0 v v' ∧ v'.F = F'

/-- `csr_1_norm`, `csr_utils.h:139-163`: sums along the rows; the shift is added to the stored diagonal elements. -/
noncomputable def csrNorm (n : ℕ) (A : Compressed ℂ) (shift : ℂ) : ℝ :=
  ((List.range n).map fun (i : ℕ) => ((List.range' (A.Ap i) (A.Ap (i + 1) - A.Ap i)).map fun (jj : ℕ) =>
    if A.Aj jj = i then ‖shift + A.Ax jj‖ else ‖A.Ax jj‖).sum).foldl max 0

/-- `csr_trace`, `csr_utils.h:4-29`, divided by the number of rows (`expm_multiply_parallel_core.py:82`).  Simplification: for integer types
the trace is computed in that type. -/
noncomputable def meanDiagonal (n : ℕ) (A : Compressed ℂ) : ℂ :=
  ((List.range n).map fun (i : ℕ) => ((List.range' (A.Ap i) (A.Ap (i + 1) - A.Ap i)).map fun (jj : ℕ) =>
    if A.Aj jj = i then A.Ax jj else 0).sum).sum / n

/-- `self._A_1_norm`, `expm_multiply_parallel_core.py:82-84`. -/
noncomputable def oneNorm (n : ℕ) (A : Compressed ℂ) : ℝ := csrNorm n A (meanDiagonal n A)

end Model.ExpmParallel
