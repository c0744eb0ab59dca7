import Verif.Spec.BlockOps
import Verif.Model.BlockDiag
import Verif.Model.Blocks
import Mathlib.Data.Int.Notation

/-!
Model of the class `block_ops` (`/repo/quspin/tools/block_tools.py:227-791`): the motion of a state is computed in symmetry
blocks, the hamiltonians and projectors of which are kept for later calls.

* A block is a dictionary of keywords in the order of their insertion; `str(block)` tells two such lists apart.
* A basis is the matrix of its projector (`get_proj`) and the matrix of the hamiltonian in it at every time;
  `valid` says whether the constructor of `hamiltonian` accepts the operator lists when its checks are switched on.
* Arithmetic is exact.  `tol` is `1000*numpy.finfo(dtype).eps`.
* `hamiltonian.evolve` and `scipy`'s `expm_multiply` are parameters or exact.  The workers of `joblib` and of
  `_generate_parallel` give the results of all blocks in their order (the latter is the subject of C33).
* `times` of `evolve` is a list, as documented.  `num` and `endpoint` are of the types the code asks for.
-/

namespace Model.BlockOps
open Model.BlockDiag

/-- A dictionary of keywords, in the order of insertion. -/
abbrev Block := List (String × ℤ)

/-- `block[k] = v` for a python dictionary (not code of the repository). -/
def put (k : String) (v : ℤ) : Block → Block
  | [] => [(k, v)]
  | e :: l => if e.1 = k then (k, v) :: l else e :: put k v l

/-- `block.update(basis_kwargs)` (block_tools.py:361). -/
def update (b kwargs : Block) : Block := kwargs.foldl (fun r e => put e.1 e.2 r) b

/-- A basis object: `b.Ns`, `b.get_proj(dtype)` and the hamiltonian made from the operator lists in it
(block_tools.py:362-364, 467, 472-474). -/
structure Basis (N : ℕ) where
  dim : ℕ
  proj : Matrix (Fin N) (Fin dim) ℂ
  ham : ℝ → Matrix (Fin dim) (Fin dim) ℂ
  valid : Bool

/-- A matrix given by its columns. -/
structure Cols (N : ℕ) where
  dim : ℕ
  val : Fin N → ℕ → ℂ

/-- A vector. -/
structure Vec where
  dim : ℕ
  val : ℕ → ℂ

/-- A matrix as `Cols`. -/
def colsOf {N d : ℕ} (M : Matrix (Fin N) (Fin d) ℂ) : Cols N := ⟨d, fun x i => if h : i < d then M x ⟨i, h⟩ else 0⟩

/-- A vector as `Vec`. -/
def vecOf {d : ℕ} (v : Fin d → ℂ) : Vec := ⟨d, fun i => if h : i < d then v ⟨i, h⟩ else 0⟩

/-- The vector with as many components as it has. -/
def Vec.fn (v : Vec) : Fin v.dim → ℂ := fun i => v.val i

/-- The matrix of a `SqMat`. -/
def mat (h : SqMat ℂ) : Matrix (Fin h.dim) (Fin h.dim) ℂ := fun i j => h.val i j

/-- Two matrices side by side. -/
def Cols.app {N : ℕ} (a b : Cols N) : Cols N := ⟨a.dim + b.dim, fun x i => if i < a.dim then a.val x i else b.val x (i - a.dim)⟩

/-- Two vectors one after the other. -/
def Vec.app (a b : Vec) : Vec := ⟨a.dim + b.dim, fun i => if i < a.dim then a.val i else b.val (i - a.dim)⟩

/-- `_sp.hstack(P,format="csr")` (block_tools.py:608, 774). -/
def hstackC {N : ℕ} : List (Cols N) → Cols N
  | [] => ⟨0, fun _ _ => 0⟩
  | a :: l => a.app (hstackC l)

/-- `_np.hstack(psi_blocks)` for one time (block_tools.py:252, 261, 743, 756, 786); one column of `_np.vstack(psi_t)` (616).
The code raises an exception for an empty list; callers test for it. -/
def hstackV : List Vec → Vec
  | [] => ⟨0, fun _ => 0⟩
  | a :: l => a.app (hstackV l)

/-- `P.dot(psi_t)`; `none`: the sizes do not fit. -/
noncomputable def dot {N : ℕ} (P : Cols N) (v : Vec) : Option (Fin N → ℂ) :=
  if P.dim = v.dim then some fun x => ∑ i ∈ Finset.range P.dim, P.val x i * v.val i else none

/-- The object (block_tools.py:346-357): `_basis_dict`, `_P_dict`, `_H_dict`, `_save`, `_checked`, and whether any check is
asked for. -/
structure Obj (N : ℕ) where
  dict : List (Block × Basis N)
  P : Block → Option (Cols N)
  H : Block → Option (ℝ → SqMat ℂ)
  save : Bool
  check : Bool
  checked : Bool

/-- `self._basis_dict[str(block)]=b` (block_tools.py:364, 440). -/
def store {N : ℕ} (k : Block) (b : Basis N) : List (Block × Basis N) → List (Block × Basis N)
  | [] => [(k, b)]
  | e :: l => if e.1 = k then (k, b) :: l else e :: store k b l

/-- `_get_P` (block_tools.py:476-484). -/
def getP {N : ℕ} (x : Obj N) (k : Block) (b : Basis N) : Obj N × Cols N :=
  match x.P k with
  | some p => (x, p)
  | none => (if x.save then { x with P := fun j => if j = k then some (colsOf b.proj) else x.P j } else x, colsOf b.proj)

/-- `_get_H` (block_tools.py:486-501); `none`: the checks of the constructor of `hamiltonian` raise an exception. -/
def getH {N : ℕ} (x : Obj N) (k : Block) (b : Basis N) : Obj N × Option (ℝ → SqMat ℂ) :=
  match x.H k with
  | some h => (x, some h)
  | none =>
    if x.checked = false ∧ x.check = true ∧ b.valid = false then (x, none)
    else
      let h := fun t => ofMat (b.ham t)
      ({ x with checked := true, H := if x.save then fun j => if j = k then some h else x.H j else x.H }, some h)

/-- The loop of `compute_all_blocks` (block_tools.py:462-474): as `_get_P` and `_get_H` with `_save` switched on for the
time of the loop; `false`: an exception is raised. -/
def computeLoop {N : ℕ} : List (Block × Basis N) → Obj N → Obj N × Bool
  | [], x => (x, true)
  | (k, b) :: l, x =>
    let y := (getP { x with save := true } k b).1
    match getH y k b with
    | (z, none) => ({ z with save := x.save }, false)
    | (z, some _) => computeLoop l { z with save := x.save }

/-- `compute_all_blocks()` (block_tools.py:447-474). -/
def computeAll {N : ℕ} (x : Obj N) : Obj N × Bool := computeLoop x.dict x

/-- The loop over the blocks of the constructor (block_tools.py:360-364): the new dictionary of bases and the dictionaries of
the caller after the call; `none`: the constructor of the basis raises an exception. -/
def initLoop {N : ℕ} (con : Block → Option (Basis N)) (kwargs : Block) :
    List Block → List (Block × Basis N) → Option (List (Block × Basis N) × List Block)
  | [], d => some (d, [])
  | block :: l, d =>
    (con (update block kwargs)).bind fun b =>
      (initLoop con kwargs l (if 0 < b.dim then store (update block kwargs) b d else d)).map fun r =>
        (r.1, update block kwargs :: r.2)

/-- `block_ops(blocks, ..., basis_kwargs, save_previous_data, compute_all_blocks, check_symm, ...)` (block_tools.py:306-368):
the object and the dictionaries of the caller after the call. -/
def init {N : ℕ} (con : Block → Option (Basis N)) (blocks : List Block) (kwargs : Block) (save compute check : Bool) :
    Option (Obj N × List Block) :=
  (initLoop con kwargs blocks []).bind fun r =>
    let x : Obj N := ⟨r.1, fun _ => none, fun _ => none, save || compute, check, false⟩
    if compute then (if (computeAll x).2 then some ((computeAll x).1, r.2) else none) else some (x, r.2)

/-- The loop of `update_blocks` (block_tools.py:434-440): `false`: an exception of the constructor of the basis. -/
def updateLoop {N : ℕ} (con : Block → Option (Basis N)) : List Block → List (Block × Basis N) → List (Block × Basis N) × Bool
  | [], d => (d, true)
  | block :: l, d =>
    if block ∈ d.map Prod.fst then updateLoop con l d
    else
      match con block with
      | none => (d, false)
      | some b => updateLoop con l (if 0 < b.dim then store block b d else d)

/-- `update_blocks(blocks, basis_con, basis_args, compute_all_blocks)` (block_tools.py:416-443). -/
def updateBlocks {N : ℕ} (con : Block → Option (Basis N)) (blocks : List Block) (compute : Bool) (x : Obj N) : Obj N × Bool :=
  let r := updateLoop con blocks x.dict
  if r.2 = false then ({ x with dict := r.1 }, false)
  else if compute then computeAll { x with dict := r.1 } else ({ x with dict := r.1 }, true)

/-- `p.H.dot(psi_0)` (block_tools.py:575-580, 721-726). -/
noncomputable def project {N : ℕ} (p : Cols N) (ψ : Fin N → ℂ) : Vec := ⟨p.dim, fun i => ∑ x, star (p.val x i) * ψ x⟩

/-- `_np.linalg.norm(psi)` (block_tools.py:582, 727). -/
noncomputable def norm (v : Vec) : ℝ := Real.sqrt (∑ i ∈ Finset.range v.dim, ‖v.val i‖ ^ 2)

open Classical in
/-- The loop over the blocks of `evolve` and `expm` (block_tools.py:572-585, 718-735): projectors, hamiltonians and
projected states of the blocks the state has a part in. -/
noncomputable def gather {N : ℕ} (tol : ℝ) (ψ : Fin N → ℂ) :
    List (Block × Basis N) → Obj N → Obj N × Option (List (Cols N × (ℝ → SqMat ℂ) × Vec))
  | [], x => (x, some [])
  | (k, b) :: l, x =>
    let y := getP x k b
    if tol < norm (project y.2 ψ) then
      match getH y.1 k b with
      | (z, none) => (z, none)
      | (z, some h) => ((gather tol ψ l z).1, (gather tol ψ l z).2.map fun r => (y.2, h, project y.2 ψ) :: r)
    else gather tol ψ l y.1

/-- The results of all blocks at all times, put together (block_tools.py:252, 261, 616; for the generators the values come
from `_generate_parallel`). -/
def columns (l : List (List Vec)) : List Vec := (Model.Blocks.zipAll l).map hstackV

/-- The outcome of `evolve` once the blocks are known (block_tools.py:587-620).  `block_diag=True` uses the undefined name
`psi_list_prime` (599, 605).  `iterate` only decides whether the states are given one by one.  `solve` is
`hamiltonian.evolve` (264-266, 227-230). -/
noncomputable def evolveBlocks {N : ℕ} (solve : (ℝ → SqMat ℂ) → Vec → ℝ → List ℝ → List Vec) (t0 : ℝ) (times : List ℝ) (blockDiag : Bool)
    (l : List (Cols N × (ℝ → SqMat ℂ) × Vec)) : Option (List (Fin N → ℂ)) :=
  if l = [] then none
  else if blockDiag then none
  else (columns (l.map fun e => solve e.2.1 e.2.2 t0 times)).mapM (dot (hstackC (l.map fun e => e.1)))

/-- `evolve(psi_0, t0, times, iterate, n_jobs, block_diag, ...)` (block_tools.py:504-620) with `imag_time=False`. -/
noncomputable def evolve {N : ℕ} (tol : ℝ) (solve : (ℝ → SqMat ℂ) → Vec → ℝ → List ℝ → List Vec) (ψ : Fin N → ℂ) (t0 : ℝ)
    (times : List ℝ) (blockDiag : Bool) (x : Obj N) : Obj N × Option (List (Fin N → ℂ)) :=
  ((gather tol ψ x.dict x).1, (gather tol ψ x.dict x).2.bind (evolveBlocks solve t0 times blockDiag))

/-! ### expm -/

/-- `_expm_multiply(H,psi)` of scipy (not code of the repository), exact; the length of the vector is that of the matrix. -/
noncomputable def expmMultiply (h : SqMat ℂ) (v : Vec) : Vec :=
  vecOf ((NormedSpace.exp (mat h)).mulVec fun i => v.val i)

/-- `H *= t` for a matrix. -/
def SqMat.scale (h : SqMat ℂ) (t : ℂ) : SqMat ℂ := ⟨h.dim, fun i j => h.val i j * t⟩

/-- The loop of `_expm_gen` (block_tools.py:242-244). -/
noncomputable def expmLoop (h : SqMat ℂ) : ℕ → Vec → List Vec
  | 0, _ => []
  | n + 1, v => expmMultiply h v :: expmLoop h n (expmMultiply h v)

/-- `_expm_gen(psi,H,times,dt)` (block_tools.py:232-245). -/
noncomputable def expmGen (v : Vec) (h : SqMat ℂ) (times : List ℝ) (dt : ℝ) : List Vec :=
  match times with
  | [] => []
  | t :: rest =>
    let v' := if t ≠ 0 then expmMultiply (SqMat.scale h t) v else v
    v' :: expmLoop (SqMat.scale h dt) rest.length v'

/-- The points and the step of `_np.linspace(start,stop,num=num,endpoint=endpoint,retstep=True)` (block_tools.py:258); the
step of a single point, which is not a number, is not used. -/
noncomputable def linspace (start stop : ℝ) (num : ℕ) (endpoint : Bool) : List ℝ × ℝ :=
  let dt := (stop - start) / (if endpoint then (num : ℝ) - 1 else num)
  ((List.range num).map fun (i : ℕ) => start + i * dt, dt)

/-- `H(H_time_eval)*a`, `H += a*shift*identity` (block_tools.py:731-733). -/
noncomputable def generator (h : ℝ → SqMat ℂ) (time : ℝ) (a : ℂ) (shift : Option ℂ) : SqMat ℂ :=
  match shift with
  | none => ⟨(h time).dim, fun i j => (h time).val i j * a⟩
  | some s => ⟨(h time).dim, fun i j => (h time).val i j * a + (if i = j then a * s else 0)⟩

/-- The blocks are joined to `n_jobs` groups (block_tools.py:737-763); `none`: division by zero or `_np.hstack([])`. -/
def group (nJobs : ℕ) (l : List (SqMat ℂ × Vec)) : Option (List (SqMat ℂ × Vec)) :=
  if nJobs = 0 then none
  else
    (Model.Blocks.subLists l nJobs (l.length / nJobs) (l.length / nJobs + l.length % nJobs)).mapM fun g =>
      if g = [] then none else some (blockDiag (g.map Prod.fst), hstackV (g.map Prod.snd))

/-- The settings of the time grid: `start`, `stop`, `num`, `endpoint`. -/
structure Grid where
  start : Option ℝ
  stop : Option ℝ
  num : Option ℕ
  endpoint : Option Bool

/-- The checks of the arguments (block_tools.py:683-715) and what `linspace` rejects: `some none` is a single exponential
without a grid, `some (some g)` a grid. -/
def Grid.check (g : Grid) (iterate : Bool) : Option (Option (ℝ × ℝ × ℕ × Bool)) :=
  match g.start, g.stop with
  | none, none => if iterate then none else if g.num = none ∧ g.endpoint = none then some none else none
  | some a, some b => some (some (a, b, g.num.getD 50, g.endpoint.getD true))
  | _, _ => none

/-- The states of all blocks at all times (block_tools.py:256-262, 771-786).  `steps`: the states are computed one after the
other, for a generator or because of the version of scipy (772, 779-780).  `none`: `num=0`. -/
noncomputable def expmStates (steps : Bool) (grid : Option (ℝ × ℝ × ℕ × Bool)) (hs : List (SqMat ℂ × Vec)) : Option (List Vec) :=
  match grid with
  | none => some (columns (hs.map fun e => [expmMultiply e.1 e.2]))
  | some (start, stop, num, endpoint) =>
    if num = 0 then none
    else if steps then
      some (columns (hs.map fun e => expmGen e.2 e.1 (linspace start stop num endpoint).1 (linspace start stop num endpoint).2))
    else some (columns (hs.map fun e => (linspace start stop num endpoint).1.map fun (t : ℝ) => expmMultiply (SqMat.scale e.1 t) e.2))

/-- The outcome once the blocks are known (block_tools.py:737-791). -/
noncomputable def expmBlocks {N : ℕ} (nJobs : ℕ) (blockDiag steps : Bool) (a : ℂ) (time : ℝ) (shift : Option ℂ)
    (grid : Option (ℝ × ℝ × ℕ × Bool)) (l : List (Cols N × (ℝ → SqMat ℂ) × Vec)) : Option (List (Fin N → ℂ)) :=
  if l = [] then none
  else
    (if blockDiag then group nJobs (l.map fun e => (generator e.2.1 time a shift, e.2.2))
      else some (l.map fun e => (generator e.2.1 time a shift, e.2.2))).bind fun hs =>
        (expmStates steps grid hs).bind fun r => r.mapM (dot (hstackC (l.map fun e => e.1)))

/-- `expm(psi_0, H_time_eval, iterate, n_jobs, block_diag, a, start, stop, endpoint, num, shift)` (block_tools.py:623-791).
`old`: the matrices are complex and the second number of the version of scipy is below 19 (779). -/
noncomputable def expm {N : ℕ} (tol : ℝ) (old : Bool) (ψ : Fin N → ℂ) (time : ℝ) (iterate : Bool) (nJobs : ℕ) (blockDiag : Bool) (a : ℂ)
    (grid : Grid) (shift : Option ℂ) (x : Obj N) : Obj N × Option (List (Fin N → ℂ)) :=
  match grid.check iterate with
  | none => (x, none)
  | some g => ((gather tol ψ x.dict x).1,
      (gather tol ψ x.dict x).2.bind (expmBlocks nJobs blockDiag (iterate || old) a time shift g))

/-! ### Histories -/

/-- A call of a method of the object. -/
inductive Op (N : ℕ) where
  | updateBlocks (con : Block → Option (Basis N)) (blocks : List Block) (compute : Bool)
  | computeAll
  | evolve (tol : ℝ) (solve : (ℝ → SqMat ℂ) → Vec → ℝ → List ℝ → List Vec) (ψ : Fin N → ℂ) (t0 : ℝ) (times : List ℝ) (blockDiag : Bool)
  | expm (tol : ℝ) (old : Bool) (ψ : Fin N → ℂ) (time : ℝ) (iterate : Bool) (nJobs : ℕ) (blockDiag : Bool) (a : ℂ) (grid : Grid)
      (shift : Option ℂ)

/-- The object after a call, whether it raises an exception or not (block_tools.py:416-791). -/
noncomputable def step {N : ℕ} (x : Obj N) : Op N → Obj N
  | .updateBlocks con blocks compute => (updateBlocks con blocks compute x).1
  | .computeAll => (computeAll x).1
  | .evolve tol solve ψ t0 times bd => (evolve tol solve ψ t0 times bd x).1
  | .expm tol old ψ time it nj bd a g s => (expm tol old ψ time it nj bd a g s x).1

/-- The object after the constructor and several calls. -/
noncomputable def run {N : ℕ} (x : Obj N) (p : List (Op N)) : Obj N := p.foldl step x

end Model.BlockOps
