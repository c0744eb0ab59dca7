import Verif.Spec.Reads

/-!
Model of `exp_op` (quspin/operators/exp_op_core.py).

Simplifications:
* the operator `O` stands for the matrix that `O(**call_kwargs)` gives (a static hamiltonian, or the same `call_kwargs` in all calls);
  its own `transpose`, `conj`, `getH` make new objects with the expected matrices (C20, C21, C28, C59);
* `scipy.sparse.linalg.expm_multiply(M, V)` is `e^M V`, and `expm` is the exponential;
* numbers are exact complex numbers; states and matrices of states are matrices with `n` rows.
-/

namespace Model.ExpOp
open Matrix

variable {n m : Type} [Fintype n] [DecidableEq n]

/-- `_expm_multiply(M, V)` of scipy (exp_op_core.py:11). -/
noncomputable def expmMultiply (M : Matrix n n ℂ) (V : Matrix n m ℂ) : Matrix n m ℂ := NormedSpace.exp M * V

/-! ### Objects and reads -/

/-- The attributes `_O` and `_a` (exp_op_core.py:81, 142-151). -/
structure Obj (n : Type) where
  O : Matrix n n ℂ
  a : ℂ

/-- `transpose(copy=False)`, which is `.T` (exp_op_core.py:166-169, 209-231): new content of `self`. -/
def transposeSelf (x : Obj n) : Obj n := ⟨x.Oᵀ, x.a⟩

/-- `conj` (exp_op_core.py:233-253). -/
def conjSelf (x : Obj n) : Obj n := ⟨x.O.map star, star x.a⟩

/-- `getH(copy=False)`, which is `.H` (exp_op_core.py:161-164, 255-279). -/
def getHSelf (x : Obj n) : Obj n := ⟨x.Oᴴ, star x.a⟩

/-- `get_mat` (exp_op_core.py:396-426). -/
noncomputable def getMat (x : Obj n) : Matrix n n ℂ := NormedSpace.exp (x.a • x.O)

/-- The matrix in the exponent (exp_op_core.py:482-485). -/
def exponent (x : Obj n) (shift : Option ℂ) : Matrix n n ℂ :=
  match shift with
  | some s => x.a • (x.O + s • (1 : Matrix n n ℂ))
  | none => x.a • x.O

/-- `dot` without a grid (exp_op_core.py:482-485, 494-498). -/
noncomputable def dot (x : Obj n) (shift : Option ℂ) (V : Matrix n m ℂ) : Matrix n m ℂ := expmMultiply (exponent x shift) V

/-- `rdot` without a grid (exp_op_core.py:577-580, 588-593). -/
noncomputable def rdot (x : Obj n) (shift : Option ℂ) (V : Matrix m n ℂ) : Matrix m n ℂ := (expmMultiply (exponent x shift)ᵀ Vᵀ)ᵀ

/-- `sandwich` without a grid: the result, and the new content of `self` because of `self.H` (exp_op_core.py:683-688).  The shift is not
passed on. -/
noncomputable def sandwich (x : Obj n) (_shift : Option ℂ) (C : Matrix n n ℂ) : Matrix n n ℂ × Obj n :=
  (rdot (getHSelf x) none (dot x none C), getHSelf x)

/-! ### Histories -/

/-- Statements of a program. -/
inductive Stmt (n : Type) where
  | new (O : Matrix n n ℂ) (a : ℂ)
  | read (r : Spec.Reads.Read) (v : Nat)
  | transposeCopy (v : Nat)
  | getHCopy (v : Nat)
  | copy (v : Nat)
  | setA (v : Nat) (a : ℂ)
  | getMat (v : Nat)
  | dot (v : Nat) (V : Matrix n n ℂ)
  | rdot (v : Nat) (V : Matrix n n ℂ)
  | sandwich (v : Nat) (C : Matrix n n ℂ)

/-- Objects, the object of every variable, and the last result printed. -/
structure World (n : Type) where
  objs : List (Obj n)
  vars : List Nat
  out : Option (Matrix n n ℂ)

omit [Fintype n] [DecidableEq n] in
/-- The object of a variable. -/
def World.obj (w : World n) (v : Nat) : Option (Obj n) := w.vars[v]?.bind fun i => w.objs[i]?

omit [Fintype n] [DecidableEq n] in
/-- Change `self`. -/
def World.change (w : World n) (v : Nat) (x : Obj n) : World n := ⟨w.objs.set (w.vars.getD v 0) x, w.vars, w.out⟩

omit [Fintype n] [DecidableEq n] in
/-- `return self` bound to a new variable. -/
def World.again (w : World n) (v : Nat) : World n := ⟨w.objs, w.vars ++ [w.vars.getD v 0], w.out⟩

omit [Fintype n] [DecidableEq n] in
/-- Bind a new object to a new variable. -/
def World.emit (w : World n) (x : Obj n) : World n := ⟨w.objs ++ [x], w.vars ++ [w.objs.length], w.out⟩

omit [Fintype n] [DecidableEq n] in
/-- Print. -/
def World.print (w : World n) (M : Matrix n n ℂ) : World n := ⟨w.objs, w.vars, some M⟩

omit [Fintype n] [DecidableEq n] in
/-- New content of `self` after a read. -/
def readSelf : Spec.Reads.Read → Obj n → Obj n
  | .T, x => transposeSelf x
  | .conj, x => conjSelf x
  | .H, x => getHSelf x

/-- One statement; nothing happens if a variable does not exist. `copy` is `deepcopy` (exp_op_core.py:282-284), `set_a` is
exp_op_core.py:287-305. -/
noncomputable def step (w : World n) : Stmt n → World n
  | .new O a => w.emit ⟨O, a⟩
  | .read r v => (w.obj v).elim w fun x => (w.change v (readSelf r x)).again v
  | .transposeCopy v => (w.obj v).elim w fun x => w.emit (transposeSelf x)
  | .getHCopy v => (w.obj v).elim w fun x => w.emit (getHSelf x)
  | .copy v => (w.obj v).elim w fun x => w.emit x
  | .setA v a => (w.obj v).elim w fun x => w.change v ⟨x.O, a⟩
  | .getMat v => (w.obj v).elim w fun x => w.print (ExpOp.getMat x)
  | .dot v V => (w.obj v).elim w fun x => w.print (ExpOp.dot x none V)
  | .rdot v V => (w.obj v).elim w fun x => w.print (ExpOp.rdot x none V)
  | .sandwich v C => (w.obj v).elim w fun x => (w.change v (ExpOp.sandwich x none C).2).print (ExpOp.sandwich x none C).1

/-- A program. -/
noncomputable def run (w : World n) (p : List (Stmt n)) : World n := p.foldl step w

/-- The value of a variable. -/
noncomputable def World.value (w : World n) (v : Nat) : Option (Matrix n n ℂ) := (w.obj v).map ExpOp.getMat

/-! ### Grids -/

/-- `numpy.linspace(start, stop, num, endpoint, retstep=True)` (exp_op_core.py:106, 139, 349): points and step; the step is meaningless
if there is no interval. -/
noncomputable def linspace (start stop : ℂ) (num : ℕ) (endpoint : Bool) : List ℂ × ℂ :=
  ((List.range num).map fun k : ℕ => start + k * ((stop - start) / ((if endpoint then num - 1 else num : ℕ) : ℂ)),
    (stop - start) / ((if endpoint then num - 1 else num : ℕ) : ℂ))

/-- `set_grid`; `none` is `ValueError` (exp_op_core.py:307-349).  `type(num) is not None` is always true, so `num` and `endpoint` have
to be given. -/
noncomputable def setGrid (start stop : ℂ) (num : Option ℕ) (endpoint : Option Bool) : Option (List ℂ × ℂ) :=
  num.bind fun k => endpoint.map fun e => linspace start stop k e

/-- The grid made by the constructor with its defaults (exp_op_core.py:92-106, 125-139). -/
noncomputable def initGrid (start stop : ℂ) (num : Option ℕ) (endpoint : Option Bool) : List ℂ × ℂ :=
  linspace start stop (num.getD 50) (endpoint.getD true)

/-- The loop `for t in grid[1:]: other = step(other); yield other.copy()` (exp_op_core.py:709-711, 722-724, 736-740). -/
def loop {α : Type} (f : α → α) : α → List ℂ → List α
  | _, [] => []
  | x, _ :: ts => f x :: loop f (f x) ts

/-- `_iter_dot` (exp_op_core.py:700-711); `none` is `IndexError` for an empty grid. -/
noncomputable def iterDot (M : Matrix n n ℂ) (V : Matrix n m ℂ) (st : ℂ) : List ℂ → Option (List (Matrix n m ℂ))
  | [] => none
  | g :: ts =>
    let V0 := if g ≠ 0 then expmMultiply (g • M) V else V
    let M0 := if g ≠ 0 then g⁻¹ • (g • M) else M
    some (V0 :: loop (expmMultiply (st • M0)) V0 ts)

/-- `_iter_rdot` (exp_op_core.py:713-724); the second argument is already transposed. -/
noncomputable def iterRdot (M : Matrix n n ℂ) (V : Matrix n m ℂ) (st : ℂ) (grid : List ℂ) : Option (List (Matrix m n ℂ)) :=
  (iterDot M V st grid).map fun l => l.map Matrix.transpose

/-- Both multiplications of `_iter_sandwich` (exp_op_core.py:729-730, 737-738). -/
noncomputable def bothSides (M C : Matrix n n ℂ) : Matrix n n ℂ := (expmMultiply M (expmMultiply M C)ᴴ)ᴴ

/-- `_iter_sandwich` (exp_op_core.py:726-740). -/
noncomputable def iterSandwich (M C : Matrix n n ℂ) (st : ℂ) : List ℂ → Option (List (Matrix n n ℂ))
  | [] => none
  | g :: ts =>
    let C0 := if g ≠ 0 then bothSides (g • M) C else C
    let M0 := if g ≠ 0 then g⁻¹ • (g • M) else M
    some (C0 :: loop (bothSides (st • M0)) C0 ts)

/-- `dot` on a grid, one result per point (exp_op_core.py:487-513). -/
noncomputable def dotGrid (x : Obj n) (shift : Option ℂ) (V : Matrix n m ℂ) (grid : List ℂ × ℂ) : Option (List (Matrix n m ℂ)) :=
  iterDot (exponent x shift) V grid.2 grid.1

/-- `rdot` on a grid (exp_op_core.py:577-610). -/
noncomputable def rdotGrid (x : Obj n) (shift : Option ℂ) (V : Matrix m n ℂ) (grid : List ℂ × ℂ) : Option (List (Matrix m n ℂ)) :=
  iterRdot (exponent x shift)ᵀ Vᵀ grid.2 grid.1

/-- The exponent of `sandwich` on a grid (exp_op_core.py:670-673). -/
def exponentH (x : Obj n) (shift : Option ℂ) : Matrix n n ℂ :=
  match shift with
  | some s => star x.a • (x.Oᴴ + s • (1 : Matrix n n ℂ))
  | none => star x.a • x.Oᴴ

/-- `sandwich` on a grid (exp_op_core.py:670-682, 690-696). -/
noncomputable def sandwichGrid (x : Obj n) (shift : Option ℂ) (C : Matrix n n ℂ) (grid : List ℂ × ℂ) : Option (List (Matrix n n ℂ)) :=
  iterSandwich (exponentH x shift) C grid.2 grid.1

/-- Arguments of python: a number or an array. -/
inductive Arg where
  | number (x : ℂ)
  | array (l : List ℂ)

/-- `_hamiltonian_iter_dot(M, other, grid, step)` for the static part (exp_op_core.py:742-761); `none` is the exception that `grid[0]`
raises for a number, or `M *= step` for an array of the wrong shape. -/
noncomputable def hamIterDot (M : Matrix n n ℂ) (V : Matrix n n ℂ) : Arg → Arg → Option (List (Matrix n n ℂ))
  | .array grid, .number st => iterDot M V st grid
  | _, _ => none

/-- `dot` with a hamiltonian on a grid: the call has `step` before `grid` (exp_op_core.py:489, 504). -/
noncomputable def dotGridHam (x : Obj n) (shift : Option ℂ) (V : Matrix n n ℂ) (grid : List ℂ × ℂ) : Option (List (Matrix n n ℂ)) :=
  hamIterDot (exponent x shift) V (.number grid.2) (.array grid.1)

/-- `rdot` with a hamiltonian on a grid: the same (exp_op_core.py:584, 599, 771-782). -/
noncomputable def rdotGridHam (x : Obj n) (shift : Option ℂ) (V : Matrix n n ℂ) (grid : List ℂ × ℂ) : Option (List (Matrix n n ℂ)) :=
  (hamIterDot (exponent x shift)ᵀ Vᵀ (.number grid.2) (.array grid.1)).map fun l => l.map Matrix.transpose

end Model.ExpOp
