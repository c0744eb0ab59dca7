import Verif.Model.Chain
import Verif.Model.Lookup
import Verif.Model.Reduced
/-!
Model of `basis_1d/_basis_1d_core/sources/op_templates.pyx`: the matrix elements of one operator string in a block of
a one-dimensional basis.

`op` is `op_func`: the row state and matrix element of the string on one state (`none`: error).  A basis is a
list of states with the numbers stored for them (`N`, or `N` and `m`).  Numbers are exact; `NaN`, which marks an
entry without row state and is removed in `_Op`, `base_1d.py:583-590`, is an empty column.
-/
namespace Model.Chain

/-- The loop body common to all templates, e.g. `op_templates.pyx:79-95`: `ref` is the `RefState` function, `factor`
the number that `ME[i]` is multiplied with, from the entries of column and row.  The position is looked up by
`findzstate(basis,Ns,s,&found)` unless the representative is the state of the column. -/
noncomputable def columnOf {α : Type} (ref : ℕ → Ref) (factor : Ref → α → α → ℂ) (basis : List (ℕ × α))
    (op : ℕ → Option (ℕ × ℂ)) (i : ℕ) : Option (Option (ℕ × ℂ)) :=
  match basis[i]? with
  | none => none
  | some (s, d) =>
    match op s with
    | none => none
    | some (r, m) =>
      match (if (ref r).r ≠ s then findZState (basis.map (·.1)) (ref r).r 0 ((basis.length : Int) - 1) else some (some i)) with
      | none => none
      | some none => some none
      | some (some j) =>
        match basis[j]? with
        | none => none
        | some (_, d') => some (some (j, m * factor (ref r) d d'))

/-- `sign*(pblock**q)*sqrt(n)` with `n = N[s]/N[i]`, `op_templates.pyx:92-95` (`p`), 140-143 (`pz`), 1263-1266 (`zA`),
1355-1358 (`zB`), 1396-1399 (`z`). -/
noncomputable def factorP (p : Int) (b : Ref) (Ni Ns : Int) : ℂ :=
  b.sign * (p : ℂ) ^ b.g * (Real.sqrt ((Ns : ℝ) / (Ni : ℝ)) : ℝ)

/-- `sign*sqrt(n)*(pblock**q)*(zblock**g)`, `op_templates.pyx:193-196`; `zA_zB`, 1315-1317, with `gA` in `l` and `gB`
in `g`. -/
noncomputable def factorP_Z (p z : Int) (b : Ref) (Ni Ns : Int) : ℂ :=
  b.sign * (Real.sqrt ((Ns : ℝ) / (Ni : ℝ)) : ℝ) * (p : ℂ) ^ b.l * (z : ℂ) ^ b.g

/-- `cos(k*l) - 1.0j * sin(k*l)`, `op_templates.pyx:264`. -/
noncomputable def phase (k L T l : ℕ) : ℂ := (Real.cos (wave k L T * l) : ℝ) - Complex.I * (Real.sin (wave k L T * l) : ℝ)

/-- `t_op_template`, `op_templates.pyx:254-264`; `isReal` for the element types `float` and `double`. -/
noncomputable def factorT (isReal : Bool) (k L T : ℕ) (b : Ref) (Ni Ns : Int) : ℂ :=
  (Real.sqrt ((Ni : ℝ) / (Ns : ℝ)) : ℝ) *
    (if isReal then (b.sign : ℂ) * (-1) ^ (b.l * 2 * T * k / L) else (b.sign : ℂ) * phase k L T b.l)

/-- The last lines of `MatrixElement_T_Z`, `op_templates.pyx:1154-1158` (and of `…_T_ZA` 851-855, `…_T_ZB`). -/
noncomputable def phaseT (k L T l : ℕ) : ℂ := if 2 * T * k % L = 0 then (-1) ^ (2 * l * T * k / L) else phase k L T l

/-- `sign*MatrixElement_T_Z(...)`, `op_templates.pyx:1132-1163,1214-1218`, and `sign*MatrixElement_T_ZA(...)`, 825-857,903-907,
for the two weights; real part for a real element type. -/
noncomputable def factorT_Z (isReal : Bool) (weight : ℕ × ℕ → ℝ) (z : Int) (k L T : ℕ) (b : Ref) (ci cs : ℕ × ℕ) : ℂ :=
  let me : ℂ := (Real.sqrt (weight cs / weight ci) : ℝ) * (z : ℂ) ^ b.g * phaseT k L T b.l
  if isReal then (b.sign : ℂ) * (me.re : ℂ) else (b.sign : ℂ) * me

/-- The check `(matrix_type is float or matrix_type is double) and ((2*a*kblock) % L) != 0`, `op_templates.pyx:236-240`
(and the like): error instead of matrix elements. -/
noncomputable def columnT {α : Type} (isReal : Bool) (k L T : ℕ) (ref : ℕ → Ref) (factor : Ref → α → α → ℂ) (basis : List (ℕ × α))
    (op : ℕ → Option (ℕ × ℂ)) (i : ℕ) : Option (Option (ℕ × ℂ)) :=
  if isReal ∧ 2 * T * k % L ≠ 0 then none else columnOf ref factor basis op i

/-- The states visited by the loops of `basis_templates.pyx`, e.g. 7-14: `MAX` states from `s` on; `next` is
`next_state_inc_1` (`fun s => s + 1`), `next_state_pcon_hcp` (`hcp_next_state.pyx:7-14`, which has the text of
`Model.nextStatePcon`) and the like. -/
def visited (next : ℕ → ℕ) : (MAX s : ℕ) → List ℕ
  | 0, _ => []
  | MAX + 1, s => s :: visited next MAX (next s)

/-- A `make_…_basis_template` of `basis_templates.pyx`: the states that satisfy `CheckState_nosymm` and are kept by the
check of the block, with the numbers stored for them. -/
def makeBlock {α : Type} (next : ℕ → ℕ) (nosymm : ℕ → Bool) (keep : ℕ → Option α) (MAX s : ℕ) : List (ℕ × α) :=
  (visited next MAX s).filterMap fun s => if nosymm s then (keep s).map fun d => (s, d) else none

/-- The arrays `_basis`, `_N`, `_M` of a basis with at most one particle sector, `base_1d.py:428-438,455-462`: in
reversed order. -/
def blockBasis {α : Type} (next : ℕ → ℕ) (nosymm : ℕ → Bool) (keep : ℕ → Option α) (MAX s : ℕ) : List (ℕ × α) :=
  (makeBlock next nosymm keep MAX s).reverse

/-- Condition of `make_p_basis_template`, `basis_templates.pyx:28-34`, and of the other blocks with one number per state (`p_z`
57-62, `pz` 83-88, `t` 110-115, …): a state is kept with its `N` if that is positive. -/
def keepN (check : ℕ → Int) (s : ℕ) : Option Int := if check s > 0 then some (check s) else none

end Model.Chain
