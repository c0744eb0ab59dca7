import Verif.Model.Symmetry
import Verif.Model.Lookup
/-!
Assembly of the matrix of one operator string in a basis,
`basis_general/_basis_general_core/source/general_basis_op.h`.
-/
namespace Model
open Spec

/-- `get_index<I,P,false,true,false>`, `general_basis_op.h:108-127`: `g` zeroed, representative,
search in the basis array.  `none`: undefined. -/
def getIndexSym (ys : List Generator) (A : List Nat) (r : Nat) : Option (Int × Best) :=
  (refState ys r (ys.map fun _ => 0) 1).bind fun b => (repPosition A b.r).map fun j => (j, b)

/-- `get_index<I,P,false,true,true>`, `general_basis_op.h:130-151`: the same with the prefix blocks. -/
def getIndexSymBlocks (ys : List Generator) (pfx : Nat → Int) (blocks : Blocks) (A : List Nat) (r : Nat) :
    Option (Int × Best) :=
  (refState ys r (ys.map fun _ => 0) 1).bind fun b =>
    (repPositionBlocks blocks A (pfx b.r) b.r).map fun j => (j, b)

/-- `get_index<I,P,false,false,false>`, `general_basis_op.h:89-105`. -/
def getIndexPlain (A : List Nat) (r : Nat) : Option Int := repPosition A r

/-- `get_index<I,P,false,false,true>`, `general_basis_op.h:154-171`. -/
def getIndexPlainBlocks (pfx : Nat → Int) (blocks : Blocks) (A : List Nat) (r : Nat) : Option Int :=
  repPositionBlocks blocks A (pfx r) r

/-- `get_index<I,P,true,false,false>`, `general_basis_op.h:71-87`. -/
def getIndexFull (Ns r : Nat) : Option Int := some ((Ns : Int) - r - 1)

/-- `q` of `scale_matrix_ele`, `general_basis_op.h:199-202`, with `kk` of lines 528-529. -/
noncomputable def phaseAngle (ys : List Generator) (g : List Nat) : ℝ :=
  (List.zipWith (fun y (c : Nat) => 2 * Real.pi * y.q / y.per * c) ys g).sum

/-- `scale_matrix_ele<J,P,true>`, `general_basis_op.h:189-205`; exact real and complex arithmetic. -/
noncomputable def scaleMatrixEle (ys : List Generator) (ni nj : Int) (b : Best) (m : ℂ) : ℂ :=
  m * ((b.phase : ℂ) * (Real.sqrt ((nj : ℝ) / (ni : ℝ)) : ℂ) * Complex.exp (-(Complex.I * phaseAngle ys b.g)))

/-- Column `i` of `general_op_core`, `general_basis_op.h:544-583`, with symmetries; the body of
`general_inplace_op_core` (250-283) computes the same `j` and `m`.  `op` is `B->op` started with
`m = A`.  The basis is given with its norms.  `none`: error or undefined; `some none`: the column
stays empty; `some (some (j, m))`: entry `m` in row `j`. -/
noncomputable def columnSym (ys : List Generator) (lookup : Nat → Option (Int × Best))
    (basis : List (Nat × Int)) (op : Nat → Option (Nat × ℂ)) (i : Nat) : Option (Option (Nat × ℂ)) :=
  match basis[i]? with
  | none => none
  | some (s, ni) =>
    match op s with
    | none => none
    | some (r, m) =>
      if r ≠ s then
        match lookup r with
        | none => none
        | some (j, b) =>
          if j ≥ 0 then
            match basis[j.toNat]? with
            | none => none
            | some (_, nj) => some (some (j.toNat, scaleMatrixEle ys ni nj b m))
          else some none
      else some (some (i, m))

/-- The same without symmetries. -/
def columnPlain (lookup : Nat → Option Int) (basis : List Nat) (op : Nat → Option (Nat × ℂ)) (i : Nat) :
    Option (Option (Nat × ℂ)) :=
  match basis[i]? with
  | none => none
  | some s =>
    match op s with
    | none => none
    | some (r, m) =>
      if r ≠ s then
        match lookup r with
        | none => none
        | some j => if j ≥ 0 then some (some (j.toNat, m)) else some none
      else some (some (i, m))

/-- Row, column, matrix element. -/
abbrev Triplet := Nat × Nat × ℂ

/-- `M[i]`, `row[i]`, `col[i]` after the loop body for column `i`, `general_basis_op.h:533-535,577-579`. -/
def tripletOf (i : Nat) : Option (Nat × ℂ) → Triplet
  | none => (0, 0, 0)
  | some (j, m) => (j, i, m)

/-- The arrays filled by `general_op_core`, `general_basis_op.h:533-586`: one triplet per column,
`(0,0,0)` for an empty one.  `none`: error in some column. -/
def generalOp (column : Nat → Option (Option (Nat × ℂ))) (Ns : Nat) : Option (List Triplet) :=
  (List.range Ns).mapM fun i => (column i).map (tripletOf i)

/-- `_Op`, `base_general.py:262-286`: triplets with zero element are removed. -/
noncomputable def opTriplets (column : Nat → Option (Option (Nat × ℂ))) (Ns : Nat) : Option (List Triplet) :=
  open Classical in (generalOp column Ns).map fun l => l.filter fun t => t.2.2 ≠ 0

/-- `csr_matrix((ME,(row,col)))`: entry at `(r,c)`, repeated positions added up. -/
noncomputable def coo (l : List Triplet) (r c : Nat) : ℂ :=
  (l.map fun t => if t.1 = r ∧ t.2.1 = c then t.2.2 else 0).sum

/-- `_is_diagonal`, `base.py:17-23`. -/
def isDiagonal (l : List Triplet) : Bool := l.all fun t => t.1 == t.2.1

/-- `_update_diag`, `base.py:25-28`. -/
noncomputable def updateDiag (diag : Nat → ℂ) : List Triplet → Nat → ℂ
  | [] => diag
  | t :: l => updateDiag (fun k => if k = t.1 then diag k + t.2.2 else diag k) l

/-- The loop of `_make_matrix`, `base.py:225-240`, on the triplets of the terms; `diag` and
`off_diag` as accumulated (`None` at the start). -/
noncomputable def makeMatrixLoop : List (List Triplet) → Option (Nat → ℂ) → Option (Nat → Nat → ℂ) →
    Option (Nat → ℂ) × Option (Nat → Nat → ℂ)
  | [], diag, off => (diag, off)
  | l :: ls, diag, off =>
    if l.length > 0 then
      if isDiagonal l then makeMatrixLoop ls (some (updateDiag (diag.getD fun _ => 0) l)) off
      else makeMatrixLoop ls diag (some (off.elim (coo l) fun M r c => M r c + coo l r c))
    else makeMatrixLoop ls diag off

/-- `_make_matrix`, `base.py:220-251`. -/
noncomputable def makeMatrix (ls : List (List Triplet)) : Nat → Nat → ℂ :=
  match makeMatrixLoop ls none none with
  | (some d, some M) => fun r c => M r c + (if r = c then d r else 0)
  | (none, some M) => M
  | (some d, none) => fun r c => if r = c then d r else 0
  | (none, none) => fun _ _ => 0

/-- `basis._make_matrix` for a list of terms given by their columns. -/
noncomputable def matrixOfColumns (columns : List (Nat → Option (Option (Nat × ℂ)))) (Ns : Nat) :
    Option (Nat → Nat → ℂ) :=
  (columns.mapM fun c => opTriplets c Ns).map makeMatrix

/-- The loop of `general_inplace_op_core`, `general_basis_op.h:241-290`, for one vector: the columns
are processed in the order `order` (a `schedule(dynamic)` loop with atomic additions), each adding
`v_in[i]*m` to `v_out[j]`, `i` and `j` swapped for `transpose`, `m` conjugated for `conjugate`. -/
noncomputable def inplaceLoop (column : Nat → Option (Option (Nat × ℂ))) (transpose conjugate : Bool)
    (v : Nat → ℂ) : List Nat → (Nat → ℂ) → Option (Nat → ℂ)
  | [], out => some out
  | i :: order, out =>
    match column i with
    | none => none
    | some none => inplaceLoop column transpose conjugate v order out
    | some (some (j, m)) =>
      let src := if transpose then j else i
      let dst := if transpose then i else j
      let m' := if conjugate then (starRingEnd ℂ) m else m
      inplaceLoop column transpose conjugate v order (fun k => if k = dst then out k + v src * m' else out k)

end Model
