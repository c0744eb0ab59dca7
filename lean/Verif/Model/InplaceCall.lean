import Verif.Model.Reduced
import Verif.Model.Ops
import Verif.Model.ExpmObject
/-!
`basis.inplace_Op(v_in, op_list, dtype, transposed, conjugated, v_out)` around the loop over the
columns: the checks of the arguments, the shapes and types of the arrays, and what happens to the
array `v_out` of the caller.  Two versions exist: one of the `general` classes, which calls the
compiled core, and a default one which calls `Op` and is used by the one-dimensional chains, tensor
products and photon bases.  Only floating point types are modelled.  A call that reads or writes
outside an array ends in `undefined`.
-/
namespace Model.InplaceCall
open Model Model.ExpmObject

/-- How a call ends if it does not return. -/
inductive CallErr where
  | attributeError | valueError | typeError | undefined
  deriving DecidableEq

/-- One element `[opstr, indx, J]` of `op_list`, `base.py:138-178`. -/
structure Term where
  letters : List Char
  sites : List ℤ
  J : ℂ

/-- What a basis of a `general` class provides: whether it was constructed, the number of sites, the
number of states, the set `_allowed_ops`, and the work done for one column by the compiled core,
`general_basis_op.h:241-290,533-586`, for a string, a coefficient and the number of the column. -/
structure IBasis where
  made : Bool
  N : ℕ
  Ns : ℕ
  allowed : Char → Bool
  column : List (Char × ℕ) → ℂ → ℕ → Option (Option (ℕ × ℂ))

/-- A numpy array with its first dimension, the other dimensions, type, `flags["C_CONTIGUOUS"]`,
`flags["WRITEABLE"]`, whether the other dimensions can be read as a single one without a copy
(always so if there is at most one of them), and the value at a row and a position in the row. -/
structure Arr where
  rows : ℕ
  tail : List ℕ
  type : DType
  contiguous : Bool
  writable : Bool
  merges : Bool
  val : ℕ → ℕ → ℂ

/-- Number of columns after `reshape((Ns,-1))`, `base.py:122-123`, `base_general.py:311-312`. -/
def Arr.cols (a : Arr) : ℕ := a.tail.prod

/-- What a call that returns leaves behind: the shape and the values of the returned array, and the
values in the array given as `v_out`. -/
structure Res where
  shape : List ℕ
  val : ℕ → ℕ → ℂ
  caller : Option (ℕ → ℕ → ℂ)

/-- The letters of a string with their sites: the core reads as many letters as there are sites,
`general_basis_core.pyx:443-444`. -/
def pairs (t : Term) : List (Char × ℕ) := t.letters.zip (t.sites.map Int.toNat)

/-- All sites are sites of the lattice, `base_general.py:255-256`. -/
def sitesOk (N : ℕ) (t : Term) : Bool := t.sites.all fun i => decide (0 ≤ i) && decide (i < N)

/-- Whether the triplets can be stored in the type: a real type holds real numbers only (the core
compares the imaginary part with `1.1e-15`, here with zero). -/
def fits (d : DType) (l : List Triplet) : Prop := d.cplx = true ∨ ∀ t ∈ l, t.2.2.im = 0

/-- `_Op`, `base_general.py:245-286`. -/
noncomputable def op (b : IBasis) (d : DType) (t : Term) : Except CallErr (List Triplet) :=
  if !b.made then .error .attributeError
  else if t.letters.length ≠ t.sites.length then .error .valueError
  else if !sitesOk b.N t then .error .valueError
  else if !t.letters.all b.allowed then .error .valueError
  else if b.Ns = 0 then .ok []
  else
    match opTriplets (b.column (pairs t) t.J) b.Ns with
    | none => .error .valueError
    | some l => open Classical in if fits d l then .ok l else .error .typeError

/-- `_core.inplace_op`, `general_basis_core.pyx:441-498`, for one term: nothing compares the number of
letters with the number of sites nor the sites with the lattice, so that fewer letters than sites or
a site outside the lattice are undefined.  `m` vectors; `order k`: the order in which the columns are
worked on for vector `k`.  If there are both kinds of errors, the code may report either. -/
noncomputable def coreTerm (b : IBasis) (d : DType) (t : Term) (tr cj : Bool) (m : ℕ)
    (order : ℕ → List ℕ) (v out : ℕ → ℕ → ℂ) : Except CallErr (ℕ → ℕ → ℂ) :=
  if t.letters.length < t.sites.length then .error .undefined
  else if !sitesOk b.N t then .error .undefined
  else
    match opTriplets (b.column (pairs t) t.J) b.Ns with
    | none => .error .valueError
    | some l =>
      open Classical in
      if fits d l then
        .ok fun r k =>
          if k < m then
            match inplaceLoop (b.column (pairs t) t.J) tr cj (fun i => v i k) (order k)
                (fun i => out i k) with
            | none => out r k
            | some y => y r
          else out r k
      else .error .typeError

/-- The loop over the terms, `base_general.py:315-319`; `order n k` is the order for term `n` and
vector `k`. -/
noncomputable def coreTerms (b : IBasis) (d : DType) (tr cj : Bool) (m : ℕ)
    (order : ℕ → ℕ → List ℕ) (v : ℕ → ℕ → ℂ) : List Term → ℕ → (ℕ → ℕ → ℂ) →
    Except CallErr (ℕ → ℕ → ℂ)
  | [], _, out => .ok out
  | t :: ts, n, out =>
    match coreTerm b d t tr cj m (order n) v out with
    | .error e => .error e
    | .ok out' => coreTerms b d tr cj m order v ts (n + 1) out'

/-- `numpy.squeeze` of the array of shape `(Ns, m)`, `base_general.py:321`, `base.py:136`. -/
def squeezed (Ns m : ℕ) : List ℕ := [Ns, m].filter (· ≠ 1)

/-- The checks of `v_out`, `base_general.py:300-308`. -/
def checkOut (v : Arr) (d : DType) : Option Arr → Option CallErr
  | none => none
  | some o =>
    if o.type ≠ d then some .typeError
    else if !(o.contiguous && o.writable) then some .valueError
    else if o.rows ≠ v.rows ∨ o.tail ≠ v.tail then some .valueError
    else none

/-- `_inplace_Op` of the `general` classes, `base_general.py:289-321`: `reshape((0,-1))` is refused by
numpy; the core refuses a `v_in` that cannot be written to, `general_basis_core.pyx:456-457`, which is
the array of the caller unless `astype` (line 295) had to copy it. -/
noncomputable def general (b : IBasis) (v : Arr) (ts : List Term) (dtype : DType) (tr cj : Bool)
    (o : Option Arr) (order : ℕ → ℕ → List ℕ) : Except CallErr Res :=
  if !b.made then .error .attributeError
  else if v.rows ≠ b.Ns then .error .valueError
  else
    match checkOut v (v.type.join dtype) o with
    | some e => .error e
    | none =>
      if b.Ns = 0 then .error .valueError
      else if ts ≠ [] ∧ v.type = v.type.join dtype ∧ v.contiguous = true ∧ v.writable = false then
        .error .valueError
      else
        match coreTerms b (v.type.join dtype) tr cj v.cols order v.val ts 0
            (o.elim (fun _ _ => 0) Arr.val) with
        | .error e => .error e
        | .ok y => .ok ⟨squeezed b.Ns v.cols, y, o.map fun _ => y⟩

/-- `_coo_dot`, `base.py:6-15`, with rows and columns swapped and elements conjugated as in
`base.py:127-134`; `m` columns. -/
noncomputable def cooDot (tr cj : Bool) (m : ℕ) (v : ℕ → ℕ → ℂ) :
    List Triplet → (ℕ → ℕ → ℂ) → ℕ → ℕ → ℂ
  | [], out => out
  | (r, c, x) :: l, out =>
    let r' := if tr then c else r
    let c' := if tr then r else c
    let x' := if cj then (starRingEnd ℂ) x else x
    cooDot tr cj m v l fun i k => if i = r' ∧ k < m then out i k + x' * v c' k else out i k

/-- The loop over the terms, `base.py:126-134`, on the triplets returned by `Op`. -/
noncomputable def cooTerms (tr cj : Bool) (m : ℕ) (v : ℕ → ℕ → ℂ) :
    List (List Triplet) → (ℕ → ℕ → ℂ) → ℕ → ℕ → ℂ
  | [], out => out
  | l :: ls, out => cooTerms tr cj m v ls (cooDot tr cj m v l out)

/-- `v_out.reshape((Ns,-1))`, `base.py:122`: values by row and column of the new shape with `k`
columns; an array with `Ns` rows keeps its rows. -/
def reshaped (Ns k : ℕ) (o : Arr) : ℕ → ℕ → ℂ :=
  if o.rows = Ns then o.val
  else fun r c => o.val ((r * k + c) / o.cols) ((r * k + c) % o.cols)

/-- `reshape` returns a copy, `base.py:122`. -/
def copies (Ns : ℕ) (o : Arr) : Bool :=
  !o.contiguous && (decide (o.rows ≠ Ns) || !o.merges)

/-- The values in the array of the caller once its reshaped view holds `y`. -/
def unshaped (Ns k : ℕ) (o : Arr) (y : ℕ → ℕ → ℂ) : ℕ → ℕ → ℂ :=
  if o.rows = Ns then y
  else fun r c => y ((r * o.cols + c) / k) ((r * o.cols + c) % k)

/-- Default `_inplace_Op`, `base.py:107-136`, on a basis with `Ns` states whose `Op` is `opf`.
`v_out` is not checked: the number of its elements must be a multiple of `Ns` for `reshape`; numba
refuses to add complex numbers to a real array or to write to a read-only array (`TypeError`, at the
first term), and checks no index, so that too few columns are undefined.  Simplification: all calls
of `Op` come before the first addition. -/
noncomputable def default (Ns : ℕ) (opf : Term → Except CallErr (List Triplet)) (v : Arr)
    (ts : List Term) (dtype : DType) (tr cj : Bool) (o : Option Arr) : Except CallErr Res :=
  if v.rows ≠ Ns then .error .valueError
  else if Ns = 0 then .error .valueError
  else
    match ts.mapM opf with
    | .error e => .error e
    | .ok ls =>
      match o with
      | none =>
        .ok ⟨squeezed Ns v.cols, cooTerms tr cj v.cols v.val ls fun _ _ => 0, none⟩
      | some o =>
        if (o.rows * o.cols) % Ns ≠ 0 then .error .valueError
        else if ts ≠ [] ∧ ((v.type.join dtype).cplx && !o.type.cplx || !o.writable) = true then
          .error .typeError
        else if (∃ l ∈ ls, l ≠ []) ∧ o.rows * o.cols / Ns < v.cols then .error .undefined
        else
          let k := o.rows * o.cols / Ns
          let y := cooTerms tr cj v.cols v.val ls (reshaped Ns k o)
          .ok ⟨squeezed Ns k, y, some (if copies Ns o then o.val else unshaped Ns k o y)⟩

/-- `op_list = [[op,indx,J*scale(op)] ...]` of `spin_basis_general._inplace_Op`,
`basis_general/spin.py:203-212`. -/
noncomputable def spinTerm (pauli : ℤ) (t : Term) : Term := { t with J := t.J * pauliFactor pauli t.letters }

/-- `_Op` of `spin_basis_general`, `basis_general/spin.py:183-197`: the elements are multiplied. -/
noncomputable def spinOpCall (pauli : ℤ) (b : IBasis) (d : DType) (t : Term) :
    Except CallErr (List Triplet) :=
  match op b d t with
  | .error e => .error e
  | .ok l => .ok (l.map fun x => (x.1, x.2.1, x.2.2 * pauliFactor pauli t.letters))

/-- `_inplace_Op` of `spin_basis_general` for spin 1/2, `basis_general/spin.py:201-215`. -/
noncomputable def spinGeneral (pauli : ℤ) (b : IBasis) (v : Arr) (ts : List Term) (dtype : DType)
    (tr cj : Bool) (o : Option Arr) (order : ℕ → ℕ → List ℕ) : Except CallErr Res :=
  general b v (ts.map (spinTerm pauli)) dtype tr cj o order

end Model.InplaceCall
