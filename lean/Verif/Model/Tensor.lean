import Mathlib.Analysis.Real.Sqrt
import Mathlib.Data.Complex.Basic
import Mathlib.Data.Int.Bitwise

/-!
Model of tensor bases (quspin/basis/tensor.py), of the oscillator basis and of photon bases with a conserved total number
(quspin/basis/photon.py).

Simplifications: exact numbers; the data type is complex, so that no coupling is rejected and square roots of negative numbers are imaginary
(for a real type they are NaN).  Arrays are lists of `(element, row, column)`.  Characters outside of the ones a basis knows and all other
exceptions are `none`.
-/

namespace Model.Tensor

/-- Bits of the signed type `numpy.min_scalar_type(-Ns)` (tensor.py:88, photon.py:888); `none` is the type `object` of unbounded integers. -/
def width (Ns : ℕ) : Option ℕ :=
  if Ns ≤ 2 ^ 7 then some 8 else if Ns ≤ 2 ^ 15 then some 16 else if Ns ≤ 2 ^ 31 then some 32 else if Ns ≤ 2 ^ 63 then some 64 else none

/-- A number stored with this type: two's complement. -/
def store (Ns : ℕ) (x : ℤ) : ℤ := (width Ns).elim x fun w => Int.bmod x (2 ^ w)

/-- What a basis offers: its size, `Op(opstr, indx, J, dtype)` and `index(*states)`. -/
structure Basis where
  Ns : ℕ
  op : List Char → List ℕ → ℂ → Option (List (ℂ × ℤ × ℤ))
  index : List ℕ → Option ℤ

/-- `tensor_basis.Op` (tensor.py:120-207). -/
def op (left right : Basis) (opstr : List Char) (indx : List ℕ) (J : ℂ) : Option (List (ℂ × ℤ × ℤ)) :=
  if opstr.length - opstr.count '|' ≠ indx.length then none
  else if '|' ∉ opstr then none
  else
    let i := opstr.idxOf '|'
    let first := left.op (opstr.take i) (indx.take i) (if left.Ns < right.Ns then J else 1)
    let second := right.op (opstr.drop (i + 1)) (indx.drop i) (if left.Ns < right.Ns then 1 else J)
    first.bind fun l => second.map fun r =>
      let st := store (left.Ns * right.Ns)
      l.flatMap fun x => r.map fun y =>
        (x.1 * y.1, st (st (st x.2.1 * right.Ns) + st y.2.1), st (st (st x.2.2 * right.Ns) + st y.2.2))

/-- `tensor_basis.index` (tensor.py:209-240). -/
def index (left right : Basis) : List ℕ → Option ℤ
  | s :: t :: states => (left.index [s]).bind fun a => (right.index (t :: states)).map fun b => b + right.Ns * a
  | _ => none

/-- `tensor_basis(left, right)` (tensor.py:53-97). -/
def two (left right : Basis) : Basis := ⟨left.Ns * right.Ns, op left right, index left right⟩

/-- `tensor_basis(first, *rest)`: more than two factors are nested to the right (tensor.py:81-85). -/
def many : Basis → List Basis → Basis
  | b, [] => b
  | b, c :: bs => two b (many c bs)

/-! ### The oscillator -/

/-- `numpy.abs` of a stored number: the most negative number has no positive counterpart. -/
def absolute (Ns : ℕ) (x : ℤ) : ℤ := store Ns |x|

/-- `numpy.sqrt` of an integer converted to a complex number. -/
noncomputable def sqrt (x : ℤ) : ℂ := if 0 ≤ x then (Real.sqrt (x : ℝ) : ℂ) else Complex.I * (Real.sqrt (-x : ℝ) : ℂ)

/-- One symbol (photon.py:1003-1014), for one column: the element so far and the level reached. -/
noncomputable def symbol (Ns : ℕ) (o : Char) (p : ℂ × ℤ) : Option (ℂ × ℤ) :=
  if o = 'I' then some p
  else if o = 'n' then some (p.1 * absolute Ns p.2, p.2)
  else if o = '+' then some (p.1 * sqrt (absolute Ns (store Ns (p.2 + 1))), store Ns (p.2 + 1))
  else if o = '-' then some (p.1 * sqrt (absolute Ns p.2), store Ns (p.2 - 1))
  else none

/-- The loop over the reversed string (photon.py:1002). -/
noncomputable def symbols (Ns : ℕ) : List Char → ℂ × ℤ → Option (ℂ × ℤ)
  | [], p => some p
  | o :: os, p => (symbols Ns os p).bind (symbol Ns o)

/-- One column of `ho_basis.Op` (photon.py:992-1025): levels outside are masked. -/
noncomputable def column (Ns : ℕ) (opstr : List Char) (J : ℂ) (c : ℕ) : Option (ℂ × ℤ × ℤ) :=
  (symbols Ns opstr (1, store Ns c)).map fun p =>
    if p.2 < 0 ∨ (Ns : ℤ) ≤ p.2 then (0 * J, store Ns c, store Ns c) else (p.1 * J, p.2, store Ns c)

/-- `ho_basis(Np).Op` (photon.py:990-1025). -/
noncomputable def hoOp (Np : ℕ) (opstr : List Char) (indx : List ℕ) (J : ℂ) : Option (List (ℂ × ℤ × ℤ)) :=
  if opstr.length ≠ indx.length then none else (List.range (Np + 1)).mapM (column (Np + 1) opstr J)

/-- `ho_basis.index`: `numpy.searchsorted(arange(Ns), s)` (photon.py:935-936). -/
def hoIndex (Np : ℕ) : List ℕ → Option ℤ
  | [s] => some (min s (Np + 1))
  | _ => none

/-- `ho_basis(Np)` (photon.py:880-897). -/
noncomputable def ho (Np : ℕ) : Basis := ⟨Np + 1, hoOp Np, hoIndex Np⟩

/-! ### Conserved total number -/

/-- `self._n`, the photon numbers: computed in the eight bits of `_Np_list` (photon.py:168-170, basis_1d/base_1d.py:138), with the casting
rules of numpy before version 2. -/
def photons (Ntot : ℕ) (Np : List ℕ) : List ℤ := Np.map fun (p : ℕ) => Int.bmod (Int.bmod ((p : ℤ) - Ntot) (2 ^ 8) * -1) (2 ^ 8)

/-- Indexing of an array: negative indices count from the end; `none` is an `IndexError`. -/
def item {α : Type} (l : List α) (k : ℤ) : Option α :=
  if 0 ≤ k then l[k.toNat]? else if 0 ≤ k + l.length then l[(k + l.length).toNat]? else none

/-- `photon_basis.Op` with a conserved total number (photon.py:262-308); also the list `indx` of the caller afterwards. -/
noncomputable def photonOp (left : Basis) (n : List ℤ) (Ntot : ℕ) (opstr : List Char) (indx : List ℕ) (J : ℂ) :
    Option (List (ℂ × ℤ × ℤ)) × List ℕ :=
  if left.Ns = 0 then (some [], indx)
  else if opstr.count '|' ≠ 1 then (none, indx)
  else
    let i := opstr.idxOf '|'
    let opstr1 := opstr.take i
    let opstr2 := opstr.drop (i + 1)
    if opstr1.length ≠ indx.length then (none, indx)
    else
      let indx' := indx ++ List.replicate (opstr.length - 1 - indx.length) 0
      ((hoOp Ntot opstr2 (indx'.drop i) 1).bind fun ph => (left.op opstr1 (indx'.take i) J).bind fun l =>
        (l.mapM fun t => (item n t.2.2).bind fun k => (item ph k).map fun e => (t.1 * e.1, t.2.1, t.2.2)).map fun l' =>
          haveI := Classical.decEq ℂ
          l'.filter fun t => t.1 ≠ 0, indx')

end Model.Tensor
