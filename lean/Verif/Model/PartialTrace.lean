import Mathlib.Data.Complex.Basic
import Mathlib.Data.List.Sort
import Mathlib.Algebra.BigOperators.Fin
import Mathlib.Algebra.BigOperators.Group.List.Basic

/-!
Model of the partial traces of lattice bases: quspin/basis/_reshape_subsys.py, quspin/basis/_basis_utils.pyx and
quspin/basis/_basis_utils/shuffle_sites.h (the state already is one of the full basis, see C18 for `project_from`).

An array is a function of the place in its C-ordered memory.  Simplifications: one state, no further axes; exact complex numbers; integers are
unbounded.  The sites of the second subsystem come as a list: the code takes the order in which Python walks through the set
`set(range(L))-set(sub_sys_A)`, which is no part of this repository.
-/

namespace Model.PartialTrace

/-- The place of the entry with the given indices in an array of this shape (C order), as numpy computes it. -/
def flat : List ℕ → List ℕ → ℕ
  | _ :: ds, i :: is => i * ds.prod + flat ds is
  | _, _ => 0

/-- The indices of the entry at a place of an array of this shape. -/
def unflat : List ℕ → ℕ → List ℕ
  | [], _ => []
  | d :: ds, m => m / ds.prod % d :: unflat ds m

/-- `A.reshape(R).transpose(T).reshape(-1)`: the axis `k` of the result is the axis `T[k]` of `A`. -/
def transpose {α : Type} (R T : List ℕ) (A : ℕ → α) (m : ℕ) : α :=
  let j := unflat (T.map fun t => R.getD t 0) m
  A (flat R ((List.range R.length).map fun t => j.getD (T.idxOf t) 0))

/-- The entries from the front that count up (_basis_utils.pyx:79-84), starting after the entry `a`. -/
def countUp : ℕ → List ℕ → List ℕ
  | _, [] => []
  | a, b :: l => if a + 1 = b then b :: countUp b l else []

/-- `sub_lists` in `_reduce_transpose` (_basis_utils.pyx:75-89); every pass removes an entry, so there are at most `fuel = len(T_tup)` of
them. -/
def groups : ℕ → List ℕ → List (List ℕ)
  | 0, _ => []
  | _, [] => []
  | fuel + 1, a :: l =>
    let sub := a :: countUp a l
    sub :: groups fuel (sub.foldl List.erase (a :: l))

/-- `_reduce_transpose(T_tup, sps)` (_basis_utils.pyx:62-101). -/
def reduce (T : List ℕ) (sps : ℕ) : List ℕ × List ℕ :=
  let sub := groups T.length T
  let sorted := sub.insertionSort fun x y => x.headD 0 ≤ y.headD 0
  (sub.map fun g => sorted.idxOf g, sorted.map fun g => sps ^ g.length)

/-- The strides of a C-ordered array (shuffle_sites.h:25-28, 34-37). -/
def strides : List ℕ → List ℕ
  | [] => []
  | _ :: ds => ds.prod :: strides ds

/-- Where `shuffle_sites_strid` puts the entry `i` (shuffle_sites.h:41-44). -/
def target (R T : List ℕ) (i : ℕ) : ℕ :=
  let shapeT := T.map fun t => R.getD t 0
  let stridesT := strides shapeT
  let stridesA := T.map fun t => (strides R).getD t 0
  (List.range T.length).foldl (fun j k => j + i / stridesA.getD k 0 % shapeT.getD k 0 * stridesT.getD k 0) 0

/-- `shuffle_sites_strid`, one row with `n` entries: all entries are written one after the other (shuffle_sites.h:39-46) into the array of
zeros of `_shuffle_sites` (_basis_utils.pyx:123). -/
def core {α : Type} [Zero α] (R T : List ℕ) (n : ℕ) (A : ℕ → α) : ℕ → α :=
  (List.range n).foldl (fun AT i => Function.update AT (target R T i) (A i)) fun _ => 0

/-- `_shuffle_sites(sps, T_tup, A)` for an array with `n` entries (_basis_utils.pyx:104-129); `none` is a `ValueError`, from `reshape` or for
more than 64 dimensions. -/
def shuffle {α : Type} [Zero α] (sps : ℕ) (T : List ℕ) (n : ℕ) (A : ℕ → α) : Option (ℕ → α) :=
  let r := reduce T sps
  if r.1.length > 1 then
    if r.1.length < 32 then
      if r.2.prod = n then some (transpose r.2 r.1 A) else none
    else if r.1.length > 64 then none
    else some (core r.2 r.1 n A)
  else some A

/-- `_lattice_reshape_pure(psi, sub_sys_A, L, sps)` with `Ns` amplitudes (_reshape_subsys.py:58-78). -/
def reshapePure {α : Type} [Zero α] (sps : ℕ) (A B : List ℕ) (Ns : ℕ) (psi : ℕ → α) : Option (ℕ → ℕ → α) :=
  (shuffle sps (A ++ B) Ns psi).bind fun v =>
    if sps ^ A.length * sps ^ B.length = Ns then some fun i j => v (i * sps ^ B.length + j) else none

/-- `_lattice_partial_trace_pure(.., return_rdm="both")` (_reshape_subsys.py:14-28); with "A" or "B" only one of the two is computed. -/
noncomputable def tracePure (sps : ℕ) (A B : List ℕ) (Ns : ℕ) (psi : ℕ → ℂ) : Option ((ℕ → ℕ → ℂ) × (ℕ → ℕ → ℂ)) :=
  (reshapePure sps A B Ns psi).map fun v =>
    (fun i k => ∑ j ∈ Finset.range (sps ^ B.length), v i j * star (v k j),
      fun i k => ∑ j ∈ Finset.range (sps ^ A.length), star (v j i) * v j k)

/-- `_lattice_reshape_mixed(rho, sub_sys_A, L, sps)` with `Ns` rows and columns (_reshape_subsys.py:107-135). -/
def reshapeMixed {α : Type} [Zero α] (sps L : ℕ) (A B : List ℕ) (Ns : ℕ) (rho : ℕ → ℕ → α) : Option (ℕ → ℕ → ℕ → ℕ → α) :=
  (shuffle sps ((A ++ B) ++ (A ++ B).map fun s => L + s) (Ns * Ns) fun m => rho (m / Ns) (m % Ns)).bind fun v =>
    if sps ^ A.length * sps ^ B.length * (sps ^ A.length * sps ^ B.length) = Ns * Ns then
      some fun i j k l => v (((i * sps ^ B.length + j) * sps ^ A.length + k) * sps ^ B.length + l)
    else none

/-- `_lattice_partial_trace_mixed(.., return_rdm="both")` (_reshape_subsys.py:30-41). -/
noncomputable def traceMixed (sps L : ℕ) (A B : List ℕ) (Ns : ℕ) (rho : ℕ → ℕ → ℂ) : Option ((ℕ → ℕ → ℂ) × (ℕ → ℕ → ℂ)) :=
  (reshapeMixed sps L A B Ns rho).map fun v =>
    (fun j k => ∑ l ∈ Finset.range (sps ^ B.length), v j l k l,
      fun j k => ∑ l ∈ Finset.range (sps ^ A.length), star (v l j l k))

/-- The new place of an entry of a sparse state (_reshape_subsys.py:194-199). -/
def sparseIndex (sps L : ℕ) (T : List ℕ) (col : ℕ) : ℕ :=
  if T ≠ List.range L then
    (T.zipIdx.foldl (fun acc p => acc + col / sps ^ (L - p.1 - 1) % sps * sps ^ (L - p.2 - 1)) 0)
  else col

/-- `_lattice_reshape_sparse_pure(psi, sub_sys_A, L, sps)` (_reshape_subsys.py:172-214): the stored entries `(col, value)` become entries
`(row, col, value)`; `quotient` is the division `indx / Ns_B` of numpy together with the conversion to an integer. -/
def reshapeSparse {α : Type} (quotient : ℕ → ℕ → ℕ) (sps L : ℕ) (A B : List ℕ) (psi : List (ℕ × α)) : List (ℕ × ℕ × α) :=
  psi.map fun e =>
    let indx := sparseIndex sps L (A ++ B) e.1
    (quotient indx (sps ^ B.length), indx % sps ^ B.length, e.2)

/-- `_lattice_partial_trace_sparse_pure(.., return_rdm="both")` (_reshape_subsys.py:43-55): equal places are added up by `tocsr`. -/
noncomputable def traceSparse (quotient : ℕ → ℕ → ℕ) (sps L : ℕ) (A B : List ℕ) (psi : List (ℕ × ℂ)) : (ℕ → ℕ → ℂ) × (ℕ → ℕ → ℂ) :=
  let v : ℕ → ℕ → ℂ := fun i j => (((reshapeSparse quotient sps L A B psi).filter fun e => e.1 = i ∧ e.2.1 = j).map fun e => e.2.2).sum
  (fun i k => ∑ j ∈ Finset.range (sps ^ B.length), v i j * star (v k j),
    fun i k => ∑ j ∈ Finset.range (sps ^ A.length), star (v j i) * v j k)

/-- The nearest double precision number, ties to even, of a natural number. -/
def toDouble (n : ℕ) : ℕ :=
  let u := 2 ^ (Nat.log2 n - 52)
  let q := n / u
  let r := n % u
  (if u < 2 * r ∨ (u = 2 * r ∧ q % 2 = 1) then q + 1 else q) * u

/-- `psi.row[:] = indx / Ns_B` (_reshape_subsys.py:210) if `Ns_B` is a power of two: the division of double precision numbers by it is exact,
the conversion of `indx` is not; then the fraction is dropped. -/
def doubleQuotient (a b : ℕ) : ℕ := toDouble a / b

end Model.PartialTrace
