import Verif.Model.ChainOp
import Verif.Model.Boson
import Verif.Model.Spinful
/-!
One-dimensional bases without symmetry blocks: `basis_1d/_basis_1d_core/{hcp,boson,spf}_basis.pyx` with their sources, and
`basis_1d/base_1d.py`.
-/
namespace Model.Chain
open Word

/-- `np.result_type(np.min_scalar_type(s_max), np.uint32)`, e.g. `_basis_1d_core/hcp_basis.pyx:53-54,62-63`: the width of the integer type,
`none` for Python integers. -/
def typeFor (smax : ℕ) : Option ℕ := if smax < 2 ^ 32 then some 32 else if smax < 2 ^ 64 then some 64 else none

/-- `get_basis_type`, `_basis_1d_core/hcp_basis.pyx:49-63`, `_basis_1d_core/boson_basis.pyx:49-63`.  `s_max` for a list of particle numbers is that of the
largest one (`max([])` raises an error: `none`). -/
def basisType (L sps : ℕ) (Np : Option (List ℕ)) : Option (Option ℕ) :=
  match Np with
  | none => some (typeFor (bosonSMax L sps none))
  | some [] => none
  | some (k :: ks) => some (typeFor (bosonSMax L sps (some (ks.foldl max k))))

/-- `get_basis_type`, `_basis_1d_core/spf_basis.pyx:48-72`, for `sps = 2`. -/
def basisTypeSpf (L : ℕ) (Np : Option (List (ℕ × ℕ))) : Option (Option ℕ) :=
  match Np with
  | none => some (typeFor (2 ^ L - 1))
  | some [] => none
  | some (p :: ps) =>
    let left := bosonSMax L 2 (some ((ps.map (·.1)).foldl max p.1))
    let right := bosonSMax L 2 (some ((ps.map (·.2)).foldl max p.2))
    some (typeFor (left <<< L + right))

/-- The width of the arithmetic: Python integers behave as words of any width that holds all intermediate results, here
`wide` bits. -/
def widthOf (t : Option ℕ) (wide : ℕ) : ℕ := t.getD wide

/-- `get_state(L,Nup)` and `n_basis` for one particle number, `sources/hcp_basis.pyx:3-12,24-40`. -/
def sectorHcp (w L k : ℕ) : List ℕ := visited (nextStatePcon w) (L.choose k) (s0Pcon k)

/-- The loops of `next_state_pcon_boson`, `sources/boson_next_state.pyx:26-51`; without a move the function ends without a
return statement (result 0). -/
def boson1dScan (w sps : ℕ) : (cnt i n s : ℕ) → ℕ
  | 0, _, _, _ => 0
  | cnt + 1, i, n, s =>
    let b1 := digitM w sps s i
    if b1 > 0 then
      let n := n + b1
      let b2 := digitM w sps s (i + 1)
      if b2 < sps - 1 then
        let n := n - 1
        let s := sub w s (powM w sps i)
        let s := add w s (powM w sps (i + 1))
        if n > 0 then redistribute w sps (n / (sps - 1)) (n % (sps - 1)) (i + 1) 0 s
        else s
      else boson1dScan w sps cnt (i + 1) n s
    else boson1dScan w sps cnt (i + 1) n s

/-- `next_state_pcon_boson`, `sources/boson_next_state.pyx:5-51`. -/
def boson1dNext (w sps L s : ℕ) : ℕ := boson1dScan w sps (L - 1) 0 0 s

/-- `get_state(L,sps,Nb)` and `n_basis` for one particle number, `sources/boson_basis.pyx:4-15,27-41`. -/
def sectorBoson (w sps L k : ℕ) : List ℕ :=
  visited (boson1dNext w sps L) (hDim k L (sps - 1)).toNat (bosonS0 sps k % 2 ^ w)

/-- `next_state_pcon_spf`, `sources/spf_next_state.pyx:14-28`; `maxR`, `minR` are `pars[2]`, `pars[3]`. -/
def spf1dNext (w L maxR minR v : ℕ) : ℕ :=
  let right := v &&& (2 ^ L - 1)
  let left := v >>> L
  if right < maxR then combState w L left (nextStatePcon w right)
  else combState w L (nextStatePcon w left) minR

/-- `CheckState_nosymm`, `sources/spf_basis.pyx:18-25`. -/
def spfAllowed (L : ℕ) (double : Bool) (s : ℕ) : Bool :=
  if double = false then (s &&& (2 ^ L - 1)) &&& (s >>> L) == 0 else true

/-- `sum(1 << (L-i-1) for i in range(N_right))`, `sources/spf_basis.pyx:41`. -/
def spfMaxRight (L d : ℕ) : ℕ := ((List.range d).map fun (i : ℕ) => 1 <<< (L - i - 1)).sum

/-- `get_state(L,Ntup)` and `n_basis` for one pair of particle numbers, `sources/spf_basis.pyx:3-16,34-50`. -/
def sectorSpf (w L : ℕ) (double : Bool) (p : ℕ × ℕ) : List ℕ :=
  (visited (spf1dNext w L (spfMaxRight L p.2) (s0Pcon p.2)) (L.choose p.1 * L.choose p.2) (spinfulS0 L p)).filter (spfAllowed L double)

/-- `next_state_inc_1`, e.g. `sources/hcp_next_state.pyx`, in the type of the basis. -/
def inc1 (w s : ℕ) : ℕ := add w s 1

/-- The arrays of `base_1d.py:412-422,474-483` for a basis without blocks: the states of the sectors are written one after the
other to an array of `alloc` entries, whose other entries (`junk`) are uninitialised.  One sector (or no particle conservation):
`basis[Ns-1::-1]`, which is the whole array for `Ns = 0`; several: sorted in decreasing order.  `none`: written beyond the end. -/
def plainBasis (sort : List ℕ → List ℕ) (junk : ℕ → ℕ) (alloc : ℕ) (sectors : List (List ℕ)) : Option (List ℕ) :=
  let states := sectors.flatten
  if alloc < states.length then none
  else if sectors.length = 1 then
    if states.length = 0 then some ((List.range alloc).map junk).reverse else some states.reverse
  else some (sort states)

/-- `n_op_template`, `sources/op_templates.pyx:24-49`, for column `i`; an element without row (`NaN`) or equal to zero is removed
in `_Op`, `base_1d.py:583-590`: empty column. -/
noncomputable def columnNumber (basis : List ℕ) (op : ℕ → Option (ℕ × ℂ)) (i : ℕ) : Option (Option (ℕ × ℂ)) :=
  match basis[i]? with
  | none => none
  | some s =>
    match op s with
    | none => none
    | some (r, m) =>
      match (if r ≠ s then findZState basis r 0 ((basis.length : Int) - 1) else some (some i)) with
      | none => none
      | some none => some none
      | some (some j) => some (some (j, m))

/-- `op_template`, `sources/op_templates.pyx:4-20`, used for bases without particle numbers (`base_1d.py:412-416`): the row is
`Ns - row[i] - 1` in the type of the basis.  A row outside of the matrix makes the construction of the sparse matrix raise an error,
`base.py:239`: `none`; elements equal to zero are removed before. -/
noncomputable def columnFull (t : Option ℕ) (basis : List ℕ) (op : ℕ → Option (ℕ × ℂ)) (i : ℕ) : Option (Option (ℕ × ℂ)) :=
  match basis[i]? with
  | none => none
  | some s =>
    match op s with
    | none => none
    | some (r, m) =>
      let row : Int := (basis.length : Int) - (r : Int) - 1
      let row : Int := match t with
        | none => row
        | some w => row % 2 ^ w
      open Classical in
      if m = 0 then some none
      else if 0 ≤ row ∧ row < basis.length then some (some (row.toNat, m)) else none

end Model.Chain
