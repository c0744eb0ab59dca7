/-!
Looking up states in a basis array: `basis_general/_basis_general_core/source/misc.h`,
`make_general_basis.h:31-75`, `general_basis_utils.pyx:172-209`,
`basis_1d/_basis_1d_core/sources/refstate.pyx:6-25`.
-/
namespace Model

/-- `std::lower_bound(A+first, A+first+len, s, comp)` with `comp(a,b) = a > b`
(`misc.h:33-36,52,62`), as the standard library implements it (halving `len`).  `none`: read outside
the array. -/
def lowerBound (A : List Nat) (s : Nat) (first len : Nat) : Option Nat :=
  if _h : len = 0 then some first
  else
    let half := len / 2
    let mid := first + half
    match A[mid]? with
    | none => none
    | some a => if a > s then lowerBound A s (mid + 1) (len - half - 1) else lowerBound A s first half
termination_by len
decreasing_by all_goals omega

/-- End of both `rep_position` functions, `misc.h:53,63`:
`(!(a==A_end) && !comp(s,*a)) ? a-A : -1`. -/
def acceptPosition (A : List Nat) (s stop a : Nat) : Option Int :=
  if a = stop then some (-1)
  else match A[a]? with
    | none => none
    | some v => if ¬ s > v then some (a : Int) else some (-1)

/-- `rep_position(N_A, A, s)`, `misc.h:58-64`.  `none`: read outside the array. -/
def repPosition (A : List Nat) (s : Nat) : Option Int :=
  (lowerBound A s 0 A.length).bind (acceptPosition A s A.length)

/-- The arrays `basis_begin`, `basis_end` (lists of equal length), initially all -1:
`general_basis_core.pyx:770-771`. -/
abbrev Blocks := List (Int × Int)

/-- `rep_position(A_begin, A_end, A, s_p, s)`, `misc.h:40-55`.  `none`: read outside an array. -/
def repPositionBlocks (blocks : Blocks) (A : List Nat) (sp : Int) (s : Nat) : Option Int :=
  if sp < 0 then none
  else match blocks[sp.toNat]? with
    | none => none
    | some (b, e) =>
      if b < 0 then some (-1)
      else if e < b then none
      else (lowerBound A s b.toNat (e.toNat - b.toNat)).bind (acceptPosition A s e.toNat)

/-- Writes of one block, `make_general_basis.h:60-61,68-69`; `none`: write outside the arrays. -/
def setBlock (blocks : Blocks) (sp : Int) (b e : Nat) : Option Blocks :=
  if 0 ≤ sp ∧ sp.toNat < blocks.length then some (blocks.set sp.toNat (b, e)) else none

/-- The loop of `general_make_basis_blocks`, `make_general_basis.h:51-66`; `sp` is the current
prefix.  Returns the arrays, `s_p_next` (= the last prefix; equal to `sp` after each round), `begin`,
`end`; `none`: error return or write outside the arrays. -/
def blocksLoop (pfx : Nat → Int) : List Nat → Blocks → Int → Nat → Nat → Option (Blocks × Int × Nat × Nat)
  | [], blocks, sp, b, e => some (blocks, sp, b, e)
  | s :: rest, blocks, sp, b, e =>
    let spNext := pfx s
    if spNext < 0 then none
    else if spNext = sp then blocksLoop pfx rest blocks sp b (e + 1)
    else (setBlock blocks sp b e).bind fun blocks' => blocksLoop pfx rest blocks' spNext e (e + 1)

/-- `general_make_basis_blocks`, `make_general_basis.h:31-72`, for `N_p > 0` (it is not called
otherwise, `base_general.py:829`).  `size` is `sps**N_p`.  An empty basis reads `basis[0]` outside
the array. -/
def makeBlocks (pfx : Nat → Int) (size : Nat) (basis : List Nat) : Option Blocks :=
  match basis with
  | [] => none
  | s0 :: _ =>
    if pfx s0 < 0 then none
    else (blocksLoop pfx basis (List.replicate size (-1, -1)) (pfx s0) 0 0).bind
      fun (blocks, sp, b, e) => setBlock blocks sp b e

/-- `integer_cast<npy_intp>`, `bits_info.h:20-29`: -1 if the value does not fit into 64 bits
(signed). -/
def integerCast (v : Nat) : Int := if v < 2 ^ 63 then v else -1

/-- `get_prefix`: `hcb_basis_core.h:74-76` (`sps = 2`: a shift by `N - N_p`),
`boson_basis_core.h:53-55`, `user_basis_core.h:70-77`. -/
def prefixOf (sps N Np s : Nat) : Int := integerCast (s / sps ^ (N - Np))

/-- `python_to_basis`, `general_basis_core.pxd:75-84`, for a non-negative python integer: one bit at
a time, shifted into place.  `w` is the width, `wide` tells the multi-precision types (shifting out
gives 0) from `uint32`, `uint64` (a shift by `w` or more is undefined: `none`). -/
def pythonToBasis (w : Nat) (wide : Bool) (v : Nat) (i val : Nat) : Option Nat :=
  if _h : v = 0 then some val
  else if i ≥ w then (if wide then pythonToBasis w wide (v / 2) (i + 1) val else none)
  else pythonToBasis w wide (v / 2) (i + 1) (val ^^^ ((v % 2) <<< i))
termination_by v
decreasing_by all_goals omega

/-- `search_array`, `general_basis_utils.pyx:172-182`. -/
def searchArray (A : List Nat) (v : Nat) (i : Nat) : Option Nat :=
  match A with
  | [] => none
  | a :: A => if a = v then some i else searchArray A v (i + 1)

/-- Outcome of `basis.index(s)`. -/
inductive IndexResult where
  | found (i : Nat)
  | valueError
  | undefined
deriving DecidableEq, Repr

/-- `_get_basis_index`, `general_basis_utils.pyx:184-209`, on a non-negative integer. -/
def getBasisIndex (w : Nat) (wide : Bool) (A : List Nat) (v : Nat) : IndexResult :=
  match pythonToBasis w wide v 0 0 with
  | none => .undefined
  | some val => match searchArray A val 0 with
    | some i => .found i
    | none => .valueError

/-- `findzstate`, `basis_1d/_basis_1d_core/sources/refstate.pyx:6-25`: `some (some b)` found at `b`,
`some none` not found, `none` read outside the array. -/
def findZState (A : List Nat) (s : Nat) (bmin bmax : Int) : Option (Option Nat) :=
  if _h : bmin ≤ bmax then
    let b := (bmin + bmax).tdiv 2
    if b < 0 then none
    else match A[b.toNat]? with
      | none => none
      | some a =>
        if a = s then some (some b.toNat)
        else if s < a then findZState A s (b + 1) bmax
        else findZState A s bmin (b - 1)
  else some none
termination_by (bmax + 1 - bmin).toNat
decreasing_by
  · have h1 : bmin + bmax = 2 * (bmin + bmax).tdiv 2 + (bmin + bmax).tmod 2 := (Int.mul_tdiv_add_tmod _ _).symm
    have _h2 : 0 ≤ (bmin + bmax).tdiv 2 := by omega
    have h3 : (bmin + bmax).tmod 2 < 2 := Int.tmod_lt_of_pos _ (by omega)
    have h4 : -2 < (bmin + bmax).tmod 2 := Int.lt_tmod_of_pos _ (by omega)
    omega
  · have h1 : bmin + bmax = 2 * (bmin + bmax).tdiv 2 + (bmin + bmax).tmod 2 := (Int.mul_tdiv_add_tmod _ _).symm
    have _h2 : 0 ≤ (bmin + bmax).tdiv 2 := by omega
    have h3 : (bmin + bmax).tmod 2 < 2 := Int.tmod_lt_of_pos _ (by omega)
    have h4 : -2 < (bmin + bmax).tmod 2 := Int.lt_tmod_of_pos _ (by omega)
    omega

end Model
