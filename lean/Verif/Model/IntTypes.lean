import Verif.Model.Boson
import Verif.Model.Lookup

/-!
# Integers of the general bases

`basis_int_to_python_int`, `python_int_to_basis_int`, `basis_zeros`, `basis_ones`, `get_basis_type` and the first lines of `_get_basis_index`
(`general_basis_utils.pyx:28-402`), with the loops they call (`general_basis_core.pxd:65-106`).

Simplifications.  An array is the list of the values of its elements.  `PyArray_GETPTR1(a,0)` is the address of the first element, also for arrays without
axes (the compiler drops the product with zero).  `_np.object`, which newer versions of numpy no longer have, is taken to be `object`.
-/
namespace Model.IntTypes

/-- The types of basis integers, `general_basis_utils.pyx:14-19`. -/
inductive BType where
  | u32 | u64 | u256 | u1024 | u4096 | u16384
deriving DecidableEq, Repr

/-- Number of bits, `general_basis_utils.pyx:14-19`. -/
def BType.width : BType → ℕ
  | .u32 => 32 | .u64 => 64 | .u256 => 256 | .u1024 => 1024 | .u4096 => 4096 | .u16384 => 16384

/-- The multi-precision integers of boost, `general_basis_utils.pyx:16-19`. -/
def BType.wide : BType → Bool
  | .u32 | .u64 => false
  | _ => true

/-- The data types the functions tell apart, `general_basis_utils.pyx:57-76, 133-166`. -/
inductive NType where
  | basis (b : BType) | i32 | i64 | object | other
deriving DecidableEq, Repr

/-- What is given to `basis_int_to_python_int`: a python integer, a numpy integer (or an array without axes), an array, or a list of python integers. -/
inductive Value where
  | py (n : ℤ)
  | scalar (t : NType) (n : ℤ)
  | array (t : NType) (l : List ℤ)
  | list (l : List ℤ)
deriving DecidableEq, Repr

/-- The exceptions, and reading outside of an array. -/
inductive Err where
  | value | type | overflow | outside
deriving DecidableEq, Repr

/-- What is returned: a new python integer, or the argument itself. -/
inductive Out where
  | int (n : ℕ)
  | same (v : Value)
deriving DecidableEq, Repr

/-- The type numpy gives to a python integer (`_np.atleast_1d`, `general_basis_utils.pyx:49`). -/
def typeOf (n : ℤ) : NType :=
  if -2 ^ 63 ≤ n ∧ n < 2 ^ 63 then .i64 else if 0 ≤ n ∧ n < 2 ^ 64 then .basis .u64 else .object

/-- `_np.atleast_1d(basis_int)`, `general_basis_utils.pyx:49`: type and elements.  For lists of more than one integer, which are refused before the type is
looked at, the type is left open; the empty list makes an array of floats. -/
def atleast1d : Value → NType × List ℤ
  | .py n => (typeOf n, [n])
  | .scalar t n => (t, [n])
  | .array t l => (t, l)
  | .list [n] => (typeOf n, [n])
  | .list l => (.other, l)

/-- `basis_to_python`, `general_basis_core.pxd:86-96`: one bit at a time. -/
def basisToPython (val i acc : ℕ) : ℕ :=
  if _h : val = 0 then acc else basisToPython (val / 2) (i + 1) (acc ^^^ ((val % 2) <<< i))
termination_by val
decreasing_by omega

/-- `basis_int_to_python_int`, `general_basis_utils.pyx:49-76`. -/
def toPython (v : Value) : Except Err Out :=
  let a := atleast1d v
  if a.2.length > 1 then .error .value
  else
    match a.1 with
    | .i32 | .i64 | .object => .ok (.same v)
    | .basis _ =>
      match a.2 with
      | [] => .error .outside
      | n :: _ => .ok (.int (basisToPython n.toNat 0 0))
    | .other => .error .value

/-- The type taken if none is given, `general_basis_utils.pyx:114-128`. -/
def narrowest (nbits : ℕ) : NType :=
  if nbits ≤ 32 then .basis .u32
  else if nbits ≤ 64 then .basis .u64
  else if nbits ≤ 256 then .basis .u256
  else if nbits ≤ 1024 then .basis .u1024
  else if nbits ≤ 4096 then .basis .u4096
  else if nbits ≤ 16384 then .basis .u16384
  else .object

/-- `python_int_to_basis_int` of a python integer, `general_basis_utils.pyx:104-168`.  The loop of lines 110-112 is `bitLength`, that of
`python_to_basis_inplace` (`general_basis_core.pxd:65-73`) is `pythonToBasis`. -/
def toBasis (n : ℤ) (dtype : Option NType) : Except Err Value :=
  if n < 0 then .error .value
  else
    let nbits := bitLength n.toNat n.toNat
    match dtype.getD (narrowest nbits) with
    | .object => .ok (.py n)
    | .basis b =>
      if nbits > b.width then .error .value
      else
        match pythonToBasis b.width b.wide n.toNat 0 0 with
        | none => .error .outside
        | some v => .ok (.scalar (.basis b) v)
    | _ => .error .value

/-- The loop of `set_zeros` and `set_ones`, `general_basis_core.pxd:98-106`: what is in memory after the first `k` steps. -/
def setAll (v : ℤ) : ℕ → List ℤ → List ℤ
  | 0, l => l
  | k + 1, l => (setAll v k l).set k v

/-- `basis_zeros`, `basis_ones` (`general_basis_utils.pyx:241-269`, `298-326`) with `v = 0` and `v = 1`: type and elements of an array of this shape. -/
def filled (v : ℤ) (shape : List ℕ) (dtype : NType) : Except Err (NType × List ℤ) :=
  match dtype with
  | .basis b => .ok (.basis b, setAll v shape.prod (List.replicate shape.prod 0))
  | _ => .error .type

/-- `python_to_basis` of any python integer for the multi-precision types, `general_basis_core.pxd:75-84`, with at most `fuel` rounds; `none`: the loop is
still running.  `>>` and `&` are those of two's complement. -/
def signedLoop (w : ℕ) : ℕ → ℤ → ℕ → ℕ → Option ℕ
  | 0, _, _, _ => none
  | fuel + 1, v, i, val =>
    if v = 0 then some val
    else signedLoop w fuel (v / 2) (i + 1) (if i < w then val ^^^ ((v % 2).toNat <<< i) else val)

/-- `_get_basis_index` of a python integer, `general_basis_utils.pyx:172-209`, with at most `fuel` rounds of the conversion: the place, if there is one. -/
def getIndex (w fuel : ℕ) (states : List ℕ) (v : ℤ) : Option (Except Err ℕ) :=
  (signedLoop w fuel v 0 0).map fun s =>
    match searchArray states s 0 with
    | some i => .ok i
    | none => .error .value

/-- `Np` of `get_basis_type`: None, an integer, a list, or something of another type (a numpy integer, say). -/
inductive NpArg where
  | none | int (k : ℕ) | list (l : List ℕ) | other
deriving DecidableEq, Repr

/-- `float(n)` of a python integer: 53 bits, ties to even; `none`: `OverflowError`. -/
def toFloat (n : ℕ) : Option ℕ :=
  if n < 2 ^ 53 then some n
  else
    let e := Nat.log2 n - 52
    let q := n / 2 ^ e
    let r := n % 2 ^ e
    let x := (if 2 ^ (e - 1) < r ∨ (r = 2 ^ (e - 1) ∧ q % 2 = 1) then q + 1 else q) * 2 ^ e
    if x < 2 ^ 1024 then some x else none

/-- `Np = max(list(Np))`, `general_basis_utils.pyx:355-359`. -/
def largest : NpArg → Except Err (Option ℕ)
  | .none => .ok none
  | .int k => .ok (some k)
  | .list [] => .error .value
  | .list (k :: l) => .ok (some (l.foldl max k))
  | .other => .error .value

/-- `s_max`, `general_basis_utils.pyx:366-379`: for a sector that is completely full the exponent of line 377 is `-1`, and the sum becomes a float. -/
def sMax (N sps : ℕ) (Np : Option ℕ) : Except Err ℕ :=
  match Np with
  | some k =>
    if k / (sps - 1) = N then
      match toFloat (bosonSMax N sps (some k)) with
      | Option.none => .error .overflow
      | some x => .ok x
    else .ok (bosonSMax N sps (some k))
  | Option.none => .ok (bosonSMax N sps Option.none)

/-- `get_basis_type`, `general_basis_utils.pyx:352-402`: the number of bits of the type. -/
def getType (N : ℕ) (Np : NpArg) (sps : ℕ) : Except Err ℕ :=
  match largest Np with
  | .error e => .error e
  | .ok k =>
    if (k.map fun k => decide (k > N * (sps - 1))).getD false then .error .value
    else if sps > 2 then
      match sMax N sps k with
      | .error e => .error e
      | .ok s => match widthFor (bitLength s s) with
        | Option.none => .error .value
        | some w => .ok w
    else if sps = 2 then
      match widthFor N with
      | Option.none => .error .value
      | some w => .ok w
    else .error .value

end Model.IntTypes
