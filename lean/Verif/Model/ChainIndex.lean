import Verif.Model.StateStrings

/-!
# States and their places in one-dimensional bases

`index`, `state_to_int` and `int_to_state` of spins, bosons and spinless fermions on a chain, `/repo/quspin/basis/basis_1d/base_1d.py:523-561`.
`int_to_state` has the text of the general bases (`Model.intToState`); `index` has not: it converts its argument to a number in base ten before it looks at
its type, and it searches with `argwhere` instead of the core.
-/
namespace Model.ChainIndex

/-- The argument of `index`, `base_1d.py:549-554`: a python integer or a string.  Left out: floats. -/
inductive Arg
  | int (n : Int)
  | str (text : List Char)
  deriving DecidableEq

/-- What `np.squeeze` makes of the places, `base_1d.py:559`: a number of one place, an array of several. -/
inductive Found
  | one (i : Nat)
  | many (l : List Nat)
  deriving DecidableEq, Repr

/-- The lines that raise: `int(s)` or `int(s,self.sps)` (base_1d.py:549, 552), no place found (561), `int` of an array of several entries (546). -/
inductive Err
  | text
  | absent
  | several
  deriving DecidableEq, Repr

instance : DecidableEq (Except Err Found)
  | .ok a, .ok b => if h : a = b then isTrue (h ▸ rfl) else isFalse (by simpa using h)
  | .error a, .error b => if h : a = b then isTrue (h ▸ rfl) else isFalse (by simpa using h)
  | .ok _, .error _ => isFalse (by simp)
  | .error _, .ok _ => isFalse (by simp)

/-- The number looked for, `base_1d.py:549-554`: `int(s)` comes first and raises for strings that are no decimal numbers; a decimal number never equals a
string, so strings go on to `int(s,self.sps)`. -/
def wanted (sps : Nat) : Arg → Except Err Int
  | .int n => .ok n
  | .str text =>
    match parseInt 10 text with
    | none => .error .text
    | some _ =>
      match parseInt sps text with
      | none => .error .text
      | some v => .ok v

/-- `argwhere(self._basis == s)`, `base_1d.py:556`. -/
def places (rows : List Nat) (v : Int) : List Nat :=
  (List.range rows.length).filter fun i => rows[i]?.map Int.ofNat = some v

/-- `_index`, `base_1d.py:548-561`, called by `index`, `lattice.py:111-143`. -/
def index (sps : Nat) (rows : List Nat) (a : Arg) : Except Err Found :=
  match wanted sps a with
  | .error e => .error e
  | .ok v =>
    match places rows v with
    | [] => .error .absent
    | [i] => .ok (.one i)
    | l => .ok (.many l)

/-- `_state_to_int`, `base_1d.py:545-546`, called by `state_to_int`, `lattice.py:83-109`. -/
def stateToInt (sps : Nat) (rows : List Nat) (a : Arg) : Except Err Nat :=
  match index sps rows a with
  | .error e => .error e
  | .ok (.one i) => .ok (rows.getD i 0)
  | .ok (.many _) => .error .several

end Model.ChainIndex
