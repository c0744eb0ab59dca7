import Verif.Model.Lookup
/-!
Conversion between integer states and strings of occupations, `basis_general/base_general.py:208-236`
(`int_to_state` of the one-dimensional bases has the same text, `basis_1d/base_1d.py:523-543`; their `index` is in
`Verif.Model.ChainIndex`).  Strings are lists of characters.
-/
namespace Model

/-- `str(n)` for a non-negative python integer. -/
def pyStr (n : Nat) : List Char := Nat.toDigits 10 n

/-- `("{:"+str(width)+"d}").format(d)`: decimal, padded with spaces on the left. -/
def padded (width d : Nat) : List Char := List.replicate (width - (pyStr d).length) ' ' ++ pyStr d

/-- `" ".join(l)`. -/
def joinSpace : List (List Char) → List Char
  | [] => []
  | [a] => a
  | a :: b :: l => a ++ ' ' :: joinSpace (b :: l)

/-- `state//int(sps**(N-i-1))%sps`, `base_general.py:213,216,217`. -/
def siteValue (sps N state i : Nat) : Nat := state / sps ^ (N - i - 1) % sps

/-- The string `s_str`, `base_general.py:211-222`. -/
def siteString (sps N state : Nat) : List Char :=
  let width := (pyStr sps).length
  if N ≤ 64 then joinSpace ((List.range N).map fun i => padded width (siteValue sps N state i))
  else
    joinSpace (((List.range 32).map fun i => padded width (siteValue sps N state i)) ++ [['.', '.', '.']]
      ++ ((List.range 32).map fun i => padded width (siteValue sps N state (N - 32 + i))))

/-- `_int_to_state`, `base_general.py:208-227` and `base_1d.py:523-543`, called by `int_to_state`, `lattice.py:54-81`. -/
def intToState (sps N state : Nat) (bracket : Bool) : List Char :=
  if bracket then '|' :: siteString sps N state ++ ['>']
  else (siteString sps N state).filter (· ≠ ' ')

/-- Value of a character in python's `int(text, base)`; `none`: not a digit. -/
def charValue (c : Char) : Option Nat :=
  if 48 ≤ c.toNat ∧ c.toNat ≤ 57 then some (c.toNat - 48)
  else if 97 ≤ c.toNat ∧ c.toNat ≤ 122 then some (c.toNat - 87)
  else if 65 ≤ c.toNat ∧ c.toNat ≤ 90 then some (c.toNat - 55)
  else none

/-- One step of `int(text, base)`. -/
def parseDigit (base : Nat) (acc : Option Nat) (c : Char) : Option Nat :=
  match acc, charValue c with
  | some a, some d => if d < base then some (a * base + d) else none
  | _, _ => none

/-- Python's `int(text, base)`, called at `base_general.py:234`; `none`: `ValueError`.  Simplified: signs,
underscores, surrounding spaces and the prefixes `0b`, `0o`, `0x`, which python tolerates, are rejected. -/
def parseInt (base : Nat) (text : List Char) : Option Nat :=
  if base < 2 ∨ 36 < base ∨ text = [] then none else text.foldl (parseDigit base) (some 0)

/-- `state_to_int(text)`, `base_general.py:229-236`: the basis entry at the index of the integer the
text denotes.  `none`: exception or undefined. -/
def stateToInt (w : Nat) (wide : Bool) (A : List Nat) (sps : Nat) (text : List Char) : Option Nat :=
  match parseInt sps text with
  | none => none
  | some v => match getBasisIndex w wide A v with
    | .found i => A[i]?
    | _ => none

end Model
