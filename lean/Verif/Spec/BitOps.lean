import Mathlib.Data.Nat.Notation
import Mathlib.Algebra.BigOperators.Group.Finset.Basic

/-!
# What the bitwise functions of `quspin.basis` promise

`bitwise_not/and/or/xor/leftshift/rightshift` are documented as the element-wise operations `~x`, `x1 & x2`, `x1 | x2`,
`x1 ^ x2`, `x1 << x2`, `x1 >> x2` of unsigned integers of a fixed width, on the elements selected by `where`.
-/
namespace Spec.BitOps

/-- The six functions. -/
inductive Kind
  | not | and | or | xor | shl | shr
deriving DecidableEq, Repr

/-- `r` is the result of the operation on the `w`-bit unsigned integers `a` and `b` (for shifts `b` is the number of
places; `not` has no second argument). -/
def Result (w : ℕ) : Kind → ℕ → ℕ → ℕ → Prop
  | .not, a, _, r => r < 2 ^ w ∧ ∀ j < w, r.testBit j = !a.testBit j
  | .and, a, b, r => ∀ j, r.testBit j = (a.testBit j && b.testBit j)
  | .or, a, b, r => ∀ j, r.testBit j = (a.testBit j || b.testBit j)
  | .xor, a, b, r => ∀ j, r.testBit j = (a.testBit j ^^ b.testBit j)
  | .shl, a, b, r => r = a * 2 ^ b % 2 ^ w
  | .shr, a, b, r => r = a / 2 ^ b

/-- The unsigned integer of `k` bytes at address `a`, lowest byte first. -/
def intAt (k : ℕ) (m : ℕ → ℕ) (a : ℕ) : ℕ := ∑ j ∈ Finset.range k, m (a + j) * 256 ^ j

/-- The `la` bytes from `a` and the `lb` bytes from `b` have no byte in common. -/
def Apart (a la b lb : ℕ) : Prop := a + la ≤ b ∨ b + lb ≤ a

end Spec.BitOps
