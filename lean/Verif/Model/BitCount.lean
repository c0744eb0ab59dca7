import Verif.Model.Word
namespace Model
open Word

/-- `bit_count<T>(v,l)`, `basis_general/_basis_general_core/source/bits_info.h:119-128`, for an
unsigned type of `B` bytes (`bits = 8*B`).  The shift amount `bits - 1 - l` is negative when
`l ≥ bits`, which is undefined behaviour for the built-in types: modelled as `none`. -/
def bitCount (B v l : Nat) : Option Nat :=
  let w := 8 * B
  if l < w then
    let v := v &&& ((ones w >>> 1) >>> (w - 1 - l))                             -- line 121
    let v := sub w v ((v >>> 1) &&& (ones w / 3))                               -- line 122
    let v := add w (v &&& mul w (ones w / 15) 3) ((v >>> 2) &&& mul w (ones w / 15) 3)  -- line 123
    let v := (add w v (v >>> 4)) &&& mul w (ones w / 255) 15                    -- line 124
    some (mul w v (ones w / 255) >>> ((B - 1) * 8))                             -- lines 125-126
  else none

end Model
