/-!
Fixed-width unsigned machine integers (npy_uint32, npy_uint64, boost uintN_t, all "unchecked",
i.e. arithmetic modulo 2^w).  A word is a `Nat`; every operation reduces modulo `2^w` exactly
where the C++ type does.
-/
namespace Model.Word

/-- unsigned `a + b` in a `w`-bit type -/
def add (w a b : Nat) : Nat := (a + b) % 2 ^ w
/-- unsigned `a - b` in a `w`-bit type (wraps) -/
def sub (w a b : Nat) : Nat := (a + (2 ^ w - b % 2 ^ w)) % 2 ^ w
/-- unsigned `a * b` in a `w`-bit type -/
def mul (w a b : Nat) : Nat := (a * b) % 2 ^ w
/-- `~(T)0` -/
def ones (w : Nat) : Nat := 2 ^ w - 1
/-- `a << k` in a `w`-bit type (bits shifted out are lost) -/
def shl (w a k : Nat) : Nat := (a <<< k) % 2 ^ w

end Model.Word
