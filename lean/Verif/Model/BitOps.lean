import Verif.Spec.BitOps

/-!
# The bitwise functions on arrays of basis integers

`bitwise_not/and/or/xor/leftshift/rightshift`, `general_basis_utils.pyx:411-1105`, and the loops they call,
`general_basis_bitops.h:50-176`.

Simplifications.  Memory is a function from addresses to bytes.  The integers of 256 and more bits are boost integers;
they are taken as plain words of their width, lowest byte first, and their extra length field is left out.  An element
is read or written in one step.  A strided `x` is replaced by a contiguous copy before anything else
(`_np.asarray(x,order='C')`, lines 451, 562), so that `x1` and `x2` are contiguous here.
-/
namespace Model.BitOps
open Spec.BitOps (Kind)

/-- The data types that matter: the six types of basis integers (`general_basis_utils.pyx:14-19`), the two further types
of shifts (`shift_type`, `general_basis_types.pxd:61-65`), and any other. -/
inductive DType
  | u8 | u16 | u32 | u64 | u256 | u1024 | u4096 | u16384 | other
deriving DecidableEq, Repr

/-- Bytes of an element, `general_basis_utils.pyx:14-19`. -/
def DType.bytes : DType → ℕ
  | .u8 => 1 | .u16 => 2 | .u32 => 4 | .u64 => 8 | .u256 => 32 | .u1024 => 128 | .u4096 => 512 | .u16384 => 2048
  | .other => 8

/-- `dtype in [uint32,uint64,uint256,uint1024,uint4096,uint16384]`, `general_basis_utils.pyx:473`. -/
def DType.isBasis : DType → Bool
  | .u32 | .u64 | .u256 | .u1024 | .u4096 | .u16384 => true
  | _ => false

/-- `shift_type`, `general_basis_types.pxd:61-65`. -/
def DType.isShift : DType → Bool
  | .u8 | .u16 | .u32 | .u64 => true
  | _ => false

/-- An array of numpy: type of the elements, shape, whether it is contiguous, address of the first element. -/
structure NDArray where
  dtype : DType
  shape : List ℕ
  contiguous : Bool
  addr : ℕ

/-- The mask after `_np.asarray(where,dtype=_np.uint8)`, `general_basis_utils.pyx:458`: a new contiguous array, or the
user's own array, with its stride, if that has the type `uint8`. -/
structure Mask where
  shape : List ℕ
  stride : ℕ
  addr : ℕ

/-- The exceptions. -/
inductive Err
  | index | type | value
deriving DecidableEq, Repr

/-- `if c: raise`. -/
def refuse (c : Bool) (e : Err) : Except Err Unit := if c then .error e else .ok ()

/-- Number of elements. -/
def size (shape : List ℕ) : ℕ := shape.prod

/-- The checks of `where`, `general_basis_utils.pyx:457-466`: the assignment to `_np.ndarray[uint8_t]` demands one
dimension, and `&py_array_where[0]` an element. -/
def checkMask (x : NDArray) : Option Mask → Except Err Unit
  | none => .ok ()
  | some k =>
    if k.shape.length ≠ 1 then .error .value
    else if size x.shape ≠ size k.shape then .error .type
    else if size k.shape = 0 then .error .index
    else .ok ()

/-- The checks of `out` if it is given, `general_basis_utils.pyx:479-495`. -/
def checkOut (x : NDArray) : Option NDArray → Except Err Unit
  | none => .ok ()
  | some o =>
    if o.shape ≠ x.shape then .error .type
    else if !o.dtype.isBasis then .error .type
    else if !o.contiguous then .error .value
    else .ok ()

/-- The checks of `bitwise_not`, `general_basis_utils.pyx:447-495`; `x.shape[0]` (line 453) demands a dimension. -/
def checkNot (x : NDArray) (out : Option NDArray) (mask : Option Mask) : Except Err Unit := do
  refuse (x.shape = []) .index
  checkMask x mask
  refuse (x.shape.length ≠ 1) .type
  refuse (!x.dtype.isBasis) .type
  checkOut x out

/-- The checks of `bitwise_and`, `bitwise_or` and `bitwise_xor`, `general_basis_utils.pyx:557-615`, `677-735`,
`797-855`. -/
def checkTwo (x₁ x₂ : NDArray) (out : Option NDArray) (mask : Option Mask) : Except Err Unit := do
  refuse (x₁.shape = []) .index
  checkMask x₁ mask
  refuse (size x₁.shape ≠ size x₂.shape) .type
  refuse (x₁.shape ≠ x₂.shape) .type
  refuse (x₁.shape.length ≠ 1) .type
  refuse (x₂.shape.length ≠ 1) .type
  refuse (!x₁.dtype.isBasis) .type
  refuse (!x₂.dtype.isBasis) .type
  checkOut x₁ out

/-- The checks of the shifts, `general_basis_utils.pyx:961-1018` and `1035-1091`: the declaration
`shift_type[::1] x2` selects the version of the function by the type of `x2` and demands one contiguous dimension, and
`&x2[0]` an element. -/
def checkShift (x₁ x₂ : NDArray) (out : Option NDArray) (mask : Option Mask) : Except Err Unit := do
  refuse (!x₂.dtype.isShift) .type
  refuse (x₂.shape.length ≠ 1) .type
  refuse (!x₂.contiguous) .value
  refuse (x₁.shape = []) .index
  checkMask x₁ mask
  refuse (size x₁.shape ≠ size x₂.shape) .type
  refuse (x₁.shape.length ≠ 1) .type
  refuse (!x₁.dtype.isBasis) .type
  checkOut x₁ out
  refuse (size x₂.shape = 0) .index

/-- What the loop is called with: width in bytes of the type of `x1`, in which `x1`, `out` and (but for shifts) `x2`
are read and written, width of the elements of a shift, addresses, number of elements, first byte of the mask. -/
structure Job where
  kind : Kind
  k : ℕ
  k₂ : ℕ
  a₁ : ℕ
  a₂ : ℕ
  out : ℕ
  n : ℕ
  mask : Option ℕ

/-- `numpy.zeros`: `len` zero bytes at the address `a`. -/
def zeros (m : ℕ → ℕ) (a len : ℕ) : ℕ → ℕ := fun p => if a ≤ p ∧ p < a + len then 0 else m p

/-- A call: the memory when the loop starts, the array that is returned and the job, or an exception;
`general_basis_utils.pyx:447-512`, `557-632`, `961-1032`.  `fresh` is the address of the new array if `out` is not
given (line 477). -/
def call (kind : Kind) (x₁ x₂ : NDArray) (out : Option NDArray) (mask : Option Mask) (fresh : ℕ) (m : ℕ → ℕ) :
    Except Err ((ℕ → ℕ) × NDArray × Job) := do
  match kind with
  | .not => checkNot x₁ out mask
  | .and | .or | .xor => checkTwo x₁ x₂ out mask
  | .shl | .shr => checkShift x₁ x₂ out mask
  let n := x₁.shape.headD 0
  let k := x₁.dtype.bytes
  let o : NDArray := out.getD ⟨x₁.dtype, x₁.shape, true, fresh⟩
  let m₀ := if out.isNone then zeros m fresh (k * n) else m
  pure (m₀, o, ⟨kind, k, match kind with | .shl | .shr => x₂.dtype.bytes | _ => k, x₁.addr, x₂.addr, o.addr, n,
    mask.map (·.addr)⟩)

/-- Reading `k` bytes. -/
def load : ℕ → (ℕ → ℕ) → ℕ → ℕ
  | 0, _, _ => 0
  | k + 1, m, a => m a + 256 * load k m (a + 1)

/-- Writing `k` bytes. -/
def store (k a v : ℕ) (m : ℕ → ℕ) : ℕ → ℕ :=
  fun p => if a ≤ p ∧ p < a + k then v / 256 ^ (p - a) % 256 else m p

/-- The operators, `general_basis_bitops.h:12-40` and line 154, on words of `w` bits.  Shifting an `uint32_t` or
`uint64_t` by its width or more is undefined in C++: `hw` is what the machine makes of it.  The shifts of boost give
zero. -/
def result (hw : Kind → ℕ → ℕ → ℕ) (w : ℕ) (kind : Kind) (a b : ℕ) : ℕ :=
  match kind with
  | .not => (~~~ BitVec.ofNat w a).toNat
  | .and => (BitVec.ofNat w a &&& BitVec.ofNat w b).toNat
  | .or => (BitVec.ofNat w a ||| BitVec.ofNat w b).toNat
  | .xor => (BitVec.ofNat w a ^^^ BitVec.ofNat w b).toNat
  | .shl => if b < w then (BitVec.ofNat w a <<< b).toNat else if w ≤ 64 then hw .shl a b else 0
  | .shr => if b < w then (BitVec.ofNat w a >>> b).toNat else if w ≤ 64 then hw .shr a b else 0

/-- The steps of one iteration, `general_basis_bitops.h:66-68` and `79`: test the mask and read `x1[i]`, read `x2[i]`,
write `out[i]`. -/
inductive Step
  | first | second | put
deriving DecidableEq, Repr

/-- Memory and the registers of every iteration of every thread. -/
structure State where
  mem : ℕ → ℕ
  reg : ℕ × ℕ → Bool × ℕ × ℕ

/-- One step of iteration `i` of thread `t`, `e = (t, i)`; `general_basis_bitops.h:66-68`, `79`, `113-115`, `126`,
`153-155`, `166`.  The mask is read as if it were contiguous. -/
def step (hw : Kind → ℕ → ℕ → ℕ) (J : Job) (s : State) (e : (ℕ × ℕ) × Step) : State :=
  let i := e.1.2
  match e.2 with
  | .first =>
    let go := match J.mask with | none => true | some a => decide (s.mem (a + i) ≠ 0)
    { s with reg := fun q => if q = e.1 then (go, load J.k s.mem (J.a₁ + J.k * i), 0) else s.reg q }
  | .second =>
    { s with reg := fun q =>
        if q = e.1 then ((s.reg e.1).1, (s.reg e.1).2.1, load J.k₂ s.mem (J.a₂ + J.k₂ * i)) else s.reg q }
  | .put =>
    if (s.reg e.1).1 then
      let v := result hw (8 * J.k) J.kind (s.reg e.1).2.1 (s.reg e.1).2.2
      { s with mem := store J.k (J.out + J.k * i) v s.mem }
    else s

/-- A schedule.  `#pragma omp parallel for` stands inside `#pragma omp parallel` (`general_basis_bitops.h:59-71`,
`74-82`, `106-118`, `121-129`, `146-158`, `161-169`): each of the `T` threads runs all `n` iterations.  The iterations of
a thread may be taken in any order, as its own team may do. -/
def Schedule (T n : ℕ) (l : List ((ℕ × ℕ) × Step)) : Prop :=
  (∀ e ∈ l, e.1.1 < T ∧ e.1.2 < n) ∧
  ∀ t < T, ∀ i < n, (l.filter fun e => e.1 = (t, i)).map (·.2) = [.first, .second, .put]

/-- `m'` is a possible memory after the loop with `T` threads, `general_basis_bitops.h:50-176`. -/
def Finishes (hw : Kind → ℕ → ℕ → ℕ) (T : ℕ) (J : Job) (m m' : ℕ → ℕ) : Prop :=
  ∃ l, Schedule T J.n l ∧ m' = (l.foldl (step hw J) ⟨m, fun _ => (false, 0, 0)⟩).mem

end Model.BitOps
