import Verif.Model.Word
import Verif.Spec.Chain
import Mathlib.Analysis.SpecialFunctions.Trigonometric.Basic
import Mathlib.Data.Nat.Notation
import Mathlib.Data.Int.Notation
/-!
Bit operations and symmetry bookkeeping of the one-dimensional bases,
`basis_1d/_basis_1d_core/sources/{hcp_bitops,spf_bitops,boson_bitops,checkstate,refstate}.pyx`.

The type of the basis states, `basis_type`, is `uint32`, `uint64` or `object` (python integers): `some 32`,
`some 64`, `none`.  A bit operation of the sources changes `sign` through a pointer with `sign *= factor`; the
model returns the pair (new state, factor).
-/
namespace Model.Chain

/-- A bit operation: new state and factor of the sign. -/
abbrev BitOp := Nat → Nat × Int

/-- The operation on a state with its sign. -/
def step (f : BitOp) (x : Nat × Int) : Nat × Int := ((f x.1).1, x.2 * (f x.1).2)

/-- `a << k` in `basis_type`. -/
def shl : Option Nat → Nat → Nat → Nat
  | some w, a, k => Word.shl w a k
  | none, a, k => a <<< k

/-- `a >> k` in `basis_type`; for a machine type the count is used modulo the width (x86; undefined in C when
`k` is not below the width). -/
def shr : Option Nat → Nat → Nat → Nat
  | some w, a, k => a >>> (k % w)
  | none, a, k => a >>> k

/-- `bit_count`, `hcp_bitops.pyx:10-16` with `bitcount_32_C`, `bitcount_64_C` of `bitcount.h:7-29`: the mask is
`0x7F…F >> (31-l)` (`63-l`).  For `l` equal to the width the count is negative; it is used modulo the width
(x86; undefined in C). -/
def bitCount : Option Nat → Nat → Nat → Nat
  | some w, I, l => (List.range w).countP fun i => (I &&& ((2 ^ (w - 1) - 1) >>> ((2 * w - 1 - l) % w))).testBit i
  | none, I, l => (List.range l).countP fun i => (I &&& ((1 <<< l) - 1)).testBit i

/-- `l = (shift+period)%period` with C remainder, called with `shift = -T` (`hcp_bitops.pyx:21`). -/
def shiftCount (T L : Nat) : Nat := ((-(T : Int) + L).tmod L).toNat

/-- `shift(·,-T,L,…)`, `hcp_bitops.pyx:18-31`; `pars[0]` is `f`, `pars[2]` is `2^L-1` (`spin.py:210-213`,
`fermion.py:117-120`). -/
def hcpShift (w : Option Nat) (f : Bool) (L T : Nat) : BitOp := fun I =>
  let l := shiftCount T L
  let I1 := shr w I (L - l)
  let I2 := shl w I l &&& (2 ^ L - 1)
  let N1 := bitCount w I1 L
  let N2 := bitCount w I2 L
  (I2 ||| I1, if N1 % 2 = 1 ∧ N2 % 2 = 1 ∧ f = true then -1 else 1)

/-- The loop of `fliplr`, `hcp_bitops.pyx:57-61`; `s` never goes below 0 for a state of `length` bits. -/
def flipLoop (w : Option Nat) (I out s : Nat) : Nat × Nat :=
  if h : I = 0 then (out, s) else flipLoop w (I >>> 1) (shl w out 1 ^^^ (I &&& 1)) (s - 1)
termination_by I
decreasing_by rw [Nat.shiftRight_eq_div_pow]; omega

/-- The reversal of the bits in `fliplr`, `hcp_bitops.pyx:49-65`, the same in `spf_bitops.pyx:52-70`. -/
def reverseBits (w : Option Nat) (L I : Nat) : Nat :=
  let r := flipLoop w (I >>> 1) (0 ^^^ (I &&& 1)) (L - 1)
  shl w r.1 r.2

/-- `fliplr`, `hcp_bitops.pyx:46-65`. -/
def hcpFlipLR (w : Option Nat) (f : Bool) (L : Nat) : BitOp := fun I =>
  (reverseBits w L I, if bitCount w I L &&& 2 ≠ 0 ∧ f = true then -1 else 1)

/-- `flip_all`, `hcp_bitops.pyx:84-91`. -/
def hcpFlipAll (L : Nat) : BitOp := fun I => (I ^^^ (2 ^ L - 1), 1)

/-- `stag_A = sum(1<<i for i in range(0,L,2))`, `spin.py:211`. -/
def stagA (L : Nat) : Nat := (((List.range L).filter fun i => i % 2 = 0).map fun i => 1 <<< i).sum

/-- `stag_B = sum(1<<i for i in range(1,L,2))`, `spin.py:212`. -/
def stagB (L : Nat) : Nat := (((List.range L).filter fun i => i % 2 = 1).map fun i => 1 <<< i).sum

/-- `flip_sublat_A`, `hcp_bitops.pyx:108-110`. -/
def hcpFlipA (L : Nat) : BitOp := fun I => (I ^^^ stagA L, 1)

/-- `flip_sublat_B`, `hcp_bitops.pyx:126-128`. -/
def hcpFlipB (L : Nat) : BitOp := fun I => (I ^^^ stagB L, 1)

/-! ### bosons and higher spins -/

/-- The loop over the digits in `boson_bitops.pyx`: from the least significant digit on, the digit `s % sps`
becomes `g i (s % sps)` and is added at position `j i` (`M[j] = sps**j`).  Unsigned arithmetic in `basis_type`
does not wrap for `v < sps^L`, which fits. -/
def digitLoop (b : Nat) (g : Nat → Nat → Nat) (j : Nat → Nat) : List Nat → Nat → Nat → Nat
  | [], _, v => v
  | i :: is, s, v => digitLoop b g j is (s / b) (v + g i (s % b) * b ^ j i)

/-- `shift(·,-T,L,…)`, `boson_bitops.pyx:8-32`; `j = (i+shift+length)%length`. -/
def bosonShift (b L T : Nat) : BitOp := fun s =>
  (digitLoop b (fun _ n => n) (fun i => (((i : Int) + -(T : Int) + L).tmod L).toNat) (List.range L) s 0, 1)

/-- `fliplr`, `boson_bitops.pyx:46-67`. -/
def bosonFlipLR (b L : Nat) : BitOp := fun s =>
  (digitLoop b (fun _ n => n) (fun i => L - 1 - i) (List.range L) s 0, 1)

/-- `flip_all`, `boson_bitops.pyx:83-104`. -/
def bosonFlipAll (b L : Nat) : BitOp := fun s =>
  (digitLoop b (fun _ n => b - n - 1) (fun i => i) (List.range L) s 0, 1)

/-- `flip_sublat_A`, `boson_bitops.pyx:121-147`. -/
def bosonFlipA (b L : Nat) : BitOp := fun s =>
  (digitLoop b (fun i n => if i % 2 = 0 then b - n - 1 else n) (fun i => i) (List.range L) s 0, 1)

/-- `flip_sublat_B`, `boson_bitops.pyx:163-189`. -/
def bosonFlipB (b L : Nat) : BitOp := fun s =>
  (digitLoop b (fun i n => if i % 2 = 1 then b - n - 1 else n) (fun i => i) (List.range L) s 0, 1)

/-! ### spinful fermions: up spins in the upper `L` bits, down spins in the lower `L` -/

/-- `shift(·,-T,L,…)`, `spf_bitops.pyx:18-37`: `shift_single` is the shift of the spinless fermions. -/
def spfShift (w : Option Nat) (L T : Nat) : BitOp := fun I =>
  let l := hcpShift w true L T (shr w I L)
  let r := hcpShift w true L T (I &&& (2 ^ L - 1))
  (r.1 + shl w l.1 L, l.2 * r.2)

/-- `fliplr`, `spf_bitops.pyx:52-78`. -/
def spfFlipLR (w : Option Nat) (L : Nat) : BitOp := fun I =>
  let l := hcpFlipLR w true L (shr w I L)
  let r := hcpFlipLR w true L (I &&& (2 ^ L - 1))
  (r.1 + shl w l.1 L, l.2 * r.2)

/-- `flip_all`, `spf_bitops.pyx:93-103`: exchange of up and down. -/
def spfFlipAll (w : Option Nat) (L : Nat) : BitOp := fun I =>
  let r := I &&& (2 ^ L - 1)
  let l := shr w I L
  (l + shl w r L, if bitCount w l L % 2 = 1 ∧ bitCount w r L % 2 = 1 then -1 else 1)

/-! ### the operations by kind of chain

`spin_basis_1d` with `S="1/2"` and `boson_basis_1d` with two levels use the hard-core operations, higher spins and
bosons `boson_bitops.pyx`, `spinless_fermion_basis_1d` the hard-core ones with `pars[0] = 1`,
`spinful_fermion_basis_1d` `spf_bitops.pyx` (`spin.py:205-237`, `boson.py:183-203`, `fermion.py:117-123,338-345`,
the `include` lines of `_basis_1d_core/{hcp,boson,spf}_basis.pyx`). -/

/-- `shift(·,-T,L,…)` -/
def shiftOf (w : Option Nat) (T : Nat) : Spec.Chain → BitOp
  | .twoLevel L => hcpShift w false L T
  | .levels b L => bosonShift b L T
  | .spinless L => hcpShift w true L T
  | .spinful L => spfShift w L T

/-- `fliplr` -/
def flipLROf (w : Option Nat) : Spec.Chain → BitOp
  | .twoLevel L => hcpFlipLR w false L
  | .levels b L => bosonFlipLR b L
  | .spinless L => hcpFlipLR w true L
  | .spinful L => spfFlipLR w L

/-- `flip_all`; the basis of spinless fermions offers no such block -/
def flipAllOf (w : Option Nat) : Spec.Chain → BitOp
  | .twoLevel L => hcpFlipAll L
  | .levels b L => bosonFlipAll b L
  | .spinless L => hcpFlipAll L
  | .spinful L => spfFlipAll w L

/-- `flip_sublat_A`; the bases of fermions offer no such block -/
def flipAOf : Spec.Chain → BitOp
  | .levels b L => bosonFlipA b L
  | c => hcpFlipA c.length

/-- `flip_sublat_B` -/
def flipBOf : Spec.Chain → BitOp
  | .levels b L => bosonFlipB b L
  | c => hcpFlipB c.length

/-! ### check of a state, `checkstate.pyx` -/

/-- The common body of `CheckState_P/PZ/Z/ZA/ZB_template`, `checkstate.pyx:5-52,78-107`, after the bit
operations have been applied to `(s, 1)`. -/
def checkOne (q : Int) (s : Nat) (x : Nat × Int) : Int :=
  if x.1 < s then 2 else if x.1 = s then (if q * x.2 ≠ -1 then 4 else -1) else -1

/-- `CheckState_P_template`, `checkstate.pyx:5-18`. -/
def checkP (P : BitOp) (p : Int) (s : Nat) : Int := checkOne p s (step P (s, 1))

/-- `CheckState_PZ_template`, `checkstate.pyx:21-35`. -/
def checkPZ (P Z : BitOp) (pz : Int) (s : Nat) : Int := checkOne pz s (step Z (step P (s, 1)))

/-- `CheckState_Z_template`, `checkstate.pyx:38-52`; with `flip_sublat_A`/`B` for `Z` also
`CheckState_ZA_template` and `CheckState_ZB_template`, 78-107. -/
def checkZ (Z : BitOp) (z : Int) (s : Nat) : Int := checkOne z s (step Z (s, 1))

/-- The end of `CheckState_P_Z_template` and `CheckState_ZA_ZB_template`, `checkstate.pyx:58-75,114-131`. -/
def combine (r1 r2 r12 : Int) : Int :=
  if r1 < 0 then -1 else if r2 < 0 then -1 else if r12 < 0 then -1
  else if r1 = 4 ∧ r2 = 4 then 16 else if r1 = 4 ∨ r2 = 4 ∨ r12 = 4 then 8 else 4

/-- `CheckState_P_Z_template`, `checkstate.pyx:55-75`. -/
def checkP_Z (P Z : BitOp) (p z : Int) (s : Nat) : Int :=
  combine (checkZ Z z s) (checkP P p s) (checkPZ P Z (z * p) s)

/-- `CheckState_ZA_ZB_template`, `checkstate.pyx:110-131`. -/
def checkZA_ZB (ZA ZB Z : BitOp) (zA zB : Int) (s : Nat) : Int :=
  combine (checkZ ZA zA s) (checkZ ZB zB s) (checkZ Z (zA * zB) s)

/-- The condition on the momentum, `checkstate.pyx:149-154`; C division of non-negative integers
(`kblock` is reduced modulo `L//a`, `base_1d.py:100`). -/
def momentumFits (k L T i : Nat) (sign : Int) : Bool :=
  if sign > 0 then decide (k * T * i % L = 0)
  else !(decide (2 * T * i * k / L % 2 = 0) || decide (2 * k * T * i % L ≠ 0))

/-- End of a loop over the translates. -/
inductive Scan where
  /-- `return`: not a representative -/
  | reject
  /-- translate `i` is the state itself -/
  | found (i : Nat) (sign : Int)
  /-- the loop ran to its end -/
  | exhausted
  deriving DecidableEq, Repr

/-- The first loop of the `CheckState_T…` functions, `checkstate.pyx:145-158` (165-197, …): `n` more rounds,
the next one being round `i`; `fits i sign` is the condition on the momentum. -/
def translates (Tr : BitOp) (fits : Nat → Int → Bool) (s : Nat) : (n i : Nat) → Nat × Int → Scan
  | 0, _, _ => .exhausted
  | n + 1, i, x =>
    let y := step Tr x
    if y.1 > s then .reject
    else if y.1 = s then (if fits i y.2 then .found i y.2 else .reject)
    else translates Tr fits s n (i + 1) y

/-- `CheckState_T_template`, `checkstate.pyx:134-158`; 0 when the function ends without `return`. -/
def checkT (Tr : BitOp) (k L T s : Nat) : Int :=
  match translates Tr (momentumFits k L T) s (L / T) 1 (s, 1) with
  | .reject => -1
  | .found i _ => i
  | .exhausted => 0

/-- The second loop, `checkstate.pyx:200-208` (and the like): over the translates of the transformed state. -/
def transformed (Tr : BitOp) (s : Nat) : (n i : Nat) → Nat × Int → Scan
  | 0, _, _ => .exhausted
  | n + 1, i, x =>
    if x.1 > s then .reject else if x.1 = s then .found i x.2 else transformed Tr s n (i + 1) (step Tr x)

/-- `CheckState_T_Z_template`, `checkstate.pyx:353-400`, with one reflection-free transformation `Z`; the
result is `R` (`-1` for `m`: not found).  `CheckState_T_PZ_template` (301-350) and `CheckState_T_P_template`
(161-210) are the same with `flip_all` then `fliplr`, and with `fliplr`; in the latter `r` starts from 0
instead of `L`, which makes a difference only if the first loop ran to its end. -/
def checkT_Z (Tr Z : BitOp) (k L T : Nat) (s : Nat) : Int × Int × Int :=
  if checkZ Z 1 s < 0 ∧ checkZ Z (-1) s < 0 then (-1, -1, 1)
  else match translates Tr (momentumFits k L T) s (L / T) 1 (s, 1) with
    | .reject => (-1, -1, 1)
    | .found r _ => match transformed Tr s r 0 (step Z (s, 1)) with
      | .reject => (-1, -1, 1)
      | .found m sg => (r, m, sg)
      | .exhausted => (r, -1, 1)
    | .exhausted => match transformed Tr s L 0 (step Z (s, 1)) with
      | .reject => (-1, -1, 1)
      | .found m sg => (-1, m, sg)
      | .exhausted => (-1, -1, 1)

/-- `CheckState_T_ZA_template`, `checkstate.pyx:403-443` (and `…_ZB…`, 446-486): the sign is not looked at. -/
def checkT_ZA (Tr Z : BitOp) (k L T : Nat) (s : Nat) : Int × Int :=
  if checkZ Z 1 s < 0 ∧ checkZ Z (-1) s < 0 then (-1, -1)
  else match translates Tr (fun i _ => decide (k * T * i % L = 0)) s (L / T) 1 (s, 1) with
    | .reject => (-1, -1)
    | .found r _ => match transformed Tr s r 0 (step Z (s, 1)) with
      | .reject => (-1, -1)
      | .found m _ => (r, m)
      | .exhausted => (r, -1)
    | .exhausted => match transformed Tr s L 0 (step Z (s, 1)) with
      | .reject => (-1, -1)
      | .found m _ => (-1, m)
      | .exhausted => (-1, -1)

/-- `CheckState_T_ZA_ZB_template`, `checkstate.pyx:489-556`: `(r, mzA, mzB, mz)`; a negative first entry is
all that is used of the result for a state that is refused. -/
def checkT_ZA_ZB (Tr ZA ZB Z : BitOp) (k L T : Nat) (s : Nat) : Option (Nat × Int × Int × Int) :=
  if checkZA_ZB ZA ZB Z 1 1 s < 0 ∧ checkZA_ZB ZA ZB Z 1 (-1) s < 0 ∧ checkZA_ZB ZA ZB Z (-1) 1 s < 0 ∧
      checkZA_ZB ZA ZB Z (-1) (-1) s < 0 then none
  else match translates Tr (fun i _ => decide (k * T * i % L = 0)) s (L / T) 1 (s, 1) with
    | .found r _ =>
      match transformed Tr s r 0 (step ZA (s, 1)), transformed Tr s r 0 (step ZB (s, 1)),
        transformed Tr s r 0 (step Z (s, 1)) with
      | .reject, _, _ => none
      | _, .reject, _ => none
      | _, _, .reject => none
      | a, b, c =>
        let m : Scan → Int := fun | .found i _ => i | _ => -1
        some (r, m a, m b, m c)
    | _ => none

/-! ### what is kept of a state, `basis_templates.pyx` -/

/-- `k = 2.0*_np.pi*kblock*a/L`, `basis_templates.pyx:481`; exact real numbers instead of doubles. -/
noncomputable def wave (k L T : Nat) : ℝ := 2 * Real.pi * k * T / L

/-- Body of the loop of `make_t_z_basis_template`, `basis_templates.pyx:492-510`, without the restriction on
double occupancy: the entries `(N, m)` for a state that is kept; with `flip_sublat_A`/`B`, `fliplr` followed by
`flip_all`, also the others (`make_t_zA/zB/…`, where `m` is encoded without the sign). -/
noncomputable def keepT_Z (Tr Z : BitOp) (z : Int) (k L T s : Nat) : Option (Nat × Nat) :=
  let R := checkT_Z Tr Z k L T s
  let r := if R.2.1 ≠ -1 ∧ 1 + R.2.2 * z * Real.cos (wave k L T * R.2.1) = 0 then -1 else R.1
  let sign := if R.2.1 ≠ -1 then R.2.2 else -1
  if r > 0 then some (r.toNat, (R.2.1 + 1 + (sign + 1) / 2 * (L + 1)).toNat) else none

/-- `make_t_zA_basis_template`, `basis_templates.pyx:378-393`, and `make_t_zB_basis_template`, 540-555. -/
noncomputable def keepT_ZA (Tr Z : BitOp) (z : Int) (k L T s : Nat) : Option (Nat × Nat) :=
  let R := checkT_ZA Tr Z k L T s
  let r := if R.2 ≠ -1 ∧ 1 + z * Real.cos (wave k L T * R.2) = 0 then -1 else R.1
  if r > 0 then some (r.toNat, (R.2 + 1).toNat) else none

/-- Body of the loop of `make_t_zA_zB_basis_template`, `basis_templates.pyx:425-457`, without the restriction on
double occupancy: one of four cases, none of which applies when more than one of `mzA`, `mzB`, `mz` has been
found. -/
noncomputable def keepT_ZA_ZB (Tr ZA ZB Z : BitOp) (zA zB : Int) (k L T s : Nat) : Option (Nat × Nat) :=
  match checkT_ZA_ZB Tr ZA ZB Z k L T s with
  | none => none
  | some (r, mzA, mzB, mz) =>
    if r = 0 then none
    else if mzA = -1 ∧ mzB = -1 ∧ mz = -1 then some (r, L + 1)
    else if mzA ≠ -1 ∧ mzB = -1 ∧ mz = -1 then
      (if 1 + zA * Real.cos (wave k L T * mzA) ≠ 0 then some (r, (mzA + 2 * (L + 1)).toNat) else none)
    else if mzA = -1 ∧ mzB ≠ -1 ∧ mz = -1 then
      (if 1 + zB * Real.cos (wave k L T * mzB) ≠ 0 then some (r, (mzB + 3 * (L + 1)).toNat) else none)
    else if mzA = -1 ∧ mzB = -1 ∧ mz ≠ -1 then
      (if 1 + zA * zB * Real.cos (wave k L T * mz) ≠ 0 then some (r, (mz + 4 * (L + 1)).toNat) else none)
    else none

/-- `nc`, `nr` of `MatrixElement_T_Z`, `op_templates.pyx:1137-1151`. -/
noncomputable def weightT_Z (z : Int) (k L T : Nat) (Nm : Nat × Nat) : ℝ :=
  let mm : Int := (Nm.2 % (L + 1) : Nat) - 1
  let sg : Int := 2 * (Nm.2 / (L + 1) : Nat) - 1
  if mm ≥ 0 then (1 + sg * z * Real.cos (wave k L T * mm)) / Nm.1 else 1 / Nm.1

/-- `nc`, `nr` of `MatrixElement_T_ZA`, `op_templates.pyx:834-858`, and `…_ZB`. -/
noncomputable def weightT_ZA (z : Int) (k L T : Nat) (Nm : Nat × Nat) : ℝ :=
  if Nm.2 > 0 then (1 + z * Real.cos (wave k L T * ((Nm.2 : Int) - 1 : Int))) / Nm.1 else 1 / Nm.1

/-! ### representatives, `refstate.pyx` -/

/-- Best state so far with its sign and the exponents of the operations. -/
structure Ref where
  r : Nat
  sign : Int
  l : Nat
  g : Nat
  deriving DecidableEq, Repr

/-- `RefState_P_template`, `refstate.pyx:26-40`; `RefState_Z/ZA/ZB_template` (112-160) with `flip_all`,
`flip_sublat_A`, `flip_sublat_B`. -/
def refP (P : BitOp) (s : Nat) : Ref :=
  let x := step P (s, 1)
  if x.1 > s then ⟨x.1, x.2, 0, 1⟩ else ⟨s, 1, 0, 0⟩

/-- `RefState_PZ_template`, `refstate.pyx:46-59`: `sign[0]` stays 1. -/
def refPZ (P Z : BitOp) (s : Nat) : Ref :=
  let x := step Z (step P (s, 1))
  if x.1 > s then ⟨x.1, 1, 0, 1⟩ else ⟨s, 1, 0, 0⟩

/-- One of the comparisons of `RefState_P_Z_template`: exponents `(q, g)` are kept in `(l, g)`. -/
def better (x : Nat × Int) (l g : Nat) (b : Ref) : Ref := if x.1 > b.r then ⟨x.1, x.2, l, g⟩ else b

/-- `RefState_P_Z_template`, `refstate.pyx:67-103`: `R[0]` in `l`, `R[1]` in `g`. -/
def refP_Z (P Z : BitOp) (s : Nat) : Ref :=
  better (step Z (step P (s, 1))) 1 1 (better (step Z (s, 1)) 0 1 (better (step P (s, 1)) 1 0 ⟨s, 1, 0, 0⟩))

/-- `RefState_ZA_ZB_template`, `refstate.pyx:163-196`. -/
def refZA_ZB (ZA ZB Z : BitOp) (s : Nat) : Ref :=
  better (step Z (s, 1)) 1 1 (better (step ZB (s, 1)) 0 1 (better (step ZA (s, 1)) 1 0 ⟨s, 1, 0, 0⟩))

/-- The loop `for i in range(1,L/T+1)` of the `RefState_T…` functions, `refstate.pyx:209-213` (and the like):
`n` more rounds, the next one being round `i`. -/
def refLoop (Tr : BitOp) (g : Nat) : (n i : Nat) → Nat × Int → Ref → Ref
  | 0, _, _, b => b
  | n + 1, i, x, b => refLoop Tr g n (i + 1) (step Tr x) (better (step Tr x) i g b)

/-- `RefState_T_template`, `refstate.pyx:200-218`; the callers set `sign = 1` before (`op_templates.pyx:246`). -/
def refT (Tr : BitOp) (L T s : Nat) : Ref := refLoop Tr 0 (L / T) 1 (s, 1) ⟨s, 1, 0, 0⟩

/-- `RefState_T_Z_template`, `refstate.pyx:224-258`; also `T_ZA`, `T_ZB` (262-325), `T_P` (380-413). -/
def refT_Z (Tr Z : BitOp) (L T s : Nat) : Ref := refLoop Tr 1 (L / T) 1 (step Z (s, 1)) (refT Tr L T s)

/-- `RefState_T_ZA_ZB_template`, `refstate.pyx:328-376`; `R[1] + 2*R[2]` in `g`. -/
def refT_ZA_ZB (Tr ZA ZB Z : BitOp) (L T s : Nat) : Ref :=
  refLoop Tr 3 (L / T) 1 (step Z (s, 1)) (refLoop Tr 2 (L / T) 1 (step ZB (s, 1))
    (refLoop Tr 1 (L / T) 1 (step ZA (s, 1)) (refT Tr L T s)))

end Model.Chain
