import Verif.Model.BitCount
import Verif.Model.Boson
import Mathlib.Data.Complex.Basic
import Mathlib.Analysis.SpecialFunctions.Sqrt
/-!
Action of an operator string on one basis state: the `op` member functions of the `general` bases
and `op_func` of the one-dimensional bases.  Strings are lists of (symbol, site); the loops run from
the last to the first, so they take the reversed list.  `none`: the error return for an unknown
symbol.  The coefficient is an exact complex number.
-/
namespace Model
open Word

/-- The loop common to `hcb_basis_core::op` (`hcb_basis_core.h:134-172`) and
`spinless_fermion_basis_core::op`: after each symbol, if the coefficient is zero, the state is reset
to the initial one and the loop ends. -/
noncomputable def opLoop (step : Char → Nat → Nat × ℂ → Option (Nat × ℂ)) (s : Nat) :
    List (Char × Nat) → Nat × ℂ → Option (Nat × ℂ)
  | [], x => some x
  | (o, i) :: rest, x =>
    match step o i x with
    | none => none
    | some x' => open Classical in if x'.2 = 0 then some (s, x'.2) else opLoop step s rest x'

/-- One symbol, `hcb_basis_core.h:136-166`, in a `w`-bit type on `N` sites. -/
noncomputable def hcbStep (w N : Nat) (o : Char) (i : Nat) (x : Nat × ℂ) : Option (Nat × ℂ) :=
  let ind := N - i - 1
  let b := shl w 1 ind
  let a := (x.1 >>> ind) &&& 1 = 1
  match o with
  | 'z' => some (x.1, x.2 * (if a then 1 / 2 else -(1 / 2)))
  | 'n' => some (x.1, x.2 * (if a then 1 else 0))
  | 'x' => some (x.1 ^^^ b, x.2 * (1 / 2))
  | 'y' => some (x.1 ^^^ b, x.2 * (if a then Complex.I / 2 else -(Complex.I / 2)))
  | '+' => some (x.1 ^^^ b, x.2 * (if a then 0 else 1))
  | '-' => some (x.1 ^^^ b, x.2 * (if a then 1 else 0))
  | 'I' => some x
  | _ => none

/-- `hcb_basis_core::op`, `hcb_basis_core.h:130-176`. -/
noncomputable def hcbOp (w N : Nat) (str : List (Char × Nat)) (s : Nat) (A : ℂ) : Option (Nat × ℂ) :=
  opLoop (hcbStep w N) s str.reverse (s, A)

/-- `double sign = ((f_count&1)?-1:1)` with `f_count = bit_count(r,ind)`,
`spinless_fermion_basis_core.h:174-175`; `w` is a multiple of 8.  `none`: undefined shift inside
`bit_count`. -/
def fermionSign (w r ind : Nat) : Option Int :=
  (bitCount (w / 8) r ind).map fun c => if c &&& 1 = 1 then -1 else 1

/-- One symbol, `spinless_fermion_basis_core.h:173-197` (also used by the spinful class with `2N`
sites). -/
noncomputable def fermionStep (w N : Nat) (o : Char) (i : Nat) (x : Nat × ℂ) : Option (Nat × ℂ) :=
  let ind := N - i - 1
  match fermionSign w x.1 ind with
  | none => none
  | some sign =>
    let b := shl w 1 ind
    let a := (x.1 >>> ind) &&& 1 = 1
    match o with
    | 'z' => some (x.1, x.2 * (if a then 1 / 2 else -(1 / 2)))
    | 'n' => some (x.1, x.2 * (if a then 1 else 0))
    | '+' => some (x.1 ^^^ b, x.2 * (if a then 0 else (sign : ℂ)))
    | '-' => some (x.1 ^^^ b, x.2 * (if a then (sign : ℂ) else 0))
    | 'I' => some x
    | _ => none

/-- `spinless_fermion_basis_core::op`, `spinless_fermion_basis_core.h:168-210`. -/
noncomputable def fermionOp (w N : Nat) (str : List (Char × Nat)) (s : Nat) (A : ℂ) : Option (Nat × ℂ) :=
  opLoop (fermionStep w N) s str.reverse (s, A)

/-- State of the loops for multi-level sites: state, `me_diag`, `me_offdiag`. -/
structure LevelAcc where
  r : Nat
  diag : ℝ
  off : ℝ

/-- The loop of `boson_basis_core::op` (`boson_basis_core.h:132-165`) and
`higher_spin_basis_core::op` (`higher_spin_basis_core.h:29-56`), which stop on
`me_diag==0 || me_offdiag==0`, and of the one-dimensional `op_func` (`boson_ops.pyx:33-58`), which
stops on `M_E_offdiag==0`. -/
noncomputable def levelLoop (stop : LevelAcc → Prop) (step : Char → Nat → LevelAcc → Option LevelAcc) (s : Nat) :
    List (Char × Nat) → LevelAcc → Option LevelAcc
  | [], x => some x
  | (o, i) :: rest, x =>
    match step o i x with
    | none => none
    | some x' => open Classical in
      if stop x' then some { x' with r := s } else levelLoop stop step s rest x'

/-- One symbol, `boson_basis_core.h:134-158`.  The case `'z'` has no `break` and continues with the
case `'n'`. -/
noncomputable def bosonStep (w sps N : Nat) (o : Char) (i : Nat) (x : LevelAcc) : Option LevelAcc :=
  let ind := N - i - 1
  let occ := digitM w sps x.r ind
  let b := powM w sps ind
  let S : ℝ := ((sps : ℝ) - 1) / 2
  match o with
  | 'z' => some { x with diag := x.diag * (occ - S) * occ }
  | 'n' => some { x with diag := x.diag * occ }
  | '+' => some { x with off := x.off * ((occ + 1) % sps : Nat), r := add w x.r (if occ + 1 < sps then b else 0) }
  | '-' => some { x with off := x.off * occ, r := sub w x.r (if occ > 0 then b else 0) }
  | 'I' => some x
  | _ => none

/-- `boson_basis_core::op`, `boson_basis_core.h:126-169`. -/
noncomputable def bosonOp (w sps N : Nat) (str : List (Char × Nat)) (s : Nat) (A : ℂ) : Option (Nat × ℂ) :=
  (levelLoop (fun x => x.diag = 0 ∨ x.off = 0) (bosonStep w sps N) s str.reverse ⟨s, 1, 1⟩).map
    fun x => (x.r, A * ((x.diag * Real.sqrt x.off : ℝ) : ℂ))

/-- One symbol, `higher_spin_basis_core.h:30-50`. -/
noncomputable def higherSpinStep (w sps N : Nat) (o : Char) (i : Nat) (x : LevelAcc) : Option LevelAcc :=
  let ind := N - i - 1
  let occ := digitM w sps x.r ind
  let b := powM w sps ind
  let S : ℝ := ((sps : ℝ) - 1) / 2
  match o with
  | 'z' => some { x with diag := x.diag * (occ - S) }
  | '+' => some { x with off := x.off * ((occ + 1) * (sps - occ - 1) : ℝ), r := add w x.r (if occ + 1 < sps then b else 0) }
  | '-' => some { x with off := x.off * (occ * (sps - occ) : ℝ), r := sub w x.r (if occ > 0 then b else 0) }
  | 'I' => some x
  | _ => none

/-- `higher_spin_basis_core::op`, `higher_spin_basis_core.h:23-61`. -/
noncomputable def higherSpinOp (w sps N : Nat) (str : List (Char × Nat)) (s : Nat) (A : ℂ) : Option (Nat × ℂ) :=
  (levelLoop (fun x => x.diag = 0 ∨ x.off = 0) (higherSpinStep w sps N) s str.reverse ⟨s, 1, 1⟩).map
    fun x => (x.r, A * ((x.diag * Real.sqrt x.off : ℝ) : ℂ))

/-- The factor that `spin_basis_general._Op` (`basis_general/spin.py:183-197`) and
`spin_basis_1d._Op` (`basis_1d/spin.py:237-246`) multiply into the matrix elements:
`1 << len(opstr.replace("I",""))` for `pauli=1`,
`1 << len(opstr.replace("I","").replace("+","").replace("-",""))` for `pauli=-1`. -/
noncomputable def pauliFactor (pauli : Int) (str : List Char) : ℂ :=
  if pauli = 1 then 2 ^ (str.filter (· != 'I')).length
  else if pauli = -1 then 2 ^ (((str.filter (· != 'I')).filter (· != '+')).filter (· != '-')).length
  else 1

/-- `_Op` of the spin-1/2 bases for one basis state. -/
noncomputable def spinOp (pauli : Int) (w N : Nat) (str : List (Char × Nat)) (s : Nat) (J : ℂ) : Option (Nat × ℂ) :=
  (hcbOp w N str s J).map fun x => (x.1, x.2 * pauliFactor pauli (str.map (·.1)))

/-- `bit_count` of the one-dimensional bases: `bitcount_32_C`/`bitcount_64_C`
(`basis_1d/_basis_1d_core/sources/bitcount.h:7-27`) mask the word and use the compiler's population
count, here the sum of the bits.  `none`: the shift count is negative.  For the Python-integer type
(`hcp_bitops.pyx:17`) take any `w > l` with `v < 2^w`. -/
def bitCount1d (w v l : Nat) : Option Nat :=
  if l < w then some (((List.range w).map fun i => ((v &&& (ones (w - 1) >>> (w - 1 - l))) >>> i) % 2).sum)
  else none

/-- Sign used by the one-dimensional fermion operators, `hcp_ops.pyx:42-46`, `spf_ops.pyx:37-40`. -/
def fermionSign1d (w r ind : Nat) : Option Int :=
  (bitCount1d w r ind).map fun c => if c % 2 = 0 then 1 else -1

/-- One symbol in `op_func`, `hcp_ops.pyx:35-70` (`fermionic` is `op_pars[0]`) and, with
`fermionic = true` and without `x`, `y`, `spf_ops.pyx:31-58`.  Simplification: the early-exit test
also runs after the symbol `I`, where the code uses `continue`; the coefficient cannot be zero there. -/
noncomputable def hcp1dStep (fermionic : Bool) (w L : Nat) (o : Char) (i : Nat) (x : Nat × ℂ) : Option (Nat × ℂ) :=
  let ind := L - i - 1
  match (if fermionic then fermionSign1d w x.1 ind else some 1) with
  | none => none
  | some sign =>
    let b := shl w 1 ind
    let a := (x.1 >>> ind) &&& 1 = 1
    match o with
    | 'I' => some x
    | 'z' => some (x.1, x.2 * (if a then 1 / 2 else -(1 / 2)))
    | 'x' => some (x.1 ^^^ b, x.2 * (1 / 2))
    | 'y' => some (x.1 ^^^ b, x.2 * (if a then Complex.I / 2 else -(Complex.I / 2)))
    | 'n' => some (x.1, x.2 * (if a then 1 else 0))
    | '+' => some (x.1 ^^^ b, x.2 * (sign * (if a then 0 else 1)))
    | '-' => some (x.1 ^^^ b, x.2 * (sign * (if a then 1 else 0)))
    | _ => none

/-- `op_func`, `hcp_ops.pyx:4-83`, for one basis state.  Simplification: complex matrix elements are
always stored (with a real result type the code returns an error when the imaginary part is not
zero). -/
noncomputable def hcp1dOp (fermionic : Bool) (w L : Nat) (str : List (Char × Nat)) (s : Nat) (J : ℂ) : Option (Nat × ℂ) :=
  (opLoop (hcp1dStep fermionic w L) s str.reverse (s, 1)).map fun x => (x.1, x.2 * J)

/-- One symbol in `op_func`, `boson_ops.pyx:34-54`; `spinMe` is `spin_me`. -/
noncomputable def boson1dStep (spinMe : Bool) (w sps L : Nat) (o : Char) (i : Nat) (x : LevelAcc) : Option LevelAcc :=
  let b := powM w sps (L - i - 1)
  let nmax := sps - 1
  let occ := x.r / b % (nmax + 1)
  let S : ℝ := nmax / 2
  match o with
  | 'I' => some x
  | 'z' => some { x with diag := x.diag * (occ - S) }
  | 'n' => some { x with diag := x.diag * occ }
  | '+' => some { x with
      off := x.off * (if occ < nmax then (occ : ℝ) + 1 else 0) * (if spinMe then (nmax : ℝ) - occ else 1)
      r := add w x.r (if occ < nmax then b else 0) }
  | '-' => some { x with
      off := x.off * occ * (if spinMe then (nmax : ℝ) - occ + 1 else 1)
      r := sub w x.r (if occ > 0 then b else 0) }
  | _ => none

/-- `op_func`, `boson_ops.pyx:5-76`, for one basis state. -/
noncomputable def boson1dOp (spinMe : Bool) (w sps L : Nat) (str : List (Char × Nat)) (s : Nat) (J : ℂ) : Option (Nat × ℂ) :=
  (levelLoop (fun x => x.off = 0) (boson1dStep spinMe w sps L) s str.reverse ⟨s, 1, 1⟩).map
    fun x => (x.r, J * ((Real.sqrt x.off * x.diag : ℝ) : ℂ))

end Model
