import Verif.Model.Reduced
import Verif.Model.Amp
import Verif.Model.Ops
/-!
`Op_bra_ket` and `Op_shift_sector` of the general bases: `basis_general/base_general.py`,
`basis_general/spin.py`, `basis_general/fermion.py` and
`basis_general/_basis_general_core/source/general_basis_op.h`.
-/
namespace Model.BraKet
open Spec Model

/-! ### Op_bra_ket -/

/-- The loop over the symmetries that multiplies the phases, `general_basis_op.h:1268-1271` (and 1351-1354,
1384-1387), for the content `g` of the array of exponents. -/
noncomputable def phases (ys : List Generator) (g : List Nat) : ℂ :=
  (List.zipWith (fun y (c : Nat) => Complex.exp (-(Complex.I * (2 * Real.pi * y.q * c / y.per : ℝ)))) ys g).prod

/-- `B->check_pcon(r,Np_set_local)`, `general_basis_op.h:1342`, for a basis with particle-number sectors; without
them (`general_op_bra_ket`) there is no test. -/
def inside (pcon : Option (Nat → Bool)) (r : Nat) : Bool :=
  match pcon with
  | none => true
  | some p => p r

/-- Matrix element (`none`: NaN) and bra of one ket. -/
abbrev Cell := Option ℂ × Nat

/-- The off-diagonal branch after `ref_state`, `general_basis_op.h:1262-1283` (and 1342-1376); `b` is what
`ref_state` returned, with `b.g` the array of exponents.  A ket of norm zero gives infinity in the code, `none`
here.  `int_norm > 0` of line 1266 and `norm_r > 0` of line 1349 are written as one test: the norms are whole
numbers. -/
noncomputable def offDiagonal (ys : List Generator) (pcon : Option (Nat → Bool)) (s : Nat) (m : ℂ) (b : Best) : Cell :=
  if inside pcon b.r then
    match checkState ys b.r with
    | some (some nr) =>
      if ⌊nr⌋ > 0 then
        match checkState ys s with
        | some (some ns) =>
          open Classical in
          if ns = 0 then (none, b.r)
          else (some (m * phases ys b.g * ((b.phase : ℂ) * (Real.sqrt (nr / ns) : ℝ))), b.r)
        | _ => (none, b.r)
      else (none, s)
    | _ => (none, s)
  else (none, s)

/-- One iteration of `general_op_bra_ket`, `general_basis_op.h:1246-1301`, and of `general_op_bra_ket_pcon`,
1320-1402: `g` is the content of the thread's array of exponents before the iteration; the result has its content
afterwards.  `ref_state` is called with the array as it is (it writes to it only when it finds a larger state), and
the diagonal branch with particle sectors multiplies the phases of whatever it contains (1384-1387).  `none`: the
error return of `op`. -/
noncomputable def step (ys : List Generator) (pcon : Option (Nat → Bool)) (op : Nat → Option (Nat × ℂ)) (g : List Nat)
    (s : Nat) : Option (Cell × List Nat) :=
  match op s with
  | none => none
  | some (r, m) =>
    if r ≠ s then
      match refState ys r g 1 with
      | none => none
      | some b => some (offDiagonal ys pcon s m b, b.g)
    else if pcon.isSome then some ((some (m * phases ys g), s), g)
    else some ((some m, s), g)

/-- The iterations of one thread, in order. -/
noncomputable def thread (ys : List Generator) (pcon : Option (Nat → Bool)) (op : Nat → Option (Nat × ℂ)) :
    List Nat → List Nat → Option (List Cell)
  | _, [] => some []
  | g, s :: rest =>
    match step ys pcon op g s with
    | none => none
    | some (c, g') => (thread ys pcon op g' rest).map (c :: ·)

/-- `general_op_bra_ket` and `general_op_bra_ket_pcon`, `general_basis_op.h:1226-1304`: with `schedule(static)` each
thread gets one contiguous piece of the kets; it starts with its own array of exponents `int g[...]`, which is not
initialised (1240, 1317).  An iteration writes only its own elements, so the order between the threads does not
matter.  `pieces` are the pieces with the initial contents of the arrays. -/
noncomputable def core (ys : List Generator) (pcon : Option (Nat → Bool)) (op : Nat → Option (Nat × ℂ))
    (pieces : List (List Nat × List Nat)) : Option (List Cell) :=
  (pieces.mapM fun p => thread ys pcon op p.1 p.2).map List.flatten

/-- `pieces` is a distribution of the kets over threads whose arrays of exponents contain anything. -/
def Pieces (ys : List Generator) (kets : List Nat) (pieces : List (List Nat × List Nat)) : Prop :=
  (pieces.map (·.2)).flatten = kets ∧ ∀ p ∈ pieces, p.1.length = ys.length

/-- `Op_bra_ket`, `base_general.py:888-918`, after the checks of `opstr` and `indx`: the lists `ME`, `bra`, `ket` as
one list.  With `reduce_output` elements that are NaN or zero are removed, otherwise NaN is replaced by zero.  For a
real `dtype` (`isReal`) the real part is stored; the error code of `check_imag` is put into `local_err` and never
looked at (`general_basis_op.h:1275`, 1288, 1361, 1391). -/
noncomputable def opBraKet (ys : List Generator) (pcon : Option (Nat → Bool)) (op : Nat → Option (Nat × ℂ))
    (isReal reduceOutput : Bool) (kets : List Nat) (pieces : List (List Nat × List Nat)) :
    Option (List (ℂ × Nat × Nat)) :=
  open Classical in
  (core ys pcon op pieces).map fun cells =>
    let all := List.zipWith (fun (c : Cell) s => (c.1.map fun m => (Amp.checkImag isReal m).1, c.2, s)) cells kets
    if reduceOutput then
      all.filterMap fun e => e.1.bind fun m => if m = 0 then none else some (m, e.2)
    else all.map fun e => (e.1.getD 0, e.2)

/-- `Op_bra_ket` of a spin-1/2 `spin_basis_general`: the class does not override the function (`spin.py:181-238`
overrides `_Op`, `_inplace_Op` and `Op_shift_sector` to multiply by the factors of `pauli`), so `op` is that of
hard-core bosons. -/
noncomputable def spinBraKet (_pauli : Int) (w N : Nat) (ys : List Generator) (pcon : Option (Nat → Bool))
    (str : List (Char × Nat)) (J : ℂ) (isReal reduceOutput : Bool) (kets : List Nat)
    (pieces : List (List Nat × List Nat)) : Option (List (ℂ × Nat × Nat)) :=
  opBraKet ys pcon (fun s => hcbOp w N str s J) isReal reduceOutput kets pieces

/-! ### Op_shift_sector -/

/-- One iteration of `general_op_shift_sectors`, `general_basis_op.h:1165-1195`: row and factor for the state `s` of
the initial basis, whose norm is `ni`.  `zs` are the symmetries of the target basis, `basisOut` its states and norms.
`none`: error of `op`; `some none`: no target state.  The sign and the phases are left out if the representative
equals `s` (line 1183), also when the configuration before `ref_state` was another one. -/
noncomputable def shiftColumn (zs : List Generator) (basisOut : List (Nat × Int)) (op : Nat → Option (Nat × ℂ))
    (s : Nat) (ni : Int) : Option (Option (Nat × ℂ)) :=
  match op s with
  | none => none
  | some (r0, m) =>
    match (if r0 ≠ s then refState zs r0 (zs.map fun _ => 0) 1 else some { r := r0, phase := 1, g := [] }) with
    | none => none
    | some b =>
      match repPosition (basisOut.map (·.1)) b.r with
      | none => none
      | some j =>
        if j ≥ 0 then
          match basisOut[j.toNat]? with
          | none => none
          | some (_, nj) =>
            let m := if b.r ≠ s then m * ((b.phase : ℂ) * Complex.exp (-(Complex.I * phaseAngle zs b.g))) else m
            some (some (j.toNat, m * (Real.sqrt ((nj : ℝ) / (ni : ℝ)) : ℝ)))
        else some none

/-- The loop of `general_op_shift_sectors`, `general_basis_op.h:1162-1219`, for one vector and complex numbers: the
states of the initial basis are processed in the order `order` (a `schedule(dynamic)` loop with atomic additions). -/
noncomputable def shiftLoop (zs : List Generator) (basisOut basisIn : List (Nat × Int)) (op : Nat → Option (Nat × ℂ))
    (v : Nat → ℂ) : List Nat → (Nat → ℂ) → Option (Nat → ℂ)
  | [], out => some out
  | i :: order, out =>
    match basisIn[i]? with
    | none => none
    | some (s, ni) =>
      match shiftColumn zs basisOut op s ni with
      | none => none
      | some none => shiftLoop zs basisOut basisIn op v order out
      | some (some (j, m)) =>
        shiftLoop zs basisOut basisIn op v order (fun k => if k = j then out k + v i * m else out k)

/-- Loop over `op_list` in `Op_shift_sector`, `base_general.py:414-417`, one schedule for every term; `out` is
`v_out` (zeros unless the caller gives one). -/
noncomputable def shiftSector (zs : List Generator) (basisOut basisIn : List (Nat × Int)) (v : Nat → ℂ) :
    List ((Nat → Option (Nat × ℂ)) × List Nat) → (Nat → ℂ) → Option (Nat → ℂ)
  | [], out => some out
  | (op, order) :: rest, out =>
    match shiftLoop zs basisOut basisIn op v order out with
    | none => none
    | some out' => shiftSector zs basisOut basisIn v rest out'

/-- The choice of the routine by the integer types of the two bases (bits), `general_basis_core.pyx:293-427`:
`false` is the `TypeError` for an unknown type. -/
def shiftDispatch (bitsIn bitsOut : Nat) : Bool :=
  [32, 64, 256, 1024, 16384].contains bitsIn && [32, 64, 256, 1024, 4096, 16384].contains bitsOut

/-- Arguments of a method after binding. -/
inductive Bound
  /-- the call is made -/
  | call
  /-- a required argument is missing -/
  | typeError
deriving DecidableEq

/-- A call of `Op_shift_sector(self,other_basis,op_list,v_in,v_out=None,dtype=None)` through the class with
`given` positional arguments (the optional ones are passed by name). -/
def bindShift (given : Nat) : Bound := if given < 4 then .typeError else .call

/-- `spinful_fermion_basis_general.Op_shift_sector`, `fermion.py:636-646`: the base class function is called with
the three positional arguments `other_basis`, `new_op_list`, `v_in`; `self` is left out. -/
def spinfulShift : Bound := bindShift 3

/-- `spin_basis_general.Op_shift_sector`, `spin.py:221-236`: all four arguments are passed. -/
def spinShift : Bound := bindShift 4

end Model.BraKet
