import Verif.Model.HcbBasis
import Verif.Model.BitCount
/-!
`spinful_fermion_basis_general` without symmetry maps: the up configuration is the left (high) half,
the down configuration the right (low) half of an integer of `2N` bits.
`basis_general/_basis_general_core/source/spinful_fermion_basis_core.h`,
`basis_general/_basis_general_core/spinful_fermion_core.pyx`, `basis_general/fermion.py:332-493`.
-/
namespace Model
open Word

/-- `split_state`, `spinful_fermion_basis_core.h:45-48`: (left, right). -/
def splitState (w N s : Nat) : Nat × Nat := (s >>> N, (ones w >>> (w - N)) &&& s)

/-- `get_right_min_max`, `spinful_fermion_basis_core.h:50-59`.  `bit_count` is undefined only for
`N ≥ w`, which does not occur (`2N ≤ w`, `N > 0`): `getD`. -/
def rightMinMax (w N s : Nat) : Nat × Nat :=
  let n := (bitCount (w / 8) s N).getD 0
  if n ≠ 0 then (ones w >>> (w - n), shl w (ones w >>> (w - n)) (N - n)) else (0, 0)

/-- `comb_state`, `spinful_fermion_basis_core.h:61-63`. -/
def combState (w N left right : Nat) : Nat := add w (shl w left N) right

/-- `spinful_fermion_basis_core::next_state_pcon`, `spinful_fermion_basis_core.h:65-89`
(`next_state_pcon_side` has the text of `hcb_basis_core::next_state_pcon`). -/
def spinfulNext (w N s : Nat) : Nat :=
  let (left, right) := splitState w N s
  let (mn, mx) := rightMinMax w N right
  if right < mx then combState w N left (nextStatePcon w right)
  else combState w N (nextStatePcon w left) mn

/-- `check_state`, `spinful_fermion_basis_core.h:91-100`, without maps: NaN for a doubly occupied site
when these are excluded, otherwise 1. -/
def spinfulCheck (w N : Nat) (dbl : Bool) : Check := fun s =>
  if dbl = false ∧ (splitState w N s).1 &&& (splitState w N s).2 ≠ 0 then none else some 1

/-- `get_s0_pcon`, `spinful_fermion_core.pyx:61-64`. -/
def spinfulS0 (N : Nat) (Np : Nat × Nat) : Nat := s0Pcon Np.2 + s0Pcon Np.1 <<< N

/-- `_make_basis_pcon` for one pair of particle numbers, `spinful_fermion_core.pyx:66-67` and
`general_basis_core.pyx:722-766`. -/
def spinfulPcon (w N : Nat) (dbl : Bool) (mem : Nat) (Np : Nat × Nat) : Built :=
  makeBasisPcon (fun s _ => spinfulNext w N s) id (spinfulCheck w N dbl) 0 (N.choose Np.1 * N.choose Np.2) mem
    (spinfulS0 N Np) 1 []

/-- The loop over sectors of `make_basis`, `spinful_fermion_core.pyx:83-92`. -/
def spinfulSectors (w N : Nat) (dbl : Bool) (mem : Nat) : List (Nat × Nat) → List (Nat × Int) → Built
  | [], acc => .ok acc
  | k :: ks, acc =>
    match spinfulPcon w N dbl (mem - acc.length) k with
    | .ok l => if acc.length + l.length > mem then .insufficient else spinfulSectors w N dbl mem ks (acc ++ l)
    | e => e

/-- `spinful_fermion_basis_general(N, Nf=[(Nup,Ndown),…], double_occupancy=dbl)` without maps,
`fermion.py:365-493` then `make`, `base_general.py:739-778`.  A single pair is turned into the list of
that pair (`fermion.py:431`), where out-of-range numbers are not rejected (`single`).  A tuple of two
pairs is mistaken for one pair (`fermion.py:424-430`): not represented, only lists are. -/
def spinfulBasis (argsortRev : List (Nat × Int) → List (Nat × Int)) (N : Nat) (dbl single : Bool)
    (Nf : List (Nat × Nat)) : Except PyErr (List Nat) :=
  if single = false ∧ Nf.any (fun p => p.1 > N ∨ p.2 > N) then .error .valueError
  else
    match widthFor (2 * N) with
    | none => .error .valueError
    | some w =>
      match spinfulSectors w N dbl (max (Nf.map fun p => N.choose p.1 * N.choose p.2).sum 1000) Nf [] with
      | .insufficient => .error .valueError
      | .overrun => .error .memoryOverrun
      | .ok l => .ok ((argsortRev l).map Prod.fst)

end Model
