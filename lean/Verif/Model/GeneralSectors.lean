import Verif.Model.Boson
import Mathlib.Data.List.MinMax

/-!
Particle sectors of the general classes without maps: `/repo/quspin/basis/basis_general/boson.py`, `base_higher_spin.py`, `fermion.py` (spinless), `spin.py`.
For `sps = 2` all of them run the code of `Model.hcbBasis`.
-/

namespace Model.GeneralSectors
open Model

/-- `_make_basis_pcon` for one number, `boson_core.pyx:87-96`, `higher_spin_core.pyx:84-92` and `general_basis_core.pyx:722-766`. -/
def multiPcon (w sps N mem k : ℕ) : Built :=
  makeBasisPcon (fun s _ => bosonNext w sps N s) id checkNoMaps 0 (hDim k N (sps - 1)).toNat mem (bosonS0 sps k % 2 ^ w) 1 []

/-- The loop over the sectors of `make_basis` (boson_core.pyx:112-122). -/
def multiSectors (w sps N mem : ℕ) : List ℕ → List (ℕ × ℤ) → Built
  | [], acc => .ok acc
  | k :: ks, acc =>
    match multiPcon w sps N (mem - acc.length) k with
    | .ok l => if acc.length + l.length > mem then .insufficient else multiSectors w sps N mem ks (acc ++ l)
    | e => e

/-- What the core returned, as the constructor takes it (base_general.py:756-778); `sort` is applied to several sectors only. -/
def finish (sort : List (ℕ × ℤ) → List (ℕ × ℤ)) : Built → Except PyErr (List ℕ)
  | .ok l => .ok ((sort l).map Prod.fst)
  | .insufficient => .error .valueError
  | .overrun => .error .memoryOverrun

/-- All states of sites with `sps > 2` levels, for bosons (boson.py:184-185, 219-227) and higher spins (base_higher_spin.py:32-34, 62-73);
`_make_basis_full` exists for the two built-in types only (general_basis_core.pyx:711-718). -/
def multiFull (N sps : ℕ) : Except PyErr (List ℕ) :=
  match getBasisType N none sps with
  | none => .error .valueError
  | some w => if w ≤ 64 then finish id (makeBasis w id checkNoMaps 0 (sps ^ N) (max (sps ^ N) 1000) 1 []) else .error .typeError

/-- `boson_basis_general(N, Nb=Nb, sps=sps)` for `sps > 2` (boson.py:184-227).  For a list the type is that of the largest number
(general_basis_utils.pyx:357-362); the largest of an empty list raises. -/
def bosonMulti (sort : List (ℕ × ℤ) → List (ℕ × ℤ)) (N sps : ℕ) : NbArg → Except PyErr (List ℕ)
  | .none => multiFull N sps
  | .int k => bosonBasis N sps k
  | .list ks =>
    match ks.max? with
    | none => .error .valueError
    | some k =>
      match getBasisType N (some k) sps with
      | none => .error .valueError
      | some w => finish sort (multiSectors w sps N (max ((ks.map fun (b : ℕ) => hDim b N (sps - 1)).sum).toNat 1000) ks [])

/-- `sps` of `boson_basis_general` when it is not given (boson.py:116-133). -/
def bosonSps : NbArg → Option ℕ
  | .none => none
  | .int k => some (k + 1)
  | .list ks => ks.max?.map (· + 1)

/-- `boson_basis_general(N, Nb=Nb, sps=sps)` (boson.py:116-227); less than two levels raise (general_basis_utils.pyx:386-387). -/
def boson (sort : List (ℕ × ℤ) → List (ℕ × ℤ)) (N : ℕ) (Nb : NbArg) (sps : Option ℕ) : Except PyErr (List ℕ) :=
  match sps <|> bosonSps Nb with
  | none => .error .valueError
  | some b => if b = 2 then hcbBasis sort N Nb else if b < 2 then .error .valueError else bosonMulti sort N b Nb

/-- `higher_spin_basis_general(N, sps, Nup=Nup)` (base_higher_spin.py:32-73).  For a list `Nup` is overwritten by the loop over it (46), and `iter` of an
integer raises `TypeError` (49); for an empty list `max` raises. -/
def higherSpin (N sps : ℕ) : NbArg → Except PyErr (List ℕ)
  | .none => multiFull N sps
  | .int k => bosonBasis N sps k
  | .list [] => .error .valueError
  | .list _ => .error .typeError

/-- `spinless_fermion_basis_general(N, Nf=Nf)` (fermion.py:119-160): the loop overwrites `Nf` by its last entry (131), which is then the only sector; the array
has room for all of them.  `make_basis` of its core (spinless_fermion_core.pyx:58-104) is the text of hcb_core.pyx:60-106. -/
def spinless (sort : List (ℕ × ℤ) → List (ℕ × ℤ)) (N : ℕ) : NbArg → Except PyErr (List ℕ)
  | .none => hcbBasis sort N .none
  | .int k => hcbBasis sort N (.int k)
  | .list ks =>
    match hcbNs N (.list ks), widthFor N with
    | .error e, _ => .error e
    | .ok _, none => .error .valueError
    | .ok Ns, some w =>
      match ks.getLast? with
      | none => .ok []
      | some k => finish id (hcbPcon w N (max Ns 1000) k)

/-- The sectors from `_Np`, which `photon_basis` gives to the constructor of the lattice part (photon.py:156, 164), when no number of particles is given
(base_hcb.py:14-26, base_higher_spin.py:15-27, boson.py:170-182, fermion.py:105-117). -/
def sectorsUpTo (N : ℕ) (Np : ℤ) : Except PyErr NbArg :=
  if Np ≥ -1 then
    if Np + 1 > N then .ok (.list (List.range (N + 1)))
    else if Np = -1 then .ok .none
    else .ok (.list (List.range (Np + 1).toNat))
  else .error .valueError

/-- One entry of `Nup` of `spin_basis_general` (spin.py:136-142); `S2` is `2*S`. -/
def spinNumber (S2 N : ℕ) (Nup : ℤ) : ℤ := if Nup < 0 then ((S2 * N : ℕ) : ℤ) + Nup + 1 else Nup

end Model.GeneralSectors
