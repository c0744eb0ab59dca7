import Verif.Model.Ops
import Verif.Model.Maps
import Verif.Model.Entropy
import Verif.Model.PartialTraceCall
import Verif.Model.CheckSymm
import Verif.Spec.SpinfulSites
/-!
Spinful fermion bases, `/repo/quspin/basis/basis_general/fermion.py` (`spinful_fermion_basis_general`) and
`/repo/quspin/basis/basis_1d/fermion.py` (`spinful_fermion_basis_1d`): how the two notations for operators, maps, Fock states and subsystems are
turned into numbers of orbitals.  Sites are Python integers, so they may be negative.
-/
namespace Model.SpinfulCalls

/-- The errors that are raised (all are `ValueError`). -/
inductive Err where
  | noBar | length | range | letters | map | state | subsystem
  deriving DecidableEq

/-- `i = opstr.index("|")` (basis_general/fermion.py:892, basis_1d/fermion.py:378). -/
def bar (str : List Char) : Nat := (str.takeWhile (· ≠ '|')).length

/-- `_simple_to_adv` (basis_general/fermion.py:885-901): the first bar goes away, the sites from its place on belong to spin down. -/
def toAdv (L : Nat) (str : List Char) (indx : List Int) : Except Err (List Char × List Int) :=
  if str.count '|' = 0 then .error .noBar
  else .ok (str.take (bar str) ++ str.drop (bar str + 1), indx.take (bar str) ++ (indx.drop (bar str)).map (· + (L : Int)))

/-- The first lines of `_Op` of the chain (basis_1d/fermion.py:376-383): all bars go away.  `index` raises if there is none. -/
def chainAdv (L : Nat) (str : List Char) (indx : List Int) : Except Err (List Char × List Int) :=
  if '|' ∉ str then .error .noBar
  else .ok (str.filter (· ≠ '|'), indx.take (bar str) ++ (indx.drop (bar str)).map (· + (L : Int)))

/-- The checks of `_Op` on `N` orbitals (base_general.py:250-260, base_1d.py:563-573). -/
def checkedOp (N : Nat) (str : List Char) (indx : List Int) : Except Err (List (Char × Nat)) :=
  if str.length ≠ indx.length then .error .length
  else if indx.any fun i => (N : Int) ≤ i || i < 0 then .error .range
  else if str.any fun c => !(['I', '+', '-', 'n', 'z'].contains c) then .error .letters
  else .ok (str.zip (indx.map Int.toNat))

/-- `_Op` of a general basis for one configuration: the new configuration and the matrix element (basis_general/fermion.py:617-622,
base_general.py:245-268).  `w` is the number of bits of the integers.  Simplification: without symmetries and without the lookup of the new
configuration (C03, C08, C13). -/
noncomputable def latticeOp (w L : Nat) (simple : Bool) (str : List Char) (indx : List Int) (s : Nat) (J : ℂ) : Except Err (Option (Nat × ℂ)) :=
  if simple then
    match toAdv L str indx with
    | .error e => .error e
    | .ok a => (checkedOp (2 * L) a.1 a.2).map fun l => fermionOp w (2 * L) l s J
  else (checkedOp (2 * L) str indx).map fun l => fermionOp w (2 * L) l s J

/-- `_Op` of the chain for one configuration (basis_1d/fermion.py:376-385, base_1d.py:559-585); same simplifications. -/
noncomputable def chainOp (w L : Nat) (str : List Char) (indx : List Int) (s : Nat) (J : ℂ) : Except Err (Option (Nat × ℂ)) :=
  match chainAdv L str indx with
  | .error e => .error e
  | .ok a => (checkedOp (2 * L) a.1 a.2).map fun l => hcp1dOp true w (2 * L) l s J

/-- `process_spinful_map` (basis_general/fermion.py:250-258). -/
def spinfulMap (L : Nat) (map : List Int) : List Int :=
  if map.length = L then
    let i := map.map fun j => if j < 0 then -(j + 1) + (L : Int) else j
    i ++ i.map fun j => (j + (L : Int)) % (2 * L)
  else map

/-- The checks of the constructor for one map: the length (basis_general/fermion.py:383-389) and `process_map` of the advanced map
(base_general.py:13-38, with at most `fuel` rounds of its loop); the period. -/
def blockMap (fuel L : Nat) (simple : Bool) (map : List Int) : Option (Except Err (List Int × Nat)) :=
  if map.length ≠ (if simple then L else 2 * L) then some (.error .map)
  else
    match processMap fuel (spinfulMap L map) with
    | none => none
    | some (.error _) => some (.error .map)
    | some (.ok p) => some (.ok (spinfulMap L map, p))

/-- A Fock state given to `index`: an integer or a string. -/
inductive Fock where
  | int (n : Nat)
  | str (s : List Char)

/-- `int(x,2)` of a string (basis_general/fermion.py:682, 689).  Simplification: only the digits `0` and `1` are read; Python also takes spaces, signs and
underscores. -/
def parse2 (s : List Char) : Option Nat :=
  if s ≠ [] ∧ s.all (fun c => c == '0' || c == '1') then some (Spec.value2 (s.map fun c => if c = '1' then 1 else 0)) else none

/-- The number of a Fock state (basis_general/fermion.py:679-691). -/
def Fock.num : Fock → Option Nat
  | .int n => some n
  | .str s => parse2 s

/-- `index(up_state,down_state)` (basis_general/fermion.py:679-700, basis_1d/fermion.py:414-435): the places where `basis` holds the number; no place is an error.
`squeeze` makes a number of a single place. -/
def index (L : Nat) (rows : List Nat) (up down : Fock) : Except Err (List Nat) :=
  match up.num, down.num with
  | some u, some d =>
    let k := (List.range rows.length).filter fun k => rows[k]? = some (d + (u <<< L))
    if k = [] then .error .state else .ok k
  | _, _ => .error .state

/-- The digits of `_get_state` (basis_general/fermion.py:747-753, basis_1d/fermion.py:632-638), spin up and spin down; `N = 2L`. -/
def shown (L b : Nat) : List Nat × List Nat :=
  ((List.range (2 * L / 2)).map fun i => (b >>> (2 * L - i - 1)) &&& 1, (List.range (2 * L / 2)).map fun i => (b >>> (2 * L / 2 - i - 1)) &&& 1)

/-- A digit as a character. -/
def digitChar (d : Nat) : Char := if d = 1 then '1' else '0'

/-- The orbitals of a subsystem of the chain (basis_1d/fermion.py:487-498, 582-593), given as a pair of lists or left out. -/
def chainSub (L : Nat) (sub : Option (List Int × List Int)) : List Int :=
  let p := sub.getD ((List.range (L / 2)).map Int.ofNat, (List.range (L / 2)).map Int.ofNat)
  p.1 ++ p.2.map (· + (L : Int))

/-- The orbitals of a subsystem of a general basis in the simple notation (basis_general/fermion.py:595-606); `self.N` is `2L`. -/
def generalSub (L : Nat) (sub : Option (List Int × List Int)) : List Int :=
  let p := sub.getD ((List.range (2 * L / 2)).map Int.ofNat, (List.range (2 * L / 2)).map Int.ofNat)
  p.1 ++ p.2.map (· + ((2 * L : Nat) : Int))

/-- The checks of `_ent_entropy` on `N` orbitals (lattice.py:272-285) and of the reshaping of the state, which needs every orbital to be below `N`
(_reshape_subsys.py:57-77: the array of a state has `2^N` entries; with orbital `N` it is reshaped to `2^(N+1)` entries). -/
def entropySites (N : Nat) (A : List Int) : Except Err (List Nat) :=
  if A.any fun s => s < 0 then .error .subsystem
  else if !Model.Entropy.checks N (A.map Int.toNat) then .error .subsystem
  else if (A.map Int.toNat).any fun s => decide (N ≤ s) then .error .subsystem
  else .ok (A.map Int.toNat)

/-- The sites `partial_trace` of the chain uses (basis_1d/fermion.py:487-502, lattice.py:149-180). -/
def chainTrace (L : Nat) (sub : Option (List Int × List Int)) (ordering : Bool) : Except Model.PartialTraceCall.CallError (List Nat) :=
  Model.PartialTraceCall.sites (2 * L) (some (chainSub L sub)) ordering

/-- `_simple_to_adv` of a sorted term (basis_general/fermion.py:885-901); the term has a bar (`none`: `ValueError`). -/
def advTerm (L : Nat) (op : Model.OpStr.Op) : Option Model.OpStr.Op :=
  if op.str.count '|' = 0 then none
  else some ⟨op.str.take (bar op.str) ++ op.str.drop (bar op.str + 1), op.indx.take (bar op.str) ++ (op.indx.drop (bar op.str)).map (· + L), op.J⟩

/-- `check_symm` of a general spinful basis in the simple notation raises nothing (base.py:508-636, basis_general/fermion.py:948-974): the terms are sorted with
their bars, changed to the advanced notation and compared with their images under the advanced maps, sorted as spinless fermions. -/
def acceptsSimple {F : Type} (L : Nat) (maps : List (List Int)) (static : Model.OpStr.OpList) (dynamic : List (List Char × List (ℂ × List Nat) × F)) : Prop :=
  ∃ s d s' d', Model.OpStr.localList Model.OpStr.spinfulBasis static = some s ∧ Model.OpStr.localDynamic Model.OpStr.spinfulBasis dynamic = some d ∧
    s.mapM (advTerm L) = some s' ∧ (d.mapM fun p => (advTerm L p.1).map fun o => (o, p.2)) = some d' ∧
    ∀ m ∈ maps, Model.CheckSymm.checkMap Model.OpStr.sortFermion (spinfulMap L m) (s'.map fun o => (o, ())) ∧
      Model.CheckSymm.checkMap Model.OpStr.sortFermion (spinfulMap L m) d'

end Model.SpinfulCalls
