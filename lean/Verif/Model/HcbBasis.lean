import Verif.Model.MakeBasis
/-!
`hcb_basis_general` without symmetry maps (the class behind spin-1/2, hard-core boson and spinless
fermion bases), `basis_general/base_hcb.py` and `basis_general/base_general.py`.
-/
namespace Model

/-- The `Nb` argument: `None`, an integer, or an iterable of integers.  Simplification: a single
negative integer is not represented (it gives the same empty basis as `k > N`, `comb` being 0). -/
inductive NbArg where
  | none
  | int (k : Nat)
  | list (ks : List Nat)
deriving DecidableEq, Repr

/-- Exceptions raised by the constructor. -/
inductive PyErr where
  | valueError
  | typeError
  | memoryOverrun
deriving DecidableEq, Repr

/-- Tail of `get_basis_type`, `_basis_general_core/general_basis_utils.pyx:389-402`: number of bits
of the selected unsigned type. -/
def widthFor (nbits : Nat) : Option Nat :=
  if nbits ≤ 32 then some 32
  else if nbits ≤ 64 then some 64
  else if nbits ≤ 256 then some 256
  else if nbits ≤ 1024 then some 1024
  else if nbits ≤ 4096 then some 4096
  else if nbits ≤ 16384 then some 16384
  else none

/-- `hcb_basis_general.__init__`, `base_hcb.py:28-44`: the number of states `_Ns` (no maps). -/
def hcbNs (N : Nat) : NbArg → Except PyErr Nat
  | .none => .ok (1 <<< N)
  | .int k => .ok (N.choose k)
  | .list ks => if ks.any (fun b => b > N) then .error .valueError else .ok (ks.map (fun b => N.choose b)).sum

/-- `check_state` without maps returns 1, `general_basis_core.h:73-75`. -/
def checkNoMaps : Check := fun _ => some 1

/-- One call of `_make_basis_pcon`, `general_basis_core.pyx:722-766`, for `hcb` with no maps: from
`s0 = 2^Np-1`, `comb(N,Np)` steps, into an array of `mem` entries. -/
def hcbPcon (w N mem k : Nat) : Built :=
  makeBasisPcon (fun s _ => nextStatePcon w s) id checkNoMaps 0 (N.choose k) mem (s0Pcon k) 1 []

/-- The loop over sectors of `hcb_basis_core_wrap.make_basis`, `hcb_core.pyx:79-89`; `acc` is the
filled part of the arrays, the next sector is written to `basis[Ns_2:]`. -/
def hcbSectors (w N mem : Nat) : List Nat → List (Nat × Int) → Built
  | [], acc => .ok acc
  | k :: ks, acc =>
    match hcbPcon w N (mem - acc.length) k with
    | .ok l => if acc.length + l.length > mem then .insufficient else hcbSectors w N mem ks (acc ++ l)
    | e => e

/-- `hcb_basis_core_wrap.make_basis`, `hcb_core.pyx:67-106`.  `_make_basis_full` exists for the two
built-in types only (`general_basis_core.pyx:711-718`). -/
def hcbCoreMake (w N mem : Nat) : NbArg → Except PyErr Built
  | .none => if w ≤ 64 then .ok (makeBasis w id checkNoMaps 0 (2 ^ N) mem 1 []) else .error .typeError
  | .int k => .ok (hcbPcon w N mem k)
  | .list ks => .ok (hcbSectors w N mem ks [])

/-- `hcb_basis_general(N, Nb=…)` without maps: `base_hcb.py:28-66`, then `make`,
`base_general.py:739-778`.  Returns the array of basis states.  `argsortRev` stands for
`basis[argsort(basis[:Ns])[::-1]]` (`base_general.py:775`). -/
def hcbBasis (argsortRev : List (Nat × Int) → List (Nat × Int)) (N : Nat) (Nb : NbArg) :
    Except PyErr (List Nat) :=
  match hcbNs N Nb, widthFor N with
  | .error e, _ => .error e
  | .ok _, none => .error .valueError
  | .ok Ns, some w =>
    match hcbCoreMake w N (max Ns 1000) Nb with
    | .error e => .error e
    | .ok .insufficient => .error .valueError
    | .ok .overrun => .error .memoryOverrun
    | .ok (.ok l) =>
      match Nb with
      | .list _ => .ok ((argsortRev l).map Prod.fst)
      | _ => .ok (l.map Prod.fst)

end Model
