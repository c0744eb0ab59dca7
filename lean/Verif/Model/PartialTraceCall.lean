import Verif.Model.PartialTrace
import Mathlib.Data.List.Sort
import Mathlib.Data.Int.Notation

/-!
`partial_trace` of lattice bases (`/repo/quspin/basis/lattice.py:144-261`): the checks of the arguments, the ways states can be given, and
the helpers of `_reshape_subsys.py` (`Model.PartialTrace`) each of them goes through.  Simplifications: the entries of `sub_sys_A` are
integers, states are double complex arrays; the projector to the full space is given by its entries `P row state` (its values: C42, C98).
-/

namespace Model.PartialTraceCall
open Model.PartialTrace

/-- How a call can fail; `unmodelled` marks calls that are not modelled (an empty basis, a full space with one state, no states). -/
inductive CallError where
  | valueError
  | typeError
  | unmodelled
  deriving DecidableEq

/-- The array `state` of a call; its first dimension is `Ns` except for `other`.  `cube` has three dimensions, `more` has at least four. -/
inductive State (Ns : ℕ) where
  | vec (v : Fin Ns → ℂ)
  | mat (isSparse : Bool) (n : ℕ) (V : Fin Ns → Fin n → ℂ)
  | cube (m n : ℕ) (R : Fin Ns → Fin m → Fin n → ℂ)
  | more
  | other

/-- A result: the shape of the array and the matrices in it, one after the other. -/
structure Out where
  shape : List ℕ
  mats : List (ℕ → ℕ → ℂ)

/-- The checks of `sub_sys_A` and its sites in the order that is used (lattice.py:149-180). -/
def sites (N : ℕ) (A : Option (List ℤ)) (ordering : Bool) : Except CallError (List ℕ) :=
  if A.isSome && (A.getD []).length == N then .error .valueError
  else
    let A' := A.getD ((List.range (N / 2)).map Int.ofNat)
    if A'.any fun s => s < 0 || (N : ℤ) < s then .error .valueError
    else if A'.any fun s => 1 < A'.count s then .error .valueError
    else .ok (if ordering then (A'.map Int.toNat).insertionSort (· ≤ ·) else A'.map Int.toNat)

/-- `tuple(set(range(L)) - set(sub_sys_A))` (_reshape_subsys.py:65-68), where `walk` is the order in which Python walks through a set. -/
def rest (walk : List ℕ → List ℕ) (N : ℕ) (A : List ℕ) : List ℕ := walk ((List.range N).filter fun i => !A.contains i)

/-- `project_from(v)`: the amplitudes of a state in the full space (lattice.py:217, 223). -/
noncomputable def embed {Ns : ℕ} (P : ℕ → Fin Ns → ℂ) (v : Fin Ns → ℂ) (i : ℕ) : ℂ := ∑ k, P i k * v k

/-- `proj*state*proj.H` (lattice.py:228-229, 240). -/
noncomputable def embedMat {Ns : ℕ} (P : ℕ → Fin Ns → ℂ) (R : Fin Ns → Fin Ns → ℂ) (i j : ℕ) : ℂ :=
  ∑ l, (∑ k, P i k * R k l) * star (P j l)

/-- `numpy.squeeze`. -/
def squeeze (shape : List ℕ) : List ℕ := shape.filter (· ≠ 1)

/-- The two results of several runs of a helper, with shapes made from the sizes of the two subsystems; `none` in a helper is a
`ValueError`. -/
noncomputable def collect {α : Type} (trace : α → Option ((ℕ → ℕ → ℂ) × (ℕ → ℕ → ℂ))) (states : List α) (shape : ℕ → List ℕ) (dA dB : ℕ) :
    Except CallError (Out × Out) :=
  match states.mapM trace with
  | none => .error .valueError
  | some l => .ok (⟨shape dA, l.map Prod.fst⟩, ⟨shape dB, l.map Prod.snd⟩)

/-- The branch for sparse states and for `sparse=True` (lattice.py:190-214), with the columns `cols` of the state.  The entries of the
projected state are all stored (scipy leaves out zeros, which adds nothing to the sums).  With a site `N`, `sps**(-1)` is a double
precision number that cannot be added to the integers in place (_reshape_subsys.py:196-197). -/
noncomputable def sparseBranch (sps N : ℕ) (quotient : ℕ → ℕ → ℕ) (A B : List ℕ) (enforcePure : Bool) (cols : List (ℕ → ℂ)) :
    Except CallError (Out × Out) :=
  let run := fun psi : ℕ → ℂ => some (traceSparse quotient sps N A B ((List.range (sps ^ N)).map fun i => (i, psi i)))
  if cols.length = 0 then .error .valueError
  else if cols.length ≠ 1 && cols.length = sps ^ N && !enforcePure then .error .valueError
  else if A.any fun s => N ≤ s then .error .typeError
  else collect run cols (fun d => if cols.length = 1 then [d, d] else [cols.length]) (sps ^ A.length) (sps ^ B.length)

/-- The branches for dense states and for `sparse=True` (lattice.py:190-253).  `oneD` tells the one-dimensional classes, which project sparse
states (base_1d.py:671-672), from the general ones, which refuse them (base_general.py:658-660). -/
noncomputable def branches {Ns : ℕ} (oneD : Bool) (sps N : ℕ) (P : ℕ → Fin Ns → ℂ) (quotient : ℕ → ℕ → ℕ) (A B : List ℕ)
    (enforcePure sparse : Bool) : State Ns → Except CallError (Out × Out)
  | .vec v =>
    if sparse then sparseBranch sps N quotient A B enforcePure [embed P v]
    else collect (tracePure sps A B (sps ^ N)) [embed P v] (fun d => squeeze [d, d]) (sps ^ A.length) (sps ^ B.length)
  | .mat isSparse n V =>
    let cols := (List.finRange n).map fun j => embed P fun k => V k j
    if isSparse then
      if oneD then sparseBranch sps N quotient A B enforcePure cols else .error .valueError
    else if sparse then sparseBranch sps N quotient A B enforcePure cols
    else if hn : n = Ns then
      if enforcePure then
        collect (tracePure sps A B (sps ^ N)) cols (fun d => squeeze [n, d, d]) (sps ^ A.length) (sps ^ B.length)
      else
        collect (traceMixed sps N A B (sps ^ N)) [embedMat P fun k l => V k (l.cast hn.symm)] (fun d => [1, d, d])
          (sps ^ A.length) (sps ^ B.length)
    else if n = 0 then .error .unmodelled
    else collect (tracePure sps A B (sps ^ N)) cols (fun d => squeeze [n, d, d]) (sps ^ A.length) (sps ^ B.length)
  | .cube m n R =>
    if sparse then .error .valueError
    else if hm : m = Ns then
      if n = 0 then .error .unmodelled
      else collect (traceMixed sps N A B (sps ^ N)) ((List.finRange n).map fun j => embedMat P fun k l => R k (l.cast hm.symm) j)
        (fun d => [n, d, d]) (sps ^ A.length) (sps ^ B.length)
    else .error .valueError
  | .more => .error .valueError
  | .other => .error .valueError

/-- `partial_trace(state, sub_sys_A, subsys_ordering, "both", enforce_pure, sparse)` (lattice.py:144-261); for `"A"` and `"B"` one of the two
results is returned. -/
noncomputable def call {Ns : ℕ} (oneD : Bool) (sps N : ℕ) (P : ℕ → Fin Ns → ℂ) (walk : List ℕ → List ℕ) (quotient : ℕ → ℕ → ℕ)
    (state : State Ns) (A : Option (List ℤ)) (ordering enforcePure sparse : Bool) : Except CallError (Out × Out) :=
  match sites N A ordering with
  | .error e => .error e
  | .ok A' =>
    if Ns = 0 || sps ^ N = 1 then .error .unmodelled
    else branches oneD sps N P quotient A' (rest walk N A') enforcePure sparse state

end Model.PartialTraceCall
