import Verif.Model.OpStrings

/-!
Model of the checks of operator lists in photon bases with a conserved total number (`/repo/quspin/basis/photon.py`,
`/repo/quspin/basis/base.py`).  The oscillator basis and the photon basis provide the functions of `Model.OpStr.Basis`.
-/

namespace Model.PhotonChecks
open Model.OpStr

/-- `ho_basis(Np)`: `_sort_opstr` (photon.py:941-942), `_hc_opstr` (photon.py:959-970), `_non_zero` (photon.py:973-976) as it is in the
code: it is true if there are more raising or more lowering operators than `Np`; `_expand_opstr` (photon.py:979-983). -/
def hoBasis (Np : Nat) : Basis where
  sort op := some op
  hc op := some (reversed op)
  nonZero op := some (decide (op.str.count '+' > Np) || decide (op.str.count '-' > Np))
  expand op := some [op]

/-- `photon_basis._sort_opstr` (photon.py:699-737): the photon operators get the smallest index of the particle operators, 0 if there are
none; the coupling is kept. -/
def photonSort (left : Basis) (Np : Nat) (op : Op) : Option Op :=
  if op.str.count '|' ≠ 1 then none
  else if op.str.length ≠ op.indx.length + 1 then none
  else
    (left.sort (leftPart op op.J)).bind fun a =>
      ((hoBasis Np).sort ⟨(splitBar op.str).2, List.replicate (splitBar op.str).2.length ((leftPart op op.J).indx.min?.getD 0), op.J⟩).map
        fun b => join a b op.J

/-- `photon_basis` with `Ntot`: sorting is its own, the rest that of `tensor_basis` (tensor.py:844-952) with `ho_basis(Ntot)` on the right
(photon.py:167). -/
def photonBasis (left : Basis) (Ntot : Nat) : Basis :=
  { tensorBasis left (hoBasis Ntot) with sort := photonSort left Ntot }

/-- The indices of one bond in `photon_basis._get_local_lists`, extended to the photon operators (photon.py:748-762). -/
def extend (str : List Char) (indx : List Nat) : Option (List Nat) :=
  if str.count '|' ≠ 1 then none
  else if (splitBar str).1.length ≠ indx.length then none
  else some (indx ++ List.replicate (str.length - 1 - indx.length) (indx.min?.getD 0))

/-- The bonds of one entry (photon.py:748-765). -/
def extendBonds (str : List Char) (bonds : List (ℂ × List Nat)) : Option (List (ℂ × List Nat)) :=
  bonds.mapM fun b => (extend str b.2).map fun i => (b.1, i)

/-- The static list with the extended indices (photon.py:739-765).  An entry without bonds but with a wrong number of bars raises too; this
is not modelled. -/
def extendStatic (l : OpList) : Option OpList := l.mapM fun e => (extendBonds e.1 e.2).map fun b => (e.1, b)

/-- The dynamic list with the extended indices (photon.py:767-788). -/
def extendDynamic {F : Type} (l : List (List Char × List (ℂ × List Nat) × F)) : Option (List (List Char × List (ℂ × List Nat) × F)) :=
  l.mapM fun e => (extendBonds e.1 e.2.1).map fun b => (e.1, b, e.2.2)

/-- `check_hermitian` of a photon basis raises nothing (base.py:449-506 with photon.py:739-790). -/
def photonHerm {F : Type} (left : Basis) (Ntot : Nat) (app : F → ℂ → ℂ) (t : ℂ) (static : OpList)
    (dynamic : List (List Char × List (ℂ × List Nat) × F)) : Prop :=
  ∃ s d, extendStatic static = some s ∧ extendDynamic dynamic = some d ∧ acceptsHerm (photonBasis left Ntot) app t s d

/-- `check_pcon` of a photon basis raises nothing (base.py:637-718 with photon.py:739-790). -/
def photonPcon {F : Type} (left : Basis) (Ntot : Nat) (tiny : ℂ → Prop) (static : OpList)
    (dynamic : List (List Char × List (ℂ × List Nat) × F)) : Prop :=
  ∃ s d, extendStatic static = some s ∧ extendDynamic dynamic = some d ∧ acceptsPcon (photonBasis left Ntot) tiny s d

/-- `spin_basis_1d` (basis_1d/spin.py:262-371). -/
noncomputable def spin1d (sps : Nat) (pauli : Int) : Basis :=
  ⟨sortSite, hcSite, fun op => some (nonZero1d (sps - 1) op), fun op => some (expandSpin pauli op)⟩

end Model.PhotonChecks
