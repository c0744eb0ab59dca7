import Verif.Model.GeneralMake
import Verif.Model.HcbBasis

/-!
The memory for the states of a block of a general basis: the estimate of the constructors, `basis_general/base_hcb.py:46-53`,
`base_higher_spin.py:51-60`, `boson.py:209-217`, `fermion.py:138-147, 467-476`, and what `make` does with it.
-/

namespace Model.BlockMemory
open Model GeneralMake

/-- The number of states over the product of the periods is multiplied by this (base_hcb.py:48, base_higher_spin.py:53, boson.py:211,
fermion.py:140, 469); spins and bosons with two levels run base_hcb.py. -/
def factor : Cls → ℕ → ℕ
  | .hcb, _ => 2
  | .higherSpin, sps => sps
  | .spin, sps => if sps = 2 then 2 else sps
  | .boson, sps => if sps = 2 then 2 else sps
  | .spinless, _ => 4
  | .spinful, _ => 4

/-- `Ns_block_est` as it arrives: bosons with two levels do not hand it on (boson.py:155). -/
def handedOn (cls : Cls) (sps : ℕ) (given : Option ℤ) : Option ℤ := if cls = .boson ∧ sps = 2 then none else given

/-- `self._Ns` after the estimate; `total` is the number of states without symmetries, `pers` are the periods.  Hard-core bosons and spins one half do not
check the sign (base_hcb.py:49-53).  The quotient is exact here, the code divides floating point numbers and rounds down. -/
def estimate (cls : Cls) (sps total : ℕ) (pers : List ℕ) (given : Option ℤ) : Except PyErr ℤ :=
  if pers = [] then .ok total
  else
    match handedOn cls sps given with
    | none => .ok ((total / pers.prod * factor cls sps : ℕ) : ℤ)
    | some e => if e ≤ 0 ∧ ¬(cls = .hcb ∨ (cls = .spin ∧ sps = 2)) then .error .valueError else .ok e

/-- `max([self._Ns,1000,self._Ns_block_est])`, base_general.py:738; both are the estimate. -/
def room (est : ℤ) : ℕ := (max est 1000).toNat

/-- The constructor of a basis with maps and without a particle number: the estimate, then `make` (base_general.py:740-768); `check` is the test of the
states. -/
def construct (cls : Cls) (sps total : ℕ) (pers : List ℕ) (given : Option ℤ) (w : ℕ) (sort : List (ℕ × ℤ) → List (ℕ × ℤ)) (check : Check) (T : ℕ)
    (writes : List (ℕ × (ℕ × ℤ))) : Except PyErr (List (ℕ × ℤ)) :=
  match estimate cls sps total pers given with
  | .error e => .error e
  | .ok est =>
    match makeBasis w sort check pers.length total (room est) T writes with
    | .ok l => .ok l
    | .insufficient => .error .valueError
    | .overrun => .error .memoryOverrun

end Model.BlockMemory
