import Verif.Model.Word
namespace Model
open Word

/-- `hcb_basis_core::next_state_pcon`,
`basis_general/_basis_general_core/source/hcb_basis_core.h:124-128`, in a `w`-bit type.  The second
argument of the C++ function (number of calls so far) is unused there. -/
def nextStatePcon (w s : Nat) : Nat :=
  if s = 0 then s
  else
    let t := add w (s ||| sub w s 1) 1
    t ||| sub w (((t &&& sub w 0 t) / (s &&& sub w 0 s)) >>> 1) 1

/-- `get_s0_pcon`, `basis_general/_basis_general_core/hcb_core.pyx:60-61`:
`sum(1<<i for i in range(Np))`. -/
def s0Pcon (Np : Nat) : Nat := ((List.range Np).map (fun i => 1 <<< i)).sum

end Model
