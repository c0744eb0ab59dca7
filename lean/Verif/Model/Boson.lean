import Verif.Model.MakeBasis
import Verif.Model.HcbBasis
/-!
Multi-level sites: `boson_basis_core` and `higher_spin_basis_core` (identical enumeration code),
`basis_general/_basis_general_core/source/boson_basis_core.h`.
-/
namespace Model
open Word

/-- Table of powers `M[i]`, `boson_basis_core.h:34-38`, in a `w`-bit type. -/
def powM (w sps : Nat) : Nat → Nat
  | 0 => 1 % 2 ^ w
  | i + 1 => mul w (powM w sps i) sps

/-- `(int)((s/M[i])%sps)`, `boson_basis_core.h:98`. -/
def digitM (w sps s i : Nat) : Nat := (s / powM w sps i) % sps

/-- Inner loop of `next_state_pcon`, `boson_basis_core.h:109-117`: rewrites digits `j, j+1, …`
(`cnt` of them); `l`, `nl` are `n/(sps-1)`, `n%(sps-1)`. -/
def redistribute (w sps l nl : Nat) : (cnt j s : Nat) → Nat
  | 0, _, s => s
  | cnt + 1, j, s =>
    let s := sub w s (mul w (digitM w sps s j) (powM w sps j))
    let s := if j < l then add w s (mul w (sps - 1) (powM w sps j))
             else if j = l then add w s (mul w nl (powM w sps j))
             else s
    redistribute w sps l nl cnt (j + 1) s

/-- Outer loop of `next_state_pcon`, `boson_basis_core.h:97-122`: `cnt = N-1-i` iterations left. -/
def bosonScan (w sps : Nat) : (cnt i n s : Nat) → Nat
  | 0, _, _, s => s
  | cnt + 1, i, n, s =>
    let b1 := digitM w sps s i
    if b1 > 0 then
      let n := n + b1
      let b2 := digitM w sps s (i + 1)
      if b2 < sps - 1 then
        let n := n - 1
        let s := sub w s (powM w sps i)
        let s := add w s (powM w sps (i + 1))
        if n > 0 then redistribute w sps (n / (sps - 1)) (n % (sps - 1)) (i + 1) 0 s
        else s
      else bosonScan w sps cnt (i + 1) n s
    else bosonScan w sps cnt (i + 1) n s

/-- `boson_basis_core::next_state_pcon`, `boson_basis_core.h:91-124`. -/
def bosonNext (w sps N r : Nat) : Nat :=
  if r = 0 then r else bosonScan w sps (N - 1) 0 0 r

/-- `get_s0_pcon`, `boson_core.pyx:87-92`. -/
def bosonS0 (sps Np : Nat) : Nat :=
  let l := Np / (sps - 1)
  ((List.range l).map (fun i => (sps - 1) * sps ^ i)).sum + (Np % (sps - 1)) * sps ^ l

/-- `H_dim`, `basis_general/boson.py:7-25`; the same in `_basis_1d_core/hcp_basis.pyx:25-44`, `_basis_1d_core/boson_basis.pyx:24-43` and
`_basis_1d_core/spf_basis.pyx:24-43`. -/
def hDim (Np N m : Nat) : Int :=
  ((List.range (Np / (m + 1) + 1)).map (fun r =>
    let r2 := Np - r * (m + 1)
    if r % 2 = 0 then ((N.choose r * (N + r2 - 1).choose r2 : Nat) : Int)
    else -((N.choose r * (N + r2 - 1).choose r2 : Nat) : Int))).sum

/-- Largest state considered by `get_basis_type` for `sps > 2`,
`general_basis_utils.pyx:368-379`.  Simplification: when the sector is completely full
(`Np = N*(sps-1)`) Python's last summand is the float `0*sps**(-1)`, which turns the sum into a
float; the model keeps the exact integer (rounding never lowers the bit length; for
`sps**N` beyond the double range Python raises `OverflowError`, not modelled). -/
def bosonSMax (N sps : Nat) : Option Nat → Nat
  | none => sps ^ N - 1
  | some Np =>
    let l := Np / (sps - 1)
    ((List.range l).map (fun i => (sps - 1) * sps ^ (N - 1 - i))).sum
      + (Np % (sps - 1)) * sps ^ (N - l - 1)

/-- Number of iterations of `while(s_max>0): s_max >>= 1; nbits += 1`,
`general_basis_utils.pyx:381-384`. -/
def bitLength (fuel s : Nat) : Nat :=
  match fuel with
  | 0 => 0
  | fuel + 1 => if s > 0 then bitLength fuel (s >>> 1) + 1 else 0

/-- `get_basis_type(N, Np, sps)`, `general_basis_utils.pyx:329-402`, for `Np` None or an integer;
the result is the width of the type.  (`fuel = s_max` is enough for the shifting loop.) -/
def getBasisType (N : Nat) (Np : Option Nat) (sps : Nat) : Option Nat :=
  if (Np.map (fun k => decide (k > N * (sps - 1)))).getD false then none
  else if sps > 2 then widthFor (bitLength (bosonSMax N sps Np) (bosonSMax N sps Np))
  else if sps = 2 then widthFor N
  else none

/-- `boson_basis_general(N, Nb=Np, sps=sps)` without maps and with `sps > 2`,
`boson.py:184-227`, `boson_core.pyx:98-139`, `base_general.py:739-768`: the array of states. -/
def bosonBasis (N sps Np : Nat) : Except PyErr (List Nat) :=
  match getBasisType N (some Np) sps with
  | none => .error .valueError
  | some w =>
    let Ns := (hDim Np N (sps - 1)).toNat
    match makeBasisPcon (fun s _ => bosonNext w sps N s) id checkNoMaps 0 Ns (max Ns 1000)
        (bosonS0 sps Np % 2 ^ w) 1 [] with
    | .ok l => .ok (l.map Prod.fst)
    | .insufficient => .error .valueError
    | .overrun => .error .memoryOverrun

end Model
