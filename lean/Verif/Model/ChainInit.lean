import Verif.Spec.ChainLabels
import Mathlib.Data.Rat.Floor
/-!
Which block of which particle sectors the constructors of the one-dimensional bases make: `spin_basis_1d.__init__` (`basis_1d/spin.py`),
`boson_basis_1d.__init__` (`basis_1d/boson.py`), `spinless_fermion_basis_1d.__init__` and `spinful_fermion_basis_1d.__init__` (`basis_1d/fermion.py`),
`basis_1d.__init__` (`basis_1d/base_1d.py`).

Simplifications: labels are integers or `None` (other types raise), the unit cell is not negative; `none` stands for any exception; the preallocation
(`get_Ns`), the integer type and the description are left out (C67 covers them).
-/
namespace Model.ChainInit
open Spec.Labels

/-- The function of the basis module that makes the basis, with the labels it is given (`base_1d.py:144-425`). -/
inductive Call where
  | t_p_z (p z k : Int)
  | t_zA_zB (zA zB k : Int)
  | t_pz (pz k : Int)
  | t_p (p k : Int)
  | t_z (z k : Int)
  | t_zA (zA k : Int)
  | t_zB (zB k : Int)
  | p_z (p z : Int)
  | zA_zB (zA zB : Int)
  | p (p : Int)
  | z (z : Int)
  | zA (zA : Int)
  | zB (zB : Int)
  | pz (pz : Int)
  | t (k : Int)
  | plain
deriving DecidableEq, Repr

/-- The chain of `if` and `elif` of `basis_1d.__init__`, `base_1d.py:144-425`, in its order. -/
def dispatch (b : Request) : Call :=
  match b.k, b.p, b.z, b.zA, b.zB, b.pz with
  | some k, some p, some z, _, _, _ => .t_p_z p z k
  | some k, _, _, some zA, some zB, _ => .t_zA_zB zA zB k
  | some k, _, _, _, _, some pz => .t_pz pz k
  | some k, some p, _, _, _, _ => .t_p p k
  | some k, _, some z, _, _, _ => .t_z z k
  | some k, _, _, some zA, _, _ => .t_zA zA k
  | some k, _, _, _, some zB, _ => .t_zB zB k
  | _, some p, some z, _, _, _ => .p_z p z
  | _, _, _, some zA, some zB, _ => .zA_zB zA zB
  | _, some p, _, _, _, _ => .p p
  | _, _, some z, _, _, _ => .z z
  | _, _, _, some zA, _, _ => .zA zA
  | _, _, _, _, some zB, _ => .zB zB
  | _, _, _, _, _, some pz => .pz pz
  | some k, _, _, _, _, _ => .t k
  | _, _, _, _, _, _ => .plain

/-- `abs(block) != 1` raises, `base_1d.py:76-94`. -/
def unitLabel (o : Option Int) : Bool := o.all fun (x : Int) => x.natAbs == 1

/-- `basis_1d.__init__`, `base_1d.py:46-132` and the choice of the function. -/
def base1d (L a : ℕ) (b : Request) : Option Call :=
  if L = 0 then none
  else if a = 0 ∨ L % a ≠ 0 then none
  else if ¬(unitLabel b.p ∧ unitLabel b.z ∧ unitLabel b.zA ∧ unitLabel b.zB ∧ unitLabel b.pz) then none
  else if b.p.isSome ∧ (b.zA.isSome ∨ b.zB.isSome) then none
  else some (dispatch { b with k := b.k.map fun (k : Int) => k % ((L / a : ℕ) : Int) })

/-- The product of two labels where both are given, else `o` (`spin.py:172-180`). -/
def product (x y o : Option Int) : Option Int :=
  match x, y with
  | some x, some y => some (x * y)
  | _, _ => o

/-- The tests under `check_z_symm`, `spin.py:184-203`; the exception for several sectors is created but not raised (line 188), and only the first sector is
looked at. -/
def flipTests (sps L a : ℕ) (nups : Option (List Int)) (b : Request) : Bool :=
  (match nups with
    | none => true
    | some l =>
      (if b.z.isSome ∨ b.pz.isSome then
        match l.head? with
        | none => false
        | some n => L * (sps - 1) % 2 = 0 ∧ n = (L * (sps - 1) / 2 : ℕ)
      else true) && !(b.zA.isSome || b.zB.isSome)) &&
  (if b.k.isSome ∧ (b.zA.isSome ∨ b.zB.isSome) then a % 2 = 0 else true)

/-- `spin_basis_1d.__init__` after the list of sectors is known, `spin.py:154-234`. -/
def spinInit (sps L : ℕ) (nups : Option (List Int)) (check : Bool) (a : Option ℕ) (r : Request) : Option Call :=
  let b := { r with pz := product r.p r.z r.pz, z := product r.zA r.zB r.z }
  if check ∧ ¬flipTests sps L (a.getD 1) nups b then none else base1d L (a.getD 1) b

/-- `boson_basis_1d.__init__` after the list of sectors and `sps` are known, `boson.py:147-227`.  `pcblock` alone is never passed on as `pzblock`.  With a
list of sectors and `cblock` or `pcblock` line 191 uses the undefined name `Np`, or an exception is raised before. -/
def bosonInit (sps L : ℕ) (nbs : Option (List Int)) (check : Bool) (a : Option ℕ) (r : Request) : Option Call :=
  if sps > 2 ∧ (r.z.isSome ∨ r.zA.isSome ∨ r.zB.isSome) then none
  else if check ∧ nbs.isSome ∧ (r.z.isSome ∨ r.pz.isSome) then none
  else if check ∧ nbs.isSome ∧ (r.zA.isSome ∨ r.zB.isSome) then none
  else if check ∧ r.k.isSome ∧ (r.zA.isSome ∨ r.zB.isSome) ∧ a.getD 1 % 2 ≠ 0 then none
  else base1d L (a.getD 1) { r with pz := product r.p r.z none, z := product r.zA r.zB r.z }

/-- `spinless_fermion_basis_1d.__init__`, `fermion.py:61-129`: any label but `kblock` and `pblock` raises. -/
def spinlessInit (L : ℕ) (a : Option ℕ) (r : Request) : Option Call :=
  if r.z.isSome ∨ r.zA.isSome ∨ r.zB.isSome ∨ r.pz.isSome then none else base1d L (a.getD 1) r

/-- `spinful_fermion_basis_1d.__init__` after the list of sectors is known, `fermion.py:323-373`; `z` is `sblock` and `pz` is `psblock`. -/
def spinfulInit (L : ℕ) (nfs : Option (List (Int × Int))) (check : Bool) (a : Option ℕ) (r : Request) : Option Call :=
  if r.zA.isSome ∨ r.zB.isSome then none
  else
    let b := { r with pz := product r.p r.z r.pz }
    let bad : Bool := match nfs with
      | none => false
      | some l =>
        if b.z.isSome ∨ b.pz.isSome then
          match l.head? with
          | none => true
          | some n => L % 2 ≠ 0 ∨ n.1 ≠ (L / 2 : ℕ) ∨ n.2 ≠ (L / 2 : ℕ)
        else false
    if check ∧ bad then none else base1d L (a.getD 1) b

/-- The sectors from `Nup` given as an integer, `spin.py:112-124` (`S2` is `2*S`, an integer). -/
def spinSector (S2 L : ℕ) (Nup : Int) : Int := if Nup < 0 then (S2 * L : ℕ) + Nup + 1 else Nup

/-- The sectors from `m`, `spin.py:106-110`: `int` rounds towards zero, the argument is not negative. -/
def spinDensity (S2 L : ℕ) (m : ℚ) : Option Int :=
  if m < -((S2 : ℚ) / 2) ∨ m > (S2 : ℚ) / 2 then none else some ⌊(m + (S2 : ℚ) / 2) * L⌋

/-- `_Np` of `spin_basis_1d`, `spin.py:134-145`, as given by `photon_basis` with a conserved number of quanta (`photon.py:164`). -/
def spinUpTo (L N : ℕ) : List ℕ := List.range ((if N + 1 > L then L else N) + 1)

/-- `_Np` of `boson_basis_1d`, `boson.py:125-137`. -/
def bosonUpTo (sps L N : ℕ) : List ℕ := List.range (min ((sps - 1) * L) N)

/-- `_Np` of `spinless_fermion_basis_1d`, `fermion.py:95-107`. -/
def spinlessUpTo (L N : ℕ) : List ℕ := List.range (min L N)

/-- `_Np` of `spinful_fermion_basis_1d`, `fermion.py:247-267`. -/
def spinfulUpTo (L N : ℕ) : List (ℕ × ℕ) :=
  (List.range ((if N + 1 > L then L else N) + 1)).flatMap fun (n : ℕ) => (List.range (n + 1)).map fun (i : ℕ) => (n - i, i)

/-- The quantum numbers of the basis that a function makes.  That they make bases of these blocks is C63, C65, C67, C70 and C74-C77. -/
def Call.request : Call → Request
  | .t_p_z x y k => { k := some k, p := some x, z := some y }
  | .t_zA_zB x y k => { k := some k, zA := some x, zB := some y }
  | .t_pz x k => { k := some k, pz := some x }
  | .t_p x k => { k := some k, p := some x }
  | .t_z x k => { k := some k, z := some x }
  | .t_zA x k => { k := some k, zA := some x }
  | .t_zB x k => { k := some k, zB := some x }
  | .p_z x y => { p := some x, z := some y }
  | .zA_zB x y => { zA := some x, zB := some y }
  | .p x => { p := some x }
  | .z x => { z := some x }
  | .zA x => { zA := some x }
  | .zB x => { zB := some x }
  | .pz x => { pz := some x }
  | .t k => { k := some k }
  | .plain => {}

end Model.ChainInit
