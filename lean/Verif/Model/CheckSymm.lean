import Verif.Model.OpStrings

/-!
Model of the symmetry check of operator lists: `/repo/quspin/basis/basis_1d/_check_1d_symm.py`, `_check_1d_symm_spf.py`,
`/repo/quspin/basis/basis_1d/base_1d.py`, `fermion.py` and `/repo/quspin/basis/basis_general/base_general.py` (`_check_symm`), and
`check_symm` of `/repo/quspin/basis/base.py`.

The check takes the sorted terms of a list, transforms each term, sorts it and looks for it in the list.  A term of a dynamic list
carries its drive and the arguments of the drive; they are compared too.  A call that raises anything is not an acceptance.
-/

namespace Model.CheckSymm
open Model.OpStr

/-- `.replace("+","#").replace("-","+").replace("#","-")` on one character (_check_1d_symm.py:68, 112, base_general.py:1164). -/
def swapChar (c : Char) : Char :=
  let c1 := if c = '+' then '#' else c
  let c2 := if c1 = '-' then '+' else c1
  if c2 = '#' then '-' else c2

/-- `i`: the position of the bar if there is exactly one, else the length (_check_1d_symm.py:57-60, 101-104, 135-138). -/
def cut (s : List Char) : Nat := if s.count '|' = 1 then (s.takeWhile (· ≠ '|')).length else s.length

/-- `(ind+i*a)%L` on all sites (_check_1d_symm.py:30-37, _check_1d_symm_spf.py:14-23). -/
def moveT (L a i : Nat) (op : Op) : Op := { op with indx := op.indx.map fun j => (j + i * a) % L }

/-- `(L-1-ind) % L` on all sites (_check_1d_symm.py:81-86, _check_1d_symm_spf.py:66-71); python's remainder is not negative. -/
def moveP (L : Nat) (op : Op) : Op := { op with indx := op.indx.map fun (j : Nat) => (((L : Int) - 1 - j) % L).toNat }

/-- The string with `+` and `-` exchanged before the bar (_check_1d_symm.py:67-68). -/
def moveZ (op : Op) : Op := { op with str := (op.str.take (cut op.str)).map swapChar ++ op.str.drop (cut op.str) }

/-- An odd number of `z` and `y` before the bar (_check_1d_symm.py:62-65). -/
def oddZ (op : Op) : Prop := ((op.str.take (cut op.str)).count 'y' + (op.str.take (cut op.str)).count 'z') % 2 ≠ 0

/-- Reflection and exchange of `+` and `-`; the coupling gets a sign for every `z` before the bar and every `y`
(_check_1d_symm.py:95-114). -/
def movePZ (L : Nat) (op : Op) : Op :=
  ⟨(op.str.take (cut op.str)).map swapChar ++ op.str.drop (cut op.str), op.indx.map fun (j : Nat) => (((L : Int) - 1 - j) % L).toNat,
    op.J * (-1) ^ ((op.str.take (cut op.str)).count 'z' + op.str.count 'y')⟩

/-- One character of `flip_sublat` (_check_1d_symm.py:12-19). -/
def flipOne (lat : Nat) (p : Char × Nat) : Int × Char :=
  if p.2 % 2 = lat % 2 then
    (if p.1 = 'z' ∨ p.1 = 'y' then (-1, p.1) else if p.1 = '+' then (1, '-') else if p.1 = '-' then (1, '+') else (1, p.1))
  else (1, p.1)

/-- `flip_sublat`: the sign and the new string; characters beyond the sites stay (_check_1d_symm.py:9-21). -/
def flipSublat (lat : Nat) (s : List Char) (i : List Nat) : Int × List Char :=
  (((s.zip i).map fun p => (flipOne lat p).1).prod, (s.zip i).map (fun p => (flipOne lat p).2) ++ s.drop i.length)

/-- The new string of `check_ZA` (`lat = 0`) and `check_ZB` (`lat = 1`) (_check_1d_symm.py:140-147, 175-181). -/
def moveSub (lat : Nat) (op : Op) : Op :=
  { op with str := (flipSublat lat (op.str.take (cut op.str)) (op.indx.take (cut op.str))).2 ++ op.str.drop (cut op.str) }

/-- `sign == -1` (_check_1d_symm.py:140-143, 175-178). -/
def oddSub (lat : Nat) (op : Op) : Prop := (flipSublat lat (op.str.take (cut op.str)) (op.indx.take (cut op.str))).1 = -1

/-- No `missing_ops`: every transformed and sorted term is in the list, with the same further entries. -/
def closed {X : Type} (sort : Op → Option Op) (move : Op → Op) (l : List (Op × X)) : Prop :=
  ∀ p ∈ l, ∃ r, sort (move p.1) = some r ∧ (r, p.2) ∈ l

/-- `check_T` reports nothing: all translations by multiples of the unit cell (_check_1d_symm.py:27-45, _check_1d_symm_spf.py:13-31). -/
def checkT {X : Type} (sort : Op → Option Op) (L a : Nat) (l : List (Op × X)) : Prop := ∀ i < L / a, closed sort (moveT L a i) l

/-- `check_P` reports nothing (_check_1d_symm.py:78-90, _check_1d_symm_spf.py:64-76). -/
def checkP {X : Type} (sort : Op → Option Op) (L : Nat) (l : List (Op × X)) : Prop := closed sort (moveP L) l

/-- `check_Z` reports nothing (_check_1d_symm.py:50-74). -/
def checkZ {X : Type} (sort : Op → Option Op) (l : List (Op × X)) : Prop := (∀ p ∈ l, ¬oddZ p.1) ∧ closed sort moveZ l

/-- `check_PZ` reports nothing (_check_1d_symm.py:95-121). -/
def checkPZ {X : Type} (sort : Op → Option Op) (L : Nat) (l : List (Op × X)) : Prop := closed sort (movePZ L) l

/-- `check_ZA`, `check_ZB` report nothing (_check_1d_symm.py:128-154, 158-185). -/
def checkSub {X : Type} (sort : Op → Option Op) (lat : Nat) (l : List (Op × X)) : Prop := (∀ p ∈ l, ¬oddSub lat p.1) ∧ closed sort (moveSub lat) l

/-- The blocks of a chain that are looked at: which keywords are given, and the unit cell (base_1d.py:976-982). -/
structure Keys where
  k : Bool
  p : Bool
  z : Bool
  zA : Bool
  zB : Bool
  pz : Bool
  a : Nat

/-- The checks of one list (base_1d.py:995-1037). -/
def chainChecks {X : Type} (sort : Op → Option Op) (L : Nat) (key : Keys) (l : List (Op × X)) : Prop :=
  (key.k → checkT sort L key.a l) ∧ (key.p → checkP sort L l) ∧ (key.z → checkZ sort l) ∧ (key.zA → checkSub sort 0 l) ∧
    (key.zB → checkSub sort 1 l) ∧ (key.pz → checkPZ sort L l)

/-- `check_symm` of the chains of spins, bosons and spinless fermions raises nothing (base.py:508-636, base_1d.py:975-1040). -/
def acceptsChain {F : Type} (B : Basis) (L : Nat) (key : Keys) (static : OpList) (dynamic : List (List Char × List (ℂ × List Nat) × F)) : Prop :=
  ∃ s d, localList B static = some s ∧ localDynamic B dynamic = some d ∧
    chainChecks B.sort L key (s.map fun o => (o, ())) ∧ chainChecks B.sort L key d

/-! ### The chain of spinful fermions -/

/-- Number of characters other than `n` and `z` (_check_1d_symm_spf.py:45-46, 51-52). -/
def fermions (s : List Char) : Nat := (s.filter fun c => c ≠ 'n' ∧ c ≠ 'z').length

/-- The strings of the two spins are exchanged; the sites are not (_check_1d_symm_spf.py:49-58, without photons). -/
def moveSpin (op : Op) : Op :=
  ⟨(splitBar op.str).2 ++ '|' :: (splitBar op.str).1, op.indx, op.J * (-1) ^ (fermions (splitBar op.str).2 * fermions (splitBar op.str).1)⟩

/-- `check_PZ` of spinful fermions makes the same new term (_check_1d_symm_spf.py:81-105). -/
def movePSpin (_ : Nat) (op : Op) : Op := moveSpin op

/-- `check_symm` of the chain of spinful fermions raises nothing (fermion.py:652-706, _check_1d_symm_spf.py:13-110). -/
def acceptsSpinful {F : Type} (L : Nat) (key : Keys) (static : OpList) (dynamic : List (List Char × List (ℂ × List Nat) × F)) : Prop :=
  ∃ s d, localList spinfulBasis static = some s ∧ localDynamic spinfulBasis dynamic = some d ∧
    (∀ i < L / key.a, key.k → closed sortSpinful (moveT L key.a i) (s.map fun o => (o, ())) ∧ closed sortSpinful (moveT L key.a i) d) ∧
    (key.p → closed sortSpinful (moveP L) (s.map fun o => (o, ())) ∧ closed sortSpinful (moveP L) d) ∧
    (key.z → closed sortSpinful moveSpin (s.map fun o => (o, ())) ∧ closed sortSpinful moveSpin d) ∧
    (key.pz → closed sortSpinful (movePSpin L) (s.map fun o => (o, ())) ∧ closed sortSpinful (movePSpin L) d)

/-! ### General lattices -/

/-- The loop of `_check_symm_map` over the sites of a term: string, new sites, coupling, whether an `n` sits on an inverted site
(base_general.py:1155-1168).  `+` and `-` of the whole string are exchanged at every inverted site; the characters tested at
position `j` are those of the string at this moment.  A site beyond the map raises. -/
def mapLoop (map : List Int) : Nat → List Nat → List Char × List Nat × ℂ × Bool → Option (List Char × List Nat × ℂ × Bool)
  | _, [], r => some r
  | j, ind :: indx, (str, out, J, odd) =>
    match map[ind]?, str[j]? with
    | some i, some c =>
      if i < 0 then mapLoop map (j + 1) indx (str.map swapChar, out ++ [(-(i + 1)).toNat], J * (if c = 'z' ∨ c = 'y' then -1 else 1), odd || c = 'n')
      else mapLoop map (j + 1) indx (str, out ++ [i.toNat], J, odd)
    | _, _ => none

/-- `_check_symm_map` reports nothing (base_general.py:1151-1179). -/
def checkMap {X : Type} (sort : Op → Option Op) (map : List Int) (l : List (Op × X)) : Prop :=
  ∀ p ∈ l, ∃ str indx J r, mapLoop map 0 p.1.indx (p.1.str, [], p.1.J, false) = some (str, indx, J, false) ∧
    sort ⟨str, indx, J⟩ = some r ∧ (r, p.2) ∈ l

/-- `check_symm` of a general lattice with the given maps raises nothing (base.py:508-636, base_general.py:676-698). -/
def acceptsMaps {F : Type} (B : Basis) (maps : List (List Int)) (static : OpList) (dynamic : List (List Char × List (ℂ × List Nat) × F)) : Prop :=
  ∃ s d, localList B static = some s ∧ localDynamic B dynamic = some d ∧
    ∀ m ∈ maps, checkMap B.sort m (s.map fun o => (o, ())) ∧ checkMap B.sort m d

end Model.CheckSymm
