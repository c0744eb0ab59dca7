import Verif.Model.Boson
import Mathlib.Data.List.Sort
/-!
Symmetry maps of the user: acceptance and period (`basis_general/base_general.py:13-74`), action on
integer states (`_basis_general_core/source/boson_basis_core.h`, `spinless_fermion_basis_core.h`).  A
map is the list of its `N` entries.
-/
namespace Model
open Word

/-- `i_map[map<0] = -(i_map[map<0] + 1)`, `base_general.py:15-16`, one entry. -/
def siteOf (j : Int) : Int := if j < 0 then -(j + 1) else j

/-- `sites[s_map] = -(sites[s_map]+1)`, `base_general.py:28`. -/
def flipSites (map sites : List Int) : List Int :=
  List.zipWith (fun j x => if j < 0 then -(x + 1) else x) map sites

/-- `sites[i_map]`, `base_general.py:29`.  Entries of `i_map` are valid indices after the check of line
22 (`getD`). -/
def gatherSites (imap sites : List Int) : List Int := imap.map fun i => sites.getD i.toNat 0

/-- One round of the loop, `base_general.py:28-29`. -/
def mapStep (map sites : List Int) : List Int := gatherSites (map.map siteOf) (flipSites map sites)

/-- `order = arange(len(map))`, `base_general.py:19-20`. -/
def siteOrder (n : Nat) : List Int := (List.range n).map Int.ofNat

/-- The `while(True)` loop, `base_general.py:27-33`, at most `fuel` rounds (`none`: not stopped). -/
def periodLoop (map : List Int) : (fuel : Nat) → (sites : List Int) → (per : Nat) → Option Nat
  | 0, _, _ => none
  | fuel + 1, sites, per =>
    if siteOrder map.length = mapStep map sites then some (per + 1)
    else periodLoop map fuel (mapStep map sites) (per + 1)

/-- `process_map`, `base_general.py:13-38`: the period, or the `ValueError` of line 23.  Outer `none`:
loop not stopped within `fuel` rounds. -/
def processMap (fuel : Nat) (map : List Int) : Option (Except PyErr Nat) :=
  if (map.map siteOf).insertionSort (· ≤ ·) ≠ siteOrder map.length then some (.error .valueError)
  else (periodLoop map fuel (siteOrder map.length) 0).map .ok

/-- `check_symmetry_maps`, `base_general.py:40-74`: `true` when the warning about non-commuting maps of
line 74 is issued. -/
def warnsNonCommuting (map1 map2 : List Int) : Bool :=
  mapStep map2 (mapStep map1 (siteOrder map1.length)) ≠ mapStep map1 (mapStep map2 (siteOrder map2.length))

/-- The loop of `boson_map_bits`, `boson_basis_core.h:16-20`, over the entries of the map from the last
to the first. -/
def bosonMapLoop (w sps N : Nat) : List Int → (s ss : Nat) → Nat
  | [], _, ss => ss
  | j :: js, s, ss =>
    bosonMapLoop w sps N js (s / sps)
      (add w ss (if j < 0 then mul w (sps - s % sps - 1) (powM w sps (j + N).toNat)
        else mul w (s % sps) (powM w sps ((N : Int) - j - 1).toNat)))

/-- `boson_map_bits`, `boson_basis_core.h:14-22`. -/
def bosonMapBits (w sps N : Nat) (map : List Int) (s : Nat) : Nat := bosonMapLoop w sps N map.reverse s 0

/-- The bits of `spinless_fermion_map_bits`, `spinless_fermion_basis_core.h:74-86` (the same text as
`hcb_map_bits`, `hcb_basis_core.h:15-24`). -/
def mapBitsLoop (w N : Nat) : List Int → (s ss : Nat) → Nat
  | [], _, ss => ss
  | j :: js, s, ss =>
    mapBitsLoop w N js (s >>> 1)
      (ss ^^^ (if j < 0 then shl w ((s &&& 1) ^^^ 1) (j + N).toNat
        else shl w (s &&& 1) ((N : Int) - j - 1).toNat))

/-- `hcb_map_bits` / the state returned by `spinless_fermion_map_bits`. -/
def mapBits (w N : Nat) (map : List Int) (s : Nat) : Nat := mapBitsLoop w N map.reverse s 0

end Model
