import Verif.Model.Maps
/-!
Action of a user map on spinless fermions with its sign,
`basis_general/_basis_general_core/source/spinless_fermion_basis_core.h:13-92, 146-165`.
Array segments `nums[left..right]` are lists.
-/
namespace Model
open Word

/-- The merging loop of `mergeSort` and the copying loops after it, `spinless_fermion_basis_core.h:25-48`:
`l` is `lAr` from index `i` on, `r` is `rAr` from index `j` on; the result is `nums` from index `k` on and
`f_count`.  `remaining inversions` (line 37) is the test in the second case; it is false in the first
(`leftLength-i` is 0). -/
def mergeCount : (l r : List Int) → (j : Nat) → (f : Bool) → List Int × Bool
  | [], r, _, f => (r, f)
  | a :: l, [], j, f => (a :: l, xor f (decide (j % 2 = 1) && decide ((a :: l).length % 2 = 1)))
  | a :: l, b :: r, j, f =>
    if a ≥ b then
      let x := mergeCount l (b :: r) j (xor f (decide (j % 2 = 1)))
      (a :: x.1, x.2)
    else
      let x := mergeCount (a :: l) r (j + 1) f
      (b :: x.1, x.2)
termination_by l r => l.length + r.length

/-- `getf_count`, `spinless_fermion_basis_core.h:52-60`.  Of `n` entries (`right = left+n-1`) the left part
has `mid - left + 1 = (n+1)/2`. -/
def getfCount (l : List Int) (f : Bool) : List Int × Bool :=
  if h : l.length ≤ 1 then (l, f)
  else
    let a := getfCount (l.take ((l.length + 1) / 2)) f
    let b := getfCount (l.drop ((l.length + 1) / 2)) a.2
    mergeCount a.1 b.1 0 b.2
termination_by l.length
decreasing_by
  · simp only [List.length_take]; omega
  · simp only [List.length_drop]; omega

/-- The loop of `spinless_fermion_map_bits`, `spinless_fermion_basis_core.h:74-86`, over the entries of the map
from the last to the first; the index `i` of the entry is the number of entries after it in the list.
Result: `ss`, `pos_list`, `f_count`. -/
def fermionMapLoop (w N : Nat) : List Int → (s ss : Nat) → (pos : List Int) → (f : Bool) → Nat × List Int × Bool
  | [], _, ss, pos, f => (ss, pos, f)
  | j :: js, s, ss, pos, f =>
    fermionMapLoop w N js (s >>> 1)
      (ss ^^^ (if j < 0 then shl w ((s &&& 1) ^^^ 1) (j + N).toNat
        else shl w (s &&& 1) ((N : Int) - j - 1).toNat))
      (if s &&& 1 ≠ 0 then pos ++ [siteOf j] else pos)
      (if s &&& 1 ≠ 0 then xor f (decide (j < 0) && decide (js.length % 2 = 1)) else f)

/-- `spinless_fermion_map_bits`, `spinless_fermion_basis_core.h:66-92`: the image and the new sign. -/
def fermionMapBits (w N : Nat) (map : List Int) (s : Nat) (sign : Int) : Nat × Int :=
  let x := fermionMapLoop w N map.reverse s 0 [] false
  let f := (getfCount x.2.1 x.2.2).2
  (x.1, if f then sign * (-1) else sign)

end Model
