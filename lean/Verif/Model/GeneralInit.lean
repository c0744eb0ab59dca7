import Verif.Spec.Symmetry
import Mathlib.Data.List.Sort

/-!
Model of the constructor of `basis_general` (`/repo/quspin/basis/basis_general/base_general.py`): which of the symmetries of the caller the basis uses.
-/

namespace Model.GeneralInit
open Spec

/-- A keyword argument: its name and `None` or map, period and quantum number as `process_map` returns them (base_general.py:13-38; C36, C05, C06 and C45
are about them). -/
abbrev Block := String × Option Generator

/-- `kwargs` without the entries `None`, with the processed maps (base_general.py:94-112). -/
def given (blocks : List Block) : List (String × Generator) := blocks.filterMap fun b => b.2.map fun y => (b.1, y)

/-- `sorted_items` (base_general.py:114-129): sorted by the period, or in the reversed order of the given names; `none`: `ValueError`. -/
def sortedItems (order : Option (List String)) (items : List (String × Generator)) : Option (List (String × Generator)) :=
  match order with
  | none => some (items.insertionSort fun a b => a.2.per ≤ b.2.per)
  | some names =>
    if items.all (fun b => b.1 ∈ names) && names.all (fun n => n ∈ items.map (·.1)) then
      names.reverse.mapM fun n => items.find? fun b => b.1 = n
    else none

/-- `remove_index` (base_general.py:133-140): the places of identities, except for the last map. -/
def removeIndex (ys : List Generator) : List ℕ := (List.range (ys.length - 1)).filter fun i => (ys[i]?).any fun y => y.per == 1

/-- `for i in remove_index: items.pop(i)` (base_general.py:146-147); `none`: `IndexError`. -/
def popLoop : List ℕ → List Generator → Option (List Generator)
  | [], ys => some ys
  | i :: is, ys => if i < ys.length then popLoop is (ys.eraseIdx i) else none

/-- The maps, periods and quantum numbers the core is given (base_general.py:94-174); `none`: an exception.  The lengths of the maps (157-164) are not
checked here; repeated maps (166-169) are accepted: the `ValueError` is made but not raised. -/
def symmetries (order : Option (List String)) (blocks : List Block) : Option (List Generator) :=
  if (given blocks).length > 32 then none
  else (sortedItems order (given blocks)).bind fun l => popLoop (removeIndex (l.map (·.2))) (l.map (·.2))

end Model.GeneralInit
