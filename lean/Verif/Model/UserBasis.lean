import Verif.Model.Symmetry
import Verif.Model.MakeBasis
import Mathlib.Data.List.Sort

/-!
Model of user-defined bases: `basis_general/base_user.py` and
`basis_general/_basis_general_core/source/user_basis_core.h`.
-/

namespace Model.UserBasis

/-- A user's function for operators: from matrix element and state, character and site to an error code and the new matrix element and state. -/
abbrev OpFunc := ℂ × ℕ → Char → ℤ → ℤ × (ℂ × ℕ)

/-- The loop of `op` (user_basis_core.h:136-145), over the characters from the last to the first; `s` is the state at the start.  `.error` is the code
returned by the user's function. -/
noncomputable def opLoop (f : OpFunc) (s : ℕ) : List (Char × ℤ) → ℂ × ℕ → Except ℤ (ℂ × ℕ)
  | [], res => .ok res
  | (c, i) :: rest, res =>
    if (f res c i).1 ≠ 0 then .error (f res c i).1
    else if (f res c i).2.1 = 0 then .ok ((f res c i).2.1, s)
    else opLoop f s rest (f res c i).2

/-- `op` (user_basis_core.h:133-148). -/
noncomputable def op (f : OpFunc) (ops : List (Char × ℤ)) (m : ℂ) (r : ℕ) : Except ℤ (ℂ × ℕ) := opLoop f r ops.reverse (m, r)

/-- The action of a string with a coupling, as the loops of `general_basis_op.h` use it; `none` is an error. -/
noncomputable def term (f : OpFunc) (ops : List (Char × ℤ)) (J : ℂ) (s : ℕ) : Option (ℕ × ℂ) :=
  match op f ops J s with
  | .ok res => some (res.2, res.1)
  | .error _ => none

/-- `check_state` (user_basis_core.h:116-131): the user's criterion first; without it all states pass. -/
noncomputable def check (pre : Option (ℕ → Bool)) (ys : List Spec.Generator) (s : ℕ) : Option ℤ :=
  match pre with
  | some p => if p s then checkKeep ys s else none
  | none => checkKeep ys s

/-- `map_state` (user_basis_core.h:77-88) as a symmetry: the user's function returns the new state and writes the sign. -/
def generator (f : ℕ → ℕ × ℤ) (per : ℕ) (q : ℤ) : Spec.Generator where
  img s := (f s).1
  sgn s := (f s).2
  per := per
  q := q

/-- One block: its name and its symmetry. -/
abbrev Block := String × Spec.Generator

/-- `_process_user_blocks` (base_user.py:69-94): sorted by the period, then reversed; or in the order of the given names, which have to be the names
of the blocks. -/
def blockOrder (order : Option (List String)) (blocks : List Block) : Option (List Block) :=
  match order with
  | none => some (blocks.insertionSort fun a b => a.2.per ≤ b.2.per).reverse
  | some names =>
    if blocks.all (fun b => b.1 ∈ names) && names.all (fun n => n ∈ blocks.map (·.1)) then
      names.mapM fun n => blocks.find? fun b => b.1 = n
    else none

/-- One particle sector: a number, a tuple, or something else. -/
inductive Sector where
  | int
  | tuple (len : ℕ)
  | other

/-- `Np` of `pcon_dict`. -/
inductive Sectors where
  | none
  | single (np : Sector)
  | list (nps : List Sector)

/-- The loop over a list of sectors (base_user.py:346-362); the last branch of the first part raises as well. -/
def listLoop : Option ℕ → List Sector → Option (Option ℕ)
  | n, [] => some n
  | n, np :: rest =>
    match n, np with
    | some k, .int => if k ≠ 1 then none else none
    | some k, .tuple len => if k ≠ len then none else none
    | some _, .other => none
    | none, .int => listLoop (some 1) rest
    | none, .tuple len => listLoop (some len) rest
    | none, .other => none

/-- The number of sectors handed to the core (base_user.py:280-364): `given` is `n_sectors`, present with eight keys and absent with five. -/
def sectorNumber (given : Option ℕ) : Sectors → Option (Option ℕ)
  | .none => some given
  | .single np =>
    match given, np with
    | some k, .int => if k ≠ 1 then none else some (some k)
    | some k, .tuple len => if k ≠ len then none else some (some k)
    | none, .int => some (some 1)
    | none, .tuple len => some (some len)
    | _, .other => none
  | .list nps => listLoop given nps

/-- The constructor (base_user.py:132-497) as far as its arguments decide: `none` raises.  `pcon` holds `n_sectors` and `Np`; the core takes an integer
(user_core.pyx:41), not `None`; `set(allowed_ops)` (line 479) raises for `None`; without `_make_basis` a name is used that is not defined (line 488). -/
def construct (pcon : Option (Option ℕ × Sectors)) (allowed : Option (List Char)) (makeBasis : Bool) : Option (ℤ × List Char) :=
  (match pcon with
    | none => some (-1)
    | some (given, np) => (sectorNumber given np).bind fun n => n.map fun (k : ℕ) => (k : ℤ)).bind fun n =>
  allowed.bind fun ops => if makeBasis then some (n, ops) else none

end Model.UserBasis
