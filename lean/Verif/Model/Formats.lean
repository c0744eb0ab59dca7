import Verif.Model.Evaluate

/-!
Model of `hamiltonian.update_matrix_formats` (`/repo/quspin/operators/hamiltonian_core.py:1692-1768`).

The object keeps, beside its matrices, the product routine chosen for each of them; the routines are chosen anew only at
the end of the call.  The result of a call is the object as it is left behind and whether the call raised.

scipy's conversions are modelled by matrices that store every element of the `N x N` matrix; only the elements and the
format matter here.
-/

namespace Model.Formats
open Spec Model.Eval

variable {R T K : Type} [CommRing R] [DecidableEq K]

/-- The names of the formats. -/
inductive Fmt where
  | csr
  | csc
  | dia
  | dense
  deriving DecidableEq

/-- The format of a stored matrix. -/
def fmtOf : Stored R → Fmt
  | .csr _ => .csr
  | .csc _ => .csc
  | .dia _ => .dia
  | .dense _ => .dense

/-- Arrays of a compressed matrix with the elements `E`. -/
def compress (N : Nat) (E : Nat → Nat → R) : Compressed R := ⟨fun i => i * N, fun k => k % N, fun k => E (k / N) (k % N)⟩

/-- `csr_matrix(S)`, `csc_matrix(S)`, `dia_matrix(S)`, `S.toarray()` or `ascontiguousarray(S)`. -/
def convert (N : Nat) : Fmt → Stored R → Stored R
  | .csr, S => .csr (compress N S.entry)
  | .csc, S => .csc (compress N fun i j => S.entry j i)
  | .dia, S => .dia S.entry
  | .dense, S => .dense S.entry

/-- An entry of the dictionary of drives, with its routine. -/
structure Entry (T R K : Type) where
  key : K
  drive : T → R
  mat : Stored R
  routine : Routine

/-- The object. -/
structure Obj (T R K : Type) where
  static : Stored R
  routine : Routine
  dynamic : List (Entry T R K)

/-- `dynamic_fmt`. -/
inductive DynFmt (K : Type) where
  | none
  | str (f : Fmt)
  | list (l : List (Fmt × K))
  | dict (l : List (K × Fmt))

/-- `_get_matvecs` (hamiltonian_core.py:560-564). -/
def Obj.getMatvecs (o : Obj T R K) : Obj T R K :=
  ⟨o.static, routineOf o.static, o.dynamic.map fun e => { e with routine := routineOf e.mat }⟩

/-- The static part (hamiltonian_core.py:1714-1730). -/
def setStatic (N : Nat) (f : Option Fmt) (o : Obj T R K) : Obj T R K :=
  match f with
  | Option.none => o
  | some f => { o with static := convert N f o.static }

/-- The name `sparse_constuctor` after the static part has been treated (1729). -/
def constructor (f : Option Fmt) : Option Fmt := f.bind fun f => if f = .dense then Option.none else some f

/-- One entry of `updates` for a string (1739-1743): the constructor of the static part is used. -/
def strEntry (N : Nat) (c : Option Fmt) (f : Fmt) (e : Entry T R K) : Option (Entry T R K) :=
  if f = .dense ∧ e.mat.isDense = true then some { e with mat := convert N .dense e.mat }
  else c.map fun c => { e with mat := convert N c e.mat }

/-- One pass of the loop over a list (1748-1766).  The test for a sparse matrix looks at the static part.  The object
array that `ascontiguousarray` makes of a sparse matrix cannot be used and is modelled as an exception. -/
def listEntry (N : Nat) (static : Stored R) (dyn : List (Entry T R K)) (f : Fmt) (k : K) : Option (List (Entry T R K)) :=
  if dyn.any (fun e => e.key = k) = false then Option.none
  else if f = .dense ∧ (dyn.any fun e => e.key = k ∧ e.mat.isDense ≠ static.isDense) = true then Option.none
  else some (dyn.map fun e => if e.key = k then { e with mat := convert N f e.mat } else e)

/-- The loop over a list; a failing pass leaves the passes before it in place. -/
def listLoop (N : Nat) (static : Stored R) : List (Fmt × K) → List (Entry T R K) → List (Entry T R K) × Bool
  | [], dyn => (dyn, false)
  | (f, k) :: l, dyn => (listEntry N static dyn f k).elim (dyn, true) fun dyn => listLoop N static l dyn

/-- The dynamic part (1732-1766): a dictionary is neither a string nor a list or tuple, nothing is done. -/
def setDynamic (N : Nat) (c : Option Fmt) (d : DynFmt K) (o : Obj T R K) : Obj T R K × Bool :=
  match d with
  | .none => (o, false)
  | .str f => (o.dynamic.mapM (strEntry N c f)).elim (o, true) fun dyn => ({ o with dynamic := dyn }, false)
  | .list l => ({ o with dynamic := (listLoop N o.static l o.dynamic).1 }, (listLoop N o.static l o.dynamic).2)
  | .dict _ => (o, false)

/-- `update_matrix_formats(static_fmt, dynamic_fmt)`: the object left behind, and whether the call raised. -/
def update (N : Nat) (f : Option Fmt) (d : DynFmt K) (o : Obj T R K) : Obj T R K × Bool :=
  let r := setDynamic N (constructor f) d (setStatic N f o)
  if r.2 then r else (r.1.getMatvecs, false)

/-- The matrices of the object, without the routines. -/
def Obj.ham (o : Obj T R K) : Ham T R := ⟨o.static, o.dynamic.map fun e => (e.drive, e.mat)⟩

/-- `H.dot(V, time)` with the stored routines (hamiltonian_core.py:568-711). -/
def Obj.dot {κ : Type} (N : Nat) (o : Obj T R K) (t : T) (V : Matrix (Fin N) κ R) : Option (Matrix (Fin N) κ R) :=
  (dotInto N o.routine o.static V true 1 0).bind fun y =>
    o.dynamic.foldlM (fun out e => dotInto N e.routine e.mat V false (1 * e.drive t) out) y

end Model.Formats
