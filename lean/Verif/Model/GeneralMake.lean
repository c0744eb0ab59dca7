import Verif.Model.MakeBasis
import Verif.Model.Lookup
import Mathlib.Data.List.Sort
import Mathlib.Data.Nat.Notation
import Mathlib.Data.Int.Notation

/-!
A general basis as an object with a history: `make`, `make_basis_blocks`, pickling
(`basis_general/base_general.py` and the classes derived from it) and the end of the constructor of `user_basis`.
-/

namespace Model.GeneralMake

/-- What `_Np` is: `None`, an integer, a tuple, anything else; the distinctions of base_general.py:757, 826. -/
inductive Number where
  | all | exact | pair | several
deriving DecidableEq, Repr

/-- Which compiled class is behind a basis; `two_species` of the spinful class has the flag for double occupation. -/
inductive Kind where
  | hcb | boson | higherSpin | spinless
  | spinful (double : Bool)
deriving DecidableEq, Repr

/-- The compiled object `_core`: the arguments it was constructed with; it has no other state. -/
structure Core where
  kind : Kind
  width : ℕ
  sites : ℕ
  sps : ℕ
  maps : List (List ℤ)
  pers : List ℕ
  qs : List ℤ
deriving DecidableEq, Repr

/-- The public classes. -/
inductive Cls where
  | hcb | higherSpin | spin | boson | spinless | spinful
deriving DecidableEq, Repr

/-- The attributes of a basis apart from `_core`; `N` is `_N`, `rows` the arrays `_basis` and `_n`, `np` is `_N_p`, `blocks` are `_basis_begin`
and `_basis_end`.  Left out: the arrays of particle numbers, the texts, and the types of `_n` and of the indices. -/
structure Attrs where
  cls : Cls
  width : ℕ
  N : ℕ
  sps : ℕ
  maps : List (List ℤ)
  pers : List ℕ
  qs : List ℤ
  double : Bool
  number : Number
  Ns : ℕ
  est : ℕ
  rows : List (ℕ × ℤ)
  made : Bool
  np : ℕ
  blocks : Blocks
deriving DecidableEq, Repr

/-- A basis. -/
structure Basis where
  attrs : Attrs
  core : Core
deriving DecidableEq, Repr

/-- The exceptions, and accesses outside of arrays. -/
inductive Err where
  | value | outside
deriving DecidableEq, Repr

/-- The compiled object the constructors make, of `L` sites: base_hcb.py:55-56, base_higher_spin.py:62-63, boson.py:219 (only if `sps` is not 2;
otherwise the constructor of base_hcb.py, boson.py:146-155), spin.py:149-154 (likewise), fermion.py:149, 478. -/
def initCore (cls : Cls) (width L sps : ℕ) (maps : List (List ℤ)) (pers : List ℕ) (qs : List ℤ) (double : Bool) : Core :=
  match cls with
  | .hcb => ⟨.hcb, width, L, 2, maps, pers, qs⟩
  | .higherSpin => ⟨.higherSpin, width, L, sps, maps, pers, qs⟩
  | .spin => if sps = 2 then ⟨.hcb, width, L, 2, maps, pers, qs⟩ else ⟨.higherSpin, width, L, sps, maps, pers, qs⟩
  | .boson => if sps = 2 then ⟨.hcb, width, L, 2, maps, pers, qs⟩ else ⟨.boson, width, L, sps, maps, pers, qs⟩
  | .spinless => ⟨.spinless, width, L, 2, maps, pers, qs⟩
  | .spinful => ⟨.spinful double, width, L, 2, maps, pers, qs⟩

/-- The attribute `_sps` after the constructor: base_hcb.py:60, base_higher_spin.py:68, boson.py:142, fermion.py:151, 481. -/
def initSps (cls : Cls) (sps : ℕ) : ℕ :=
  match cls with
  | .hcb | .spinless | .spinful => 2
  | _ => sps

/-- The attribute `_N` after the constructor: base_hcb.py:57, base_higher_spin.py:65, boson.py:220, fermion.py:153, 482. -/
def initN (cls : Cls) (L : ℕ) : ℕ :=
  match cls with
  | .spinful => 2 * L
  | _ => L

/-- A basis made with `make_basis=False`: base_hcb.py:55-70, base_higher_spin.py:62-78, boson.py:218-231, fermion.py:148-164, 477-494; `est` is the
estimate of the size. -/
def create (cls : Cls) (width L sps : ℕ) (maps : List (List ℤ)) (pers : List ℕ) (qs : List ℤ) (double : Bool) (number : Number) (est : ℕ) : Basis :=
  ⟨⟨cls, width, initN cls L, initSps cls sps, maps, pers, qs, double, number, 1, est, [(0, 0)], false, 0, []⟩,
    initCore cls width L sps maps pers qs double⟩

/-- `__getstate__` (base_general.py:180-183): everything but the compiled object. -/
def dump (b : Basis) : Attrs := b.attrs

/-- `__setstate__`: base_hcb.py:75-77, base_higher_spin.py:81-83, boson.py:234-240, spin.py:176-180, fermion.py:176-178, 504-506.  What boson.py:235
prints is left out. -/
def load (a : Attrs) : Basis :=
  ⟨a, match a.cls with
    | .hcb => ⟨.hcb, a.width, a.N, 2, a.maps, a.pers, a.qs⟩
    | .higherSpin => ⟨.higherSpin, a.width, a.N, a.sps, a.maps, a.pers, a.qs⟩
    | .spin =>
      if a.sps = 2 then ⟨.hcb, a.width, a.N, 2, a.maps, a.pers, a.qs⟩ else ⟨.higherSpin, a.width, a.N, a.sps, a.maps, a.pers, a.qs⟩
    | .boson =>
      if a.sps = 2 then ⟨.hcb, a.width, a.N, 2, a.maps, a.pers, a.qs⟩ else ⟨.boson, a.width, a.N, a.sps, a.maps, a.pers, a.qs⟩
    | .spinless => ⟨.spinless, a.width, a.N, 2, a.maps, a.pers, a.qs⟩
    | .spinful => ⟨.spinful a.double, a.width, a.N / 2, 2, a.maps, a.pers, a.qs⟩⟩

/-- `_N_p`, base_general.py:821-829; `guess` is the quotient of the logarithms of line 822, rounded down. -/
def prefixLength (guess : ℕ → ℤ) (a : Attrs) (np : Option ℤ) : ℕ :=
  let n := match np with
    | none => guess a.Ns
    | some n => n
  let n := if a.pers = [] ∧ a.number = .all then 0 else n
  (min (max n 0) (a.N : ℤ)).toNat

/-- `make_basis_blocks`, base_general.py:813-835, with general_basis_core.pyx:769-800 and `general_make_basis_blocks`. -/
def makeBasisBlocks (guess : ℕ → ℤ) (b : Basis) (np : Option ℤ) : Except Err Basis :=
  if !b.attrs.made then .error .value
  else
    let k := prefixLength guess b.attrs np
    if k > 0 then
      match makeBlocks (prefixOf b.attrs.sps b.attrs.N k) (b.attrs.sps ^ k) (b.attrs.rows.map (·.1)) with
      | none => .error .outside
      | some blocks => .ok { b with attrs := { b.attrs with np := k, blocks := blocks } }
    else .ok { b with attrs := { b.attrs with np := 0, blocks := [] } }

/-- Size of the arrays given to the compiled code, base_general.py:732-738. -/
def memory (a : Attrs) (est : Option ℕ) : ℕ :=
  match est with
  | some e => if e > a.est then e else a.est
  | none => max a.Ns (max 1000 a.est)

/-- `_np.argsort(…)[::-1]` and the selection with it, base_general.py:775-777 and base_user.py:491-493, for states that are pairwise different. -/
def descending (l : List (ℕ × ℤ)) : List (ℕ × ℤ) := l.insertionSort fun a b => b.1 ≤ a.1

/-- `make`, base_general.py:732-788; `build` is the compiled `make_basis` (`Model.makeBasis`, `Model.makeBasisPcon`) of the compiled object for
arrays of a given size. -/
def make (build : Core → ℕ → Built) (guess : ℕ → ℤ) (b : Basis) (est : Option ℕ) (np : Option ℤ) : Except Err Basis :=
  match build b.core (memory b.attrs est) with
  | .insufficient => .error .value
  | .overrun => .error .outside
  | .ok l =>
    let rows := if b.attrs.number = .several then descending l else l
    makeBasisBlocks guess
      { b with attrs := { b.attrs with rows := rows, Ns := l.length, est := l.length, made := true } } np

/-- What a user can do with a basis, in any order; `threads` are the threads available at that moment. -/
inductive Command where
  | make (est : Option ℕ) (np : Option ℤ) (threads : ℕ)
  | blocks (np : Option ℤ)
  | pickle
deriving DecidableEq, Repr

/-- One command; after an exception the user goes on with the basis as it is: both exceptions are raised before anything is assigned.  `none` is an
access outside of an array. -/
def step (build : ℕ → Core → ℕ → Built) (guess : ℕ → ℤ) (b : Basis) (c : Command) : Option Basis :=
  match (match c with
    | .make est np threads => make (build threads) guess b est np
    | .blocks np => makeBasisBlocks guess b np
    | .pickle => .ok (load (dump b))) with
  | .ok b' => some b'
  | .error .value => some b
  | .error .outside => none

/-- A history. -/
def run (build : ℕ → Core → ℕ → Built) (guess : ℕ → ℤ) : Basis → List Command → Option Basis
  | b, [] => some b
  | b, c :: cs => (step build guess b c).bind fun b' => run build guess b' cs

/-- Where the compiled code finds a state (general_basis_op.h:63-187, 614-634, `misc.h:40-64`), if the basis is not the full one. -/
def lookup (a : Attrs) (s : ℕ) : Option ℤ :=
  if a.np > 0 then repPositionBlocks a.blocks (a.rows.map (·.1)) (prefixOf a.sps a.N a.np s) s
  else repPosition (a.rows.map (·.1)) s

/-- `is_sorted_decending`, base_user.py:44-50. -/
def isSortedDescending : List ℕ → Bool
  | a :: b :: l => if a < b then false else isSortedDescending (b :: l)
  | _ => true

/-- End of the constructor of `user_basis`, base_user.py:483-493: `make`, then the basis is sorted if it is not.  Simplification: the compiled object
is one of `Core`. -/
def userCreate (build : Core → ℕ → Built) (guess : ℕ → ℤ) (b : Basis) (makeIt : Bool) : Except Err Basis :=
  (if makeIt then make build guess b none none else .ok b).map fun b =>
    if isSortedDescending (b.attrs.rows.map (·.1)) then b
    else { b with attrs := { b.attrs with rows := descending b.attrs.rows } }

end Model.GeneralMake
