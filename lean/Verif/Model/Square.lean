import Mathlib.Data.List.Basic
import Mathlib.Data.Int.Notation

/-!
Model of the symmetry maps and block iterators of the square lattice: quspin/basis/transformations/square.py and site_info.py.

Arrays are lists of integers.  Simplification: integers are unbounded.
-/

namespace Model.Square

variable (Lx Ly : ℕ)

/-- `sites` (site_info.py:6) -/
def sites : List ℕ := List.range (Lx * Ly)

/-- `X = sites % Lx` (square.py:11) -/
def X (i : ℕ) : ℕ := i % Lx

/-- `Y = sites // Lx` (square.py:12) -/
def Y (i : ℕ) : ℕ := i / Lx

/-- `_Z` (square.py:31) -/
def Z : List ℤ := (sites Lx Ly).map fun (i : ℕ) => -((i : ℤ) + 1)

/-- `_Z_A` (square.py:32) -/
def ZA : List ℤ := (sites Lx Ly).map fun (i : ℕ) => if (X Lx i + Y Lx i) % 2 = 0 then -((i : ℤ) + 1) else (i : ℤ)

/-- `_Z_B` (square.py:33) -/
def ZB : List ℤ := (sites Lx Ly).map fun (i : ℕ) => if (X Lx i + Y Lx i) % 2 = 1 then -((i : ℤ) + 1) else (i : ℤ)

/-- `_T_x` (square.py:34) -/
def Tx : List ℤ := (sites Lx Ly).map fun (i : ℕ) => ((X Lx i : ℤ) + 1) % Lx + Y Lx i * Lx

/-- `_T_y` (square.py:35) -/
def Ty : List ℤ := (sites Lx Ly).map fun (i : ℕ) => (X Lx i : ℤ) + ((Y Lx i : ℤ) + 1) % Ly * Lx

/-- `_P_x` (square.py:36) -/
def Px : List ℤ := (sites Lx Ly).map fun (i : ℕ) => ((Lx : ℤ) - X Lx i - 1) + Y Lx i * Lx

/-- `_P_y` (square.py:37) -/
def Py : List ℤ := (sites Lx Ly).map fun (i : ℕ) => (X Lx i : ℤ) + ((Ly : ℤ) - Y Lx i - 1) * Lx

/-- `_P_d` (square.py:38-43); `none` is `None`. -/
def Pd : Option (List ℤ) := if Lx = Ly then some ((sites Lx Ly).map fun (i : ℕ) => (Y Lx i : ℤ) + Lx * X Lx i) else none

/-- `_P_e` (square.py:38-43) -/
def Pe : Option (List ℤ) := if Lx = Ly then some ((sites Lx Ly).map fun (i : ℕ) => ((Ly : ℤ) - Y Lx i - 1) + Lx * ((Lx : ℤ) - X Lx i - 1)) else none

/-- A yielded dictionary: the quantum numbers of `kxblock` and `kyblock`, and, if present, of `pxblock`, `pyblock` and `pdblock`, the last one
with its map.  The other maps are always those of the class. -/
structure Block where
  kx : ℤ
  ky : ℤ
  px : Option ℕ := none
  py : Option ℕ := none
  pd : Option (Option (List ℤ) × ℕ) := none
  deriving DecidableEq

/-- `range(-L//2+1, L//2+1, 1)` (square.py:140) -/
def momenta (L : ℕ) : List ℤ :=
  let a : ℤ := -(L : ℤ) / 2 + 1
  let b : ℤ := (L : ℤ) / 2 + 1
  (List.range (b - a).toNat).map fun (n : ℕ) => a + (n : ℤ)

/-- `product(range(2), range(2))` -/
def pairs : List (ℕ × ℕ) := [(0, 0), (0, 1), (1, 0), (1, 1)]

/-- The body of the loop in `allowed_blocks_iter` (square.py:141-173). -/
def blocksAt (kx ky : ℤ) : List Block :=
  if kx = 0 then
    if ky = 0 then
      pairs.flatMap fun p =>
        if p.1 = p.2 ∧ Lx = Ly then [0, 1].map fun pd => ⟨kx, ky, some p.1, some p.2, some (Pd Lx Ly, pd)⟩
        else [⟨kx, ky, some p.1, some p.2, none⟩]
    else [0, 1].map fun px => ⟨kx, ky, some px, none, none⟩
  else if kx = (Lx : ℤ) / 2 ∧ Lx % 2 = 0 then
    if ky = (Ly : ℤ) / 2 ∧ Ly % 2 = 0 then
      pairs.flatMap fun p =>
        if p.1 = p.2 then [0, 1].map fun pd => ⟨kx, ky, some p.1, some p.2, some (Pd Lx Ly, pd)⟩
        else [⟨kx, ky, some p.1, some p.2, none⟩]
    else [0, 1].map fun px => ⟨kx, ky, some px, none, none⟩
  else if ky = 0 ∨ (ky = (Ly : ℤ) / 2 ∧ Ly % 2 = 0) then [0, 1].map fun py => ⟨kx, ky, none, some py, none⟩
  else if kx = ky ∧ Lx = Ly then [0, 1].map fun pd => ⟨kx, ky, none, none, some (Pd Lx Ly, pd)⟩
  else if kx = -ky ∧ Lx = Ly then [0, 1].map fun pe => ⟨kx, ky, none, none, some (Pe Lx Ly, pe)⟩
  else []

/-- `allowed_blocks_iter` (square.py:130-173) -/
def allowedBlocks : List Block := (momenta Lx).flatMap fun kx => (momenta Ly).flatMap fun ky => blocksAt Lx Ly kx ky

/-- `allowed_blocks_iter_parity` (square.py:108-119): the quantum numbers of `pxblock` and `pyblock`. -/
def parityBlocks : List (ℕ × ℕ) := pairs

/-- A dictionary that may have a `zblock`. -/
abbrev ZBlock := Block × Option ℕ

/-- `allowed_blocks_spin_inversion_iter` (square.py:92-105): every item is what the dictionary holds when it is yielded, and what it holds when
the generator goes on (the `zblock` is removed from the same dictionary). -/
def inversionBlocks (Np : Option ℕ) (sps : ℕ) : List (ZBlock × ZBlock) :=
  if Np.elim true fun n => n = (sps - 1) * (Lx * Ly) / 2 ∧ Lx * Ly % 2 = 0 then
    (allowedBlocks Lx Ly).flatMap fun b => [0, 1].map fun z => ((b, some z), (b, none))
  else (allowedBlocks Lx Ly).map fun b => ((b, none), (b, none))

/-- `for blocks in ...`: what a loop sees. -/
def looped (l : List (ZBlock × ZBlock)) : List ZBlock := l.map Prod.fst

/-- `list(...)`: what the list holds after the generator is exhausted. -/
def collected (l : List (ZBlock × ZBlock)) : List ZBlock := l.map Prod.snd

end Model.Square
