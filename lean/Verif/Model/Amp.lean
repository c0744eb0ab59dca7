import Verif.Model.Symmetry
import Verif.Spec.Matvec
/-!
`representative`, `normalization` and `get_amp` of the bases with user-given symmetries:
`basis_general/base_general.py:921-1149`, `_basis_general_core/source/general_basis_rep.h`,
`general_basis_get_amp.h`, `general_basis_core.pyx:884-1025`.

Doubles are exact numbers, `none` stands for NaN.  Not modelled: the conversion of `states` to an array of
the type of the basis, the checks of the user's `out` and `amps` arrays (shape, type, contiguity).
-/
namespace Model.Amp
open Spec

/-! ### representative -/

/-- The values the array `g` takes during the inner loop of `ref_state_core_unrolled`
(`general_basis_core.h:168-174`; the loop is `Model.refInner`). -/
def logInner : List Generator → List Nat → List Nat → Nat × Int → Best → List (List Nat)
  | y :: ys, c :: cs, done, x, best =>
    let here := if x.1 > best.r then [(c :: cs).reverse ++ done] else []
    let best := if x.1 > best.r then { r := x.1, phase := x.2, g := (c :: cs).reverse ++ done } else best
    if c + 1 > y.per - 1 then here ++ logInner ys cs (0 :: done) (y.U x) best else here
  | _, _, _, _, _ => []

/-- The values of `g` during the outer loop, `general_basis_core.h:158-193` (the loop is `Model.refOuter`). -/
def logOuter (rsyms : List Generator) (maxValsSum : Nat) : Nat → List Nat → Nat × Int → Best → List (List Nat)
  | 0, _, _, _ => []
  | fuel + 1, cs, x, best =>
    let out := refInner rsyms cs [] x best
    logInner rsyms cs [] x best ++
      if cs.sum ≥ maxValsSum then [] else logOuter rsyms maxValsSum fuel out.1 out.2.1 out.2.2

/-- The values written to the array `g` by a call of `ref_state`, in order; `general_basis_core.h:134-197`.
(Without symmetries the array has no elements.) -/
def refLog (ys : List Generator) (s : Nat) : List (List Nat) :=
  if ys.length = 0 ∨ ys.length > 32 then []
  else logOuter ys.reverse (ys.map (fun y => y.per - 1)).sum (ys.map (fun y => y.per)).prod
    (ys.map (fun _ => 0)) (s, 1) { r := s, phase := 1, g := ys.map fun _ => 0 }

/-- An element of one of the three output arrays. -/
inductive Loc
  | r (i : Nat)
  | g (i j : Nat)
  | sign (i : Nat)
deriving DecidableEq

/-- The writes of iteration `i` of `general_representative` to the output arrays, `general_basis_rep.h:72-76`,
83-86, 94-98, 109-112.  `ref_state` writes the row `g_out[i*nt..]` element by element whenever it finds a
larger configuration; if the row is not requested it writes to a private array.  (`r` and `phase` do not
depend on what `g` contains at the start.) -/
def block (ys : List Generator) (states : List Nat) (wantG wantSign : Bool) (i : Nat) : List (Loc × Int) :=
  match states[i]? with
  | none => []
  | some s =>
    (if wantG then (refLog ys s).flatMap fun g => (List.range ys.length).map fun j => (Loc.g i j, (g.getD j 0 : Int))
      else []) ++
    match refState ys s (ys.map fun _ => 0) 1 with
    | none => []
    | some b => (Loc.r i, (b.r : Int)) :: if wantSign then [(Loc.sign i, b.phase)] else []

/-- Storing a value. -/
def store (mem : Loc → Int) (w : Loc × Int) : Loc → Int := fun a => if a = w.1 then w.2 else mem a

/-- The iterations thread `t` executes: with `omp for` its share (`share`, a partition of the iterations);
the branch that returns only `g` (`general_basis_rep.h:79-88`) has `omp parallel for` inside `omp parallel`:
every thread of the team runs the whole loop. -/
def iterations (wantG wantSign : Bool) (n : Nat) (share : Nat → List Nat) (t : Nat) : List Nat :=
  if wantG && !wantSign then List.range n else share t

/-- `share` is a distribution of the iterations `0..n-1` over the threads of the team: what `omp for` does. -/
def Distributes (n T : Nat) (share : Nat → List Nat) : Prop :=
  ∀ i < n, ∃ t < T, i ∈ share t

/-- `representative`, `base_general.py:921-1002`, and `general_representative`, `general_basis_rep.h:58-115`:
`mem` is a possible content of the output arrays after the call, the writes of the threads occurring in some
order.  All arrays start with zeros (`base_general.py:961-967`; if the user gives `out`, every element of it
is overwritten). -/
def Representative (ys : List Generator) (states : List Nat) (wantG wantSign : Bool) (T : Nat)
    (share : Nat → List Nat) (mem : Loc → Int) : Prop :=
  ∃ l, Interleaving T
      (fun t => (iterations wantG wantSign states.length share t).flatMap (block ys states wantG wantSign)) l ∧
    mem = l.foldl (fun mem e => store mem e.2) fun _ => 0

/-! ### loops that stop early on an error -/

/-- A `parallel for` whose iterations do nothing once they see `err != 0`: `(i, sees)` is iteration `i`; if
`err` is set, `sees` tells whether the iteration notices.  `body i` is the value written to element `i` and
whether the iteration sets `err`. -/
def parFor {α : Type} (body : Nat → α × Bool) : List (Nat × Bool) → (Nat → α) × Bool → (Nat → α) × Bool
  | [], st => st
  | (i, sees) :: rest, st =>
    if st.2 && sees then parFor body rest st
    else parFor body rest (fun j => if j = i then (body i).1 else st.1 j, st.2 || (body i).2)

/-! ### normalization -/

/-- `int per_factor`, `general_basis_rep.h:23-26`: product of the periods in 32-bit arithmetic. -/
def perFactor (ys : List Generator) : Int := ys.foldl (fun a y => Int.bmod (a * y.per) 4294967296) 1

/-- One iteration of `general_normalization`, `general_basis_rep.h:34-50`, for an output type of `w` bits. -/
noncomputable def normBody (ys : List Generator) (w : Nat) (states : List Nat) (i : Nat) : Nat × Bool :=
  match states[i]? with
  | none => (0, false)
  | some s =>
    match checkState ys s with
    | some (some norm) =>
      if ⌊norm⌋ > 0 then
        (((⌊norm⌋ % 2 ^ w) * perFactor ys % 2 ^ w).toNat,
          decide ((⌊norm⌋ * perFactor ys) % 2 ^ 64 > 2 ^ w - 1))
      else (0, false)
    | _ => (0, false)

/-- `numpy.min_scalar_type` of a non-negative number: bits of the smallest unsigned type (`none`: beyond 64
bits). -/
def minBits (m : Nat) : Option Nat :=
  if m < 2 ^ 8 then some 8 else if m < 2 ^ 16 then some 16 else if m < 2 ^ 32 then some 32
  else if m < 2 ^ 64 then some 64 else none

/-- `normalization` of the core, `general_basis_core.pyx:934-966` and `general_basis_rep.h:14-55`: `none` is the
`TypeError`. -/
noncomputable def normalizationCore (ys : List Generator) (w : Nat) (states : List Nat) (order : List (Nat × Bool))
    (out : Nat → Nat) : Option (Nat → Nat) :=
  let st := parFor (normBody ys w states) order (out, false)
  if st.2 then none else some st.1

/-- `normalization(states)` without `out`, `base_general.py:1034-1048`; `nMax` is the largest value of the type
`_n_dtype`.  The result is converted to the smallest type that holds its maximum.  (A type beyond 64 bits is
an `object` array, which the core rejects.) -/
noncomputable def normalization (ys : List Generator) (nMax : Nat) (states : List Nat) (order : List (Nat × Bool)) :
    Option (List Nat) :=
  match minBits (nMax * (ys.map fun y => y.per).prod) with
  | none => none
  | some w =>
    match normalizationCore ys w states order fun _ => 0 with
    | none => none
    | some out =>
      let vals := (List.range states.length).map out
      (minBits (vals.foldl max 0)).map fun w' => vals.map (· % 2 ^ w')

/-! ### get_amp -/

/-- The `for(j=0;j<per;j++)` loop of one depth of `get_amp_rep`, `general_basis_get_amp.h:33-46`; `inner` is the
next depth (which gets `sign` by value). -/
noncomputable def ampLoop (y : Generator) (inner : Nat → Int → ℝ → ℂ) : Nat → Nat → Int → ℝ → ℂ
  | 0, _, _, _ => 0
  | j + 1, r, sign, k =>
    let x := y.U (r, sign)
    inner r sign k + ampLoop y inner j x.1 x.2 (k + 2 * Real.pi * y.q / y.per)

/-- `get_amp_rep`, `general_basis_get_amp.h:17-49`, below the first depth; the code writes the last depth out
separately, here it is the recursion with no symmetry left. -/
noncomputable def ampRec (s : Nat) : List Generator → Nat → Int → ℝ → ℂ
  | [], r, sign, k => if r = s then sign * Complex.exp (-(Complex.I * k)) else 0
  | y :: ys, r, sign, k => ampLoop y (ampRec s ys) y.per r sign k

/-- `get_amp_rep`, `general_basis_get_amp.h:17-49`. -/
noncomputable def getAmpRep (ys : List Generator) (r s : Nat) : ℂ :=
  if ys.length = 0 then 1 else ampRec s ys r 1 0

/-- `q_sum > 0 || B->fermionic`, `general_basis_get_amp.h:66-76` (and 171-182). -/
def needPhase (fermionic : Bool) (ys : List Generator) : Bool :=
  decide ((ys.map fun y => y.q.natAbs).sum > 0) || fermionic

/-- `per_factor` of `get_amp_general` (a double), `general_basis_get_amp.h:62,69`. -/
noncomputable def perProd (ys : List Generator) : ℝ := ((ys.map fun y => y.per).prod : Nat)

/-- The value computed by an iteration of `get_amp_general`, `general_basis_get_amp.h:80-100`, 117-136: the
representative stored in `s[i]` and the amplitude. -/
noncomputable def ampFull (fermionic : Bool) (ys : List Generator) (s : Nat) : Option (Nat × ℂ) :=
  match refState ys s (ys.map fun _ => 0) 1 with
  | none => none
  | some b =>
    match checkState ys b.r with
    | some (some norm) =>
      if norm > 0 then
        if needPhase fermionic ys then some (b.r, getAmpRep ys b.r s / (Real.sqrt (norm * perProd ys) : ℝ))
        else some (b.r, (Real.sqrt (norm / perProd ys) : ℝ))
      else some (b.r, 0)
    | _ => some (b.r, 0)

/-- The value computed by an iteration of `get_amp_general_light`, `general_basis_get_amp.h:186-197`, 212-219:
NaN if `check_state` returns NaN, and for a division by zero. -/
noncomputable def ampLight (fermionic : Bool) (ys : List Generator) (s : Nat) : Option ℂ :=
  match checkState ys s with
  | some (some norm) =>
    if needPhase fermionic ys then
      if norm = 0 then none else some (getAmpRep ys s s / (Real.sqrt (norm * perProd ys) : ℝ))
    else some (Real.sqrt (norm / perProd ys) : ℝ)
  | _ => none

/-- `check_imag(m, M)`, `misc.h:123-134`: the stored value and the error flag, for a complex or a real output
type. -/
noncomputable def checkImag (isReal : Bool) (m : ℂ) : ℂ × Bool :=
  open Classical in
  if isReal then ((m.re : ℂ), decide (|m.im| > 11 / 10 ^ 16)) else (m, false)

/-- The arrays `states` and `out` at one position. -/
abbrev Cell := Nat × Option ℂ

/-- An iteration of `get_amp_general`, `general_basis_get_amp.h:80-107`. -/
noncomputable def fullBody (fermionic isReal : Bool) (ys : List Generator) (states : List Nat) (i : Nat) : Cell × Bool :=
  match states[i]? with
  | none => ((0, none), false)
  | some s =>
    match ampFull fermionic ys s with
    | none => ((s, none), false)
    | some (r, a) => ((r, some (checkImag isReal a).1), (checkImag isReal a).2)

/-- An iteration of `get_amp_general_light`, `general_basis_get_amp.h:186-204` (comparisons with NaN are false). -/
noncomputable def lightBody (fermionic isReal : Bool) (ys : List Generator) (states : List Nat) (i : Nat) : Cell × Bool :=
  match states[i]? with
  | none => ((0, none), false)
  | some s =>
    match ampLight fermionic ys s with
    | none => ((s, none), false)
    | some a => ((s, some (checkImag isReal a).1), (checkImag isReal a).2)

/-- What `get_amp` ends with: an exception, or the arrays `states`, `out` and `amps`. -/
inductive Outcome
  | typeError
  | valueError
  | ok (states : List Nat) (out : List (Option ℂ)) (amps : Option (List (Option ℂ)))

/-- The call of the core, `general_basis_core.pyx:969-1025`: arrays and error flag.  For an unknown `mode` the
exception is created but not raised (line 1017), and nothing is computed. -/
noncomputable def ampCore (fermionic isReal : Bool) (ys : List Generator) (mode : String) (states : List Nat)
    (out : List (Option ℂ)) (order : List (Nat × Bool)) : (Nat → Cell) × Bool :=
  let start : Nat → Cell := fun i => (states.getD i 0, out.getD i none)
  if mode = "representative" then parFor (lightBody fermionic isReal ys states) order (start, false)
  else if mode = "full_basis" then parFor (fullBody fermionic isReal ys states) order (start, false)
  else (start, false)

/-- Division of doubles, NaN (or infinity) for a division by zero. -/
noncomputable def divide (a c : Option ℂ) : Option ℂ :=
  open Classical in
  match a, c with
  | some a, some c => if c = 0 then none else some (a / c)
  | _, _ => none

/-- Product of doubles. -/
noncomputable def times (a c : Option ℂ) : Option ℂ :=
  match a, c with
  | some a, some c => some (a * c)
  | _, _ => none

/-- `get_amp`, `base_general.py:1065-1149`: `out` is the array to fill (zeros if the user gives none), `amps` the
optional amplitudes (exact complex numbers). -/
noncomputable def getAmp (fermionic isReal : Bool) (ys : List Generator) (mode : String) (states : List Nat)
    (out : List (Option ℂ)) (amps : Option (List (Option ℂ))) (order : List (Nat × Bool)) : Outcome :=
  let st := ampCore fermionic isReal ys mode states out order
  if st.2 then .typeError
  else
    let states' := (List.range states.length).map fun i => (st.1 i).1
    let out' := (List.range states.length).map fun i => (st.1 i).2
    match amps with
    | none => .ok states' out' none
    | some a =>
      if mode = "representative" then .ok states' out' (some (List.zipWith times a out'))
      else if mode = "full_basis" then .ok states' out' (some (List.zipWith divide a out'))
      else .valueError

end Model.Amp
