import Verif.Spec.Symmetry
/-!
Representatives and norms of symmetry-reduced bases,
`basis_general/_basis_general_core/source/general_basis_core.h`.

`Spec.Generator` is the triple (map with sign, period, quantum number) handed to the constructor;
`map_state(t, depth, phase)` replaces `t` by its image and multiplies `phase` by the sign.  The class
`basis_general` refuses more than 32 maps (`base_general.py:102-103`).
-/
namespace Model
open Spec

/-- The variables `r`, `phase`, `g` of `ref_state_core_unrolled`. -/
structure Best where
  r : Nat
  phase : Int
  g : List Nat
deriving DecidableEq, Repr

/-- The inner `while(change && depth>=0)` loop of `ref_state_core_unrolled`,
`general_basis_core.h:167-192`.  The lists run from depth `nt-1` down to 0; `done` holds the
counters of the depths already passed (all reset to 0), so that `(c::cs).reverse ++ done` is the
array `gg`.  `x` is the pair `(t, temp_phase)`.  Returns the counters (same order), `x` and the
best state. -/
def refInner : List Generator → List Nat → List Nat → Nat × Int → Best → List Nat × (Nat × Int) × Best
  | y :: ys, c :: cs, done, x, best =>
    let best := if x.1 > best.r then { r := x.1, phase := x.2, g := (c :: cs).reverse ++ done } else best
    if c + 1 > y.per - 1 then
      let rest := refInner ys cs (0 :: done) (y.U x) best
      (0 :: rest.1, rest.2)
    else ((c + 1) :: cs, y.U x, best)
  | _, cs, _, x, best => (cs, x, best)

/-- The outer `while(!status)` loop, `general_basis_core.h:158-193`, at most `fuel` rounds (`none`
if it has not stopped by then). -/
def refOuter (rsyms : List Generator) (maxValsSum : Nat) :
    Nat → List Nat → Nat × Int → Best → Option Best
  | 0, _, _, _ => none
  | fuel + 1, cs, x, best =>
    let out := refInner rsyms cs [] x best
    if cs.sum ≥ maxValsSum then some out.2.2 else refOuter rsyms maxValsSum fuel out.1 out.2.1 out.2.2

/-- `ref_state_core_unrolled`, `general_basis_core.h:134-197`; `g0`, `phase0` are the contents of
`g` and `phase` at the call.  The fuel is the number of group elements. -/
def refState (syms : List Generator) (s : Nat) (g0 : List Nat) (phase0 : Int) : Option Best :=
  if syms.length = 0 ∨ syms.length > 32 then some { r := s, phase := phase0, g := g0.map (fun _ => 0) }
  else refOuter syms.reverse (syms.map (fun y => y.per - 1)).sum (syms.map (fun y => y.per)).prod
    (syms.map (fun _ => 0)) (s, 1) { r := s, phase := phase0, g := g0 }

/-- The inner loop of `check_state_core_unrolled`, `general_basis_core.h:105-127`, without the norm
update (which happens only in its first round, see `checkOuter`); the third component is the
accumulated angle `k`.  `none` is the early `return quiet_NaN`. -/
noncomputable def checkInner (s : Nat) : List Generator → List Nat → (Nat × Int) → ℝ →
    Option (List Nat × (Nat × Int) × ℝ)
  | y :: ys, c :: cs, x, k =>
    let k' := k + 2 * Real.pi * y.q / y.per
    let x' := y.U x
    if x'.1 > s then none
    else if c + 1 > y.per - 1 then
      (checkInner s ys cs x' k').map fun rest => (0 :: rest.1, rest.2)
    else some ((c + 1) :: cs, x', k')
  | _, cs, x, k => some (cs, x, k)

/-- The outer loop of `check_state_core_unrolled`, `general_basis_core.h:95-128`.  Outer `none`: not
stopped within `fuel` rounds; inner `none`: NaN.  The norm update of line 119 belongs to the first
round of the inner loop (`depth == nt-1`), before the map is applied. -/
noncomputable def checkOuter (rsyms : List Generator) (s maxValsSum : Nat) :
    Nat → List Nat → Nat × Int → ℝ → ℝ → Option (Option ℝ)
  | 0, _, _, _, _ => none
  | fuel + 1, cs, x, k, norm =>
    let norm' := if x.1 = s then norm + x.2 * Real.cos k else norm
    match checkInner s rsyms cs x k with
    | none => some none
    | some out =>
      if cs.sum ≥ maxValsSum then some (some norm')
      else checkOuter rsyms s maxValsSum fuel out.1 out.2.1 out.2.2 norm'

/-- `check_state_core_unrolled`, `general_basis_core.h:70-131`; the double arithmetic (products,
`cos`) is exact real arithmetic here. -/
noncomputable def checkState (syms : List Generator) (s : Nat) : Option (Option ℝ) :=
  if syms.length = 0 ∨ syms.length > 32 then some (some 1)
  else checkOuter syms.reverse s (syms.map (fun y => y.per - 1)).sum (syms.map (fun y => y.per)).prod
    (syms.map (fun _ => 0)) (s, 1) 0 0

/-- Membership test of the construction loops, `make_general_basis.h:87-94`: `int_norm = norm;
!check_nan(norm) && int_norm > 0`; the stored norm is the truncated value. -/
noncomputable def checkKeep (syms : List Generator) (s : Nat) : Option Int :=
  match checkState syms s with
  | some (some norm) => some ⌊norm⌋
  | _ => none

end Model
