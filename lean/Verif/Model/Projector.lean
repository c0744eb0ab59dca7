import Verif.Model.Symmetry
/-!
Expansion of reduced states to the full space and back,
`basis_general/_basis_general_core/source/general_basis_get_vec.h`, `general_basis_core.pyx:16-80`,
`base_general.py:425-673`.  Vectors are functions of the index; exact complex arithmetic.
-/
namespace Model
open Spec

/-- One visit of the recursions: configuration, `phase`, `c`. -/
abbrev Visit := Nat × Int × ℂ

/-- The `for(j=0;j<per;j++)` loop of one depth of `project_from_rep`/`project_to_rep`
(`general_basis_get_vec.h:87-101`, 255-270): `inner s phase c` is the next depth (or, at the last depth,
the update of the output, here: the record of the visit); it returns its visits and the value of
`phase`, which is shared by reference. -/
noncomputable def visitLoop (y : Generator) (cc : ℂ) (inner : Nat → Int → ℂ → List Visit × Int) :
    Nat → Nat → Int → ℂ → List Visit × Int
  | 0, _, phase, _ => ([], phase)
  | j + 1, s, phase, c =>
    let out := inner s phase c
    let x := y.U (s, out.2)
    let rest := visitLoop y cc inner j x.1 x.2 (c * cc)
    (out.1 ++ rest.1, rest.2)

/-- `project_from_rep` (`sg = -1`, `general_basis_get_vec.h:64-103`) and `project_to_rep` (`sg = 1`,
231-271): the visited configurations in order.  The code writes the last depth (and `nt<=0`) out
separately; here it is the recursion with no symmetry left. -/
noncomputable def visits (sg : ℝ) : List Generator → Nat → Int → ℂ → List Visit × Int
  | [], s, phase, c => ([(s, phase, c)], phase)
  | y :: ys, s, phase, c =>
    visitLoop y (Complex.exp (Complex.I * (sg * (2 * Real.pi * y.q / y.per) : ℝ))) (visits sg ys) y.per s phase c

/-- `c = 1.0/sqrt(n[k]*norm)`, `norm` the product of the periods:
`general_basis_get_vec.h:198-209,380-391`. -/
noncomputable def startCoef (ys : List Generator) (n : Int) : ℂ :=
  ((1 / Real.sqrt ((n : ℝ) * ((ys.map fun y => y.per).prod : Nat)) : ℝ) : ℂ)

/-- The updates `out[Ns_full-s-1] += phase*c*in` of `project_from_rep`. -/
noncomputable def scatter (NsFull : Nat) (a : ℂ) : List Visit → (Nat → ℂ) → Nat → ℂ
  | [], out => out
  | (t, phase, c) :: vs, out =>
    scatter NsFull a vs fun k => if (k : Int) = (NsFull : Int) - t - 1 then out k + phase * c * a else out k

/-- `project_from_general_dense`, `general_basis_get_vec.h:183-221`, one vector; `order` is the order in
which the `schedule(dynamic)` loop processes the basis states. -/
noncomputable def projectFromDense (ys : List Generator) (basis : List (Nat × Int)) (NsFull : Nat) (v : Nat → ℂ) :
    List Nat → (Nat → ℂ) → Nat → ℂ
  | [], out => out
  | k :: order, out =>
    match basis[k]? with
    | none => projectFromDense ys basis NsFull v order out
    | some (s, n) => projectFromDense ys basis NsFull v order
        (scatter NsFull (v k) (visits (-1) ys s 1 (startCoef ys n)).1 out)

/-- The updates `out += phase*c*in[Ns_full-s-1]` of `project_to_rep`. -/
noncomputable def gather (NsFull : Nat) (v : Nat → ℂ) : List Visit → ℂ → ℂ
  | [], a => a
  | (t, phase, c) :: vs, a => gather NsFull v vs (a + phase * c * v ((NsFull : Int) - t - 1).toNat)

/-- `project_to_general_dense`, `general_basis_get_vec.h:357-397`, entry `k` of the result
(`v_out` starts at zero, `base_general.py:567`; the iterations write different entries). -/
noncomputable def projectToDense (ys : List Generator) (basis : List (Nat × Int)) (NsFull : Nat) (v : Nat → ℂ)
    (k : Nat) : ℂ :=
  match basis[k]? with
  | none => 0
  | some (s, n) => gather NsFull v (visits 1 ys s 1 (startCoef ys n)).1 0

/-- `get_proj_helper`, `general_basis_core.pyx:16-80`: entry (row of configuration, column `k`).  The
recursion runs over all columns at once; for one column it is the recursion above with the matrix `P`
collecting `c*sign` at the row of the visited configuration.  (`c` is multiplied by `sign`, stored, and
multiplied by `sign` again.) -/
noncomputable def getProj (ys : List Generator) (basis : List (Nat × Int)) (NsFull : Nat) (row k : Nat) : ℂ :=
  match basis[k]? with
  | none => 0
  | some (s, n) => scatter NsFull 1 (visits (-1) ys s 1 (startCoef ys n)).1 (fun _ => 0) row

/-- `project_to` with `sparse=True` (the default), `base_general.py:563-565`: the transpose of
`get_proj` times the vector. -/
noncomputable def projectToSparse (ys : List Generator) (basis : List (Nat × Int)) (NsFull : Nat) (v : Nat → ℂ)
    (k : Nat) : ℂ :=
  ((List.range NsFull).map fun row => getProj ys basis NsFull row k * v row).sum

/-- `project_to_rep_basis`, `general_basis_get_vec.h:277-318` (used with `pcon=True`): with at most one
symmetry the loop of `project_to_rep` but with phase `-q`; with more, the recursion enters
`project_from_rep_basis` with the roles of `in` and `out` exchanged, which writes outside the output
(`none`).  `pos` is the position of a configuration in the particle-conserving basis. -/
noncomputable def projectToPcon (ys : List Generator) (basis : List (Nat × Int)) (pos : Nat → Nat) (v : Nat → ℂ)
    (k : Nat) : Option ℂ :=
  if ys.length > 1 then none
  else match basis[k]? with
  | none => none
  | some (s, n) => some ((visits (-1) ys s 1 (startCoef ys n)).1.foldl (fun a x => a + x.2.1 * x.2.2 * v (pos x.1)) 0)

end Model
