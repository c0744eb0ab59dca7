import Verif.Model.ChainOp
/-!
Model of the semi-momentum blocks of the one-dimensional bases: momentum and reflection (`t_p`), momentum and the product
of reflection and inversion (`t_pz`).  A state may be kept twice, with the two signs `sigma` in front of its period `N`.

`P` is `fliplr` for `t_p`, and `flip_all` after `fliplr` or the other way round for `t_pz`.  Numbers are exact; the widths
of the integer types of `N` (8 bits) and `m` (16 bits) are not modelled.
-/
namespace Model.Chain

/-- The values of `sigma`: `basis_templates.pyx:139-144` (`t_p`) and 312-317 (`t_pz`). -/
def sigmas (k L T : ℕ) : List Int := if 2 * k * T % L = 0 then [1] else [-1, 1]

/-- Two bit operations one after the other, as in `RefState_T_PZ_template`, `refstate.pyx:445-446` (`fliplr`, then `flip_all`) and
`CheckState_T_PZ_template`, `checkstate.pyx:338-339` (`flip_all`, then `fliplr`). -/
def andThen (f g : BitOp) : BitOp := fun s => step g (f s)

/-- `CheckState_T_PZ_template`, `checkstate.pyx:301-350`: the test at the beginning reflects first, the loop inverts first. -/
def checkT_PZ (Tr P Z : BitOp) (k L T : ℕ) (s : ℕ) : Int × Int × Int :=
  if checkPZ P Z 1 s < 0 ∧ checkPZ P Z (-1) s < 0 then (-1, -1, 1)
  else match translates Tr (momentumFits k L T) s (L / T) 1 (s, 1) with
    | .found r _ => match transformed Tr s r 0 (step P (step Z (s, 1))) with
      | .reject => (-1, -1, 1)
      | .found m sg => (r, m, sg)
      | .exhausted => (r, -1, 1)
    | _ => (-1, -1, 1)

/-- Body of the loop of `make_t_p_basis_template`, `basis_templates.pyx:154-177`, and of `make_t_pz_basis_template`, 326-349: the
entries `(N, m)` for a state, in the order of the loop over `sigma`; `check` is `CheckState_T_P_template` (`checkT_Z` with `fliplr`) or
`CheckState_T_PZ_template`. -/
noncomputable def keepT_P (check : ℕ → Int × Int × Int) (p : Int) (k L T s : ℕ) : List (Int × ℕ) :=
  let R := check s
  if R.1 > 0 then
    if R.2.1 ≠ -1 then
      (sigmas k L T).filterMap fun (σ : Int) =>
        if 1 + (R.2.2 : ℝ) * σ * p * Real.cos (R.2.1 * wave k L T) = 0 ∨
            (σ = -1 ∧ 1 - (R.2.2 : ℝ) * σ * p * Real.cos (R.2.1 * wave k L T) ≠ 0) then none
        else some (σ * R.1, (R.2.1 + 1 + (L + 1) * ((R.2.2 + 1) / 2)).toNat)
    else (sigmas k L T).map fun (σ : Int) => (σ * R.1, 0)
  else []

/-- The arrays `_basis`, `_N`, `_M` of a basis with at most one particle sector, `base_1d.py:428-438,455-462`: the entries made
by `make_t_p_basis_template`, `basis_templates.pyx:152-181`, in reversed order. -/
def blockBasisList {α : Type} (next : ℕ → ℕ) (nosymm : ℕ → Bool) (keep : ℕ → List α) (MAX s : ℕ) : List (ℕ × α) :=
  ((visited next MAX s).flatMap fun s => if nosymm s then (keep s).map fun d => (s, d) else []).reverse

/-- `sc`, `sr` of `MatrixElement_T_P`, `op_templates.pyx:281-289`. -/
def sigmaOf (d : Int × ℕ) : Int := if d.1 > 0 then 1 else -1

/-- `mmc`, `mmr`, `op_templates.pyx:291-292`. -/
def mmOf (L : ℕ) (d : Int × ℕ) : Int := ((d.2 % (L + 1) : ℕ) : Int) - 1

/-- `fc`, `fr`, `op_templates.pyx:294-309`. -/
def fOf (L : ℕ) (d : Int × ℕ) : Int := if mmOf L d ≥ 0 then 2 * ((d.2 / (L + 1) : ℕ) : Int) - 1 else 1

/-- `nc`, `nr`, `op_templates.pyx:294-310`. -/
noncomputable def weightT_P (p : Int) (k L T : ℕ) (d : Int × ℕ) : ℝ :=
  (if mmOf L d ≥ 0 then (1 + (fOf L d : ℝ) * sigmaOf d * p * Real.cos (wave k L T * mmOf L d)) / d.1 else 1 / d.1) * sigmaOf d

/-- `MatrixElement_T_P`, `op_templates.pyx:276-324`, and `MatrixElement_T_PZ`, 437-487; `dc` and `dr` are the entries `(N, m)` of column
and row. -/
noncomputable def elementT_P (p : Int) (k L T l q : ℕ) (dc dr : Int × ℕ) : ℝ :=
  Real.sqrt (weightT_P p k L T dr / weightT_P p k L T dc) * ((sigmaOf dc * p : Int) : ℝ) ^ q *
  (if sigmaOf dr = sigmaOf dc then
    (if mmOf L dr < 0 then Real.cos (wave k L T * l)
     else (Real.cos (wave k L T * l) + (fOf L dr : ℝ) * sigmaOf dc * p * Real.cos (((l : Int) - mmOf L dr : Int) * wave k L T)) /
       (1 + (fOf L dr : ℝ) * sigmaOf dc * p * Real.cos (wave k L T * mmOf L dr)))
   else
    (if mmOf L dr < 0 then -(sigmaOf dc : ℝ) * Real.sin (wave k L T * l)
     else (-(sigmaOf dc : ℝ) * Real.sin (wave k L T * l) + (fOf L dr : ℝ) * p * Real.sin (((l : Int) - mmOf L dr : Int) * wave k L T)) /
       (1 - (fOf L dr : ℝ) * sigmaOf dc * p * Real.cos (wave k L T * mmOf L dr))))

/-- `sign*MatrixElement_T_P(...)`, `op_templates.pyx:371`. -/
noncomputable def factorT_P (p : Int) (k L T : ℕ) (b : Ref) (dc dr : Int × ℕ) : ℂ :=
  (b.sign : ℂ) * (elementT_P p k L T b.l b.g dc dr : ℝ)

/-- The assignment of one entry, `op_templates.pyx:407-409` and 423-427: row, column and the matrix element of the string on the state of the
column times the factor; `none`: outside the arrays. -/
noncomputable def entryT_P (factor : Ref → Int × ℕ → Int × ℕ → ℂ) (basis : List (ℕ × (Int × ℕ))) (op : ℕ → Option (ℕ × ℂ)) (b : Ref)
    (rc : ℕ × ℕ) : Option Triplet :=
  match basis[rc.1]?, basis[rc.2]? with
  | some (_, dr), some (s, dc) => (op s).map fun x => (rc.1, rc.2, x.2 * factor b dc dr)
  | _, _ => none

/-- The state at a position. -/
def stateAt {α : Type} (basis : List (ℕ × α)) (i : ℕ) : Option ℕ := (basis[i]?).map (·.1)

/-- Positions of the row entries, `op_templates.pyx:413-419`: the first one of the state at `ss` and how many there are. -/
def rowsOf {α : Type} (basis : List (ℕ × α)) (ss : ℕ) : ℕ × ℕ :=
  if 0 < ss ∧ stateAt basis ss = stateAt basis (ss - 1) then (ss - 1, 2)
  else if ss + 1 < basis.length ∧ stateAt basis ss = stateAt basis (ss + 1) then (ss, 2)
  else (ss, 1)

/-- Round `i` of the loop of `t_p_op_template` for momenta other than 0 and π, `op_templates.pyx:375-427` (`t_pz`: 541-592): the entries
that are written; `none`: error. -/
noncomputable def roundT_P (ref : ℕ → Ref) (factor : Ref → Int × ℕ → Int × ℕ → ℂ) (basis : List (ℕ × (Int × ℕ)))
    (op : ℕ → Option (ℕ × ℂ)) (i : ℕ) : Option (List Triplet) :=
  match basis[i]? with
  | none => none
  | some (s, _) =>
    match op s with
    | none => none
    | some (x, _) =>
      if 0 < i ∧ stateAt basis i = stateAt basis (i - 1) then some []
      else
        let o := if i + 1 < basis.length ∧ stateAt basis i = stateAt basis (i + 1) then 2 else 1
        match (if (ref x).r ≠ s then findZState (basis.map (·.1)) (ref x).r 0 ((basis.length : Int) - 1) else some (some i)) with
        | none => none
        | some none => some []
        | some (some ss) =>
          if ss = i ∧ (ref x).g = 0 ∧ (ref x).l = 0 then
            ((List.range o).map fun c => (i + c, i + c)).mapM (entryT_P factor basis op (ref x))
          else
            ((List.range o).flatMap fun c => (List.range (rowsOf basis ss).2).map fun b => ((rowsOf basis ss).1 + b, i + c)).mapM
              (entryT_P factor basis op (ref x))

/-- `t_p_op_template`, `op_templates.pyx:330-431`, and `t_pz_op_template`, 492-598, followed by `_Op`, `base_1d.py:563-598`: the entries of one
operator string; entries that are not written are NaN and are removed, as are zeros. -/
noncomputable def opT_P (k L T : ℕ) (ref : ℕ → Ref) (factor : Ref → Int × ℕ → Int × ℕ → ℂ) (basis : List (ℕ × (Int × ℕ)))
    (op : ℕ → Option (ℕ × ℂ)) : Option (List Triplet) :=
  if 2 * k * T % L = 0 then opTriplets (columnOf ref factor basis op) basis.length
  else open Classical in
    ((List.range basis.length).mapM (roundT_P ref factor basis op)).map fun ls => ls.flatten.filter fun t => t.2.2 ≠ 0

/-- `basis._make_matrix`, `base.py:220-251`, in such a block. -/
noncomputable def matrixT_P (k L T : ℕ) (ref : ℕ → Ref) (factor : Ref → Int × ℕ → Int × ℕ → ℂ) (basis : List (ℕ × (Int × ℕ)))
    (terms : List (ℕ → Option (ℕ × ℂ))) : Option (ℕ → ℕ → ℂ) :=
  (terms.mapM (opT_P k L T ref factor basis)).map makeMatrix

end Model.Chain
