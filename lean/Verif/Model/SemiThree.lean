import Verif.Model.SemiMomentum
/-!
Model of the blocks of the one-dimensional bases with momentum, reflection and inversion together (`t_p_z`): `kblock`, `pblock` and `zblock`.  As for the other
semi-momentum blocks a state may be kept twice, with the two signs `sigma` in front of its period `N`; the integer `m` stores which of the three operations
take the state to one of its translates, to which, and with which sign.

`Tr` is the translation, `P` is `fliplr`, `Z` is `flip_all`.  Numbers are exact; the widths of the integer types of `N` (8 bits) and `m` (16 bits) are not modelled.
-/
namespace Model.Chain

/-- Result of the four loops of `CheckState_T_P_Z_template`: the period and, for reflection, inversion and both, the translate and its sign (-1: none). -/
structure Returns where
  r : ℕ
  mp : Int
  mz : Int
  mpz : Int
  signp : Int
  signz : Int
  signpz : Int
deriving DecidableEq

/-- The index `R[1]`, `R[2]` or `R[3]` set by a loop over translates, `checkstate.pyx:257-269`. -/
def Scan.index : Scan → Int
  | .found i _ => i
  | _ => -1

/-- The sign `R[4]`, `R[5]` or `R[6]`, `checkstate.pyx:257-269`. -/
def Scan.signOf : Scan → Int
  | .found _ sg => sg
  | _ => 1

/-- `CheckState_T_P_Z_template`, `checkstate.pyx:213-298`; `none`: `R[0]` is not positive, which is all that is used of a state that is refused
(`basis_templates.pyx:231`). -/
def checkT_P_Z (Tr P Z : BitOp) (k L T : ℕ) (s : ℕ) : Option Returns :=
  if checkP_Z P Z 1 1 s < 0 ∧ checkP_Z P Z (-1) 1 s < 0 ∧ checkP_Z P Z 1 (-1) s < 0 ∧ checkP_Z P Z (-1) (-1) s < 0 then none
  else match translates Tr (momentumFits k L T) s (L / T) 1 (s, 1) with
    | .found r _ =>
      let a := transformed Tr s r 0 (step P (s, 1))
      let b := transformed Tr s r 0 (step Z (s, 1))
      let c := transformed Tr s r 0 (step P (step Z (s, 1)))
      if a = .reject ∨ b = .reject ∨ c = .reject then none
      else some ⟨r, a.index, b.index, c.index, a.signOf, b.signOf, c.signOf⟩
    | _ => none

/-- The entries `(N, m)` of one of the loops over `sigma` of `make_t_p_z_basis_template`: `refused sigma` is the condition under which `r_temp` becomes -1. -/
noncomputable def keptSigmas (k L T r : ℕ) (refused : Int → Prop) (m : Int) : List (Int × ℕ) := open Classical in
  (sigmas k L T).filterMap fun (σ : Int) => if refused σ then none else some (σ * r, m.toNat)

/-- Body of the loop of `make_t_p_z_basis_template`, `basis_templates.pyx:231-282`: the entries `(N, m)` for a state; `(sign + 1) / 2` is `signp1` and so on, 226-228. -/
noncomputable def keepT_P_Z (Tr P Z : BitOp) (p z : Int) (k L T s : ℕ) : List (Int × ℕ) :=
  match checkT_P_Z Tr P Z k L T s with
  | none => []
  | some R =>
    let c := wave k L T
    (if R.mp = -1 ∧ R.mz = -1 ∧ R.mpz = -1 then keptSigmas k L T R.r (fun _ => False) 0 else []) ++
    (if R.mp ≠ -1 ∧ R.mz = -1 ∧ R.mpz = -1 then
      keptSigmas k L T R.r (fun σ => 1 + (σ : ℝ) * R.signp * p * Real.cos (R.mp * c) = 0 ∨ (σ = -1 ∧ 1 - (σ : ℝ) * R.signp * p * Real.cos (R.mp * c) ≠ 0))
        (R.mp + (1 + (R.signp + 1) / 2) * (L + 1) ^ 2) else []) ++
    (if R.mp = -1 ∧ R.mz ≠ -1 ∧ R.mpz = -1 then
      keptSigmas k L T R.r (fun _ => 1 + (z : ℝ) * R.signz * Real.cos (c * R.mz) = 0)
        (R.mz * (L + 1) + (3 + (R.signz + 1) / 2) * (L + 1) ^ 2) else []) ++
    (if R.mp = -1 ∧ R.mz = -1 ∧ R.mpz ≠ -1 then
      keptSigmas k L T R.r (fun σ => 1 + (σ : ℝ) * R.signpz * p * z * Real.cos (R.mpz * c) = 0 ∨
          (σ = -1 ∧ 1 - (σ : ℝ) * R.signpz * p * z * Real.cos (R.mpz * c) ≠ 0))
        (R.mpz + (5 + (R.signpz + 1) / 2) * (L + 1) ^ 2) else []) ++
    (if R.mp ≠ -1 ∧ R.mz ≠ -1 then
      keptSigmas k L T R.r (fun σ => (1 + (σ : ℝ) * R.signp * p * Real.cos (R.mp * c) = 0 ∨ 1 + (z : ℝ) * R.signz * Real.cos (R.mz * c) = 0) ∨
          (σ = -1 ∧ (1 - (σ : ℝ) * R.signp * p * Real.cos (R.mp * c) ≠ 0 ∨ 1 - (z : ℝ) * R.signz * Real.cos (R.mz * c) ≠ 0)))
        (R.mp + (L + 1) * R.mz + (7 + (R.signp + 1) / 2 + 2 * ((R.signz + 1) / 2)) * (L + 1) ^ 2) else [])

/-- `RefState_T_P_Z_template`, `refstate.pyx:469-518`; `R[1] + 2*R[2]` in `g`. -/
def refT_P_Z (Tr P Z : BitOp) (L T s : ℕ) : Ref := refT_ZA_ZB Tr P Z (andThen P Z) L T s

/-- `mmc`, `mmr`, `op_templates.pyx:623-631`. -/
def mmOf3 (L : ℕ) (d : Int × ℕ) : ℕ := d.2 % (L + 1)

/-- `nnc`, `nnr`, `op_templates.pyx:623-631`. -/
def nnOf3 (L : ℕ) (d : Int × ℕ) : ℕ := d.2 / (L + 1) % (L + 1)

/-- `mc`, `mr` after the divisions, `op_templates.pyx:623-631`. -/
def codeOf3 (L : ℕ) (d : Int × ℕ) : ℕ := d.2 / (L + 1) / (L + 1)

/-- `fc1`, `fr1`, `op_templates.pyx:634-692`. -/
def fOf3 (L : ℕ) (d : Int × ℕ) : Int :=
  let m := codeOf3 L d
  if m = 1 ∨ m = 3 ∨ m = 5 ∨ m = 7 ∨ m = 9 then -1 else 1

/-- `fc2`, `fr2`, `op_templates.pyx:634-692`. -/
def gOf3 (L : ℕ) (d : Int × ℕ) : Int :=
  let m := codeOf3 L d
  if m = 7 ∨ m = 8 then -1 else 1

/-- `nc`, `nr`, `op_templates.pyx:634-693`. -/
noncomputable def weightT_P_Z (p z : Int) (k L T : ℕ) (d : Int × ℕ) : ℝ :=
  let m := codeOf3 L d
  let c := wave k L T
  let a : ℝ := 1 + (fOf3 L d : ℝ) * p * sigmaOf d * Real.cos (c * mmOf3 L d)
  (if m = 0 then 1 / (d.1 : ℝ)
   else if m = 1 ∨ m = 2 then a / d.1
   else if m = 3 ∨ m = 4 then (1 + (fOf3 L d : ℝ) * z * Real.cos (c * nnOf3 L d)) / d.1
   else if m = 5 ∨ m = 6 then (1 + (fOf3 L d : ℝ) * p * z * sigmaOf d * Real.cos (c * mmOf3 L d)) / d.1
   else if m = 7 ∨ m = 8 ∨ m = 9 ∨ m = 10 then a * (1 + (gOf3 L d : ℝ) * z * Real.cos (c * nnOf3 L d)) / d.1
   else 1) * sigmaOf d

/-- `cr`, `op_templates.pyx:634-692`. -/
def caseOf3 (L : ℕ) (d : Int × ℕ) : ℕ :=
  let m := codeOf3 L d
  if m = 1 ∨ m = 2 then 2 else if m = 3 ∨ m = 4 then 3 else if m = 5 ∨ m = 6 then 4 else if m = 7 ∨ m = 8 ∨ m = 9 ∨ m = 10 then 5 else 1

/-- `MatrixElement_T_P_Z`, `op_templates.pyx:605-714`; `dc` and `dr` are the entries `(N, m)` of column and row. -/
noncomputable def elementT_P_Z (p z : Int) (k L T l q g : ℕ) (dc dr : Int × ℕ) : ℝ :=
  let c := wave k L T
  let sc := sigmaOf dc
  let cr := caseOf3 L dr
  let f := fOf3 L dr
  let mm : Int := mmOf3 L dr
  Real.sqrt (weightT_P_Z p z k L T dr / weightT_P_Z p z k L T dc) * ((sc * p : Int) : ℝ) ^ q * (z : ℝ) ^ g *
  (if sigmaOf dr = sc then
    (if cr = 1 ∨ cr = 3 then Real.cos (c * l)
     else if cr = 2 ∨ cr = 5 then
      (Real.cos (c * l) + (f : ℝ) * sc * p * Real.cos (((l : Int) - mm : Int) * c)) / (1 + (f : ℝ) * sc * p * Real.cos (c * mm))
     else (Real.cos (c * l) + (f : ℝ) * sc * p * z * Real.cos (((l : Int) - mm : Int) * c)) / (1 + (f : ℝ) * sc * p * z * Real.cos (c * mm)))
   else
    (if cr = 1 ∨ cr = 3 then -(sc : ℝ) * Real.sin (c * l)
     else if cr = 2 ∨ cr = 5 then
      (-(sc : ℝ) * Real.sin (c * l) + (f : ℝ) * p * Real.sin (((l : Int) - mm : Int) * c)) / (1 - (f : ℝ) * sc * p * Real.cos (c * mm))
     else (-(sc : ℝ) * Real.sin (c * l) + (f : ℝ) * p * z * Real.sin (((l : Int) - mm : Int) * c)) / (1 - (f : ℝ) * sc * p * z * Real.cos (c * mm))))

/-- `sign*MatrixElement_T_P_Z(...)`, `op_templates.pyx:769`; the loops around it, 721-815, are those of `t_p_op_template` (`opT_P`) with `q + 2*g` in place of `q`. -/
noncomputable def factorT_P_Z (p z : Int) (k L T : ℕ) (b : Ref) (dc dr : Int × ℕ) : ℂ :=
  (b.sign : ℂ) * (elementT_P_Z p z k L T b.l (b.g % 2) (b.g / 2) dc dr : ℝ)

end Model.Chain
