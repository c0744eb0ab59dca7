import Verif.Model.Chain
import Mathlib.Analysis.SpecialFunctions.Complex.Circle
/-!
Vectors of the full space from vectors in a symmetry block of a one-dimensional basis: `basis_1d.project_from`, `get_proj`, `_get_norms`,
`_get_vec_dense`, `_get_vec_sparse`, `_get_proj_sparse` of `basis_1d/base_1d.py`.

Simplifications: exact real and complex numbers; one vector at a time (several vectors are treated column by column by numpy); `N` is not
wrapped (the code keeps it in `int8`, `L/a` is below 128).  The row of a configuration `x` is `size-1-x`.
-/
namespace Model.Chain

/-- The keys of `_blocks_1d`, `base_1d.py:134`; `k` is `kblock`, reduced modulo `L//a`.  With `pblock` and `zblock` the classes of the bases add
`pzblock`, and with `zAblock` and `zBblock` they add `zblock` (`spin.py:172-180`, `boson.py:172-178`, `fermion.py:342-345`). -/
structure Blocks where
  a : ℕ := 1
  k : Option ℕ := none
  p : Option Int := none
  z : Option Int := none
  zA : Option Int := none
  zB : Option Int := none
  pz : Option Int := none

/-- Assignment of an integer to an element of an `int8` array. -/
def int8 (x : Int) : Int := (x + 128) % 256 - 128

/-- `norm` before the square root, `_get_norms`, `base_1d.py:804-967`, for one element with entries `N`, `M`. -/
noncomputable def normSq (B : Blocks) (L : ℕ) (N : Int) (M : ℕ) : ℝ :=
  let k := wave (B.k.getD 0) L B.a
  let n2 : ℝ := ((L : ℝ) / B.a) ^ 2
  let σ : Int := N.sign
  let p := B.p.getD 0
  let z := B.z.getD 0
  let pz := B.pz.getD 0
  let zA := B.zA.getD 0
  let zB := B.zB.getD 0
  if B.k.isSome ∧ B.p.isSome ∧ B.z.isSome then
    let c : Int := int8 (M / (L + 1) ^ 2 : ℕ)
    let nn : Int := int8 (M / (L + 1) : ℕ) % (L + 1)
    let mm : Int := int8 (M % (L + 1) : ℕ)
    (if |Real.sin k| < 1 / L then 4 * n2 else 2 * n2) * σ / N *
      (if c = 1 then 1 - σ * p * Real.cos (k * mm)
      else if c = 2 then 1 + σ * p * Real.cos (k * mm)
      else if c = 3 then 1 - z * Real.cos (k * nn)
      else if c = 4 then 1 + z * Real.cos (k * nn)
      else if c = 5 then 1 - σ * pz * Real.cos (k * mm)
      else if c = 6 then 1 + σ * pz * Real.cos (k * mm)
      else if c = 7 then (1 - σ * p * Real.cos (k * mm)) * (1 - z * Real.cos (k * nn))
      else if c = 8 then (1 + σ * p * Real.cos (k * mm)) * (1 - z * Real.cos (k * nn))
      else if c = 9 then (1 - σ * p * Real.cos (k * mm)) * (1 + z * Real.cos (k * nn))
      else if c = 10 then (1 + σ * p * Real.cos (k * mm)) * (1 + z * Real.cos (k * nn))
      else 1)
  else if B.k.isSome ∧ B.zA.isSome ∧ B.zB.isSome then
    let c : Int := int8 (M / (L + 1) : ℕ)
    let mm : Int := int8 (M % (L + 1) : ℕ)
    4 * n2 / N *
      (if c = 2 then 1 + zA * Real.cos (k * mm)
      else if c = 3 then 1 + zB * Real.cos (k * mm)
      else if c = 4 then 1 + z * Real.cos (k * mm)
      else 1)
  else if B.k.isSome ∧ B.p.isSome then
    let m : Int := (M % (L + 1) : ℕ) - 1
    let sign : Int := ((2 * (M / (L + 1) : ℕ) - 1) * N).sign
    (if 2 * B.k.getD 0 = L ∨ B.k.getD 0 = 0 then 2 * n2 else n2) * σ / N * (if m ≥ 0 then 1 + sign * p * Real.cos (k * m) else 1)
  else if B.k.isSome ∧ B.pz.isSome then
    let m : Int := int8 M % (L + 1) - 1
    let sign : Int := ((2 * (M / (L + 1) : ℕ) - 1) * N).sign
    (if |Real.sin k| < 1 / L then 2 * n2 else n2) * σ / N * (if m ≥ 0 then 1 + sign * pz * Real.cos (k * m) else 1)
  else if B.k.isSome ∧ B.z.isSome then
    let m : Int := int8 M % (L + 1) - 1
    let sign : Int := 2 * (M / (L + 1) : ℕ) - 1
    2 * n2 / N * (if m ≥ 0 then 1 + sign * z * Real.cos (k * m) else 1)
  else if B.k.isSome ∧ B.zA.isSome then
    2 * n2 / N * (if M > 0 then 1 + zA * Real.cos (k * int8 (M - 1)) else 1)
  else if B.k.isSome ∧ B.zB.isSome then
    2 * n2 / N * (if M > 0 then 1 + zB * Real.cos (k * int8 (M - 1)) else 1)
  else if (B.p.isSome ∧ B.z.isSome) ∨ (B.zA.isSome ∧ B.zB.isSome) ∨ B.p.isSome ∨ B.pz.isSome ∨ B.z.isSome ∨ B.zA.isSome ∨ B.zB.isSome then N
  else if B.k.isSome then n2 / N
  else 1

/-- The function `C` without the division by the norm, `base_1d.py:685-705` and 772-796; `neg` means `N < 0`, which is looked at only
together with momentum and `pblock` or `pzblock`. -/
noncomputable def phaseC (B : Blocks) (L r : ℕ) (neg : Bool) : ℂ :=
  let k : ℝ := match B.k with
    | some k => wave k L B.a
    | none => 0
  if B.k.isSome ∧ (B.p.isSome ∨ B.pz.isSome) then (if neg then ((-Real.sin (k * r) : ℝ) : ℂ) else ((Real.cos (k * r) : ℝ) : ℂ))
  else if k = 0 then 1 else if k = Real.pi then (-1) ^ r else Complex.exp (Complex.I * k * r)

/-- One of the sections `if type(..block) is int`: the operations applied, those applied afterwards to undo them, and the sign of the block. -/
structure Section where
  apply : List BitOp
  undo : List BitOp
  q : Int

/-- The operations of the core. -/
structure Bitops where
  /-- `py_shift(·,a,L,…)`: towards larger site numbers than `shift(·,-a,L,…)` of the core; the count is `(a+L)%L`, so it is `shiftOf (L-a)` -/
  shift : BitOp
  fliplr : BitOp
  flipAll : BitOp
  flipA : BitOp
  flipB : BitOp

/-- The operations for a chain; `a = L` without momentum, `base_1d.py:1062-1066`. -/
def bitopsOf (w : Option ℕ) (a : ℕ) (c : Spec.Chain) : Bitops :=
  ⟨shiftOf w (c.length - a) c, flipLROf w c, flipAllOf w c, flipAOf c, flipBOf c⟩

/-- The sections in their order, `_get_vec_dense`, `base_1d.py:1080-1130`, and `_get_proj_sparse`, 1334-1414.  `_get_vec_sparse` (1204-1283) applies
`flip_all` before `fliplr` in the last one (`sparse`).  The first one is the part before the sections. -/
def sections (sparse : Bool) (B : Blocks) (o : Bitops) : List Section :=
  let one : Option Int → List BitOp → List BitOp → List Section := fun q f u =>
    match q with
    | some q => [⟨f, u, q⟩]
    | none => []
  [⟨[], [], 1⟩] ++ one B.zA [o.flipA] [o.flipA] ++ one B.zB [o.flipB] [o.flipB] ++ one B.z [o.flipAll] [o.flipAll] ++
    one B.p [o.fliplr] [o.fliplr] ++ one B.pz (if sparse then [o.flipAll, o.fliplr] else [o.fliplr, o.flipAll]) [o.fliplr, o.flipAll]

/-- One element of the arrays: the configuration and its sign, `N < 0`, the norm, the given amplitude, and `vc`. -/
structure Column where
  x : ℕ × Int
  neg : Bool
  norm : ℝ
  v0 : ℂ
  vc : ℂ

/-- `v[idx] += vals` of numpy: the old elements are read first; of several entries for one place the last one counts. -/
noncomputable def fancyAdd (v : ℕ → ℂ) (e : List (ℕ × ℂ)) : ℕ → ℂ :=
  e.foldl (fun u x => Function.update u x.1 (v x.1 + x.2)) v

/-- `v + csc_matrix((vals,(idx,..)))`: entries for one place add up. -/
noncomputable def sparseAdd (v : ℕ → ℂ) (e : List (ℕ × ℂ)) : ℕ → ℂ :=
  fun t => v t + (e.map fun x => if x.1 = t then x.2 else 0).sum

/-- Operations one after the other. -/
def applyOps (fs : List BitOp) (x : ℕ × Int) : ℕ × Int := fs.foldl (fun x f => step f x) x

/-- One section, e.g. `base_1d.py:1080-1088`: `vc` is multiplied by the block sign and the signs, added at the rows of the configurations,
first for positive then for negative `N`, and multiplied back. -/
noncomputable def runSection (add : (ℕ → ℂ) → List (ℕ × ℂ) → ℕ → ℂ) (row : ℕ → ℕ) (st : List Column × (ℕ → ℂ)) (g : Section) :
    List Column × (ℕ → ℂ) :=
  let cs := st.1.map fun c => let x := applyOps g.apply c.x; { c with x := x, vc := c.vc * g.q * x.2 }
  let entries := fun neg => (cs.filter fun c => c.neg = neg).map fun c => (row c.x.1, c.vc)
  let v := add (add st.2 (entries false)) (entries true)
  (cs.map fun c => { c with x := applyOps g.undo c.x, vc := c.vc * g.q * c.x.2 }, v)

/-- One round of the loop over `r`, `base_1d.py:1071-1132`. -/
noncomputable def runRound (add : (ℕ → ℂ) → List (ℕ × ℂ) → ℕ → ℂ) (row : ℕ → ℕ) (gs : List Section) (shift : BitOp) (C : Bool → ℂ)
    (st : List Column × (ℕ → ℂ)) : List Column × (ℕ → ℂ) :=
  let cs := st.1.map fun c => { c with vc := c.v0 * (C c.neg / (c.norm : ℂ)) }
  let st := gs.foldl (runSection add row) (cs, st.2)
  (st.1.map fun c => { c with x := step shift c.x }, st.2)

/-- The loop over `r`; the array of the configurations is the one of the basis itself, so what is left in it at the end matters. -/
noncomputable def runRounds (add : (ℕ → ℂ) → List (ℕ × ℂ) → ℕ → ℂ) (row : ℕ → ℕ) (gs : List Section) (shift : BitOp) (C : ℕ → Bool → ℂ) (n : ℕ)
    (st : List Column × (ℕ → ℂ)) : List Column × (ℕ → ℂ) :=
  (List.range n).foldl (fun st r => runRound add row gs shift (C r) st) st

/-- The columns at the start: a basis of configurations with their entries `(N, M)`, and the amplitudes. -/
noncomputable def columnsOf (B : Blocks) (L : ℕ) (basis : List (ℕ × Int × ℕ)) (v0 : List ℂ) : List Column :=
  List.zipWith (fun x v => ⟨(x.1, 1), decide (B.k.isSome ∧ (B.p.isSome ∨ B.pz.isSome) ∧ x.2.1 < 0), Real.sqrt (normSq B L x.2.1 x.2.2), v, 0⟩) basis v0

/-- Rounds of the loop: `L//a`, with `a = L` without momentum. -/
def rounds (B : Blocks) (L : ℕ) : ℕ := if B.k.isSome then L / B.a else L / L

/-- `project_from(v0,sparse=False)`, `base_1d.py:611-713,1046-1134`: the array and the configurations left in the basis. -/
noncomputable def projectDense (w : Option ℕ) (B : Blocks) (c : Spec.Chain) (basis : List (ℕ × Int × ℕ)) (v0 : List ℂ) : List ℕ × (ℕ → ℂ) :=
  let o := bitopsOf w (if B.k.isSome then B.a else c.length) c
  let st := runRounds fancyAdd (fun x => c.size - 1 - x) (sections false B o) o.shift (phaseC B c.length) (rounds B c.length)
    (columnsOf B c.length basis v0, fun _ => 0)
  (st.1.map (·.x.1), st.2)

/-- `project_from(v0,sparse=True)`, `base_1d.py:611-713,1136-1289`. -/
noncomputable def projectSparse (w : Option ℕ) (B : Blocks) (c : Spec.Chain) (basis : List (ℕ × Int × ℕ)) (v0 : List ℂ) : List ℕ × (ℕ → ℂ) :=
  let o := bitopsOf w (if B.k.isSome then B.a else c.length) c
  let st := runRounds sparseAdd (fun x => c.size - 1 - x) (sections true B o) o.shift (phaseC B c.length) (rounds B c.length)
    (columnsOf B c.length basis v0, fun _ => 0)
  (st.1.map (·.x.1), st.2)

/-- Column `i` of `get_proj(dtype,pcon)`, `base_1d.py:715-802,1291-1419`; `basis_pcon` (ascending) with `pcon=True`. -/
noncomputable def projColumn (w : Option ℕ) (B : Blocks) (c : Spec.Chain) (pcon : Option (List ℕ)) (basis : List (ℕ × Int × ℕ)) (i : ℕ) : ℕ → ℂ :=
  let o := bitopsOf w (if B.k.isSome then B.a else c.length) c
  let row : ℕ → ℕ := match pcon with
    | none => fun x => c.size - 1 - x
    | some l => fun x => l.length - (l.filter fun y => y < x).length - 1
  (runRounds sparseAdd row (sections false B o) o.shift (phaseC B c.length) (rounds B c.length)
    (columnsOf B c.length basis ((List.range basis.length).map fun j => if j = i then 1 else 0), fun _ => 0)).2

end Model.Chain
