import Mathlib.Data.Complex.Basic
import Mathlib.Data.List.Sort

/-!
Model of the functions on operator strings that the bases share: sorting, Hermitian conjugate, expansion of `x` and `y`,
the test for vanishing strings (`/repo/quspin/basis/basis_general/{spin,boson,fermion}.py`,
`/repo/quspin/basis/basis_1d/{spin,boson,fermion}.py`, `/repo/quspin/basis/tensor.py`), and the checks and `expanded_form`
built on them (`/repo/quspin/basis/base.py`).

An operator `(opstr, indx, J)` is a list of characters, a list of sites and a complex number; sites are natural numbers.
`none` stands for an exception.  Further entries of the tuples (drive, arguments, numbers of the terms) are carried along by
the functions of `base.py` below.
-/

namespace Model.OpStr

/-- `(opstr, indx, J)`. -/
@[ext] structure Op where
  str : List Char
  indx : List Nat
  J : ℂ

/-- `op[0].replace("+","%").replace("-","+").replace("%","-")` on one character (basis_general/spin.py:282). -/
def hcChar (c : Char) : Char :=
  let c1 := if c = '+' then '%' else c
  let c2 := if c1 = '-' then '+' else c1
  if c2 = '%' then '-' else c2

/-- `_sort_opstr` of spins and bosons: python's stable sort by site (basis_general/spin.py:252-266, boson.py:244-258,
basis_1d/spin.py:262-276, boson.py:242-256). -/
def sortSite (op : Op) : Option Op :=
  if '|' ∈ op.str then none
  else if op.str.length ≠ op.indx.length then none
  else
    let z := (op.str.zip op.indx).insertionSort fun a b => a.2 ≤ b.2
    some ⟨z.map Prod.fst, z.map Prod.snd, op.J⟩

/-- The reversed, swapped and conjugated operator, before sorting (basis_general/spin.py:280-289). -/
def reversed (op : Op) : Op := ⟨(op.str.map hcChar).reverse, op.indx.reverse, star op.J⟩

/-- `_hc_opstr` of spins and bosons (basis_general/spin.py:279-290, boson.py:278-289). -/
def hcSite (op : Op) : Option Op := sortSite (reversed op)

/-- `opstr in ["+","-"]`. -/
def ladder (c : Char) : Bool := c = '+' || c = '-'

/-- One sweep `for i in range(n-1)` of the bubble sort of fermions: the list, whether something was swapped, the sign
(basis_general/fermion.py:198-208, basis_1d/fermion.py:723-733). -/
def sweep : List (Char × Nat) → List (Char × Nat) × Bool × Int
  | [] => ([], false, 1)
  | [x] => ([x], false, 1)
  | x :: y :: l =>
    if x.2 > y.2 then
      (y :: (sweep (x :: l)).1, true, (if ladder x.1 && ladder y.1 then -1 else 1) * (sweep (x :: l)).2.2)
    else (x :: (sweep (y :: l)).1, (sweep (y :: l)).2.1, (sweep (y :: l)).2.2)
  termination_by l => l.length

/-- `while swapped` (basis_general/fermion.py:197-208).  The first argument bounds the number of sweeps; `none` if it is too
small. -/
def bubble : Nat → Int → List (Char × Nat) → Option (List (Char × Nat) × Int)
  | 0, _, _ => none
  | k + 1, s, l => if (sweep l).2.1 then bubble k (s * (sweep l).2.2) (sweep l).1 else some ((sweep l).1, s * (sweep l).2.2)

/-- `_sort_opstr` of spinless fermions (basis_general/fermion.py:185-214, basis_1d/fermion.py:710-739).  The bound on the
number of sweeps is never reached (`Proof.OpStr.bubble_some`). -/
def sortFermion (op : Op) : Option Op :=
  if '|' ∈ op.str then none
  else if op.str.length ≠ op.indx.length then none
  else (bubble (op.str.length * op.str.length + 1) 1 (op.str.zip op.indx)).map fun r =>
    ⟨r.1.map Prod.fst, r.1.map Prod.snd, op.J * r.2⟩

/-- `_hc_opstr` of spinless fermions (basis_general/fermion.py:232-243, basis_1d/fermion.py:820-831). -/
def hcFermion (op : Op) : Option Op := sortFermion (reversed op)

/-- `opstr.split("|",1)`: what is before and after the first bar. -/
def splitBar (s : List Char) : List Char × List Char := (s.takeWhile (· ≠ '|'), (s.dropWhile (· ≠ '|')).tail)

/-- Left and right part of an operator with a bar; the indices are cut at the position of the bar. -/
def leftPart (op : Op) (J : ℂ) : Op := ⟨(splitBar op.str).1, op.indx.take (splitBar op.str).1.length, J⟩

/-- Right part. -/
def rightPart (op : Op) (J : ℂ) : Op := ⟨(splitBar op.str).2, op.indx.drop (splitBar op.str).1.length, J⟩

/-- `"|".join((op1[0],op2[0]))`, `op1[1] + op2[1]`. -/
def join (a b : Op) (J : ℂ) : Op := ⟨a.str ++ '|' :: b.str, a.indx ++ b.indx, J⟩

/-- A bar is there and there is one index for every other character. -/
def barred (op : Op) : Bool := decide ('|' ∈ op.str) && decide (op.str.length = op.indx.length + op.str.count '|')

/-- `_sort_opstr` of spinful fermions (basis_general/fermion.py:766-803 with `simple_symm`, basis_1d/fermion.py:741-777). -/
def sortSpinful (op : Op) : Option Op :=
  if barred op then
    (sortFermion (leftPart op 1)).bind fun a => (sortFermion (rightPart op 1)).map fun b => join a b (op.J * (a.J * b.J))
  else none

/-- Number of creation and annihilation operators. -/
def ladders (s : List Char) : Nat := s.count '+' + s.count '-'

/-- `_hc_opstr` of spinful fermions (basis_general/fermion.py:805-850, basis_1d/fermion.py:833-872). -/
def hcSpinful (op : Op) : Option Op :=
  if barred op then
    (hcFermion (leftPart op op.J)).bind fun a => (hcFermion (rightPart op 1)).map fun b =>
      join a b ((-1) ^ (ladders (splitBar op.str).1 * ladders (splitBar op.str).2) * a.J * b.J)
  else none

/-- `indx[opstr == c]`. -/
def sitesOf (c : Char) (op : Op) : List Nat := ((op.str.zip op.indx).filter fun p => p.1 = c).map Prod.snd

/-- `_non_zero`: no site has more than `m = sps-1` of the same ladder operator (basis_general/spin.py:268-278, boson.py:262-272,
fermion.py:217-227 with `m = 1`, basis_1d/boson.py:260-270, fermion.py:780-790).  `np.any(indx)` is false if all sites are 0. -/
def nonZero (m : Nat) (op : Op) : Bool :=
  if op.indx.any (· ≠ 0) then
    !(sitesOf '+' op).any (fun x => (sitesOf '+' op).count x > m) && !(sitesOf '-' op).any (fun x => (sitesOf '-' op).count x > m)
  else true

/-- `_non_zero` of spin_basis_1d: `np.any(indx>=0)` (basis_1d/spin.py:278-288). -/
def nonZero1d (m : Nat) (op : Op) : Bool :=
  if op.indx ≠ [] then
    !(sitesOf '+' op).any (fun x => (sitesOf '+' op).count x > m) && !(sitesOf '-' op).any (fun x => (sitesOf '-' op).count x > m)
  else true

/-- One character of `_expand_opstr` of spins (basis_general/spin.py:297-331): the factor and the character of each term. -/
noncomputable def expandChar (pauli : Int) (c : Char) : List (ℂ × Char) :=
  if c = 'x' then (if pauli = 0 ∨ pauli = 1 then [(1 / 2, '+'), (1 / 2, '-')] else [(1, '+'), (1, '-')])
  else if c = 'y' then
    (if pauli = 0 ∨ pauli = 1 then [(-(1 / 2) * Complex.I, '+'), (1 / 2 * Complex.I, '-')] else [(-Complex.I, '+'), (Complex.I, '-')])
  else [(1, c)]

/-- `_expand_opstr` of spins: strings of at most one character directly, longer strings in halves, the coupling to the left
half (basis_general/spin.py:292-361, basis_1d/spin.py:302-371). -/
noncomputable def expandSpin (pauli : Int) (op : Op) : List Op :=
  if h : op.str.length ≤ 1 then
    match op.str with
    | [c] => (expandChar pauli c).map fun p => ⟨[p.2], op.indx, op.J * p.1⟩
    | _ => [op]
  else
    (expandSpin pauli ⟨op.str.take (op.str.length / 2), op.indx.take (op.str.length / 2), op.J⟩).flatMap fun a =>
      (expandSpin pauli ⟨op.str.drop (op.str.length / 2), op.indx.drop (op.str.length / 2), 1⟩).map fun b =>
        ⟨a.str ++ b.str, a.indx ++ b.indx, a.J * b.J⟩
  termination_by op.str.length
  decreasing_by
    · simp; omega
    · simp; omega

/-- `_expand_opstr` of bosons and spinless fermions (basis_general/boson.py:292-295, fermion.py:246-249). -/
def expandNone (op : Op) : List Op := [op]

/-- What a basis provides for the checks of `base.py`. -/
structure Basis where
  sort : Op → Option Op
  hc : Op → Option Op
  nonZero : Op → Option Bool
  expand : Op → Option (List Op)

/-- Spin bases of `sps` states per site. -/
noncomputable def spinBasis (sps : Nat) (pauli : Int) : Basis :=
  ⟨sortSite, hcSite, fun op => some (nonZero (sps - 1) op), fun op => some (expandSpin pauli op)⟩

/-- Boson bases. -/
def bosonBasis (sps : Nat) : Basis := ⟨sortSite, hcSite, fun op => some (nonZero (sps - 1) op), fun op => some (expandNone op)⟩

/-- Spinless fermion bases; also spinful bases with `simple_symm=False`. -/
def fermionBasis : Basis := ⟨sortFermion, hcFermion, fun op => some (nonZero 1 op), fun op => some (expandNone op)⟩

/-- Spinful fermion bases.  `_non_zero`, `_expand_opstr`: basis_general/fermion.py:852-883, 903-946. -/
def spinfulBasis : Basis :=
  ⟨sortSpinful, hcSpinful,
    fun op => if barred op then some (nonZero 1 (leftPart op op.J) && nonZero 1 (rightPart op op.J)) else none,
    fun op => if barred op then some [join (leftPart op 1) (rightPart op op.J) (1 * op.J)] else none⟩

/-- `tensor_basis`: `_sort_opstr` (tensor.py:811-842) keeps the coupling `op[2]` whatever the sorting of the parts did to theirs;
`_hc_opstr` (tensor.py:844-881), `_non_zero` (tensor.py:883-910), `_expand_opstr` (tensor.py:912-952). -/
def tensorBasis (l r : Basis) : Basis where
  sort op :=
    if barred op then
      (l.sort (leftPart op op.J)).bind fun a => (r.sort (rightPart op op.J)).map fun b => join a b op.J
    else none
  hc op :=
    if barred op then
      (l.hc (leftPart op op.J)).bind fun a => (r.hc (rightPart op 1)).map fun b => join a b (a.J * b.J)
    else none
  nonZero op :=
    if barred op then
      (l.nonZero (leftPart op op.J)).bind fun a => (r.nonZero (rightPart op op.J)).map fun b => a && b
    else none
  expand op :=
    if barred op then
      (l.expand (leftPart op 1)).bind fun as => (r.expand (rightPart op op.J)).map fun bs =>
        as.flatMap fun a => bs.map fun b => join a b (a.J * b.J)
    else none

/-! ### base.py -/

/-- An operator list: strings with bonds `[J, i, j, ...]`. -/
abbrev OpList := List (List Char × List (ℂ × List Nat))

/-- The loop of `_get_local_lists` over one list, before sorting (base.py:751-758). -/
def flatten (l : OpList) : List Op := l.flatMap fun e => e.2.map fun b => ⟨e.1, b.2, b.1⟩

/-- `_get_local_lists` for a static list, with `_sort_local_list` (base.py:742-758, 768). -/
def localList (B : Basis) (l : OpList) : Option (List Op) := (flatten l).mapM B.sort

/-- The same for a dynamic list with the drive `f` (with its arguments) of every entry (base.py:760-768). -/
def localDynamic {F : Type} (B : Basis) (l : List (List Char × List (ℂ × List Nat) × F)) : Option (List (Op × F)) :=
  (l.flatMap fun e => e.2.1.map fun b => ((⟨e.1, b.2, b.1⟩ : Op), e.2.2)).mapM fun p => (B.sort p.1).map fun o => (o, p.2)

/-- `J *= f(t,*f_args)` (base.py:784-785). -/
def timesDrive (op : Op) (x : ℂ) : Op := { op with J := op.J * x }

/-- `check_hermitian` raises nothing (base.py:449-506 with 772-793): every static term is among the conjugates of the static
terms, every dynamic term at the time `t` is among the conjugates of the dynamic terms at this time. -/
def acceptsHerm {F : Type} (B : Basis) (app : F → ℂ → ℂ) (t : ℂ) (static : OpList) (dynamic : List (List Char × List (ℂ × List Nat) × F)) : Prop :=
  ∃ s sh d de dh, localList B static = some s ∧ s.mapM B.hc = some sh ∧ localDynamic B dynamic = some d ∧
    (d.map fun p => timesDrive p.1 (app p.2 t)).mapM B.sort = some de ∧
    (d.map fun p => timesDrive p.1 (app p.2 t)).mapM B.hc = some dh ∧ (∀ x ∈ s, x ∈ sh) ∧ ∀ x ∈ de, x ∈ dh

/-- `_expand_local_list` (base.py:796-804), for terms with further entries `p.2`. -/
def expandList {X : Type} (B : Basis) (l : List (Op × X)) : Option (List (Op × X)) :=
  (l.mapM fun p => (B.expand p.1).bind fun os =>
      (os.mapM fun o => (B.nonZero o).map fun b => (o, b)).map fun obs => (obs.filter fun ob => ob.2).map fun ob => (ob.1, p.2)).bind
    fun ls => ls.flatten.mapM fun p => (B.sort p.1).map fun o => (o, p.2)

/-- One step of `_consolidate_local_lists` (base.py:809-819, 829-838): add the coupling to the term with the same string and
sites, else a new term.  The entry `x` (drive and arguments) of the first term with this string and these sites is kept.
The two nested dictionaries of the code are one list here: the order of the result may differ. -/
def consolidateStep {X : Type} : List (Op × X) → Op × X → List (Op × X)
  | [], p => [p]
  | q :: d, p => if q.1.str = p.1.str ∧ q.1.indx = p.1.indx then ({ q.1 with J := q.1.J + p.1.J }, q.2) :: d
      else q :: consolidateStep d p

/-- `_consolidate_local_lists` (base.py:806-850); `tiny J` stands for `abs(J) <= eps`. -/
noncomputable def consolidate {X : Type} (tiny : ℂ → Prop) (l : List (Op × X)) : List (Op × X) :=
  open Classical in (l.foldl consolidateStep []).filter fun p => ¬tiny p.1.J

/-- `expanded_form` for the static list (base.py:420-435): the terms; grouping them by string again is not modelled. -/
noncomputable def expandedStatic (B : Basis) (tiny : ℂ → Prop) (l : OpList) : Option (List Op) :=
  (localList B l).bind fun s => (expandList B (s.map fun o => (o, ()))).map fun e => (consolidate tiny e).map Prod.fst

/-- `expanded_form` for the dynamic list (base.py:420-448), up to `consolidate`.  Line 442 uses `(opstr,f,f_args)` as the key of a
dictionary; `hashable` says whether all `f_args` can be hashed (tuples can, lists cannot). -/
noncomputable def expandedDynamic {F : Type} (B : Basis) (tiny : ℂ → Prop) (hashable : Bool) (l : List (List Char × List (ℂ × List Nat) × F)) :
    Option (List (Op × F)) :=
  (localDynamic B l).bind fun s => (expandList B s).bind fun e =>
    if hashable ∨ consolidate tiny e = [] then some (consolidate tiny e) else none

/-- `check_pcon` raises nothing (base.py:637-713): every term of the consolidated expansions has as many `+` as `-`. -/
def acceptsPcon {F : Type} (B : Basis) (tiny : ℂ → Prop) (static : OpList) (dynamic : List (List Char × List (ℂ × List Nat) × F)) : Prop :=
  ∃ s se d de, localList B static = some s ∧ expandList B (s.map fun o => (o, ())) = some se ∧ localDynamic B dynamic = some d ∧
    expandList B d = some de ∧ (∀ p ∈ consolidate tiny se, p.1.str.count '+' = p.1.str.count '-') ∧
    ∀ p ∈ consolidate tiny de, p.1.str.count '+' = p.1.str.count '-'

end Model.OpStr
