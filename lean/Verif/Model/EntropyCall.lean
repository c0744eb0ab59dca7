import Verif.Model.TensorTrace
/-!
`tensor_basis.ent_entropy` and `photon_basis.ent_entropy` from the arguments to the dictionary.

The decompositions come from numpy and scipy (`Tools`); the two halves of a spectrum from `eigsh` are one list; `squeeze` is modelled only where it
makes `eigvalsh` or the containers fail.  Arrays carry their shape; results are numbered by the state.  Arrays with four or more axes always raise: a
`ValueError` here, though `csr_matrix` raises another error for them if `sparse` is set.  Nested lists are taken after `squeeze` (tensor.py:551-553).
The words for `sub_sys_A` and `return_rdm` that are refused (tensor.py:545-549) are not among the values of the types.
-/
namespace Model.EntropyCall
open Model.Entropy Model.TensorTrace

/-- Exceptions. -/
inductive Err where
  | valueError | typeError | attributeError | linAlgError
  deriving DecidableEq

/-- The argument `state`: an array, a `scipy.sparse` matrix, an array with four or more axes, a nested list (which has no `shape`). -/
inductive Input where
  | dense (s : State)
  | sparse (n m : ℕ) (x : ℕ → ℕ → ℂ)
  | more
  | nested (s : State)

/-- What a returned matrix is stored in: an array, a sparse matrix, an array of sparse matrices, or a sparse matrix packed into an array without axes
by `numpy.squeeze`. -/
inductive Box where
  | array | sparse | stack | packed
  deriving DecidableEq

/-- The functions of numpy and scipy, and `finfo(..).eps`. -/
structure Tools where
  svd : ℕ → ℕ → (ℕ → ℕ → ℂ) → Svd
  eigvalsh : ℕ → (ℕ → ℕ → ℂ) → List ℝ
  eps : ℝ

/-- Spectra and matrices before the dictionary is made; `none` is Python's `None`. -/
structure Spectra where
  pA : Option (ℕ → List ℝ)
  pB : Option (ℕ → List ℝ)
  rdmA : Option (Box × Rdms)
  rdmB : Option (Box × Rdms)

/-- The returned dictionary; `none` for a key that is missing.  Entropies that are not numbers are `none` inside. -/
structure Dict where
  SentA : Option (ℕ → Option ℝ)
  SentB : Option (ℕ → Option ℝ)
  pA : Option (ℕ → List ℝ)
  pB : Option (ℕ → List ℝ)
  rdmA : Option (Box × Rdms)
  rdmB : Option (Box × Rdms)

/-- `return_rdm` names A. -/
def Which.hasA : Which → Bool
  | .A | .both => true
  | _ => false

/-- `return_rdm` names B. -/
def Which.hasB : Which → Bool
  | .B | .both => true
  | _ => false

/-- `_p_pure` (tensor.py:673-699): one spectrum for both parts; matrices as asked for. -/
noncomputable def densePure (T : Tools) (side : Side) (Nl Nr : ℕ) (ret : Which) (psi : ℕ → ℕ → ℂ) : Spectra :=
  let r := fun e => Entropy.pure T.svd T.eps (sizes side Nl Nr).1 (sizes side Nl Nr).2 (tensorReshape side Nr (psi e))
  ⟨some fun e => (r e).1, some fun e => (r e).1, if Which.hasA ret then some (.array, fun e => (r e).2.1) else none,
    if Which.hasB ret then some (.array, fun e => (r e).2.2) else none⟩

/-- Which matrix `_p_pure_sparse` diagonalises (tensor.py:716-741): `true` for the one of A. -/
def choice (NA NB : ℕ) : Which → Bool
  | .neither => NA ≤ NB
  | .A => if NA ≤ NB then true else NA ≤ NB
  | .B => if NB ≤ NA then false else NA ≤ NB
  | .both => NA ≤ NB

/-- `_p_pure_sparse` (tensor.py:701-767); `m` states.  The matrices stay sparse: one matrix, or an array of them. -/
noncomputable def sparsePure (T : Tools) (side : Side) (Nl Nr : ℕ) (ret : Which) (m : ℕ) (psi : ℕ → ℕ → ℂ) : Except Err Spectra :=
  if m = 0 then .error .valueError
  else
    let N := sizes side Nl Nr
    match TensorTrace.pure side Nl Nr .both psi with
    | some (some a, some b) =>
      let p := fun e => (if choice N.1 N.2 ret then T.eigvalsh N.1 (a e) else T.eigvalsh N.2 (b e)).map (· + T.eps)
      let box := if m = 1 then Box.sparse else Box.stack
      .ok ⟨some p, some p, if Which.hasA ret then some (box, a) else none, if Which.hasB ret then some (box, b) else none⟩
    | _ => .error .valueError

/-- `_p_mixed` (tensor.py:769-806) for `k` matrices, after `state.transpose((2,0,1))`; `squeeze` inside of the partial trace removes the axes of the
matrices of a part with one state, which `eigvalsh` refuses. -/
noncomputable def denseMixed (T : Tools) (side : Side) (Nl Nr : ℕ) (ret : Which) (k n m : ℕ) (x : ℕ → ℕ → ℕ → ℂ) : Except Err Spectra :=
  let N := sizes side Nl Nr
  match mixed side Nl Nr (if ret = .neither then .A else ret) k n m x with
  | none => .error .valueError
  | some (a, b) =>
    if (a.isSome ∧ N.1 = 1) ∨ (b.isSome ∧ N.2 = 1) then .error .linAlgError
    else .ok ⟨a.map fun r e => (T.eigvalsh N.1 (r e)).map (· + T.eps), b.map fun r e => (T.eigvalsh N.2 (r e)).map (· + T.eps),
      a.map fun r => (.array, r), b.map fun r => (.array, r)⟩

/-- `numpy.squeeze` of a sparse matrix; matrices are kept as they are if `sparse` is set (tensor.py:663-666). -/
def squeezed (flag : Bool) (r : Box × Rdms) : Box × Rdms :=
  if r.1 = .sparse ∧ flag = false then (.packed, r.2) else r

/-- The entropies and the dictionary (tensor.py:625-668). -/
noncomputable def finish (alpha : ℝ) (ret : Which) (evs flag : Bool) (s : Spectra) : Except Err Dict :=
  if alpha ≠ 1 ∧ alpha < 0 then .error .valueError
  else
    .ok {
      SentA := s.pA.map fun p e => (tensor alpha (p e)).getD none
      SentB := if Which.hasB ret then s.pB.map fun p e => (tensor alpha (p e)).getD none else none
      pA := if evs then s.pA else none
      pB := if evs && Which.hasB ret then s.pB else none
      rdmA := if Which.hasA ret then s.rdmA.map (squeezed flag) else none
      rdmB := if Which.hasB ret then s.rdmB.map (squeezed flag) else none }

/-- `tensor_basis.ent_entropy` (tensor.py:543-668). -/
noncomputable def tensorCall (T : Tools) (side : Side) (Nl Nr : ℕ) (ret : Which) (enforce evs flag : Bool) (alpha : ℝ) : Input → Except Err Dict
  | .more => .error .valueError
  | .sparse n m x => sparseCall n m x
  | .dense s => denseCall s
  | .nested s => denseCall s
where
  /-- The sparse branch (tensor.py:562-575). -/
  sparseCall (n m : ℕ) (x : ℕ → ℕ → ℂ) : Except Err Dict :=
    if n ≠ Nl * Nr then .error .valueError
    else if m = 1 ∨ n ≠ m ∨ enforce then (sparsePure T side Nl Nr ret m fun e s => x s e).bind (finish alpha ret evs flag)
    else .error .valueError
  /-- Arrays (tensor.py:562-567, 577-616). -/
  denseCall (s : State) : Except Err Dict :=
    match s with
    | .one n x =>
      if n ≠ Nl * Nr then .error .valueError
      else if flag then sparseCall n 1 fun s _ => x s
      else finish alpha ret evs flag (densePure T side Nl Nr ret fun _ => x)
    | .two n m x =>
      if n ≠ Nl * Nr then .error .valueError
      else if flag then sparseCall n m x
      else if n ≠ m ∨ enforce then finish alpha ret evs flag (densePure T side Nl Nr ret fun e s => x s e)
      else (denseMixed T side Nl Nr ret 1 n m fun _ => x).bind (finish alpha ret evs flag)
    | .three n m k x =>
      if n ≠ Nl * Nr then .error .valueError
      else if flag then .error .typeError
      else (denseMixed T side Nl Nr ret k n m fun e i j => x i j e).bind (finish alpha ret evs flag)

/-- `photon_basis.ent_entropy` (photon.py:601-636) without conserved number: `enforce_pure` and `return_rdm_EVs` are not handed on. -/
noncomputable def photonCall (T : Tools) (side : Side) (Nl Nr : ℕ) (ret : Which) (_enforce _evs flag : Bool) (alpha : ℝ) (s : Input) : Except Err Dict :=
  tensorCall T side Nl Nr ret false false flag alpha s

/-- `project_from` of columns (photon.py:603,607,611). -/
noncomputable def columns {Ns : ℕ} (n : Fin Ns → ℤ) (Ntot c : ℕ) (x : ℕ → ℕ → ℂ) : Option (ℕ → ℕ → ℂ) :=
  (Embedding.projectFrom n Ntot Ntot (1 : Matrix (Fin Ns) (Fin Ns) ℂ) (Matrix.of fun k (j : Fin c) => x k j)).map flat

/-- `proj*state*proj.H` (photon.py:613-614,617-626). -/
noncomputable def sandwich {Ns : ℕ} (n : Fin Ns → ℤ) (Ntot : ℕ) (x : ℕ → ℕ → ℂ) : Option (ℕ → ℕ → ℂ) :=
  (Embedding.getProj n Ntot Ntot (1 : Matrix (Fin Ns) (Fin Ns) ℂ)).map fun P r s =>
    ∑ k ∈ Finset.range Ns, ∑ k' ∈ Finset.range Ns, flat P r k * x k k' * star (flat P s k')

/-- The state in the product of the particle basis and the levels (photon.py:601-630).  Nested lists have no attribute `ndim`, unless `project_from`
makes an array of them. -/
noncomputable def unfold {Ns : ℕ} (n : Fin Ns → ℤ) (Ntot : ℕ) (enforce flag : Bool) : Input → Except Err Input
  | .more => .error .valueError
  | .sparse m c x => asColumns m c x
  | .nested s => if flag then dense s else .error .attributeError
  | .dense s => dense s
where
  /-- Columns to a sparse matrix (photon.py:602-603). -/
  asColumns (m c : ℕ) (x : ℕ → ℕ → ℂ) : Except Err Input :=
    if m ≠ Ns then .error .valueError
    else match columns n Ntot c x with
      | none => .error .valueError
      | some v => .ok (.sparse (Ns * (Ntot + 1)) c v)
  /-- Arrays (photon.py:602-628). -/
  dense (s : State) : Except Err Input :=
    match s with
    | .one m x =>
      if flag then asColumns m 1 fun s _ => x s
      else if m ≠ Ns then .error .valueError
      else match columns n Ntot 1 fun s _ => x s with
        | none => .error .valueError
        | some v => .ok (.dense (.one (Ns * (Ntot + 1)) fun r => v r 0))
    | .two m c x =>
      if flag then asColumns m c x
      else if m ≠ Ns then .error .valueError
      else if m ≠ c ∨ enforce then
        match columns n Ntot c x with
        | none => .error .valueError
        | some v => .ok (.dense (.two (Ns * (Ntot + 1)) c v))
      else
        match sandwich n Ntot x with
        | none => .error .valueError
        | some v => .ok (.dense (.two (Ns * (Ntot + 1)) (Ns * (Ntot + 1)) v))
    | .three m c k x =>
      if flag then .error .valueError
      else if m ≠ Ns ∨ c ≠ Ns then .error .valueError
      else
        match Embedding.getProj n Ntot Ntot (1 : Matrix (Fin Ns) (Fin Ns) ℂ) with
        | none => .error .valueError
        | some P => .ok (.dense (.three (Ns * (Ntot + 1)) (Ns * (Ntot + 1)) k fun r s e =>
            ∑ i ∈ Finset.range Ns, ∑ j ∈ Finset.range Ns, flat P r i * x i j e * star (flat P s j)))

/-- `photon_basis.ent_entropy` (photon.py:601-636) with a conserved total number. -/
noncomputable def conservedCall {Ns : ℕ} (T : Tools) (n : Fin Ns → ℤ) (Ntot : ℕ) (side : Side) (ret : Which) (enforce _evs flag : Bool) (alpha : ℝ)
    (s : Input) : Except Err Dict :=
  (unfold n Ntot enforce flag s).bind (tensorCall T side Ns (Ntot + 1) ret false false flag alpha)

end Model.EntropyCall
