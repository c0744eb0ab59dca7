import Verif.Model.Embedding
import Verif.Model.Entropy

/-!
Model of `tensor_basis.partial_trace` (`/repo/quspin/basis/tensor.py`) and `photon_basis.partial_trace` (`/repo/quspin/basis/photon.py`) for dense
arrays.

Arrays carry their shape; values outside of the shape are never read.  Results are numbered by the state, then row and column; `squeeze`,
which removes axes of length one, is not modelled.
-/

namespace Model.TensorTrace
open Model.Entropy Finset

/-- `return_rdm`. -/
inductive Which where
  | A | B | both | neither
  deriving DecidableEq

/-- Arrays with one, two or three axes and their shape. -/
inductive State where
  | one (n : ℕ) (x : ℕ → ℂ)
  | two (n m : ℕ) (x : ℕ → ℕ → ℂ)
  | three (n m l : ℕ) (x : ℕ → ℕ → ℕ → ℂ)

/-- The reduced density matrices: number of the state, row, column. -/
abbrev Rdms := ℕ → ℕ → ℕ → ℂ

/-- `return_rdm == "A"`, ..., else nothing is returned and unpacking the two results raises (_reshape_subsys.py:254-259, 276-281;
tensor.py:449-462). -/
def select (ret : Which) (a b : Rdms) : Option (Option Rdms × Option Rdms) :=
  match ret with
  | .A => some (some a, none)
  | .B => some (none, some b)
  | .both => some (some a, some b)
  | .neither => none

/-- The sizes of the subsystem and of the other part; all words but `"left"` mean the right part. -/
def sizes (side : Side) (Nl Nr : ℕ) : ℕ × ℕ := if side = .left then (Nl, Nr) else (Nr, Nl)

/-- `_tensor_partial_trace_pure` (_reshape_subsys.py:251-259); `psi` has one row for every state. -/
noncomputable def pure (side : Side) (Nl Nr : ℕ) (ret : Which) (psi : ℕ → ℕ → ℂ) : Option (Option Rdms × Option Rdms) :=
  select ret (fun e i k => ∑ j ∈ range (sizes side Nl Nr).2, tensorReshape side Nr (psi e) i j * star (tensorReshape side Nr (psi e) k j))
    (fun e i k => ∑ j ∈ range (sizes side Nl Nr).1, star (tensorReshape side Nr (psi e) j i) * tensorReshape side Nr (psi e) j k)

/-- `_tensor_reshape_mixed` (_reshape_subsys.py:239-248) of one matrix with `l` columns: its numbers in the order of memory. -/
def reshapeMixed (side : Side) (Nl Nr l : ℕ) (rho : ℕ → ℕ → ℂ) (i j k m : ℕ) : ℂ :=
  let place := if side = .left then (i * Nr + j) * (Nl * Nr) + (k * Nr + m) else (j * Nr + i) * (Nl * Nr) + (m * Nr + k)
  rho (place / l) (place % l)

/-- `_tensor_partial_trace_mixed` (_reshape_subsys.py:274-281): the last two axes are taken for the matrix; `reshape` raises when the sizes
differ. -/
noncomputable def mixed (side : Side) (Nl Nr : ℕ) (ret : Which) (n m l : ℕ) (x : ℕ → ℕ → ℕ → ℂ) : Option (Option Rdms × Option Rdms) :=
  if n * m * l ≠ n * (Nl * Nr * Nl * Nr) then none
  else select ret (fun e i k => ∑ j ∈ range (sizes side Nl Nr).2, reshapeMixed side Nl Nr l (x e) i j k j)
    (fun e i k => ∑ j ∈ range (sizes side Nl Nr).1, star (reshapeMixed side Nl Nr l (x e) j i j k))

/-- `tensor_basis.partial_trace` (tensor.py:398-471), dense. -/
noncomputable def partialTrace (side : Side) (Nl Nr : ℕ) (ret : Which) (enforce : Bool) : State → Option (Option Rdms × Option Rdms)
  | .one n x => if n ≠ Nl * Nr then none else pure side Nl Nr ret fun _ => x
  | .two n m x =>
    if n ≠ Nl * Nr then none
    else if n ≠ m ∨ enforce then pure side Nl Nr ret fun e s => x s e
    else mixed side Nl Nr ret 1 n m fun _ => x
  | .three n m l x => if n ≠ Nl * Nr then none else mixed side Nl Nr ret n m l x

/-- A matrix whose rows are pairs as an array. -/
def flat {M N c : ℕ} (v : Matrix (Fin M × Fin N) (Fin c) ℂ) (r j : ℕ) : ℂ :=
  if h : r / N < M ∧ r % N < N ∧ j < c then v (⟨r / N, h.1⟩, ⟨r % N, h.2.1⟩) ⟨j, h.2.2⟩ else 0

/-- The state in the product of the particle basis and the levels `0 .. Ntot` (photon.py:491-525). -/
noncomputable def unfolded {Ns : ℕ} (n : Fin Ns → ℤ) (Ntot : ℕ) (enforce : Bool) : State → Option State
  | .one m x =>
    if m ≠ Ns then none
    else (Embedding.projectFrom n Ntot Ntot (1 : Matrix (Fin Ns) (Fin Ns) ℂ) (Matrix.of fun k (_ : Fin 1) => x k)).map fun v => .one (Ns * (Ntot + 1)) fun r => flat v r 0
  | .two m c x =>
    if m ≠ Ns then none
    else if m ≠ c ∨ enforce then
      (Embedding.projectFrom n Ntot Ntot (1 : Matrix (Fin Ns) (Fin Ns) ℂ) (Matrix.of fun k (j : Fin c) => x k j)).map fun v => .two (Ns * (Ntot + 1)) c (flat v)
    else (Embedding.getProj n Ntot Ntot (1 : Matrix (Fin Ns) (Fin Ns) ℂ)).map fun P =>
      .three (Ns * (Ntot + 1)) (Ns * (Ntot + 1)) 1 fun r s _ =>
        ∑ k ∈ range Ns, ∑ k' ∈ range Ns, flat P r k * x k k' * star (flat P s k')
  | .three _ _ _ _ => none

/-- `photon_basis.partial_trace` (photon.py:477-530) with a conserved total number, dense.  Arrays with three axes (photon.py:511-523) are not
modelled; `mixed` refuses what comes out of them. -/
noncomputable def photonTrace {Ns : ℕ} (n : Fin Ns → ℤ) (Ntot : ℕ) (side : Side) (ret : Which) (enforce : Bool) (state : State) :
    Option (Option Rdms × Option Rdms) :=
  (unfolded n Ntot enforce state).bind fun s => partialTrace side Ns (Ntot + 1) ret enforce s

end Model.TensorTrace
