import Verif.Model.Evaluate
import Verif.Model.Evolution

/-!
Model of `obs_vs_time` (`/repo/quspin/tools/measurements.py:462-699`).

* Expectation values are those of `Model/Evaluate.lean`, exact evolution is that of `Model/Evolution.lean`.
* An array with the states of several times is the list of its slices along the last axis.
* The entropy of one state or density matrix is a parameter (`Model/Entropy.lean` models it); which of the two an array
  is taken for is modelled here.
* `none` models an exception.  Messages (`verbose`) are not modelled.
-/

namespace Model.ObsTime
open Model.Eval Model.Evolution

variable {N : ℕ}

/-- A state, as a matrix with one column. -/
abbrev Col (N : ℕ) := Matrix (Fin N) Unit ℂ

/-- A value of the caller's dictionary: a hamiltonian, or a matrix. -/
inductive Observable where
  | ham (H : Ham ℝ ℂ)
  | matrix (S : Stored ℂ)

/-- `hamiltonian([val],[],dtype=val.dtype)` for everything that is not a hamiltonian (measurements.py:555-560); the caller's dictionary is changed. -/
def Observable.toHam : Observable → Ham ℝ ℂ
  | .ham H => H
  | .matrix S => ⟨S, []⟩

/-- The argument `psi_t` (measurements.py:486-505). -/
inductive Data (N : ℕ) where
  | eigenPure (psi : Fin N → ℂ) (E : Fin N → ℝ) (V : Matrix (Fin N) (Fin N) ℂ)
  | eigenMixed (rho : Matrix (Fin N) (Fin N) ℂ) (E : Fin N → ℝ) (V : Matrix (Fin N) (Fin N) ℂ)
  | columns (l : List (Col N))
  | cube (c : ℕ) (l : List (Matrix (Fin N) (Fin c) ℂ))
  | genStates (l : List (Col N))
  | genMatrices (c : ℕ) (l : List (Matrix (Fin N) (Fin c) ℂ))

/-- What the states have become before the evaluation: an array with one, two or three axes, or a generator. -/
inductive Form (N : ℕ) where
  | flat (v : Col N)
  | columns (l : List (Col N))
  | cube (c : ℕ) (l : List (Matrix (Fin N) (Fin c) ℂ))
  | genStates (l : List (Col N))
  | genMatrices (c : ℕ) (l : List (Matrix (Fin N) (Fin c) ℂ))

/-- A number, or an array of numbers. -/
inductive Entry (R : Type) where
  | num (x : R)
  | many (l : List R)

/-- The columns of a matrix. -/
def columnsOf {c : ℕ} (M : Matrix (Fin N) (Fin c) ℂ) : List (Col N) := List.ofFn fun j => fun i _ => M i j

/-- `_np.squeeze(_np.dstack(psi_t_list))` and the test of its first axis (measurements.py:606-616) for a list of states
with one axis.  `dstack` of an empty list raises.  For a space of dimension one the first axis is removed, and the test
raises. -/
def stackStates : List (Col N) → Option (Form N)
  | [] => none
  | [v] => if N = 1 then none else some (.flat v)
  | l => if N = 1 then none else some (.columns l)

/-- The same for a list of matrices: a single matrix loses its last axis, and so do matrices with one column. -/
def stackMatrices (c : ℕ) : List (Matrix (Fin N) (Fin c) ℂ) → Option (Form N)
  | [] => none
  | l =>
    if N = 1 then none
    else if c = 1 then stackStates (l.flatMap columnsOf)
    else match l with
      | [M] => some (.columns (columnsOf M))
      | l => some (.cube c l)

/-- The three branches for `psi_t` (measurements.py:563-619).  An array is always evaluated as a whole. -/
noncomputable def form (data : Data N) (times : List ℝ) (returnState : Bool) : Option (Form N) :=
  match data with
  | .eigenPure psi E V =>
    if returnState then
      (edPure psi E V times.get).map fun A => .columns (List.ofFn fun m => fun i _ => A i m)
    else (edPureIter psi E V times).map fun l => .genStates (l.map fun v i _ => v i)
  | .eigenMixed rho E V =>
    if returnState then
      (edMixed rho E V times.get).map fun A => .cube N (List.ofFn fun m => fun i j => A i j m)
    else (edMixedIter rho E V times).map fun l => .genMatrices N l
  | .columns l => some (.columns l)
  | .cube c l => some (.cube c l)
  | .genStates l => if returnState then stackStates l else some (.genStates l)
  | .genMatrices c l => if returnState then stackMatrices c l else some (.genMatrices c l)

/-- A value of `_expt_value_core` as number or array. -/
def ofValue {k : ℕ} : Value k ℂ → Entry ℂ
  | .one x => .num x
  | .each f => .many (List.ofFn f)

/-- The loop over a generator (measurements.py:652-688): the first state is taken with `next`, which raises when there is
none, and `times[m+1]` raises when there are more states than times. -/
def loop {S V : Type} (f : ℝ → S → Option V) (times : List ℝ) (l : List S) : Option (List V) :=
  if l = [] then none
  else if times.length < l.length then none
  else (times.zip l).mapM fun e => f e.1 e.2

/-- The expectation value of one observable (measurements.py:642-644, 657-659, 682-683).  For an array
`Obs.expt_value(psi_t,time=times,enforce_pure=enforce_pure)` is called, which never looks at `enforce_pure`
(hamiltonian_core.py:893-902); an array with one axis has no slice that is a state, and raises; an array with three
axes must be square (hamiltonian_core.py:655-656). -/
noncomputable def exptForm (_enforcePure : Bool) (H : Ham ℝ ℂ) (times : List ℝ) : Form N → Option (List (Entry ℂ))
  | .flat _ => none
  | .columns l =>
    if h : l.length = times.length then
      (exptTimes H times.get fun i => l.get (i.cast h.symm)).map fun f => (List.ofFn f).map .num
    else none
  | .cube c l =>
    if h : l.length = times.length then
      if hc : N = c then
        (exptTimesMixed H times.get fun i => (l.get (i.cast h.symm)).submatrix id (Fin.cast hc)).map fun f =>
          (List.ofFn f).map .num
      else none
    else none
  | .genStates l => loop (fun t v => (exptValueVec H t v).map .num) times l
  | .genMatrices _ l => loop (fun t M => (exptValue H t false M).map ofValue) times l

/-- The entropy of a state and of a density matrix, and the value of `enforce_pure` in `Sent_args`. -/
structure Entropies (N : ℕ) where
  pure : Col N → ℝ
  mixed : Matrix (Fin N) (Fin N) ℂ → ℝ
  enforce : Bool

/-- `_np.squeeze` of an array with one axis. -/
def squeeze {R : Type} : List R → Entry R
  | [x] => .num x
  | l => .many l

/-- `basis.ent_entropy(state, ...)` for an array with two axes (lattice.py:328-346): a square array is a density matrix
unless `enforce_pure`. -/
def entMatrix (e : Entropies N) {c : ℕ} (M : Matrix (Fin N) (Fin c) ℂ) : Entry ℝ :=
  if h : N = c ∧ e.enforce = false then .num (e.mixed (M.submatrix id (Fin.cast h.1)))
  else squeeze ((columnsOf M).map e.pure)

/-- The states of a list as columns of one matrix. -/
def asMatrix (l : List (Col N)) : Matrix (Fin N) (Fin l.length) ℂ := fun i j => l.get j i ()

/-- What is returned under "Sent_time": the result of one call, or one entry for every time. -/
inductive Sent where
  | array (e : Entry ℝ)
  | each (l : List (Entry ℝ))

/-- Zeros of the same shape (measurements.py:669-672). -/
def Entry.zeros : Entry ℝ → Entry ℝ
  | .num _ => .num 0
  | .many l => .many (l.map fun _ => 0)

/-- Entries for every time, those without a state are zero (measurements.py:663-673, 685-688). -/
def padded (n : ℕ) (l : List (Entry ℝ)) : List (Entry ℝ) :=
  l ++ List.replicate (n - l.length) ((l.head?.map Entry.zeros).getD (.num 0))

/-- Entropies (measurements.py:646-648, 663-673, 685-688).  `enforce_pure` of `obs_vs_time` is not handed on; for three
axes the array must hold density matrices (lattice.py:348-361). -/
noncomputable def sentForm (e : Entropies N) (times : List ℝ) : Form N → Option Sent
  | .flat v => some (.array (.num (e.pure v)))
  | .columns l => some (.array (entMatrix e (asMatrix l)))
  | .cube c l =>
    if h : N = c then some (.array (squeeze (l.map fun M => e.mixed (M.submatrix id (Fin.cast h))))) else none
  | .genStates l => (loop (fun _ v => some (.num (e.pure v))) times l).map fun r => .each (padded times.length r)
  | .genMatrices _ l => (loop (fun _ M => some (entMatrix e M)) times l).map fun r => .each (padded times.length r)

/-- What the caller has after the call: the returned values, states and entropies, and his dictionary. -/
structure Result (N : ℕ) where
  values : List (String × List (Entry ℂ))
  states : Option (Form N)
  sent : Option Sent
  dict : List (String × Observable)

/-- `obs_vs_time(psi_t, times, Obs_dict, return_state, Sent_args, enforce_pure)` (measurements.py:547-699). -/
noncomputable def obsVsTime (data : Data N) (times : List ℝ) (dict : List (String × Observable)) (returnState : Bool)
    (ent : Option (Entropies N)) (enforcePure : Bool) : Option (Result N) :=
  (form data times returnState).bind fun f =>
    (dict.mapM fun (e : String × Observable) => (exptForm enforcePure e.2.toHam times f).map fun v => (e.1, v)).bind fun values =>
      (match ent with
        | none => some none
        | some e => (sentForm e times f).map some).map fun sent =>
          ⟨values, if returnState then some f else none, sent,
            dict.map fun (e : String × Observable) => (e.1, .ham e.2.toHam)⟩

end Model.ObsTime
