import Verif.Model.QuantumOperator

/-!
Words for C23: what the user wrote into the dictionaries of a program, and the answer a call has to give.
-/

namespace Spec.Pars
open Model.QOp

variable {n R : Type}

/-- The dictionaries of the user, as the user wrote them: only `d = {...}` and `d[k] = x` count. -/
def written (p : List (Event n R)) : List (Pars R) :=
  p.foldl (fun u e => match e with
    | .new d => u ++ [d]
    | .set i k x => u.set i (assign (u.getD i []) k x)
    | _ => u) []

/-- The parameters the user gives to a call: none, or what they wrote into a dictionary. -/
def given (p : List (Event n R)) : Ref → Pars R
  | .default _ => []
  | .user i => (written p).getD i []

/-- The answer of a method: the matrix of the operator, its diagonal, its trace, or the matrix applied to the vector.  The methods
that apply the operator to a dense vector leave out parameters below the precision of the machine. -/
def answer [CommRing R] [Fintype n] (tiny : R → Bool) (op : Op n R) (f : Fn) (v : n → R) (d : Pars R) : Out n R :=
  match f with
  | .dot | .exptValue | .quantFluct | .matrixEle => .vector ((valueCut tiny op d).mulVec v)
  | .eigsh | .eigh | .eigvalsh | .tocsr | .tocsc | .todense | .toarray | .tohamiltonian | .aslinearoperator => .matrix (value op d)
  | .diagonal => .vector (value op d).diag
  | .trace => .number (value op d).trace

/-- Names are not repeated, as in every Python dictionary. -/
def Dict {M : Type} (d : List (String × M)) : Prop := (d.map Prod.fst).Nodup

/-- Dictionaries the user makes have no repeated names. -/
def Dicts (p : List (Event n R)) : Prop := ∀ d, Event.new d ∈ p → Dict d

/-- Some call of the program works with the dictionary `r` (the dictionary of the user, or the default of the method if there is no
argument) and with operator number `o`. -/
def Called (p : List (Event n R)) (r : Ref) (o : Nat) : Prop := ∃ f a v, Event.call o f a v ∈ p ∧ a.ref f = r

end Spec.Pars
