import Verif.Model.Hamiltonian

/-!
Model of `_consolidate_static`, `_consolidate_dynamic`, `make_static` and `make_dynamic`
(`/repo/quspin/operators/_make_hamiltonian.py`) and of the constructor of `hamiltonian` for operator strings.

Types: `O` operator strings, `I` tuples of sites, `F` callables, `A` arguments.  Python compares the keys of these
dictionaries (strings, tuples of integers, callables, arguments) with `==`; the model with equality.
-/

namespace Model.Consolidate
open Model.Drive Model.Ham

variable {O I F A R K V : Type}

/-- `if k in d: d[k] = g(d[k]) else: d[k] = v` on a dictionary in insertion order. -/
def upsert [DecidableEq K] (k : K) (v : V) (g : V → V) : List (K × V) → List (K × V)
  | [] => [(k, v)]
  | e :: d => if e.1 = k then (e.1, g e.2) :: d else e :: upsert k v g d

/-- One bond `[J, i, j, ...]` (_make_hamiltonian.py:30-36, 59-65). -/
def addBond [DecidableEq I] [Add R] (d : List (I × R)) (x : R × I) : List (I × R) :=
  upsert x.2 x.1 (fun J => J + x.1) d

/-- The dictionary of dictionaries built by the first loops (_make_hamiltonian.py:25-36 with the operator string as
key, 53-65 with operator string, callable and arguments as key). -/
def gather [DecidableEq K] [DecidableEq I] [Add R] (l : List (K × List (R × I))) : List (K × List (I × R)) :=
  l.foldl (fun d e => upsert e.1 (e.2.foldl addBond []) (fun x => e.2.foldl addBond x) d) []

/-- The entries of one operator string that are kept, `abs(J) > eps` (_make_hamiltonian.py:42-44, 75).  `big J` is
that comparison. -/
def entries (big : R → Bool) (o : O) (d : List (I × R)) : List (O × I × R) :=
  (d.filter fun x => big x.2).map fun x => (o, x.1, x.2)

/-- `_consolidate_static` (_make_hamiltonian.py:22-47). -/
def consolidateStatic [DecidableEq O] [DecidableEq I] [Add R] (big : R → Bool) (l : List (O × List (R × I))) :
    List (O × I × R) :=
  (gather l).flatMap fun e => entries big e.1 e.2

/-- `_consolidate_dynamic` (_make_hamiltonian.py:50-79). -/
def consolidateDynamic [DecidableEq O] [DecidableEq I] [DecidableEq F] [DecidableEq A] [Add R] (big : R → Bool)
    (l : List (O × List (R × I) × F × List A)) : List ((F × List A) × List (O × I × R)) :=
  (gather (l.map fun e => ((e.1, e.2.2.1, e.2.2.2), e.2.1))).foldl
    (fun d e => upsert e.1.2 (entries big e.1.1 e.2) (fun x => x ++ entries big e.1.1 e.2) d) []

section Matrices

variable {n : Type} [CommRing R]

/-- `basis._make_matrix` (base.py:220-251): the sum of `J` times the matrix of the operator string.  The matrices
of single strings are the subject of C01-C19; here `op o i` is the matrix of the string `o` on the sites `i`. -/
def makeMatrix (op : O → I → Matrix n n R) (l : List (O × I × R)) : Matrix n n R :=
  (l.map fun x => x.2.2 • op x.1 x.2.1).sum

/-- `hamiltonian(static_list, dynamic_list, basis=...)` for operator strings (hamiltonian_core.py:322-324):
`make_static` (_make_hamiltonian.py:94-111) and `make_dynamic` (117-146, `Model.Ham.makeDynamic`).  The checks of
the lists, `test_function` and the dtype are not modelled. -/
def fromStrings [DecidableEq O] [DecidableEq I] [DecidableEq F] [DecidableEq A] (env : Env F A R) (big : R → Bool)
    (op : O → I → Matrix n n R) (st : List (O × List (R × I))) (dyn : List (O × List (R × I) × F × List A)) :
    Ham F A n n R :=
  ⟨⟨.sparse, makeMatrix op (consolidateStatic big st)⟩,
    makeDynamic env ((consolidateDynamic big dyn).map fun e => (e.1, makeMatrix op e.2))⟩

end Matrices

end Model.Consolidate
