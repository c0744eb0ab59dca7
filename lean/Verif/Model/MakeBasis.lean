import Verif.Model.Word
import Verif.Model.Pcon
import Mathlib.Data.Nat.Choose.Basic
/-!
Construction of the list of basis states,
`basis_general/_basis_general_core/source/make_general_basis.h`.
-/
namespace Model
open Word

/-- Value returned by `check_state`, as the loops use it: `none` is NaN (not a representative),
`some v` is the norm truncated to an integer (`npy_intp int_norm = norm`).  Simplification: the
conversion of the double to the array type `J` (`n[Ns] = norm`) is taken to be the same truncation. -/
abbrev Check := Nat → Option Int

/-- `make_general_basis.h:89` (also 123, 185, 280): `!check_nan(norm) && int_norm>0`. -/
def keep (check : Check) (s : Nat) : Option (Nat × Int) :=
  match check s with
  | some v => if v > 0 then some (s, v) else none
  | none => none

/-- Outcome of a construction: the written part of the arrays `basis`, `n`; the return value -1;
or a write outside the arrays. -/
inductive Built where
  | ok (l : List (Nat × Int))
  | insufficient
  | overrun
deriving DecidableEq, Repr

/-- The loops of `make_basis_sequential` (`make_general_basis.h:75-106`) and
`make_basis_pcon_sequential` (`109-142`); they differ only in the first state and in how the next
state is computed from the current one and from the number `nns` of steps already made.  `out` is
the filled part of the arrays, so `out.length` is `Ns`; the arrays have `mem` entries. -/
def sequentialLoop (check : Check) (next : Nat → Nat → Nat) (mem : Nat) :
    (MAX s nns : Nat) → (out : List (Nat × Int)) → Built
  | 0, _, _, out => .ok out.reverse
  | MAX + 1, s, nns, out =>
    if out.length ≥ mem then .insufficient
    else match keep check s with
      | some e =>
        if out.length < mem then sequentialLoop check next mem MAX (next s nns) (nns + 1) (out ++ [e])
        else .overrun
      | none => sequentialLoop check next mem MAX (next s nns) (nns + 1) out

/-- `make_basis_sequential`, `make_general_basis.h:75-106`: `s=0; … s++`. -/
def makeBasisSequential (w : Nat) (check : Check) (MAX mem : Nat) : Built :=
  sequentialLoop check (fun s _ => add w s 1) mem MAX 0 0 []

/-- `make_basis_pcon_sequential`, `make_general_basis.h:109-142`. -/
def makeBasisPconSequential (next : Nat → Nat → Nat) (check : Check) (MAX mem s : Nat) : Built :=
  sequentialLoop check next mem MAX s 0 []

/-- Work loop of one thread, `make_general_basis.h:177-191` and `272-286`: `step` advances the
private state `(s, nns)` by one stride.  The `while(chunk>0)` loop is bounded by `fuel`
(`C14` uses `fuel = MAX`, enough because `chunk` decreases by at least one). -/
def threadLoop (check : Check) (step : Nat × Nat → Nat × Nat) (T : Nat) :
    (fuel : Nat) → (chunk : Int) → Nat × Nat → List (Nat × Int)
  | 0, _, _ => []
  | fuel + 1, chunk, σ =>
    if chunk > 0 then (keep check σ.1).toList ++ threadLoop check step T fuel (chunk - T) (step σ)
    else []

/-- `thread_block` of thread `t` of `T` in `make_basis_parallel`, `make_general_basis.h:169-191`. -/
def threadBlock (w : Nat) (check : Check) (MAX T t : Nat) : List (Nat × Int) :=
  threadLoop check (fun σ => (add w σ.1 T, σ.2)) T MAX ((MAX : Int) - t) (t % 2 ^ w, 0)

/-- `for(int i=0;i<k;i++){s=B->next_state_pcon(s,nns++);}`, `make_general_basis.h:274,284`. -/
def advance (next : Nat → Nat → Nat) : Nat → Nat × Nat → Nat × Nat
  | 0, σ => σ
  | k + 1, σ => advance next k (next σ.1 σ.2, σ.2 + 1)

/-- `thread_block` of thread `t` of `T` in `make_basis_pcon_parallel`,
`make_general_basis.h:263-286`. -/
def threadBlockPcon (next : Nat → Nat → Nat) (check : Check) (MAX T s t : Nat) : List (Nat × Int) :=
  threadLoop check (advance next T) T MAX ((MAX : Int) - t) (advance next t (s, 0))

/-- The writes `master_block_data[j] = thread_block[i++]`, `make_general_basis.h:212-218`: thread
`t` starts at the cumulative sum of the sizes of the blocks before it (lines 199-202). -/
def masterWrites (start : Nat) : List (List (Nat × Int)) → List (Nat × (Nat × Int))
  | [] => []
  | b :: bs => ((List.range' start b.length).zip b) ++ masterWrites (start + b.length) bs

/-- Shared array after a sequence of writes. -/
def runWrites (a : List (Nat × Int)) : List (Nat × (Nat × Int)) → List (Nat × Int)
  | [] => a
  | (j, e) :: ws => runWrites (a.set j e) ws

/-- End of the parallel region, `make_general_basis.h:197-249`.  `writes` is the order in which the
writes of all threads reach the shared array (any interleaving); `sort` is the library sort called
on the first `Ns` entries. -/
def collect (sort : List (Nat × Int) → List (Nat × Int)) (mem : Nat)
    (blocks : List (List (Nat × Int))) (writes : List (Nat × (Nat × Int))) : Built :=
  let Ns := (blocks.map List.length).sum
  if Ns > mem then .insufficient
  else if writes.any (fun w => w.1 ≥ mem) then .overrun
  else .ok (sort ((runWrites (List.replicate mem (0, 0)) writes).take Ns))

/-- `make_basis_parallel`, `make_general_basis.h:158-250`. -/
def makeBasisParallel (w : Nat) (sort : List (Nat × Int) → List (Nat × Int)) (check : Check)
    (MAX mem T : Nat) (writes : List (Nat × (Nat × Int))) : Built :=
  collect sort mem ((List.range T).map (threadBlock w check MAX T)) writes

/-- `make_basis_pcon_parallel`, `make_general_basis.h:252-350`. -/
def makeBasisPconParallel (next : Nat → Nat → Nat) (sort : List (Nat × Int) → List (Nat × Int))
    (check : Check) (MAX mem s T : Nat) (writes : List (Nat × (Nat × Int))) : Built :=
  collect sort mem ((List.range T).map (threadBlockPcon next check MAX T s)) writes

/-- `make_basis`, `make_general_basis.h:355-369`; `T` is `omp_get_max_threads()`, `nt` the number
of maps. -/
def makeBasis (w : Nat) (sort : List (Nat × Int) → List (Nat × Int)) (check : Check)
    (nt MAX mem T : Nat) (writes : List (Nat × (Nat × Int))) : Built :=
  if T > 1 ∧ MAX > T ∧ nt > 0 then makeBasisParallel w sort check MAX mem T writes
  else makeBasisSequential w check MAX mem

/-- `make_basis_pcon`, `make_general_basis.h:371-385`. -/
def makeBasisPcon (next : Nat → Nat → Nat) (sort : List (Nat × Int) → List (Nat × Int))
    (check : Check) (nt MAX mem s T : Nat) (writes : List (Nat × (Nat × Int))) : Built :=
  if T > 1 ∧ MAX > T ∧ nt > 0 then makeBasisPconParallel next sort check MAX mem s T writes
  else makeBasisPconSequential next check MAX mem s

end Model
