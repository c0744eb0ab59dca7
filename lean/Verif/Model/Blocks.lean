import Mathlib.Logic.Function.Basic
import Mathlib.Data.List.Basic

/-!
Model of `_generate_parallel` and `_worker` (`/repo/quspin/tools/block_tools.py:140-225`): generators of symmetry blocks are
distributed over processes, which hand their results to the parent through queues of length one and events.

* A generator is the list of the values it yields; `X` is the type of these values.  A generator that raises is a
  generator whose list ends early, in a worker marked `crash`.
* `multiprocessing.Queue(1)`: `put` blocks while a value is stored, `get` while none is.  `Event.wait` blocks while the
  event is not set.  Processes run in any interleaving; one step of the transition system is one of these calls.
-/

namespace Model.Blocks

variable {X A : Type}

/-! ### Distribution of the blocks -/

/-- Number of processes, and of blocks per process and in the first process (block_tools.py:169-176).  `none`: one process
or less, no sub-processes (179). -/
def split (nItems nProcess : Nat) : Option (Nat × Nat × Nat) :=
  let r := if nItems ≤ nProcess then (nItems, 1, 1)
    else (nProcess, nItems / nProcess, nItems / nProcess + nItems % nProcess)
  if nProcess = 0 ∨ r.1 ≤ 1 then none else some r

/-- `args_list[a:b]`. -/
def slice (l : List A) (a b : Nat) : List A := (l.take b).drop a

/-- `sub_lists` (block_tools.py:191-192). -/
def subLists (l : List A) (nProcess nPp nLeft : Nat) : List (List A) :=
  slice l 0 nLeft :: (List.range (nProcess - 1)).map fun i => slice l (nLeft + i * nPp) (nLeft + (i + 1) * nPp)

/-- `zip(*gens)`: stops with the shortest generator; nothing for no generators. -/
def zipAll : List (List X) → List (List X)
  | [] => []
  | g :: gens => (List.range ((gens.map List.length).foldl min g.length)).map fun i => (g :: gens).filterMap fun h => h[i]?

/-- The branch without sub-processes (block_tools.py:179-189). -/
def sequential (gen : A → List X) (args : List A) : List (List X) := zipAll (args.map gen)

/-! ### The protocol -/

/-- Where a worker is (block_tools.py:154-159): about to ask its generators, about to call `e.clear()`, `q.put(s)`,
`e.wait()`, ended, ended with an exception. -/
inductive Pc where
  | next
  | clear
  | put
  | wait
  | done
  | dead
  deriving DecidableEq

/-- A worker with its event and its queue; `k` is the number of values it has handed over completely. -/
structure Worker (X : Type) where
  pc : Pc
  k : Nat
  event : Bool
  queue : Option (List X)

/-- Where the parent is (block_tools.py:213-225): about to call `q.get()` for worker `w` in round `i`, about to call `e.set()`
for it, waiting in `join` for worker `w`. -/
inductive Phase where
  | get
  | set
  | join
  deriving DecidableEq

/-- State of all processes. -/
structure State (X : Type) where
  workers : Nat → Worker X
  phase : Phase
  i : Nat
  w : Nat
  acc : List X
  out : List (List X)

/-- The processes: number of workers and of rounds, what the generators of each worker yield together, and which workers
raise after their last value. -/
structure System (X : Type) where
  n : Nat
  rounds : Nat
  items : Nat → List (List X)
  crash : Nat → Bool

/-- All processes started (block_tools.py:195-213). -/
def start (X : Type) : State X := ⟨fun _ => ⟨.next, 0, false, none⟩, .get, 0, 0, [], []⟩

/-- Replace a worker. -/
def State.setWorker (s : State X) (w : Nat) (x : Worker X) : State X := { s with workers := Function.update s.workers w x }

/-- One call by one process. -/
inductive Step (sys : System X) : State X → State X → Prop
  /-- `for s in generator` finds a value (154). -/
  | next (s : State X) (w : Nat) (hw : w < sys.n) (h : (s.workers w).pc = .next) (hk : (s.workers w).k < (sys.items w).length) :
      Step sys s (s.setWorker w { s.workers w with pc := .clear })
  /-- The loop ends (154, 159), normally or with an exception. -/
  | finish (s : State X) (w : Nat) (hw : w < sys.n) (h : (s.workers w).pc = .next) (hk : (s.workers w).k = (sys.items w).length) :
      Step sys s (s.setWorker w { s.workers w with pc := if sys.crash w then .dead else .done })
  /-- `e.clear()` (155). -/
  | clear (s : State X) (w : Nat) (hw : w < sys.n) (h : (s.workers w).pc = .clear) :
      Step sys s (s.setWorker w { s.workers w with pc := .put, event := false })
  /-- `q.put(s)` (156). -/
  | put (s : State X) (w : Nat) (hw : w < sys.n) (x : List X) (h : (s.workers w).pc = .put) (hq : (s.workers w).queue = none)
      (hx : (sys.items w)[(s.workers w).k]? = some x) :
      Step sys s (s.setWorker w { s.workers w with pc := .wait, queue := some x })
  /-- `e.wait()` returns (157). -/
  | wait (s : State X) (w : Nat) (hw : w < sys.n) (h : (s.workers w).pc = .wait) (he : (s.workers w).event = true) :
      Step sys s (s.setWorker w { s.workers w with pc := .next, k := (s.workers w).k + 1 })
  /-- `s.extend(q.get())` (217). -/
  | get (s : State X) (x : List X) (hp : s.phase = .get) (hi : s.i < sys.rounds) (hw : s.w < sys.n)
      (hq : (s.workers s.w).queue = some x) :
      Step sys s { s.setWorker s.w { s.workers s.w with queue := none } with phase := .set, acc := s.acc ++ x }
  /-- `e.set()` (218). -/
  | set (s : State X) (hp : s.phase = .set) :
      Step sys s { s.setWorker s.w { s.workers s.w with event := true } with phase := .get, w := s.w + 1 }
  /-- `yield tuple(s)` (221), next round. -/
  | yield (s : State X) (hp : s.phase = .get) (hi : s.i < sys.rounds) (hw : s.w = sys.n) :
      Step sys s { s with i := s.i + 1, w := 0, acc := [], out := s.out ++ [s.acc] }
  /-- End of the rounds (224). -/
  | close (s : State X) (hp : s.phase = .get) (hi : s.i = sys.rounds) : Step sys s { s with phase := .join, w := 0 }
  /-- `p.join()` returns (225). -/
  | join (s : State X) (hp : s.phase = .join) (hw : s.w < sys.n)
      (hd : (s.workers s.w).pc = .done ∨ (s.workers s.w).pc = .dead) : Step sys s { s with w := s.w + 1 }

/-- Any number of steps. -/
inductive Run (sys : System X) : State X → State X → Prop
  | refl (s : State X) : Run sys s s
  | step {s t u : State X} : Run sys s t → Step sys t u → Run sys s u

/-- The parent has returned. -/
def Finished (sys : System X) (s : State X) : Prop := s.phase = .join ∧ s.w = sys.n

/-- The processes for a list of blocks: worker `w` runs the generators of `sub_lists[w]` (block_tools.py:198-205). -/
def systemOf (gen : A → List X) (subs : List (List A)) (rounds : Nat) (crash : Nat → Bool) : System X :=
  ⟨subs.length, rounds, fun w => zipAll (((subs[w]?).getD []).map gen), crash⟩

end Model.Blocks
