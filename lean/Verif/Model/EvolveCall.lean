import Verif.Model.Evolution
/-!
`hamiltonian.evolve` and `evolve` around the solver: which equation is solved for which arguments, and
which arrays are shared between the caller, the solver and the states handed out.

Arrays are cells of a heap.  The array given by the caller is cell 0.  `scipy.integrate.ode` is not
modelled: `integrate` reads the array it holds and stores the result in a new array (its Fortran
routines copy their input), `set_initial_value` keeps the array it is given if it has the type `float64`.
-/
namespace Model.EvolveCall
open Model.Evolution

/-! ### Which equation -/

/-- The element types of states and operators. -/
inductive Elt where
  | int | f32 | f64 | c64 | c128
  deriving DecidableEq

/-- `numpy.iscomplexobj`. -/
def Elt.cplx : Elt → Bool
  | .c64 | .c128 => true
  | _ => false

/-- Name of the exception. -/
inductive Raise where
  | valueError | notImplemented | indexError
  deriving DecidableEq

/-- The right-hand side handed to the solver, `hamiltonian_core.py:1444,1459,1463,1481`. -/
inductive Rhs where
  | so | soReal | iso | lo
  deriving DecidableEq

/-- What is handed to `evolve` besides state and times: the right-hand side and the flag `real`. -/
structure Plan where
  rhs : Rhs
  real : Bool
  deriving DecidableEq

/-- The argument `eom`. -/
inductive Eom where
  | se | lvne | other
  deriving DecidableEq

/-- The arguments of `hamiltonian.evolve` that decide: the number of states, types of operator and
state, shape of the state, whether the times are complex, and the options. -/
structure Request where
  Ns : ℕ
  hType : Elt
  vType : Elt
  shape : List ℕ
  complexTimes : Bool
  eom : Eom
  stack : Bool
  imag : Bool

/-- `hamiltonian.evolve`, `hamiltonian_core.py:1416-1485`, up to the call of `evolve`. -/
def plan (q : Request) : Except Raise Plan :=
  if q.complexTimes then .error .valueError
  else
    match q.eom with
    | .se =>
      if q.shape.length > 2 then .error .valueError
      else
        match q.shape with
        | [] => .error .indexError
        | n :: _ =>
          if n ≠ q.Ns then .error .valueError
          else if q.imag then
            if q.stack then .error .notImplemented
            else .ok ⟨.iso, !(q.vType.cplx || q.hType.cplx)⟩
          else if q.stack then
            if q.hType.cplx then .error .valueError else .ok ⟨.soReal, false⟩
          else .ok ⟨.so, false⟩
    | .lvne =>
      if q.shape.length ≠ 2 then .error .valueError
      else if q.shape ≠ [q.Ns, q.Ns] then .error .valueError
      else if q.imag then .error .notImplemented
      else if q.stack then .error .notImplemented
      else .ok ⟨.lo, false⟩
    | .other => .error .valueError

/-! ### Which arrays -/

/-- How `evolve` (`evolution.py:269-327`) treats the array of the caller: does its `v0` share the memory
of the caller's array, does the solver share the memory of `v0`. -/
structure Sharing where
  v0 : Bool
  solver : Bool
  deriving DecidableEq

/-- Memory of `v0`, `evolution.py:275-315`, for a state with `contiguous` memory or not: `ravel` copies
an array with two dimensions that is not contiguous (276); `stack_state` makes a new real array
(290-298); `real` keeps the array (303), which the solver copies unless it is `float64`; otherwise
`astype(complex128,copy=False).view(float64)` (310) keeps an array of type `complex128` unless `view`
fails because it is not contiguous (313). -/
def sharing (ty : Elt) (contiguous : Bool) (ndim : ℕ) (stack real : Bool) : Sharing :=
  if stack then ⟨false, true⟩
  else if real then ⟨contiguous || decide (ndim ≠ 2), decide (ty = .f64)⟩
  else ⟨decide (ty = .c128) && contiguous, true⟩

/-- Whether `_format_output` can work on `v0` at the initial time, `evolution.py:352-356`: in imaginary
time with real arrays it divides the array in place, which numpy refuses (`TypeError`) for integers.
The solver's own arrays are `float64`. -/
def formatsInitial (ty : Elt) (real imag : Bool) : Bool := !(real && imag && decide (ty = .int))

variable {Y : Type}

/-- The generator between two states: the memory, the cell and time the solver holds, the next free
cell. -/
structure Gen (Y : Type) where
  mem : ℕ → Y
  cell : ℕ
  time : ℝ
  next : ℕ

/-- Store into a cell. -/
def put (mem : ℕ → Y) (c : ℕ) (y : Y) : ℕ → Y := fun i => if i = c then y else mem i

/-- Cell of `v0`. -/
def Sharing.cell (s : Sharing) : ℕ := if s.v0 then 0 else 1

/-- `set_initial_value(v0,t0)`, `evolution.py:326-327`; the caller's array holds `y`. -/
def begin (s : Sharing) (t0 : ℝ) (y : Y) : Gen Y :=
  ⟨fun _ => y, if s.solver then s.cell else 2, t0, 3⟩

/-- One state of `_evolve_iter`, `evolution.py:411-424`: the cell handed out and the generator.  `fmt`
is `_format_output` (345-358), which works on a view of the array it is given, except with `stack_state`
(`fresh`), where it makes a new one.  With `stack_state` the array of the solver holds real and
imaginary parts (`stackPack`, `stackFormat`); here it is written as the complex state. -/
noncomputable def yieldOne (step : ℝ → Y → ℝ → Option Y) (fmt : Y → Y) (fresh : Bool) (t0 : ℝ) (v0 : ℕ) (g : Gen Y)
    (t : ℝ) : Option (ℕ × Gen Y) :=
  if t = t0 then
    if fresh then some (g.next, { g with mem := put g.mem g.next (fmt (g.mem v0)), next := g.next + 1 })
    else some (v0, { g with mem := put g.mem v0 (fmt (g.mem v0)) })
  else
    (step g.time (g.mem g.cell) t).map fun y =>
      if fresh then
        (g.next + 1, ⟨put (put g.mem g.next y) (g.next + 1) (fmt y), g.next, t, g.next + 2⟩)
      else (g.next, ⟨put g.mem g.next (fmt y), g.next, t, g.next + 1⟩)

/-- The loop `for psi in evolve(..., iterate=True)`, `evolution.py:406-424`: the program may change the
`i`-th state it receives in place, by `use i`.  Returned: the states as received, and the memory at
the end. -/
noncomputable def consume (step : ℝ → Y → ℝ → Option Y) (fmt : Y → Y) (fresh : Bool) (t0 : ℝ) (v0 : ℕ) (use : ℕ → Y → Y) :
    Gen Y → ℕ → List ℝ → Option (List Y × (ℕ → Y))
  | g, _, [] => some ([], g.mem)
  | g, i, t :: ts =>
    (yieldOne step fmt fresh t0 v0 g t).bind fun r =>
      let psi := r.2.mem r.1
      (consume step fmt fresh t0 v0 use { r.2 with mem := put r.2.mem r.1 (use i psi) } (i + 1) ts).map
        fun rest => (psi :: rest.1, rest.2)

/-- `evolve(v0,t0,times,f,iterate=True)` consumed by such a loop. -/
noncomputable def iterate (s : Sharing) (step : ℝ → Y → ℝ → Option Y) (fmt : Y → Y) (fresh : Bool) (t0 : ℝ) (y : Y)
    (use : ℕ → Y → Y) (times : List ℝ) : Option (List Y × (ℕ → Y)) :=
  consume step fmt fresh t0 s.cell use (begin s t0 y) 0 times

/-- `_evolve_scalar`, `evolution.py:362-370`: the cell returned and the memory. -/
noncomputable def scalar (s : Sharing) (step : ℝ → Y → ℝ → Option Y) (fmt : Y → Y) (fresh : Bool) (t0 : ℝ) (y : Y)
    (t : ℝ) : Option (ℕ × (ℕ → Y)) :=
  (yieldOne step fmt fresh t0 s.cell (begin s t0 y) t).map fun r => (r.1, r.2.mem)

/-- `_evolve_list`, `evolution.py:372-403`: every formatted state is copied into the result (387, 394), so
that the program sees the states only at the end. -/
noncomputable def list (s : Sharing) (step : ℝ → Y → ℝ → Option Y) (fmt : Y → Y) (fresh : Bool) (t0 : ℝ) (y : Y)
    (times : List ℝ) : Option (List Y × (ℕ → Y)) :=
  iterate s step fmt fresh t0 y (fun _ psi => psi) times

end Model.EvolveCall
