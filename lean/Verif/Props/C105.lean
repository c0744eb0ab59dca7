import Verif.Model.EvolveCall
import Verif.Props.C52
/-!
C105: `hamiltonian.evolve` solves the equation asked for, gives the same states as a list, a generator
or one by one, and neither the caller's array nor later states change behind the caller's back.
-/
namespace Props
open Model.Evolution Model.EvolveCall Proof.Evolution

/-! ### Which equation -/

/-- C105: `hamiltonian.evolve` accepts exactly: real times; for the Schrödinger equation one state or an
array of states of the right length, not both in imaginary time and stacked, and stacked only for real
operators; for the von Neumann equation a square array of the right size, in real time, not stacked. -/
theorem C105_accepts (q : Request) : (∃ p, plan q = .ok p) ↔ q.complexTimes = false ∧
    ((q.eom = .se ∧ (q.shape = [q.Ns] ∨ ∃ k, q.shape = [q.Ns, k]) ∧ ¬ (q.imag = true ∧ q.stack = true) ∧
        (q.stack = true → q.hType.cplx = false)) ∨
      (q.eom = .lvne ∧ q.shape = [q.Ns, q.Ns] ∧ q.imag = false ∧ q.stack = false)) := by
  obtain ⟨Ns, hT, vT, shape, ct, eom, stack, imag⟩ := q
  cases ct with
  | true => simp [plan]
  | false =>
    cases eom with
    | other => simp [plan]
    | lvne =>
      simp only [plan, Bool.false_eq_true, if_false]
      by_cases hs : shape = [Ns, Ns]
      · subst hs; cases imag <;> cases stack <;> simp
      · by_cases hl : shape.length = 2 <;> simp [hs, hl]
    | se =>
      simp only [plan, Bool.false_eq_true, if_false]
      match shape with
      | [] => simp
      | [n] =>
        by_cases hn : n = Ns
        · subst hn
          cases imag <;> cases stack <;> cases h : hT.cplx <;> simp
        · simp [hn]
      | [n, k] =>
        by_cases hn : n = Ns
        · subst hn
          cases imag <;> cases stack <;> cases h : hT.cplx <;> simp
        · simp [hn]
      | a :: b :: c :: l => simp

/-- C105: the equation handed to the solver is the one asked for, and real arithmetic is used only where
operator and state are real. -/
theorem C105_equation (q : Request) (p : Plan) (h : plan q = .ok p) :
    (q.eom = .lvne → p.rhs = .lo) ∧
    (q.eom = .se → q.imag = true → p.rhs = .iso) ∧
    (q.eom = .se → q.imag = false → q.stack = true → p.rhs = .soReal ∧ q.hType.cplx = false) ∧
    (q.eom = .se → q.imag = false → q.stack = false → p.rhs = .so) ∧
    (p.real = true → p.rhs = .iso ∧ q.hType.cplx = false ∧ q.vType.cplx = false) := by
  obtain ⟨Ns, hT, vT, shape, ct, eom, stack, imag⟩ := q
  cases ct with
  | true => simp [plan] at h
  | false =>
    cases eom with
    | other => simp [plan] at h
    | lvne =>
      simp only [plan, Bool.false_eq_true, if_false] at h
      by_cases hs : shape = [Ns, Ns]
      · subst hs; cases imag <;> cases stack <;> simp at h
        subst h; simp
      · by_cases hl : shape.length = 2 <;> simp [hs, hl] at h
    | se =>
      simp only [plan, Bool.false_eq_true, if_false] at h
      match shape with
      | [] => simp at h
      | [n] =>
        by_cases hn : n = Ns
        · subst hn
          cases imag <;> cases stack <;> cases h' : hT.cplx <;> simp [h'] at h <;> subst h <;> simp [h']
        · simp [hn] at h
      | [n, k] =>
        by_cases hn : n = Ns
        · subst hn
          cases imag <;> cases stack <;> cases h' : hT.cplx <;> simp [h'] at h <;> subst h <;> simp [h']
        · simp [hn] at h
      | a :: b :: c :: l => simp at h

example : plan ⟨4, .f64, .c128, [4, 3], false, .se, true, false⟩ = .ok ⟨.soReal, false⟩ := by decide
example : plan ⟨4, .f64, .f32, [4], false, .se, false, true⟩ = .ok ⟨.iso, true⟩ := by decide
example : plan ⟨4, .c128, .f64, [4, 4], false, .lvne, false, false⟩ = .ok ⟨.lo, false⟩ := by decide

/-! ### Which arrays -/

variable {Y : Type}

theorem put_same (mem : ℕ → Y) (c : ℕ) : put mem c (mem c) = mem := by
  funext i
  simp only [put]
  split
  · rename_i h; rw [h]
  · rfl

theorem put_at (mem : ℕ → Y) (c : ℕ) (y : Y) : put mem c y c = y := by simp [put]

theorem put_off (mem : ℕ → Y) {c d : ℕ} (h : d ≠ c) (y : Y) : put mem c y d = mem d := by simp [put, h]

theorem put_put (mem : ℕ → Y) (c : ℕ) (a b : Y) : put (put mem c a) c b = put mem c b := by
  funext i
  simp only [put]
  split <;> rfl

/-- A loop that only reads the states receives what the list branch returns. -/
theorem consume_reads (step : ℝ → Y → ℝ → Option Y) (fmt : Y → Y) (t0 : ℝ) (v0 : ℕ) (ts : List ℝ) :
    ∀ (g : Gen Y) (i : ℕ), v0 < g.next → g.cell < g.next →
      (consume step fmt false t0 v0 (fun _ y => y) g i ts).map Prod.fst
        = evolveLoop step fmt t0 (g.mem v0, decide (g.cell = v0), ⟨g.time, g.mem g.cell⟩) ts := by
  induction ts with
  | nil => intro g i _ _; rfl
  | cons t ts ih =>
    intro g i hv hc
    rw [consume, evolveLoop, yieldOne, listStep]
    by_cases ht : t = t0
    · simp only [if_pos ht, Bool.false_eq_true, if_false, Option.bind_some]
      simp only [put_put, put_at, Option.map_map]
      have := ih { g with mem := put g.mem v0 (fmt (g.mem v0)) } (i + 1) hv hc
      simp only [put_at] at this
      have h2 : (if decide (g.cell = v0) = true then (⟨g.time, fmt (g.mem v0)⟩ : Solver Y) else ⟨g.time, g.mem g.cell⟩)
          = ⟨g.time, put g.mem v0 (fmt (g.mem v0)) g.cell⟩ := by
        by_cases h : g.cell = v0
        · simp [h, put_at]
        · simp [h, put_off]
      rw [h2, ← this, Option.map_map]
      rfl
    · simp only [if_neg ht]
      cases hst : step g.time (g.mem g.cell) t with
      | none => rfl
      | some y =>
        simp only [Option.map_some, Bool.false_eq_true, if_false, Option.bind_some, put_put, put_at,
          Option.map_map]
        have := ih ⟨put g.mem g.next (fmt y), g.next, t, g.next + 1⟩ (i + 1) (by show v0 < g.next + 1; omega)
          (by show g.next < g.next + 1; omega)
        simp only [put_at, put_off g.mem (show v0 ≠ g.next by omega),
          show decide (g.next = v0) = false by simp; omega] at this
        rw [← this, Option.map_map]
        rfl

/-- A cell that is not handed out keeps its content. -/
theorem consume_keeps (step : ℝ → Y → ℝ → Option Y) (fmt : Y → Y) (fresh : Bool) (t0 : ℝ) (v0 c : ℕ)
    (use : ℕ → Y → Y) (hcv : fresh = true ∨ c ≠ v0) (ts : List ℝ) :
    ∀ (g : Gen Y) (i : ℕ) (l : List Y) (m : ℕ → Y), c < g.next →
      consume step fmt fresh t0 v0 use g i ts = some (l, m) → m c = g.mem c := by
  induction ts with
  | nil => intro g i l m _ h; rw [consume] at h; cases h; rfl
  | cons t ts ih =>
    intro g i l m hc h
    rw [consume] at h
    cases hy : yieldOne step fmt fresh t0 v0 g t with
    | none => rw [hy] at h; simp at h
    | some r =>
      rw [hy] at h
      simp only [Option.bind_some, Option.map_eq_some_iff] at h
      obtain ⟨⟨l', m'⟩, hr, he⟩ := h
      cases he
      have key : c < r.2.next ∧ c ≠ r.1 ∧ r.2.mem c = g.mem c := by
        rw [yieldOne] at hy
        split at hy
        · split at hy
          · cases hy
            exact ⟨by show c < g.next + 1; omega, by show c ≠ g.next; omega, put_off _ (by omega) _⟩
          · rename_i hf
            cases hy
            have hne : c ≠ v0 := hcv.resolve_left (by simpa using hf)
            exact ⟨hc, hne, put_off _ hne _⟩
        · obtain ⟨y, _, hy⟩ := Option.map_eq_some_iff.1 hy
          split at hy
          · cases hy
            refine ⟨by show c < g.next + 2; omega, by show c ≠ g.next + 1; omega, ?_⟩
            show put (put g.mem g.next y) (g.next + 1) (fmt y) c = _
            rw [put_off _ (by omega), put_off _ (by omega)]
          · cases hy
            exact ⟨by show c < g.next + 1; omega, by show c ≠ g.next; omega, put_off _ (by omega) _⟩
      show m' c = _
      rw [ih { r.2 with mem := put r.2.mem r.1 (use i (r.2.mem r.1)) } _ _ _ key.1 hr]
      show put r.2.mem r.1 _ c = _
      rw [put_off _ key.2.1, key.2.2]

/-- The caller's array is also kept if it is only read and formatting it changes nothing. -/
theorem consume_keeps_read (step : ℝ → Y → ℝ → Option Y) (fmt : Y → Y) (t0 : ℝ) (v0 : ℕ) (y0 : Y)
    (hf : fmt y0 = y0) (ts : List ℝ) :
    ∀ (g : Gen Y) (i : ℕ) (l : List Y) (m : ℕ → Y), v0 < g.next → g.mem v0 = y0 →
      consume step fmt false t0 v0 (fun _ y => y) g i ts = some (l, m) → m v0 = y0 := by
  induction ts with
  | nil => intro g i l m _ hm h; rw [consume] at h; cases h; exact hm
  | cons t ts ih =>
    intro g i l m hc hm h
    rw [consume] at h
    cases hy : yieldOne step fmt false t0 v0 g t with
    | none => rw [hy] at h; simp at h
    | some r =>
      rw [hy] at h
      simp only [Option.bind_some, Option.map_eq_some_iff, put_same] at h
      obtain ⟨⟨l', m'⟩, hr, he⟩ := h
      cases he
      have key : v0 < r.2.next ∧ r.2.mem v0 = y0 := by
        rw [yieldOne] at hy
        split at hy
        · simp only [Bool.false_eq_true, if_false] at hy
          cases hy
          exact ⟨hc, by show put g.mem v0 _ v0 = _; rw [put_at, hm, hf]⟩
        · obtain ⟨y, _, hy⟩ := Option.map_eq_some_iff.1 hy
          simp only [Bool.false_eq_true, if_false] at hy
          cases hy
          exact ⟨by show v0 < g.next + 1; omega,
            by show put g.mem g.next _ v0 = _; rw [put_off _ (by omega), hm]⟩
      exact ih _ _ _ _ key.1 key.2 hr

/-- States handed out as new arrays are right whatever the loop does with them. -/
theorem consume_fresh (φ : ℝ → ℝ → Y → Y) (step : ℝ → Y → ℝ → Option Y) (hs : ∀ s y t, step s y t = some (φ t s y))
    (hid : ∀ t y, φ t t y = y) (hcomp : ∀ r s t y, φ t s (φ s r y) = φ t r y) (t0 : ℝ) (v0 : ℕ) (y0 : Y)
    (use : ℕ → Y → Y) (ts : List ℝ) :
    ∀ (g : Gen Y) (i : ℕ), v0 < g.next → g.cell < g.next → g.mem v0 = y0 → g.mem g.cell = φ g.time t0 y0 →
      (consume step id true t0 v0 use g i ts).map Prod.fst = some (ts.map fun t => φ t t0 y0) := by
  induction ts with
  | nil => intro g i _ _ _ _; rfl
  | cons t ts ih =>
    intro g i hv hc h0 hy
    rw [consume, yieldOne]
    by_cases ht : t = t0
    · simp only [if_pos ht, if_true, Option.bind_some, id, put_at, Option.map_map]
      have := ih { g with
          mem := put (put g.mem g.next (g.mem v0)) g.next (use i (g.mem v0)), next := g.next + 1 } (i + 1)
        (by show v0 < g.next + 1; omega) (by show g.cell < g.next + 1; omega)
        (by show put (put g.mem g.next (g.mem v0)) g.next (use i (g.mem v0)) v0 = y0
            rw [put_off _ (by omega), put_off _ (by omega), h0])
        (by show put (put g.mem g.next (g.mem v0)) g.next (use i (g.mem v0)) g.cell = φ g.time t0 y0
            rw [put_off _ (by omega), put_off _ (by omega), hy])
      rw [Option.map_eq_some_iff] at this ⊢
      obtain ⟨a, ha, hb⟩ := this
      refine ⟨a, ha, ?_⟩
      show g.mem v0 :: a.1 = _
      rw [hb, h0, List.map_cons, ht, hid]
    · simp only [if_neg ht, hs, Option.map_some, if_true, Option.bind_some, id, put_at, Option.map_map]
      have hφ : φ t g.time (g.mem g.cell) = φ t t0 y0 := by rw [hy, hcomp]
      have := ih ⟨put (put (put g.mem g.next (φ t g.time (g.mem g.cell))) (g.next + 1) (φ t g.time (g.mem g.cell)))
          (g.next + 1) (use i (φ t g.time (g.mem g.cell))), g.next, t, g.next + 2⟩ (i + 1)
        (by show v0 < g.next + 2; omega) (by show g.next < g.next + 2; omega)
        (by show put (put (put g.mem g.next (φ t g.time (g.mem g.cell))) (g.next + 1)
              (φ t g.time (g.mem g.cell))) (g.next + 1) (use i (φ t g.time (g.mem g.cell))) v0 = y0
            rw [put_off _ (by omega), put_off _ (by omega), put_off _ (by omega), h0])
        (by show put (put (put g.mem g.next (φ t g.time (g.mem g.cell))) (g.next + 1)
              (φ t g.time (g.mem g.cell))) (g.next + 1) (use i (φ t g.time (g.mem g.cell))) g.next = φ t t0 y0
            rw [put_off _ (by omega), put_off _ (by omega), put_at, hφ])
      rw [Option.map_eq_some_iff] at this ⊢
      obtain ⟨a, ha, hb⟩ := this
      refine ⟨a, ha, ?_⟩
      show φ t g.time (g.mem g.cell) :: a.1 = _
      rw [hb, hφ, List.map_cons]

theorem cell_lt (s : Sharing) : s.cell < 3 := by
  unfold Sharing.cell; split <;> omega

theorem begin_cell_lt (s : Sharing) (t0 : ℝ) (y : Y) : (begin s t0 y).cell < 3 := by
  show (if s.solver then s.cell else 2) < 3
  have := cell_lt s
  split <;> omega

theorem some_of_map_fst {α β : Type} {o : Option (α × β)} {a : α} (h : o.map Prod.fst = some a) :
    ∃ b, o = some (a, b) := by
  cases o with
  | none => simp at h
  | some p => simp at h; exact ⟨p.2, by rw [← h]⟩

/-- C105: in real time, a generator whose states are only read gives at every time, in any order and with
repetitions, the exact solution `φ`, whatever memory is shared, and leaves the caller's array as it was;
so does the list of states. -/
theorem C105_generator (s : Sharing) (fresh : Bool) (φ : ℝ → ℝ → Y → Y) (step : ℝ → Y → ℝ → Option Y)
    (hs : ∀ s y t, step s y t = some (φ t s y)) (hid : ∀ t y, φ t t y = y)
    (hcomp : ∀ r s t y, φ t s (φ s r y) = φ t r y) (t0 : ℝ) (y : Y) (times : List ℝ) :
    ∃ m, iterate s step id fresh t0 y (fun _ psi => psi) times = some (times.map fun t => φ t t0 y, m) ∧
      list s step id fresh t0 y times = some (times.map fun t => φ t t0 y, m) ∧ m 0 = y := by
  have h1 : (iterate s step id fresh t0 y (fun _ psi => psi) times).map Prod.fst
      = some (times.map fun t => φ t t0 y) := by
    cases fresh with
    | true =>
      exact consume_fresh φ step hs hid hcomp t0 s.cell y _ times _ 0 (cell_lt s) (begin_cell_lt s t0 y) rfl
        (hid t0 y).symm
    | false =>
      rw [iterate, consume_reads step id t0 s.cell times _ 0 (cell_lt s) (begin_cell_lt s t0 y)]
      have := evolveLoop_exact φ step hs hid hcomp t0 y times
        (decide ((begin s t0 y).cell = s.cell)) t0 fun _ => rfl
      rwa [hid] at this
  obtain ⟨m, hm⟩ := some_of_map_fst h1
  refine ⟨m, hm, hm, ?_⟩
  by_cases h : fresh = true ∨ (0 : ℕ) ≠ s.cell
  · exact consume_keeps step id fresh t0 s.cell 0 _ h times _ 0 _ m (by show 0 < 3; omega) hm
  · push Not at h
    have hfr : fresh = false := by simpa using h.1
    subst hfr
    rw [h.2]
    exact consume_keeps_read step id t0 s.cell y rfl times _ 0 _ m (cell_lt s) rfl hm

/-- The solutions for a level of energy one, with a shared array and with a copy. -/
example := C105_generator (Y := ℂ) (sharing .c128 true 1 false false) false
  (fun t s y => Complex.exp (-(t - s : ℝ) * Complex.I) * y)
  (fun s y t => some (Complex.exp (-(t - s : ℝ) * Complex.I) * y)) (fun _ _ _ => rfl) (by intro t y; simp)
  (by intro r s t y; rw [← mul_assoc, ← Complex.exp_add]; congr 2; push_cast; ring) 0 1 [0, 2, 0, 1]

/-- C105: with `stack_state` every state handed out is a new array: the states are right and the
caller's array is kept whatever the program does with the states it receives. -/
theorem C105_stack (s : Sharing) (φ : ℝ → ℝ → Y → Y) (step : ℝ → Y → ℝ → Option Y)
    (hs : ∀ s y t, step s y t = some (φ t s y)) (hid : ∀ t y, φ t t y = y)
    (hcomp : ∀ r s t y, φ t s (φ s r y) = φ t r y) (t0 : ℝ) (y : Y) (use : ℕ → Y → Y) (times : List ℝ) :
    ∃ m, iterate s step id true t0 y use times = some (times.map fun t => φ t t0 y, m) ∧ m 0 = y := by
  obtain ⟨m, hm⟩ := some_of_map_fst (consume_fresh φ step hs hid hcomp t0 s.cell y use times (begin s t0 y) 0
    (cell_lt s) (begin_cell_lt s t0 y) rfl (hid t0 y).symm)
  exact ⟨m, hm, consume_keeps step id true t0 s.cell 0 use (.inl rfl) times _ 0 _ m (by show 0 < 3; omega) hm⟩

example := C105_stack (Y := ℂ) (sharing .c128 true 1 true false) (fun _ _ y => y) (fun _ y _ => some y)
  (fun _ _ _ => rfl) (fun _ _ => rfl) (fun _ _ _ _ => rfl) 0 1 (fun _ y => 2 * y) [0, 1]

/-- C105: if the memory of the caller's array is not shared, the caller's array is kept, also in
imaginary time and whatever the program does with the states it receives. -/
theorem C105_copied (s : Sharing) (hsh : s.v0 = false) (step : ℝ → Y → ℝ → Option Y) (fmt : Y → Y) (fresh : Bool)
    (t0 : ℝ) (y : Y) (use : ℕ → Y → Y) (times : List ℝ) (l : List Y) (m : ℕ → Y)
    (h : iterate s step fmt fresh t0 y use times = some (l, m)) : m 0 = y :=
  consume_keeps step fmt fresh t0 s.cell 0 use (.inr (by simp [Sharing.cell, hsh])) times _ 0 l m
    (by show 0 < 3; omega) h

/-- It is not shared for states of type `complex64`, for real states evolved in real time, for stacked
states and for arrays that are not contiguous, except one real state in imaginary time. -/
example : (sharing .c64 true 1 false false).v0 = false ∧ (sharing .f64 true 2 false false).v0 = false ∧
    (sharing .c128 true 1 true false).v0 = false ∧ (sharing .c128 false 1 false false).v0 = false ∧
    (sharing .f64 false 2 false true).v0 = false ∧ (sharing .f64 false 1 false true).v0 = true := by decide

theorem imagFormat_start {n : Type} [Fintype n] (v : Matrix n (Fin 1) ℂ) (hc : 0 < totalNorm v) :
    imagFormat (totalNorm v) v = v := by
  have hn : ∀ j, columnNorm v j = totalNorm v := by
    intro j
    simp only [columnNorm, totalNorm, Fin.sum_univ_one]
    rw [Subsingleton.elim j 0]
  funext i j
  simp only [imagFormat]
  rw [hn, div_self hc.ne']
  simp

/-- C105, part: in imaginary time a generator or a list of one state gives the states with the norm of the
initial state, and the caller's array is kept, although the arrays are rescaled in place.  Missing:
several states (`C105_fails_caller`), programs that change the states they receive
(`C105_fails_use`). -/
theorem C105_imaginary_partial {n : Type} [Fintype n] [DecidableEq n] (U : ℝ → ℝ → Matrix n n ℂ)
    (hU : Spec.Motion.Propagator U) (step : ℝ → Matrix n (Fin 1) ℂ → ℝ → Option (Matrix n (Fin 1) ℂ))
    (hs : ∀ s y t, step s y t = some (U t s * y)) (s : Sharing) (t0 : ℝ) (v : Matrix n (Fin 1) ℂ)
    (hc : 0 < totalNorm v) (hv : ∀ t j, Spec.Motion.norm (U t t0 * v) j ≠ 0) (times : List ℝ) :
    ∃ m, list s step (imagFormat (totalNorm v)) false t0 v times
        = some (times.map fun t => imagFormat (totalNorm v) (U t t0 * v), m) ∧ m 0 = v ∧
      ∀ t, Spec.Motion.Rescaled (U t t0 * v) (imagFormat (totalNorm v) (U t t0 * v)) fun _ => totalNorm v := by
  have h1 : (list s step (imagFormat (totalNorm v)) false t0 v times).map Prod.fst
      = some (times.map fun t => imagFormat (totalNorm v) (U t t0 * v)) := by
    rw [list, iterate, consume_reads step _ t0 s.cell times _ 0 (cell_lt s) (begin_cell_lt s t0 v)]
    exact evolveLoop_imag U hU step hs t0 v _ hc hv times _ t0 v v (Scaled.refl v)
      (by rw [hU.same, Matrix.one_mul]; exact Scaled.refl v) fun _ => rfl
  obtain ⟨m, hm⟩ := some_of_map_fst h1
  refine ⟨m, hm, ?_, fun t => imagFormat_spec _ hc _ (hv t)⟩
  by_cases h : (0 : ℕ) = s.cell
  · rw [h]
    exact consume_keeps_read step _ t0 s.cell v (imagFormat_start v hc) times _ 0 _ m (cell_lt s) rfl hm
  · exact consume_keeps step _ false t0 s.cell 0 _ (.inr h) times _ 0 _ m (by show 0 < 3; omega) hm

/-- C105, part: one time: the state returned is the exact solution, and it is not the caller's array
unless the time is the initial time.  Missing: the initial time (`C105_fails_scalar`). -/
theorem C105_scalar_partial (s : Sharing) (fresh : Bool) (φ : ℝ → ℝ → Y → Y) (step : ℝ → Y → ℝ → Option Y)
    (hs : ∀ s y t, step s y t = some (φ t s y)) (hid : ∀ t y, φ t t y = y) (t0 : ℝ) (y : Y) (t : ℝ) :
    ∃ c m, scalar s step id fresh t0 y t = some (c, m) ∧ m c = φ t t0 y ∧ m 0 = y ∧ (t ≠ t0 → c ≠ 0) := by
  have hc := cell_lt s
  rw [scalar, yieldOne]
  by_cases ht : t = t0
  · subst ht
    rw [if_pos rfl, hid]
    cases fresh with
    | true => exact ⟨3, put (fun _ => y) 3 y, rfl, by simp [put], by simp [put], fun h => absurd rfl h⟩
    | false =>
      exact ⟨s.cell, put (fun _ => y) s.cell y, rfl, by simp [put], by simp [put], fun h => absurd rfl h⟩
  · rw [if_neg ht, hs]
    cases fresh with
    | true =>
      exact ⟨4, put (put (fun _ => y) 3 (φ t t0 y)) 4 (φ t t0 y), rfl, by simp [put], by simp [put], fun _ => by decide⟩
    | false => exact ⟨3, put (fun _ => y) 3 (φ t t0 y), rfl, by simp [put], by simp [put], fun _ => by decide⟩

example := C105_scalar_partial (Y := ℂ) (sharing .c128 true 1 false false) false (fun _ _ y => y)
  (fun _ y _ => some y) (fun _ _ _ => rfl) (fun _ _ => rfl) 0 1 2

/-! ### Defects -/

/-- The states a generator hands out are the arrays of the solver: a program that changes a state it
received changes all later states.  With `H = 0` and the initial state `1`, a loop that doubles each
state in place (`psi *= 2`) receives `1, 2, 4` instead of `1, 1, 1` at the times `1, 2, 3`; if the
initial time is among the times, also the caller's initial state is doubled. -/
theorem C105_fails_use :
    (iterate (Y := ℂ) (sharing .c128 true 1 false false) (fun _ y _ => some y) id false 0 1 (fun _ y => 2 * y)
      [1, 2, 3]).map Prod.fst = some [1, 2, 4] ∧
    (iterate (Y := ℂ) (sharing .c128 true 1 false false) (fun _ y _ => some y) id false 0 1 (fun _ y => 2 * y)
      [0, 1]).map (fun r => (r.1, r.2 0)) = some ([1, 2], 2) := by
  constructor
  · simp [iterate, consume, yieldOne, begin, put, sharing, Sharing.cell]
    norm_num
  · simp [iterate, consume, yieldOne, begin, put, sharing, Sharing.cell]

/-- At the initial time `evolve` with one time returns the caller's array itself (seen with the shape and
type of a state), so that changing the result changes the initial state. -/
theorem C105_fails_scalar (step : ℝ → Y → ℝ → Option Y) (t0 : ℝ) (y : Y) :
    (scalar (sharing .c128 true 1 false false) step id false t0 y t0).map Prod.fst = some 0 := by
  simp [scalar, yieldOne, sharing, Sharing.cell]

/-- In imaginary time the caller's array is changed if it holds several states and the initial time is
among the times: the columns are rescaled in place to the norm of the whole array. -/
theorem C105_fails_caller (step : ℝ → Matrix (Fin 2) (Fin 2) ℂ → ℝ → Option (Matrix (Fin 2) (Fin 2) ℂ)) (t0 : ℝ) :
    ∃ l m, list (sharing .c128 true 2 false false) step (imagFormat (totalNorm (1 : Matrix (Fin 2) (Fin 2) ℂ)))
      false t0 1 [t0] = some (l, m) ∧ m 0 ≠ 1 := by
  have ht : totalNorm (1 : Matrix (Fin 2) (Fin 2) ℂ) = Real.sqrt 2 := by
    simp [totalNorm, Fin.sum_univ_two]; norm_num
  have hn : columnNorm (1 : Matrix (Fin 2) (Fin 2) ℂ) 0 = 1 := by
    simp [columnNorm, Fin.sum_univ_two]
  refine ⟨_, _, by
    rw [list, iterate, consume, yieldOne, if_pos rfl]
    simp only [Bool.false_eq_true, if_false, Option.bind_some, consume, Option.map_some]
    rfl, ?_⟩
  intro h
  have h00 := congrFun (congrFun h 0) 0
  change put (put (fun _ => (1 : Matrix (Fin 2) (Fin 2) ℂ)) 0 _) 0 _ 0 0 0 = _ at h00
  rw [put_at] at h00
  change imagFormat (totalNorm (1 : Matrix (Fin 2) (Fin 2) ℂ)) 1 0 0 = _ at h00
  rw [imagFormat, ht, hn] at h00
  simp at h00

/-- In imaginary time an integer initial state and a real operator are accepted, but the call raises a
`TypeError` if the initial time is among the times. -/
theorem C105_fails_integer : plan ⟨4, .f64, .int, [4], false, .se, false, true⟩ = .ok ⟨.iso, true⟩ ∧
    formatsInitial .int true true = false := by decide

end Props
