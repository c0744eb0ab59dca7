import Verif.Model.ObsVsTime
import Verif.Props.C51
import Verif.Props.C52

/-!
C83: `obs_vs_time` gives the expectation values of every observable at every time.
-/

namespace Props
open Model.ObsTime Model.Eval Model.Evolution Spec.Evaluation Spec.Motion

variable {N : ℕ}

/-- The operator an entry of the dictionary stands for, at time `t`. -/
def operatorAt (N : ℕ) (O : Observable) (t : ℝ) : Matrix (Fin N) (Fin N) ℂ :=
  match O with
  | .ham H => toMatrix N H t
  | .matrix S => S.mat N

theorem operatorAt_eq (O : Observable) (t : ℝ) : toMatrix N O.toHam t = operatorAt N O t := by
  cases O <;> rfl

theorem mapM_total {α β : Type} {f : α → Option β} {g : α → β} : ∀ (l : List α), (∀ a ∈ l, f a = some (g a)) →
    l.mapM f = some (l.map g)
  | [], _ => rfl
  | a :: l, h => by
    rw [List.mapM_cons, h a (by simp), mapM_total l fun b hb => h b (by simp [hb])]
    rfl

theorem loop_ok {S V : Type} (f : ℝ → S → Option V) (g : ℝ → S → V) (hf : ∀ t s, f t s = some (g t s)) {times : List ℝ}
    {l : List S} (h0 : l ≠ []) (hl : l.length ≤ times.length) :
    loop f times l = some ((times.zip l).map fun e => g e.1 e.2) := by
  rw [loop, if_neg h0, if_neg (by omega)]
  exact mapM_total _ fun e _ => hf e.1 e.2

/-- Expectation values of all observables, for the states `l` at the times. -/
def pureValues (N : ℕ) (dict : List (String × Observable)) (times : List ℝ) (l : List (Col N)) :
    List (String × List (Entry ℂ)) :=
  dict.map fun O => (O.1, (times.zip l).map fun e => .num (expectation (operatorAt N O.2 e.1) e.2 ()))

/-- The same for density matrices. -/
def mixedValues (N : ℕ) (dict : List (String × Observable)) (times : List ℝ) (l : List (Matrix (Fin N) (Fin N) ℂ)) :
    List (String × List (Entry ℂ)) :=
  dict.map fun O => (O.1, (times.zip l).map fun e => .num (mixedExpectation (operatorAt N O.2 e.1) e.2))

theorem zip_ofFn {S V : Type} (g : ℝ → S → V) (times : List ℝ) (l : List S) (h : l.length = times.length) :
    (List.ofFn fun i : Fin times.length => g (times.get i) (l.get (i.cast h.symm))) = (times.zip l).map fun e => g e.1 e.2 := by
  refine List.ext_getElem (by simp [h]) fun i h1 h2 => ?_
  simp

theorem expt_columns (ep : Bool) (H : Ham ℝ ℂ) {times : List ℝ} {l : List (Col N)} (h : l.length = times.length) :
    exptForm ep H times (.columns l) =
      some ((times.zip l).map fun e => .num (expectation (toMatrix N H e.1) e.2 ())) := by
  rw [exptForm, dif_pos h, (C57_times H times.get _ (fun _ => 0)).1, Option.map_some,
    zip_ofFn (fun t v => expectation (toMatrix N H t) v ()) times l h, List.map_map]
  rfl

theorem expt_cube (ep : Bool) (H : Ham ℝ ℂ) {times : List ℝ} {l : List (Matrix (Fin N) (Fin N) ℂ)}
    (h : l.length = times.length) :
    exptForm ep H times (.cube N l) =
      some ((times.zip l).map fun e => .num (mixedExpectation (toMatrix N H e.1) e.2)) := by
  rw [exptForm, dif_pos h, dif_pos rfl, (C57_times H times.get (fun _ => 0) _).2, Option.map_some]
  refine congrArg some ?_
  refine (congrArg (List.map _) (zip_ofFn (fun t v => mixedExpectation (toMatrix N H t) v) times l h)).trans ?_
  rw [List.map_map]
  rfl

theorem expt_genStates (hN : N ≠ 1) (ep : Bool) (H : Ham ℝ ℂ) {times : List ℝ} {l : List (Col N)} (h0 : l ≠ [])
    (h : l.length ≤ times.length) :
    exptForm ep H times (.genStates l) =
      some ((times.zip l).map fun e => .num (expectation (toMatrix N H e.1) e.2 ())) := by
  rw [exptForm]
  refine loop_ok _ (fun t v => Entry.num (expectation (toMatrix N H t) v ())) (fun t v => ?_) h0 h
  rw [(C57_state_partial H hN t v).1]; rfl

theorem expt_genMatrices (hN : N ≠ 1) (ep : Bool) (H : Ham ℝ ℂ) {times : List ℝ} {l : List (Matrix (Fin N) (Fin N) ℂ)}
    (h0 : l ≠ []) (h : l.length ≤ times.length) :
    exptForm ep H times (.genMatrices N l) =
      some ((times.zip l).map fun e => .num (mixedExpectation (toMatrix N H e.1) e.2)) := by
  rw [exptForm]
  refine loop_ok _ (fun t v => Entry.num (mixedExpectation (toMatrix N H t) v)) (fun t v => ?_) h0 h
  rw [(C57_density_partial H hN t v).1]; rfl

/-- The part of `obs_vs_time` after the states are known. -/
theorem obs_of_form (data : Data N) (times : List ℝ) (dict : List (String × Observable)) (rs ep : Bool)
    (ent : Option (Entropies N)) (f : Form N) (hf : form data times rs = some f) (g : Observable → List (Entry ℂ))
    (hg : ∀ O, exptForm ep O.toHam times f = some (g O)) (hs : ∀ e, ent = some e → ∃ s, sentForm e times f = some s) :
    ∃ r, obsVsTime data times dict rs ent ep = some r ∧ r.values = dict.map (fun O => (O.1, g O.2)) ∧
      r.states = (if rs then some f else none) ∧ (∀ e, ent = some e → r.sent = sentForm e times f) := by
  have hm : (dict.mapM fun (e : String × Observable) => (exptForm ep e.2.toHam times f).map fun v => (e.1, v)) =
      some (dict.map fun O => (O.1, g O.2)) := mapM_total _ fun O _ => by rw [hg]; rfl
  cases ent with
  | none =>
    refine ⟨⟨_, _, none, dict.map fun (e : String × Observable) => (e.1, .ham e.2.toHam)⟩, ?_, rfl, rfl, by simp⟩
    rw [obsVsTime, hf, Option.bind_some, hm]; rfl
  | some e =>
    obtain ⟨s, hs⟩ := hs e rfl
    refine ⟨⟨_, _, some s, dict.map fun (e : String × Observable) => (e.1, .ham e.2.toHam)⟩, ?_, rfl, rfl, ?_⟩
    · rw [obsVsTime, hf, Option.bind_some, hm, Option.bind_some]
      simp only [hs]; rfl
    · intro e' he'
      cases he'
      exact hs.symm

theorem sent_genStates (e : Entropies N) {times : List ℝ} {l : List (Col N)} (h0 : l ≠ []) (h : l.length ≤ times.length) :
    sentForm e times (.genStates l) = some (.each (padded times.length ((times.zip l).map fun x => .num (e.pure x.2)))) := by
  rw [sentForm, loop_ok _ (fun _ v => Entry.num (e.pure v)) (fun _ _ => rfl) h0 h]; rfl

theorem sent_genMatrices (e : Entropies N) {c : ℕ} {times : List ℝ} {l : List (Matrix (Fin N) (Fin c) ℂ)} (h0 : l ≠ [])
    (h : l.length ≤ times.length) :
    sentForm e times (.genMatrices c l) = some (.each (padded times.length ((times.zip l).map fun x => entMatrix e x.2))) := by
  rw [sentForm, loop_ok _ (fun _ v => entMatrix e v) (fun _ _ => rfl) h0 h]; rfl

/-! ### C83: given states -/

/-- C83: an array whose columns are the states at the times. -/
theorem C83_columns (times : List ℝ) (l : List (Col N)) (hl : l.length = times.length) (dict : List (String × Observable))
    (rs ep : Bool) (ent : Option (Entropies N)) :
    ∃ r, obsVsTime (.columns l) times dict rs ent ep = some r ∧ r.values = pureValues N dict times l := by
  obtain ⟨r, h1, h2, -⟩ := obs_of_form (.columns l) times dict rs ep ent _ rfl _
    (fun O => expt_columns ep O.toHam hl) (fun e _ => ⟨_, rfl⟩)
  simp only [operatorAt_eq] at h2
  exact ⟨r, h1, h2⟩

/-- C83: an array with three axes whose slices are the density matrices at the times. -/
theorem C83_density (times : List ℝ) (l : List (Matrix (Fin N) (Fin N) ℂ)) (hl : l.length = times.length)
    (dict : List (String × Observable)) (rs ep : Bool) (ent : Option (Entropies N)) :
    ∃ r, obsVsTime (.cube N l) times dict rs ent ep = some r ∧ r.values = mixedValues N dict times l := by
  obtain ⟨r, h1, h2, -⟩ := obs_of_form (.cube N l) times dict rs ep ent _ rfl _
    (fun O => expt_cube ep O.toHam hl) (fun e _ => ⟨_, by rw [sentForm, dif_pos rfl]⟩)
  simp only [operatorAt_eq] at h2
  exact ⟨r, h1, h2⟩

/-- C83, part: a generator of states or density matrices gives the same values as the array.  Missing: one time with
`return_state=True` (`C83_fails_one_time`) and spaces of dimension one. -/
theorem C83_generator_partial (hN : N ≠ 1) (times : List ℝ) (dict : List (String × Observable)) (rs ep : Bool)
    (h2 : rs = true → 2 ≤ times.length) (ent : Option (Entropies N)) (ht : times ≠ []) :
    (∀ l : List (Col N), l.length = times.length →
      ∃ r, obsVsTime (.genStates l) times dict rs ent ep = some r ∧ r.values = pureValues N dict times l) ∧
    ∀ l : List (Matrix (Fin N) (Fin N) ℂ), l.length = times.length →
      ∃ r, obsVsTime (.genMatrices N l) times dict rs ent ep = some r ∧ r.values = mixedValues N dict times l := by
  have ht' : 0 < times.length := List.length_pos_iff.2 ht
  constructor
  · intro l hl
    have h0 : l ≠ [] := List.length_pos_iff.1 (by omega)
    cases rs with
    | false =>
      obtain ⟨r, h1, h2, -⟩ := obs_of_form (.genStates l) times dict false ep ent _ rfl _
        (fun O => expt_genStates hN ep O.toHam h0 hl.le) (fun e _ => ⟨_, sent_genStates e h0 hl.le⟩)
      simp only [operatorAt_eq] at h2
      exact ⟨r, h1, h2⟩
    | true =>
      have hf : form (.genStates l) times true = some (.columns l) := by
        have := h2 rfl
        match l, hl with
        | [], hl => simp at hl; omega
        | [v], hl => simp at hl; omega
        | a :: b :: l, _ => simp [form, stackStates, hN]
      obtain ⟨r, h1, h2, -⟩ := obs_of_form (.genStates l) times dict true ep ent _ hf _
        (fun O => expt_columns ep O.toHam hl) (fun e _ => ⟨_, rfl⟩)
      simp only [operatorAt_eq] at h2
      exact ⟨r, h1, h2⟩
  · intro l hl
    have h0 : l ≠ [] := List.length_pos_iff.1 (by omega)
    cases rs with
    | false =>
      obtain ⟨r, h1, h2, -⟩ := obs_of_form (.genMatrices N l) times dict false ep ent _ rfl _
        (fun O => expt_genMatrices hN ep O.toHam h0 hl.le) (fun e _ => ⟨_, sent_genMatrices e h0 hl.le⟩)
      simp only [operatorAt_eq] at h2
      exact ⟨r, h1, h2⟩
    | true =>
      have hf : form (.genMatrices N l) times true = some (.cube N l) := by
        have := h2 rfl
        match l, hl with
        | [], hl => simp at hl; omega
        | [v], hl => simp at hl; omega
        | a :: b :: l, _ => simp [form, stackMatrices, hN]
      obtain ⟨r, h1, h2, -⟩ := obs_of_form (.genMatrices N l) times dict true ep ent _ hf _
        (fun O => expt_cube ep O.toHam hl) (fun e _ => ⟨_, by rw [sentForm, dif_pos rfl]⟩)
      simp only [operatorAt_eq] at h2
      exact ⟨r, h1, h2⟩

/-! ### C83: exact evolution -/

theorem ofFn_get {S : Type} (times : List ℝ) (f : ℝ → S) :
    (List.ofFn fun i : Fin times.length => f (times.get i)) = times.map f :=
  List.ext_getElem (by simp) fun i h1 h2 => by simp

/-- C83: given the eigensystem of a Hermitian operator `H`, the values are those in the solution of the Schroedinger
equation that starts at `psi`, for every observable and time, whether or not the states are returned. -/
theorem C83_evolution (hN : N ≠ 1) {H V : Matrix (Fin N) (Fin N) ℂ} {E : Fin N → ℝ} (h : Eigensystem H E V) (psi : Fin N → ℂ) :
    ∃ ψ : ℝ → Col N, Solves (schroedinger fun _ => H) ψ ∧ (∀ i, ψ 0 i () = psi i) ∧
      ∀ (times : List ℝ), times ≠ [] → ∀ (dict : List (String × Observable)) (rs ep : Bool) (ent : Option (Entropies N)),
        ∃ r, obsVsTime (.eigenPure psi E V) times dict rs ent ep = some r ∧
          r.values = dict.map (fun O => (O.1, times.map fun t => .num (expectation (operatorAt N O.2 t) (ψ t) ()))) ∧
          (rs = true → r.states = some (.columns (times.map ψ))) := by
  obtain ⟨ψ, hs, h0, ha, hi⟩ := C56_pure hN h psi
  refine ⟨ψ, hs, h0, fun times ht dict rs ep ent => ?_⟩
  have hv : ∀ O : Observable, ((times.zip (times.map ψ)).map fun e => Entry.num (expectation (toMatrix N O.toHam e.1) e.2 ())) =
      times.map fun t => .num (expectation (operatorAt N O t) (ψ t) ()) := by
    intro O
    rw [List.zip_map_right, List.map_map]
    refine List.ext_getElem (by simp) fun i h1 h2 => ?_
    simp [operatorAt_eq]
  have h0' : times.map ψ ≠ [] := by simpa using ht
  cases rs with
  | false =>
    have hf : form (.eigenPure psi E V) times false = some (.genStates (times.map ψ)) := by
      simp only [form, Bool.false_eq_true, if_false, hi]
      exact congrArg (fun l => some (Form.genStates l)) ((List.map_map (l := times)).trans rfl)
    obtain ⟨r, h1, h2, -⟩ := obs_of_form (.eigenPure psi E V) times dict false ep ent _ hf _
      (fun O => expt_genStates hN ep O.toHam h0' (by simp)) (fun e _ => ⟨_, sent_genStates e h0' (by simp)⟩)
    simp only [hv] at h2
    exact ⟨r, h1, h2, by simp⟩
  | true =>
    have hf : form (.eigenPure psi E V) times true = some (.columns (times.map ψ)) := by
      simp only [form, if_true, ha]
      exact congrArg (fun l => some (Form.columns l)) (ofFn_get times ψ)
    obtain ⟨r, h1, h2, h3, -⟩ := obs_of_form (.eigenPure psi E V) times dict true ep ent _ hf _
      (fun O => expt_columns ep O.toHam (by simp)) (fun e _ => ⟨_, rfl⟩)
    simp only [hv] at h2
    exact ⟨r, h1, h2, fun _ => h3⟩

/-- C83: the same for density matrices and the von Neumann equation. -/
theorem C83_evolution_mixed (hN : N ≠ 1) {H V : Matrix (Fin N) (Fin N) ℂ} {E : Fin N → ℝ} (h : Eigensystem H E V)
    (rho : Matrix (Fin N) (Fin N) ℂ) :
    ∃ ρ : ℝ → Matrix (Fin N) (Fin N) ℂ, Solves (vonNeumann fun _ => H) ρ ∧ ρ 0 = rho ∧
      ∀ (times : List ℝ), times ≠ [] → ∀ (dict : List (String × Observable)) (rs ep : Bool) (ent : Option (Entropies N)),
        ∃ r, obsVsTime (.eigenMixed rho E V) times dict rs ent ep = some r ∧
          r.values = dict.map (fun O => (O.1, times.map fun t => .num (mixedExpectation (operatorAt N O.2 t) (ρ t)))) ∧
          (rs = true → r.states = some (.cube N (times.map ρ))) := by
  obtain ⟨ρ, hs, h0, ha, hi⟩ := C56_mixed hN h rho
  refine ⟨ρ, hs, h0, fun times ht dict rs ep ent => ?_⟩
  have hv : ∀ O : Observable, ((times.zip (times.map ρ)).map fun e => Entry.num (mixedExpectation (toMatrix N O.toHam e.1) e.2)) =
      times.map fun t => .num (mixedExpectation (operatorAt N O t) (ρ t)) := by
    intro O
    rw [List.zip_map_right, List.map_map]
    refine List.ext_getElem (by simp) fun i h1 h2 => ?_
    simp [operatorAt_eq]
  have h0' : times.map ρ ≠ [] := by simpa using ht
  cases rs with
  | false =>
    have hf : form (.eigenMixed rho E V) times false = some (.genMatrices N (times.map ρ)) := by
      simp only [form, Bool.false_eq_true, if_false, hi, Option.map_some]
    obtain ⟨r, h1, h2, -⟩ := obs_of_form (.eigenMixed rho E V) times dict false ep ent _ hf _
      (fun O => expt_genMatrices hN ep O.toHam h0' (by simp)) (fun e _ => ⟨_, sent_genMatrices e h0' (by simp)⟩)
    simp only [hv] at h2
    exact ⟨r, h1, h2, by simp⟩
  | true =>
    have hf : form (.eigenMixed rho E V) times true = some (.cube N (times.map ρ)) := by
      simp only [form, if_true, ha]
      exact congrArg (fun l => some (Form.cube N l)) (ofFn_get times ρ)
    obtain ⟨r, h1, h2, h3, -⟩ := obs_of_form (.eigenMixed rho E V) times dict true ep ent _ hf _
      (fun O => expt_cube ep O.toHam (by simp)) (fun e _ => ⟨_, by rw [sentForm, dif_pos rfl]⟩)
    simp only [hv] at h2
    exact ⟨r, h1, h2, fun _ => h3⟩

/-! ### C83: entropies -/

/-- C83, part: the entropies are those of the states.  An array must not have as many times as states in the basis (or
`enforce_pure` must be in `Sent_args`); `C83_fails_entropy` shows what happens otherwise.
Missing: several states for each time, and as many times as dimensions (`C83_fails_many_states`, `C83_fails_entropy`). -/
theorem C83_entropy_partial (hN : N ≠ 1) (times : List ℝ) (l : List (Col N)) (hl : l.length = times.length)
    (ht : 2 ≤ times.length) (dict : List (String × Observable)) (rs ep : Bool) (e : Entropies N) :
    (∃ r, obsVsTime (.genStates l) times dict false (some e) ep = some r ∧
      r.sent = some (.each (l.map fun v => .num (e.pure v)))) ∧
    (l.length ≠ N ∨ e.enforce = true → ∃ r, obsVsTime (.columns l) times dict rs (some e) ep = some r ∧
      r.sent = some (.array (.many (l.map e.pure)))) := by
  have h0 : l ≠ [] := List.length_pos_iff.1 (by omega)
  constructor
  · obtain ⟨r, h1, -, -, h2⟩ := obs_of_form (.genStates l) times dict false ep (some e) _ rfl _
      (fun O => expt_genStates hN ep O.toHam h0 hl.le) (fun e _ => ⟨_, sent_genStates e h0 hl.le⟩)
    refine ⟨r, h1, (h2 e rfl).trans ?_⟩
    rw [sent_genStates e h0 hl.le, padded]
    have : ((times.zip l).map fun x => Entry.num (e.pure x.2)) = l.map fun v => .num (e.pure v) :=
      List.ext_getElem (by simp [hl]) fun i h1 h2 => by simp
    rw [this, List.length_map, hl, Nat.sub_self, List.replicate_zero, List.append_nil]
  · intro hne
    obtain ⟨r, h1, -, -, h2⟩ := obs_of_form (.columns l) times dict rs ep (some e) _ rfl _
      (fun O => expt_columns ep O.toHam hl) (fun e _ => ⟨_, rfl⟩)
    refine ⟨r, h1, (h2 e rfl).trans ?_⟩
    have hm : (columnsOf (asMatrix l)).map e.pure = l.map e.pure := by
      have : columnsOf (asMatrix l) = List.ofFn fun j : Fin l.length => l.get j := rfl
      rw [this, List.ofFn_get]
    rw [sentForm, entMatrix, dif_neg (by
      rintro ⟨h, h'⟩
      rcases hne with hne | hne
      · exact hne h.symm
      · rw [hne] at h'; simp at h'), hm]
    match l, hl with
    | [], hl => simp at hl; omega
    | [v], hl => simp at hl; omega
    | a :: b :: l, _ => rfl

/-- C83 fails for the entropy of an array with as many times as the space has dimensions: the states at the different
times are taken for the columns of one density matrix, and one number is returned.  `enforce_pure=True` does not help,
because it is not handed on. -/
theorem C83_fails_entropy (times : List ℝ) (l : List (Col N)) (hl : l.length = times.length) (hN : times.length = N)
    (dict : List (String × Observable)) (rs : Bool) (e : Entropies N) (he : e.enforce = false) :
    ∃ r, obsVsTime (.columns l) times dict rs (some e) true = some r ∧
      r.sent = some (.array (.num (e.mixed fun i j => l.get (j.cast (hl.trans hN).symm) i ()))) := by
  obtain ⟨r, h1, -, -, h2⟩ := obs_of_form (.columns l) times dict rs true (some e) _ rfl _
    (fun O => expt_columns true O.toHam hl) (fun e _ => ⟨_, rfl⟩)
  refine ⟨r, h1, (h2 e rfl).trans ?_⟩
  rw [sentForm, entMatrix, dif_pos ⟨(hl.trans hN).symm, he⟩]
  rfl

/-! ### C83: failures -/

/-- C83 fails for one time: a generator together with `return_state=True` raises, because `squeeze` removes the axis of the
times. -/
theorem C83_fails_one_time (t : ℝ) (v : Col N) (O : String × Observable) (dict : List (String × Observable)) (ep : Bool)
    (ent : Option (Entropies N)) : obsVsTime (.genStates [v]) [t] (O :: dict) true ent ep = none := by
  by_cases hN : N = 1
  · simp [obsVsTime, form, stackStates, hN]
  · simp [obsVsTime, form, stackStates, hN, exptForm]

/-- The second of two orthogonal states in an array of two states. -/
def twoColumns : Matrix (Fin 2) (Fin 2) ℂ := !![0, 1; 1, 0]

/-- The operator `diag(1, 3)`. -/
def oneThree : Observable := .matrix (.dense fun i j => if i = j then 2 * i + 1 else 0)

/-- C83 fails for several pure states in the columns of an array with three axes: `enforce_pure=True`, documented for this
case, is ignored, and the array is taken for a density matrix.  For the states `(0,1)` and `(1,0)` and the operator
`diag(1,3)` the answer is 0 instead of 3 and 1.  If the array is not square the call raises. -/
theorem C83_fails_many_states (t : ℝ) :
    (∃ r, obsVsTime (.cube 2 [twoColumns]) [t] [("O", oneThree)] false none true = some r ∧
      r.values = [("O", [.num 0])]) ∧
    expectation (operatorAt 2 oneThree t) twoColumns 0 = 3 ∧ expectation (operatorAt 2 oneThree t) twoColumns 1 = 1 ∧
    ∀ (c : ℕ) (l : List (Matrix (Fin N) (Fin c) ℂ)) (times : List ℝ) (O : String × Observable) (rs ep : Bool), N ≠ c →
      obsVsTime (.cube c l) times [O] rs none ep = none := by
  refine ⟨?_, ?_, ?_, ?_⟩
  · obtain ⟨r, h1, h2⟩ := C83_density [t] [twoColumns] rfl [("O", oneThree)] false true none
    refine ⟨r, h1, h2.trans ?_⟩
    simp [mixedValues, mixedExpectation, operatorAt, oneThree, twoColumns, Stored.mat, Stored.entry, Fin.sum_univ_two]
  · simp [expectation, operatorAt, oneThree, twoColumns, Stored.mat, Stored.entry, Fin.sum_univ_two]
    norm_num
  · simp [expectation, operatorAt, oneThree, twoColumns, Stored.mat, Stored.entry, Fin.sum_univ_two]
  · intro c l times O rs ep h
    by_cases hl : l.length = times.length <;> simp [obsVsTime, form, exptForm, h, hl]

/-- C83 fails for a generator of several pure states in columns, if there are as many as the space has dimensions:
`enforce_pure=True` is not handed on, and each array is taken for a density matrix. -/
theorem C83_fails_generator (t : ℝ) :
    ∃ r, obsVsTime (.genMatrices 2 [twoColumns]) [t] [("O", oneThree)] false none true = some r ∧
      r.values = [("O", [.num 0])] := by
  obtain ⟨r, h1, h2⟩ := (C83_generator_partial (N := 2) (by omega) [t] [("O", oneThree)] false true (by simp) none
    (by simp)).2 [twoColumns] rfl
  refine ⟨r, h1, h2.trans ?_⟩
  simp [mixedValues, mixedExpectation, operatorAt, oneThree, twoColumns, Stored.mat, Stored.entry, Fin.sum_univ_two]

/-- C83 fails to leave its argument alone: after the call the matrices in the caller's dictionary have been replaced by
hamiltonians. -/
theorem C83_fails_mutation (t : ℝ) (v : Col 2) :
    ∃ r, obsVsTime (.columns [v]) [t] [("O", oneThree)] false none false = some r ∧
      r.dict = [("O", .ham oneThree.toHam)] ∧ r.dict ≠ [("O", oneThree)] := by
  obtain ⟨r, h1, -⟩ := C83_columns [t] [v] rfl [("O", oneThree)] false false none
  have hd : r.dict = [("O", .ham oneThree.toHam)] := by
    simp only [obsVsTime, form, Option.bind_some, Option.bind_eq_some_iff, Option.map_some, Option.some.injEq] at h1
    obtain ⟨a, -, rfl⟩ := h1
    rfl
  refine ⟨r, h1, hd, ?_⟩
  rw [hd]
  intro h
  simp [oneThree] at h

/-- The first of two states. -/
def firstState : Col 2 := fun i _ => if i = 0 then 1 else 0

/-- The second of two states. -/
def secondState : Col 2 := fun i _ => if i = 1 then 1 else 0

/-- A matrix and a driven operator. -/
def sampleDict : List (String × Observable) :=
  [("n", oneThree), ("driven", .ham ⟨.dense fun _ _ => 0, [(fun t => t, .dense fun i j => if i = j then i else 0)]⟩)]

/-- Two observables and two times. -/
example : ∃ r, obsVsTime (.genStates [firstState, secondState]) [0, 2] sampleDict true none false = some r ∧
    r.values = [("n", [.num 1, .num 3]), ("driven", [.num 0, .num 2])] := by
  obtain ⟨r, h1, h2⟩ := (C83_generator_partial (N := 2) (by omega) [0, 2] sampleDict true false
    (by simp) none (by simp)).1 [firstState, secondState] rfl
  refine ⟨r, h1, h2.trans ?_⟩
  simp [pureValues, sampleDict, firstState, secondState, expectation, operatorAt, oneThree, toMatrix, Stored.mat, Stored.entry,
    Fin.sum_univ_two]
  norm_num

end Props
