import Verif.Proof.BlockOps
import Mathlib.Tactic.FinCases

/-!
C88: `block_ops` computes the motion of a state of the full space in symmetry blocks, whatever was called before.
-/

namespace Props
open Model.BlockOps Model.BlockDiag Spec.BlockOps Proof.BlockOps

variable {N : ℕ}

/-- The part of a state in the blocks of the object. -/
noncomputable def partIn (d : List (Block × Basis N)) (ψ : Fin N → ℂ) : Fin N → ℂ :=
  (d.map fun e => e.2.proj.mulVec (e.2.proj.conjTranspose.mulVec ψ)).sum

/-- `hamiltonian.evolve` solves the Schrödinger equation in the blocks of the object. -/
def SolvesBlocks (solve : (ℝ → SqMat ℂ) → Vec → ℝ → List ℝ → List Vec) (d : List (Block × Basis N)) (t0 : ℝ) (times : List ℝ) : Prop :=
  ∀ e ∈ d, ∀ v : Fin e.2.dim → ℂ, ∃ φ : ℝ → Fin e.2.dim → ℂ, Moves e.2.ham φ ∧ φ t0 = v ∧
    solve (fun t => ofMat (e.2.ham t)) (vecOf v) t0 times = times.map fun t => vecOf (φ t)

theorem evolve_pieces {x : Obj N} (tol : ℝ) (solve) (ψ : Fin N → ℂ) (t0 : ℝ) (times : List ℝ) (H : ℝ → Matrix (Fin N) (Fin N) ℂ)
    (hb : ∀ e ∈ x.dict, Invariant H e.2.proj e.2.ham) (hs : SolvesBlocks solve x.dict t0 times) :
    ∃ φ, Moves H φ ∧ φ t0 = partIn (pieces tol ψ x.dict) ψ ∧
      evolveBlocks solve t0 times false ((pieces tol ψ x.dict).map fun e =>
        (colsOf e.2.proj, (fun t => ofMat (e.2.ham t)), project (colsOf e.2.proj) ψ)) =
        if pieces tol ψ x.dict = [] then none else some (times.map φ) := by
  classical
  have hsub : ∀ e ∈ pieces tol ψ x.dict, e ∈ x.dict := fun e he => (List.mem_filter.mp he).1
  have hex : ∀ e : Block × Basis N, ∃ φ : ℝ → Fin e.2.dim → ℂ, e ∈ x.dict → (Moves e.2.ham φ ∧ φ t0 = e.2.proj.conjTranspose.mulVec ψ ∧
      solve (fun t => ofMat (e.2.ham t)) (vecOf (e.2.proj.conjTranspose.mulVec ψ)) t0 times = times.map fun t => vecOf (φ t)) := by
    intro e
    by_cases he : e ∈ x.dict
    · obtain ⟨φ, h⟩ := hs e he (e.2.proj.conjTranspose.mulVec ψ)
      exact ⟨φ, fun _ => h⟩
    · exact ⟨fun _ _ => 0, fun h => absurd h he⟩
  choose φ hφ using hex
  refine ⟨fun t => ((pieces tol ψ x.dict).map fun e => e.2.proj.mulVec (φ e t)).sum,
    moves_sum H _ (fun e he => hb e (hsub e he)) φ (fun e he => (hφ e (hsub e he)).1), ?_, ?_⟩
  · refine congrArg List.sum (List.map_congr_left fun e he => ?_)
    rw [(hφ e (hsub e he)).2.1]
  · by_cases hp : pieces tol ψ x.dict = []
    · simp [evolveBlocks, hp]
    · simp only [evolveBlocks, List.map_eq_nil_iff, hp, if_false, Bool.false_eq_true, List.map_map, Function.comp_def]
      rw [columns_dot times (pieces tol ψ x.dict) hp (fun e => colsOf e.2.proj) _ (fun e t => e.2.proj.mulVec (φ e t))]
      intro e he
      rw [project_vecOf, (hφ e (hsub e he)).2.2, List.forall₂_map_right_iff]
      exact List.forall₂_same.mpr fun t _ => ⟨rfl, pair_vecOf _ _⟩

/-- **C88 (evolve).**  Whatever was called before, the states `evolve` returns are those of a motion `φ` in the full space
under `H`, which starts from the part of the given state in the blocks of the object; only parts shorter than the
tolerance may be missing.  Assumed are that `H` leaves the blocks invariant and that `hamiltonian.evolve` solves the
equation in them.  (Partial: `block_diag=True` fails, see `C88_fails_block_diag`; blocks listed twice count twice, see below.) -/
theorem C88_evolve_partial (con : Block → Option (Basis N)) (blocks : List Block) (kwargs : Block) (save compute check : Bool) (x : Obj N) (d : List Block)
    (hx : init con blocks kwargs save compute check = some (x, d)) (p : List (Op N)) (tol : ℝ) (ht : 0 ≤ tol) (solve) (ψ : Fin N → ℂ) (t0 : ℝ)
    (times : List ℝ) (H : ℝ → Matrix (Fin N) (Fin N) ℂ) (hb : ∀ e ∈ (run x p).dict, Invariant H e.2.proj e.2.ham)
    (hs : SolvesBlocks solve (run x p).dict t0 times) (out : List (Fin N → ℂ))
    (ho : (evolve tol solve ψ t0 times false (run x p)).2 = some out) :
    ∃ φ, Moves H φ ∧ out = times.map φ ∧ size (φ t0 - partIn (run x p).dict ψ) ≤ (run x p).dict.length * tol := by
  have hS := run_sound (init_sound hx) p
  obtain ⟨φ, h1, h2, h3⟩ := evolve_pieces tol solve ψ t0 times H hb hs
  refine ⟨φ, h1, ?_, ?_⟩
  · simp only [evolve, Option.bind_eq_some_iff] at ho
    obtain ⟨r, hr, ho⟩ := ho
    rw [(gather_sound tol ψ _ _ hS fun e he => he).2.2.1 r hr, h3] at ho
    split at ho
    · simp at ho
    · exact (Option.some.inj ho).symm
  · rw [h2]
    exact dropped tol ht ψ _ fun e he => (hb e he).1

/-- **C88 (distance).**  For Hermitian `H` and blocks that make up the full space, the states are within the tolerance per
block of the motion from the given state, at every time.
Missing: `block_diag=True`, which never works (`C88_fails_block_diag`), and blocks that are counted twice (`C88_fails_order`, `C88_fails_update`). -/
theorem C88_distance_partial (con : Block → Option (Basis N)) (blocks : List Block) (kwargs : Block) (save compute check : Bool) (x : Obj N) (d : List Block)
    (hx : init con blocks kwargs save compute check = some (x, d)) (p : List (Op N)) (tol : ℝ) (ht : 0 ≤ tol) (solve) (ψ : Fin N → ℂ) (t0 : ℝ)
    (times : List ℝ) (H : ℝ → Matrix (Fin N) (Fin N) ℂ) (hH : ∀ t, (H t).IsHermitian) (hb : ∀ e ∈ (run x p).dict, Invariant H e.2.proj e.2.ham)
    (hc : partIn (run x p).dict ψ = ψ) (hs : SolvesBlocks solve (run x p).dict t0 times) (out : List (Fin N → ℂ))
    (ho : (evolve tol solve ψ t0 times false (run x p)).2 = some out) (χ : ℝ → Fin N → ℂ) (hχ : Moves H χ) (h0 : χ t0 = ψ) :
    List.Forall₂ (fun t v => size (v - χ t) ≤ (run x p).dict.length * tol) times out := by
  obtain ⟨φ, h1, rfl, h2⟩ := C88_evolve_partial con blocks kwargs save compute check x d hx p tol ht solve ψ t0 times H hb hs out ho
  rw [List.forall₂_map_right_iff]
  refine List.forall₂_same.mpr fun t _ => ?_
  rw [moves_distance H hH φ χ h1 hχ t t0, h0]
  rwa [hc] at h2

/-- **C88 (outcome).**  `evolve` returns states, unless the first hamiltonian does not pass its checks, if the state has a
part in some block. -/
theorem C88_outcome (con : Block → Option (Basis N)) (blocks : List Block) (kwargs : Block) (save compute check : Bool) (x : Obj N) (d : List Block)
    (hx : init con blocks kwargs save compute check = some (x, d)) (p : List (Op N)) (tol : ℝ) (solve) (ψ : Fin N → ℂ) (t0 : ℝ)
    (times : List ℝ) (H : ℝ → Matrix (Fin N) (Fin N) ℂ) (hb : ∀ e ∈ (run x p).dict, Invariant H e.2.proj e.2.ham)
    (hs : SolvesBlocks solve (run x p).dict t0 times) (hv : ∀ e ∈ (run x p).dict, e.2.valid = true) :
    (evolve tol solve ψ t0 times false (run x p)).2.isSome ↔ ∃ e ∈ (run x p).dict, tol < size (e.2.proj.conjTranspose.mulVec ψ) := by
  classical
  have hS := run_sound (init_sound hx) p
  obtain ⟨φ, h1, h2, h3⟩ := evolve_pieces tol solve ψ t0 times H hb hs
  obtain ⟨-, -, g3, g4⟩ := gather_sound tol ψ _ _ hS fun e he => he
  have hsome : ∃ r, (gather tol ψ (run x p).dict (run x p)).2 = some r := by
    cases hg : (gather tol ψ (run x p).dict (run x p)).2 with
    | some r => exact ⟨r, rfl⟩
    | none =>
      obtain ⟨-, -, e, he, hf⟩ := g4 hg
      rw [hv e he] at hf
      simp at hf
  obtain ⟨r, hr⟩ := hsome
  have hne : pieces tol ψ (run x p).dict = [] ↔ ¬ ∃ e ∈ (run x p).dict, tol < size (e.2.proj.conjTranspose.mulVec ψ) := by
    simp only [pieces, List.filter_eq_nil_iff, decide_eq_true_eq, project_vecOf, norm_vecOf]
    push Not
    rfl
  simp only [evolve, hr, Option.bind_some]
  rw [g3 r hr, h3]
  by_cases hp : pieces tol ψ (run x p).dict = []
  · simp only [hp, if_true, Option.isSome_none, Bool.false_eq_true, false_iff]
    exact hne.mp hp
  · simp only [hp, if_false, Option.isSome_some, true_iff]
    by_contra hc
    exact hp (hne.mpr hc)

/-- The factors of the time a call of `expm` asks for. -/
noncomputable def moments (g : Grid) : List ℝ :=
  match g.start, g.stop with
  | some a, some b => points a b (g.num.getD 50) (g.endpoint.getD true)
  | _, _ => [1]

/-- **C88 (expm).**  Whatever was called before, for every number of jobs, with blocks joined or not, one by one or at once,
the states `expm` returns are `exp(t a (H + shift)) φ` at the moments asked for, where `φ` is the part of the given state
in the blocks of the object; only parts shorter than the tolerance may be missing. -/
theorem C88_expm_partial (con : Block → Option (Basis N)) (blocks : List Block) (kwargs : Block) (save compute check : Bool) (x : Obj N) (d : List Block)
    (hx : init con blocks kwargs save compute check = some (x, d)) (p : List (Op N)) (tol : ℝ) (ht : 0 ≤ tol) (old : Bool) (ψ : Fin N → ℂ) (time : ℝ)
    (iterate : Bool) (nJobs : ℕ) (blockDiag : Bool) (a : ℂ) (grid : Grid) (shift : Option ℂ) (H : ℝ → Matrix (Fin N) (Fin N) ℂ)
    (hb : ∀ e ∈ (run x p).dict, Invariant H e.2.proj e.2.ham) (out : List (Fin N → ℂ))
    (ho : (expm tol old ψ time iterate nJobs blockDiag a grid shift (run x p)).2 = some out) :
    ∃ φ, size (φ - partIn (run x p).dict ψ) ≤ (run x p).dict.length * tol ∧
      out = (moments grid).map fun (t : ℝ) => (NormedSpace.exp ((t : ℂ) • (a • (H time + shift.getD 0 • (1 : Matrix (Fin N) (Fin N) ℂ))))).mulVec φ := by
  have hS := run_sound (init_sound hx) p
  refine ⟨partIn (pieces tol ψ (run x p).dict) ψ, dropped tol ht ψ _ fun e he => (hb e he).1, ?_⟩
  have hsub : ∀ e ∈ pieces tol ψ (run x p).dict, e ∈ (run x p).dict := fun e he => (List.mem_filter.mp he).1
  unfold expm at ho
  split at ho
  · simp at ho
  · rename_i g hg
    simp only [Option.bind_eq_some_iff] at ho
    obtain ⟨r, hr, ho⟩ := ho
    rw [(gather_sound tol ψ _ _ hS fun e he => he).2.2.1 r hr] at ho
    have key := expmBlocks_dot (A := a • (H time + shift.getD 0 • 1)) (pieces tol ψ (run x p).dict) (fun e => colsOf e.2.proj)
      (fun e t => ofMat (e.2.ham t)) (fun e => project (colsOf e.2.proj) ψ) nJobs blockDiag (iterate || old) a time shift g
      (fun e he => fits_generator (hb e (hsub e he)) time a shift) (fun e he => rfl) out ho
    have hm : moments grid = times g := by
      unfold Grid.check at hg
      unfold moments
      split at hg
      · rename_i h1 h2
        rw [h1, h2]
        split at hg
        · simp at hg
        · split at hg
          · obtain rfl := Option.some.inj hg
            rfl
          · simp at hg
      · rename_i u v h1 h2
        rw [h1, h2]
        obtain rfl := Option.some.inj hg
        rfl
      · simp at hg
    rw [hm, key]
    have hpart : ((pieces tol ψ (run x p).dict).map fun e => pair (colsOf e.2.proj) (project (colsOf e.2.proj) ψ)).sum =
        partIn (pieces tol ψ (run x p).dict) ψ :=
      congrArg List.sum (List.map_congr_left fun e _ => by rw [project_vecOf, pair_vecOf])
    rw [hpart]

/-- **C88 (blocks).**  The constructor keeps the non-empty bases of the blocks in their order if the dictionaries differ
after `basis_kwargs` is added to them. -/
theorem C88_blocks (con : Block → Option (Basis N)) (blocks : List Block) (kwargs : Block) (save compute check : Bool) (x : Obj N) (d : List Block)
    (hx : init con blocks kwargs save compute check = some (x, d)) (hd : (blocks.map fun b => update b kwargs).Nodup) :
    ∃ bs : List (Basis N), blocks.mapM (fun b => con (update b kwargs)) = some bs ∧
      x.dict = ((blocks.map fun b => update b kwargs).zip bs).filter fun e => decide (0 < e.2.dim) := by
  have loop : ∀ (l : List Block) (d0 : List (Block × Basis N)) (r), initLoop con kwargs l d0 = some r →
      (l.map fun b => update b kwargs).Nodup → (∀ b ∈ l, update b kwargs ∉ d0.map Prod.fst) →
      ∃ bs : List (Basis N), l.mapM (fun b => con (update b kwargs)) = some bs ∧
        r.1 = d0 ++ ((l.map fun b => update b kwargs).zip bs).filter fun e => decide (0 < e.2.dim) := by
    intro l
    induction l with
    | nil =>
      intro d0 r h _ _
      simp only [initLoop, Option.some.injEq] at h
      subst h
      exact ⟨[], rfl, by simp⟩
    | cons a l ih =>
      intro d0 r h hn hk
      simp only [initLoop, Option.bind_eq_some_iff, Option.map_eq_some_iff] at h
      obtain ⟨b, hb, r', hr, rfl⟩ := h
      simp only [List.map_cons, List.nodup_cons] at hn
      obtain ⟨bs, h1, h2⟩ := ih _ r' hr hn.2 (fun c hc => by
        split
        · rw [store_new _ _ _ (hk a (by simp)), List.map_append, List.mem_append, not_or]
          refine ⟨hk c (by simp [hc]), ?_⟩
          simp only [List.map_cons, List.map_nil, List.mem_singleton]
          intro e
          exact hn.1 (e ▸ List.mem_map_of_mem (f := fun b => update b kwargs) hc)
        · exact hk c (by simp [hc]))
      refine ⟨b :: bs, by rw [List.mapM_cons, hb, h1]; rfl, ?_⟩
      simp only [h2, List.map_cons, List.zip_cons_cons, List.filter_cons]
      by_cases hp : 0 < b.dim
      · simp only [hp, if_true, decide_true]
        rw [store_new _ _ _ (hk a (by simp)), List.append_assoc]
        rfl
      · simp [hp]
  simp only [init, Option.bind_eq_some_iff] at hx
  obtain ⟨r, hr, hx⟩ := hx
  obtain ⟨bs, h1, h2⟩ := loop blocks [] r hr hd (by simp)
  refine ⟨bs, h1, ?_⟩
  rw [List.nil_append] at h2
  rw [← h2]
  split at hx
  · split at hx
    · obtain ⟨n1, n2⟩ := initLoop_nodup con kwargs blocks [] r hr (by simp) (by simp)
      have h0 : Sound (N := N) ⟨r.1, fun _ => none, fun _ => none, save || compute, check, false⟩ := ⟨n1, by simp, by simp, n2⟩
      have := (computeLoop_sound r.1 _ h0 (fun e he => he)).2
      have e := (Prod.ext_iff.mp (Option.some.inj hx)).1
      simp only at e
      rw [← e]
      exact this
    · simp at hx
  · have e := (Prod.ext_iff.mp (Option.some.inj hx)).1
    simp only at e
    rw [← e]

/-! ### A single spin -/

/-- The state with the number `i`. -/
def unitVec (i : Fin 2) : Fin 2 → ℂ := fun j => if j = i then 1 else 0

/-- The same as a matrix with one column. -/
def unitCol (i : Fin 2) : Matrix (Fin 2) (Fin 1) ℂ := Matrix.of fun j _ => unitVec i j

theorem unitCol_mulVec (i : Fin 2) (v : Fin 1 → ℂ) (j : Fin 2) : (unitCol i).mulVec v j = unitVec i j * v 0 := by
  simp [Matrix.mulVec, dotProduct, unitCol]

theorem unitCol_conj (i : Fin 2) (ψ : Fin 2 → ℂ) (j : Fin 1) : (unitCol i).conjTranspose.mulVec ψ j = ψ i := by
  simp [Matrix.mulVec, dotProduct, unitCol, unitVec, Matrix.conjTranspose_apply]

theorem unitCol_unit (i : Fin 2) : (unitCol i).conjTranspose * unitCol i = 1 := by
  ext a b
  fin_cases a; fin_cases b
  fin_cases i <;> simp [Matrix.mul_apply, unitCol, unitVec, Matrix.conjTranspose_apply]

/-- `spin_basis_1d(1, **block)`: two states with the energies 0 and 1, one of them if `Nup` is given. -/
noncomputable def oneSpin (b : Block) : Option (Basis 2) :=
  match b.lookup "Nup" with
  | none => some ⟨2, 1, fun _ => !![0, 0; 0, 1], true⟩
  | some n => some (if n = 0 then ⟨1, unitCol 0, fun _ => 0, true⟩ else if n = 1 then ⟨1, unitCol 1, fun _ => 1, true⟩
      else ⟨0, 0, 0, true⟩)

/-- The hamiltonian of the spin. -/
def spinEnergy (_ : ℝ) : Matrix (Fin 2) (Fin 2) ℂ := !![0, 0; 0, 1]

theorem oneSpin_invariant (b : Block) (B : Basis 2) (h : oneSpin b = some B) : Invariant spinEnergy B.proj B.ham := by
  unfold oneSpin at h
  split at h
  · obtain rfl := Option.some.inj h
    exact ⟨by simp, fun t => by simp [spinEnergy]⟩
  · have h' := (Option.some.inj h).symm
    split_ifs at h' <;> subst h'
    · refine ⟨unitCol_unit 0, fun t => ?_⟩
      ext i j; fin_cases i <;> fin_cases j <;> simp [Matrix.mul_apply, unitCol, unitVec, spinEnergy]
    · refine ⟨unitCol_unit 1, fun t => ?_⟩
      ext i j; fin_cases i <;> fin_cases j <;> simp [Matrix.mul_apply, unitCol, unitVec, spinEnergy]
    · refine ⟨?_, fun t => ?_⟩
      · ext i j; exact i.elim0
      · ext i j; exact j.elim0

/-- The solution for a diagonal hamiltonian that does not depend on time. -/
noncomputable def diagSolve (h : ℝ → SqMat ℂ) (v : Vec) (t0 : ℝ) (times : List ℝ) : List Vec :=
  times.map fun t => ⟨v.dim, fun i => Complex.exp (-Complex.I * (h t0).val i i * ((t - t0 : ℝ) : ℂ)) * v.val i⟩

theorem diag_solves (d : ℕ) (E : Fin d → ℂ) (v : Fin d → ℂ) (t0 : ℝ) (times : List ℝ) :
    ∃ φ : ℝ → Fin d → ℂ, Moves (fun _ => Matrix.diagonal E) φ ∧ φ t0 = v ∧
      diagSolve (fun _ => ofMat (Matrix.diagonal E)) (vecOf v) t0 times = times.map fun t => vecOf (φ t) := by
  refine ⟨fun t i => Complex.exp (-Complex.I * E i * ((t - t0 : ℝ) : ℂ)) * v i, fun t i => ?_, by funext i; simp, ?_⟩
  · have h1 : HasDerivAt (fun s : ℝ => -Complex.I * E i * ((s - t0 : ℝ) : ℂ)) (-Complex.I * E i) t := by
      have := (((hasDerivAt_id t).sub_const t0).ofReal_comp).const_mul (-Complex.I * E i)
      simpa using this
    refine (h1.cexp.mul_const (v i)).congr_deriv ?_
    simp only [Matrix.diagonal_apply, ite_mul, zero_mul, Finset.sum_ite_eq, Finset.mem_univ, if_true]
    ring
  · refine List.map_congr_left fun t _ => ?_
    simp only [vecOf, ofMat]
    congr 1
    funext i
    by_cases hi : i < d
    · simp [hi]
    · simp [hi]

theorem oneSpin_solves (b : Block) (B : Basis 2) (h : oneSpin b = some B) (v : Fin B.dim → ℂ) (t0 : ℝ) (times : List ℝ) :
    ∃ φ : ℝ → Fin B.dim → ℂ, Moves B.ham φ ∧ φ t0 = v ∧ diagSolve (fun t => ofMat (B.ham t)) (vecOf v) t0 times = times.map fun t => vecOf (φ t) := by
  have : ∃ E : Fin B.dim → ℂ, B.ham = fun _ => Matrix.diagonal E := by
    unfold oneSpin at h
    split at h
    · obtain rfl := Option.some.inj h
      refine ⟨![0, 1], ?_⟩
      funext t
      ext i j
      fin_cases i <;> fin_cases j <;> simp
    · have h' := (Option.some.inj h).symm
      split_ifs at h' <;> subst h'
      · refine ⟨fun _ => 0, ?_⟩
        funext t
        ext i j
        fin_cases i; fin_cases j; simp
      · refine ⟨fun _ => 1, ?_⟩
        funext t
        ext i j
        fin_cases i; fin_cases j; simp
      · exact ⟨fun _ => 0, by funext t; ext i j; exact i.elim0⟩
  obtain ⟨E, hE⟩ := this
  rw [hE]
  exact diag_solves _ E v t0 times

/-- The object with the blocks `Nup=0` and `Nup=1`. -/
noncomputable def spinBlocks : Option (Obj 2 × List Block) := init oneSpin [[("Nup", 0)], [("Nup", 1)]] [] true false true

theorem spinBlocks_some : ∃ x, spinBlocks = some (x, [[("Nup", 0)], [("Nup", 1)]]) ∧
    x.dict = [([("Nup", 0)], ⟨1, unitCol 0, fun _ => 0, true⟩), ([("Nup", 1)], ⟨1, unitCol 1, fun _ => 1, true⟩)] := by
  refine ⟨_, rfl, ?_⟩
  rfl

/-- The hypotheses of `C88_evolve_partial`, `C88_distance_partial` and `C88_outcome` are met for every state of the spin. -/
example (ψ : Fin 2 → ℂ) (t0 : ℝ) (times : List ℝ) : ∃ x d, spinBlocks = some (x, d) ∧ (∀ e ∈ x.dict, Invariant spinEnergy e.2.proj e.2.ham) ∧
    SolvesBlocks diagSolve x.dict t0 times ∧ partIn x.dict ψ = ψ ∧ (∀ e ∈ x.dict, e.2.valid = true) ∧ (∀ t, (spinEnergy t).IsHermitian) := by
  obtain ⟨x, hx, hd⟩ := spinBlocks_some
  refine ⟨x, _, hx, ?_, ?_, ?_, ?_, ?_⟩
  · rw [hd]
    intro e he
    simp only [List.mem_cons, List.not_mem_nil, or_false] at he
    rcases he with rfl | rfl
    · exact oneSpin_invariant [("Nup", 0)] _ rfl
    · exact oneSpin_invariant [("Nup", 1)] _ rfl
  · rw [hd]
    intro e he
    simp only [List.mem_cons, List.not_mem_nil, or_false] at he
    rcases he with rfl | rfl
    · exact fun v => oneSpin_solves [("Nup", 0)] _ rfl v t0 times
    · exact fun v => oneSpin_solves [("Nup", 1)] _ rfl v t0 times
  · rw [hd]
    funext i
    simp only [partIn, List.map_cons, List.map_nil, List.sum_cons, List.sum_nil, add_zero, Pi.add_apply, unitCol_mulVec, unitCol_conj]
    fin_cases i <;> simp [unitVec]
  · rw [hd]
    simp
  · intro t
    ext i j
    fin_cases i <;> fin_cases j <;> simp [spinEnergy]

/-! ### What fails -/

/-- `evolve` with the documented `block_diag=True` never returns states: line 599 uses the name `psi_list_prime`, which is
not defined (line 596 defines `psi_blocks_prime`). -/
theorem C88_fails_block_diag (tol : ℝ) (solve) (ψ : Fin N → ℂ) (t0 : ℝ) (times : List ℝ) (x : Obj N) :
    (evolve tol solve ψ t0 times true x).2 = none := by
  simp only [evolve, Option.bind_eq_none_iff]
  intro r _
  simp [evolveBlocks]

/-- `expm` with `block_diag=True` raises an exception (`hstack` of an empty list, line 756) if more jobs are asked for than
there are blocks with a part of the state. -/
theorem C88_fails_jobs (nJobs : ℕ) (steps : Bool) (a : ℂ) (time : ℝ) (shift : Option ℂ) (grid : Option (ℝ × ℝ × ℕ × Bool))
    (l : List (Cols N × (ℝ → SqMat ℂ) × Vec)) (h : l.length < nJobs) : expmBlocks nJobs true steps a time shift grid l = none := by
  unfold expmBlocks
  split
  · rfl
  · rename_i hl
    simp only [if_true, Option.bind_eq_none_iff]
    intro hs hg
    exfalso
    simp only [group, if_neg (show nJobs ≠ 0 by omega)] at hg
    obtain ⟨-, hne⟩ := mapM_ite (fun g => g = []) (fun g : List (SqMat ℂ × Vec) => (blockDiag (g.map Prod.fst), hstackV (g.map Prod.snd))) _ _ hg
    have hlen : 0 < l.length := List.length_pos_iff.mpr hl
    refine hne [] ?_ rfl
    rw [List.length_map, Nat.div_eq_of_lt h, Nat.mod_eq_of_lt h]
    simp only [Model.Blocks.subLists, List.mem_cons, List.mem_map, List.mem_range]
    refine Or.inr ⟨0, by omega, ?_⟩
    simp [Model.Blocks.slice]

/-- A state with both spins of the blocks counted twice: what `evolve` returns for `n` copies of the block of the state. -/
theorem twice (d : List (Block × Basis 2)) (hd : (d.map fun e => e.2.proj.mulVec (e.2.proj.conjTranspose.mulVec (unitVec 0))) = [unitVec 0, unitVec 0]) :
    partIn d (unitVec 0) = fun j => 2 * unitVec 0 j := by
  rw [partIn, hd]
  funext j
  simp only [List.sum_cons, List.sum_nil, add_zero, Pi.add_apply]
  ring

theorem unit0_proj : (unitCol 0).mulVec ((unitCol 0).conjTranspose.mulVec (unitVec 0)) = unitVec 0 := by
  funext i
  rw [unitCol_mulVec, unitCol_conj]
  simp [unitVec]

/-- What `evolve` returns from the tolerance zero, in terms of the part in the blocks. -/
theorem evolve_start {x : Obj 2} (hx : Sound x) (hb : ∀ e ∈ x.dict, ∃ b, oneSpin b = some e.2) (hv : ∀ e ∈ x.dict, e.2.valid = true)
    (hp : pieces 0 (unitVec 0) x.dict = x.dict) (hne : x.dict ≠ []) (t0 : ℝ) :
    (evolve 0 diagSolve (unitVec 0) t0 [t0] false x).2 = some [partIn x.dict (unitVec 0)] := by
  obtain ⟨φ, -, h2, h3⟩ := evolve_pieces (x := x) 0 diagSolve (unitVec 0) t0 [t0] spinEnergy
    (fun e he => by obtain ⟨b, h⟩ := hb e he; exact oneSpin_invariant b _ h)
    (fun e he v => by obtain ⟨b, h⟩ := hb e he; exact oneSpin_solves b _ h v t0 [t0])
  obtain ⟨-, -, g3, g4⟩ := gather_sound 0 (unitVec 0) _ _ hx fun e he => he
  rw [hp] at h2 h3
  simp only [if_neg hne, List.map_cons, List.map_nil, h2] at h3
  cases hg : (gather 0 (unitVec 0) x.dict x).2 with
  | none =>
    obtain ⟨-, -, e, he, hf⟩ := g4 hg
    rw [hv e he] at hf
    simp at hf
  | some r =>
    simp only [evolve, hg, Option.bind_some]
    rw [g3 r hg, hp, h3]

/-- A block given twice with its keywords in another order is kept twice (`str(block)` differs, lines 364 and 435), and the
state is returned twice as long already at the initial time. -/
theorem C88_fails_order : ∃ x d, init oneSpin [[("Nup", 0), ("pblock", 1)], [("pblock", 1), ("Nup", 0)]] [] true false true = some (x, d) ∧
    (evolve 0 diagSolve (unitVec 0) 0 [0] false x).2 = some [fun j => 2 * unitVec 0 j] := by
  have hi : init oneSpin [[("Nup", 0), ("pblock", 1)], [("pblock", 1), ("Nup", 0)]] [] true false true = some (_, _) := rfl
  refine ⟨_, _, hi, ?_⟩
  have hS := init_sound hi
  rw [evolve_start hS ?_ ?_ ?_ ?_ 0]
  · refine congrArg (fun v => some [v]) (twice _ ?_)
    show [_, _] = _
    rw [List.cons.injEq, List.cons.injEq]
    exact ⟨unit0_proj, unit0_proj, rfl⟩
  · intro e he
    have he' : e ∈ [(([("Nup", 0), ("pblock", 1)] : Block), (⟨1, unitCol 0, fun _ => 0, true⟩ : Basis 2)),
      ([("pblock", 1), ("Nup", 0)], ⟨1, unitCol 0, fun _ => 0, true⟩)] := he
    simp only [List.mem_cons, List.not_mem_nil, or_false] at he'
    rcases he' with rfl | rfl
    · exact ⟨[("Nup", 0)], rfl⟩
    · exact ⟨[("Nup", 0)], rfl⟩
  · intro e he
    have he' : e ∈ [(([("Nup", 0), ("pblock", 1)] : Block), (⟨1, unitCol 0, fun _ => 0, true⟩ : Basis 2)),
      ([("pblock", 1), ("Nup", 0)], ⟨1, unitCol 0, fun _ => 0, true⟩)] := he
    simp only [List.mem_cons, List.not_mem_nil, or_false] at he'
    rcases he' with rfl | rfl <;> rfl
  · refine List.filter_eq_self.mpr fun e he => ?_
    have he' : e ∈ [(([("Nup", 0), ("pblock", 1)] : Block), (⟨1, unitCol 0, fun _ => 0, true⟩ : Basis 2)),
      ([("pblock", 1), ("Nup", 0)], ⟨1, unitCol 0, fun _ => 0, true⟩)] := he
    simp only [List.mem_cons, List.not_mem_nil, or_false] at he'
    rcases he' with rfl | rfl <;>
    · rw [decide_eq_true_eq, project_vecOf, norm_vecOf]
      simp [size, unitCol_conj, unitVec]
  · exact fun h => absurd (congrArg List.length h : (2 : ℕ) = 0) (by decide)

/-- `update_blocks` does not add the `basis_kwargs` of the constructor to the blocks (lines 434-437): the same block is then
taken from the larger space, both are kept and the state is returned twice as long. -/
theorem C88_fails_update : ∃ x d, init oneSpin [[("pblock", 1)]] [("Nup", 0)] true false true = some (x, d) ∧
    (evolve 0 diagSolve (unitVec 0) 0 [0] false (updateBlocks oneSpin [[("pblock", 1)]] false x).1).2 = some [fun j => 2 * unitVec 0 j] := by
  have hi : init oneSpin [[("pblock", 1)]] [("Nup", 0)] true false true = some (_, _) := rfl
  refine ⟨_, _, hi, ?_⟩
  have hS := step_sound (init_sound hi) (.updateBlocks oneSpin [[("pblock", 1)]] false)
  refine (evolve_start hS ?_ ?_ ?_ ?_ 0).trans ?_
  rotate_left 4
  · refine congrArg (fun v => some [v]) (twice _ ?_)
    show [_, _] = _
    rw [List.cons.injEq, List.cons.injEq]
    refine ⟨unit0_proj, ?_, rfl⟩
    show (1 : Matrix (Fin 2) (Fin 2) ℂ).mulVec ((1 : Matrix (Fin 2) (Fin 2) ℂ).conjTranspose.mulVec (unitVec 0)) = unitVec 0
    simp
  · intro e he
    have he' : e ∈ [(([("pblock", 1), ("Nup", 0)] : Block), (⟨1, unitCol 0, fun _ => 0, true⟩ : Basis 2)),
      ([("pblock", 1)], ⟨2, 1, fun _ => !![0, 0; 0, 1], true⟩)] := he
    simp only [List.mem_cons, List.not_mem_nil, or_false] at he'
    rcases he' with rfl | rfl
    · exact ⟨[("Nup", 0)], rfl⟩
    · exact ⟨[], rfl⟩
  · intro e he
    have he' : e ∈ [(([("pblock", 1), ("Nup", 0)] : Block), (⟨1, unitCol 0, fun _ => 0, true⟩ : Basis 2)),
      ([("pblock", 1)], ⟨2, 1, fun _ => !![0, 0; 0, 1], true⟩)] := he
    simp only [List.mem_cons, List.not_mem_nil, or_false] at he'
    rcases he' with rfl | rfl <;> rfl
  · refine List.filter_eq_self.mpr fun e he => ?_
    have he' : e ∈ [(([("pblock", 1), ("Nup", 0)] : Block), (⟨1, unitCol 0, fun _ => 0, true⟩ : Basis 2)),
      ([("pblock", 1)], ⟨2, 1, fun _ => !![0, 0; 0, 1], true⟩)] := he
    simp only [List.mem_cons, List.not_mem_nil, or_false] at he'
    rcases he' with rfl | rfl <;>
    · rw [decide_eq_true_eq, project_vecOf, norm_vecOf]
      simp [size, unitCol_conj, unitVec]
  · exact fun h => absurd (congrArg List.length h : (2 : ℕ) = 0) (by decide)

/-- The constructor adds `basis_kwargs` to the dictionaries of the caller (line 361). -/
theorem C88_fails_caller : ∃ x d, init oneSpin [[("pblock", 1)]] [("Nup", 0)] true false true = some (x, d) ∧ d = [[("pblock", 1), ("Nup", 0)]] :=
  ⟨_, _, rfl, rfl⟩

theorem lookup_put (k q : String) (v : ℤ) (b : Block) : (put k v b).lookup q = if q = k then some v else b.lookup q := by
  induction b with
  | nil =>
    simp only [put, List.lookup]
    by_cases h : q = k
    · simp [h]
    · have : (q == k) = false := by simpa using h
      simp [this, h]
  | cons e l ih =>
    obtain ⟨e1, e2⟩ := e
    unfold put
    by_cases h : e1 = k
    · subst h
      by_cases hq : q = e1 <;> simp [List.lookup, hq]
      have : (q == e1) = false := by simpa using hq
      simp [this]
    · rw [if_neg h]
      simp only [List.lookup]
      by_cases hq : q = e1
      · subst hq; simp [h]
      · have : (q == e1) = false := by simpa using hq
        simp [this, ih]

/-- The keywords a block is built with: those of `basis_kwargs` come before those of the block. -/
theorem C88_keywords (b kwargs : Block) (hk : (kwargs.map Prod.fst).Nodup) (q : String) :
    (update b kwargs).lookup q = (kwargs.lookup q).or (b.lookup q) := by
  unfold update
  induction kwargs generalizing b with
  | nil => simp
  | cons e l ih =>
    obtain ⟨k, v⟩ := e
    rw [List.map_cons, List.nodup_cons] at hk
    rw [List.foldl_cons, ih _ hk.2, lookup_put]
    simp only [List.lookup]
    by_cases h : q = k
    · subst h
      have : l.lookup q = none := by
        rw [List.lookup_eq_none_iff]
        intro p hp
        have hk1 : q ∉ l.map Prod.fst := hk.1
        have : p.1 ≠ q := fun h => hk1 (h ▸ List.mem_map_of_mem (f := Prod.fst) hp)
        simpa using this.symm
      simp [this]
    · have : (q == k) = false := by simpa using h
      simp [this, h]

example : (Model.BlockOps.update [("kblock", 1), ("a", 1)] [("a", 2), ("pblock", -1)]).lookup "a" = some 2 := by decide

end Props
