import Verif.Proof.ExpmParallel
import Verif.Props.C18
import Mathlib.Analysis.Normed.Algebra.MatrixExponential
import Mathlib.Analysis.Matrix.Normed
/-!
C69: `expm_multiply_parallel(A,a).dot(v)` is the scaled and shifted Taylor series of `exp(a A) v`, whatever the threads do.
-/
namespace Props
open Matrix Spec Spec.Taylor Model.Matvec Model.ExpmParallel Proof.ExpmParallel

variable {M : ℕ}

/-- Every execution with a full team of threads gives `s` steps `exp(a mu/s) sum_j X^j/j!` with `X = a(A-mu)/s`, each up to the order of the
stopping rule; the rule of the first step does not look at the vector itself (0 instead of its norm). -/
theorem C69_result (p : Input) (hn : p.n ≤ M) (hA : p.A.Valid p.n p.n) (hT : 0 < p.numThreads) (hteam : p.team = p.numThreads)
    (F F' : Mem M ℂ) (h : ExpmMultiply p F F') :
    Approximates p.mStar p.tol (Complex.exp (p.a * (p.mu / (p.s : ℂ))))
      ((p.a / (p.s : ℂ)) • ((Matrix.of fun i j : Fin p.n => csrEntry p.A i j) - p.mu • 1)) p.s 0
      (fun k => F ((k : ℕ) : ZMod M)) (fun k => F' ((k : ℕ) : ZMod M)) :=
  expm_eq hn hA hT hteam h

/-- The result depends neither on the number of threads nor on their order. -/
theorem C69_threads (p : Input) (T : ℕ) (hn : p.n ≤ M) (hA : p.A.Valid p.n p.n) (hT : 0 < p.numThreads) (hteam : p.team = p.numThreads)
    (hT' : 0 < T) (F F₁ F₂ : Mem M ℂ) (h₁ : ExpmMultiply p F F₁) (h₂ : ExpmMultiply { p with numThreads := T, team := T } F F₂) :
    ∀ k < p.n, F₁ (k : ZMod M) = F₂ (k : ZMod M) := by
  intro k hk
  have e := approximates_unique (expm_eq hn hA hT hteam h₁)
    (expm_eq (p := { p with numThreads := T, team := T }) hn hA hT' rfl h₂)
  exact congrFun e ⟨k, hk⟩

/-! ### there are executions -/

theorem phase_exists (n T team : ℕ) (f : ℕ → Vectors M → Vectors M) (v : Vectors M) : ∃ v', Phase n T team f v v' := by
  obtain ⟨l, hl⟩ := interleaving_exists team (share n T)
  exact ⟨_, l, hl, rfl⟩

theorem term_exists (p : Input) (j : ℕ) (v : Vectors M) : ∃ v' c2 c3, Term p j v v' c2 c3 := by
  obtain ⟨l, hl⟩ := interleaving_exists p.team (mergeOps true p.team p.n p.A (p.a / ((j * p.s : ℕ) : ℂ)) 1 v.B1 1)
  obtain ⟨v', hv'⟩ := phase_exists p.n p.numThreads p.team (termBody (p.a * p.mu / ((j * p.s : ℕ) : ℂ)))
    { v with B2 := mergeFix p.team p.n p.A (p.a / ((j * p.s : ℕ) : ℂ)) 1 v.B1 1 (run l ⟨v.B2, fun _ _ => 0⟩).y }
  exact ⟨v', _, _, _, ⟨⟨v.B2, fun _ _ => 0⟩, _, rfl, ⟨l, hl, rfl⟩, rfl⟩, hv', rfl, rfl⟩

theorem terms_exists (p : Input) : ∀ (d j : ℕ) (c1 : ℝ) (v : Vectors M), p.mStar + 1 - j = d → ∃ w, Terms p j c1 v w := by
  intro d
  induction d with
  | zero => intro j c1 v h; exact ⟨v, .done (by omega)⟩
  | succ d ih =>
    intro j c1 v h
    obtain ⟨v', c2, c3, ht⟩ := term_exists p j v
    by_cases hs : c1 + c2 ≤ p.tol * c3
    · exact ⟨v', .stop (by omega) ht hs⟩
    · obtain ⟨w, hw⟩ := ih (j + 1) c2 v' (by omega)
      exact ⟨w, .next (by omega) ht hs hw⟩

theorem steps_exists (p : Input) : ∀ (d i : ℕ) (c1 : ℝ) (v : Vectors M), p.s - i = d → ∃ w, Steps p i c1 v w := by
  intro d
  induction d with
  | zero => intro i c1 v h; exact ⟨v, .done (by omega)⟩
  | succ d ih =>
    intro i c1 v h
    obtain ⟨u, hu⟩ := terms_exists p _ 1 c1 v rfl
    obtain ⟨u', hu'⟩ := phase_exists p.n p.numThreads p.team (endBody (Complex.exp (p.a * (p.mu / (p.s : ℂ))))) u
    obtain ⟨w, hw⟩ := ih (i + 1) _ u' (by omega)
    exact ⟨w, .next (by omega) hu hu' hw⟩

theorem C69_executes (p : Input) (F : Mem M ℂ) : ∃ F', ExpmMultiply p F F' := by
  obtain ⟨v, hv⟩ := phase_exists p.n p.numThreads p.team copyBody (⟨F, fun _ => 0, fun _ => 0⟩ : Vectors M)
  obtain ⟨v', hv'⟩ := steps_exists p _ 0 0 v rfl
  exact ⟨v'.F, _, _, v, v', hv, hv', rfl⟩

/-! ### the limit -/

section limit
variable {n : ℕ}

/-- The series as a matrix. -/
noncomputable def seriesMatrix (X : Matrix (Fin n) (Fin n) ℂ) (m : ℕ) : Matrix (Fin n) (Fin n) ℂ :=
  ∑ j ∈ Finset.range (m + 1), ((j.factorial : ℕ) : ℂ)⁻¹ • X ^ j

theorem seriesMatrix_mulVec (X : Matrix (Fin n) (Fin n) ℂ) (m : ℕ) (v : Fin n → ℂ) : seriesMatrix X m *ᵥ v = partialSum X m v := by
  unfold seriesMatrix partialSum term
  rw [Matrix.sum_mulVec]
  exact Finset.sum_congr rfl fun j _ => smul_mulVec _ _ _

theorem term_vanishes (X : Matrix (Fin n) (Fin n) ℂ) (v : Fin n → ℂ) (m : ℕ) (h : term X m v = 0) : ∀ d, term X (m + d) v = 0 := by
  intro d
  induction d with
  | zero => exact h
  | succ d ih => rw [← Nat.add_assoc, term_succ, ih, mulVec_zero, smul_zero]

theorem order_full {mStar : ℕ} {X : Matrix (Fin n) (Fin n) ℂ} {v : Fin n → ℂ} {c : ℝ} (hc : 0 ≤ c) {m : ℕ}
    (h : IsOrder mStar 0 X v c m) : partialSum X m v = partialSum X mStar v := by
  rcases h.stop with h1 | ⟨_, h2⟩
  · rw [h1]
  · unfold SmallTerms at h2
    rw [zero_mul] at h2
    have h0 : 0 ≤ (if m = 1 then c else ‖term X (m - 1) v‖) := by
      split
      · exact hc
      · exact norm_nonneg _
    have hz : term X m v = 0 := by
      rw [← norm_le_zero_iff]
      linarith [norm_nonneg (term X m v)]
    obtain ⟨d, rfl⟩ := Nat.exists_eq_add_of_le h.le
    have : ∀ d, partialSum X (m + d) v = partialSum X m v := by
      intro d
      induction d with
      | zero => rfl
      | succ d ih => rw [← Nat.add_assoc, partialSum_succ, ih, Nat.add_assoc, term_vanishes X v m hz, add_zero]
    rw [this]

theorem approximates_full {mStar : ℕ} {eta : ℂ} {X : Matrix (Fin n) (Fin n) ℂ} {k : ℕ} {c : ℝ} {v w : Fin n → ℂ}
    (h : Approximates mStar 0 eta X k c v w) : 0 ≤ c → w = (eta • seriesMatrix X mStar) ^ k *ᵥ v := by
  induction h with
  | done => intro _; rw [pow_zero, one_mulVec]
  | step hm _ ih =>
    intro hc
    rw [ih (norm_nonneg _), order_full hc hm, pow_succ, ← mulVec_mulVec, smul_mulVec, seriesMatrix_mulVec]

attribute [local instance] Matrix.linftyOpNormedRing Matrix.linftyOpNormedAlgebra in
theorem series_tends (X : Matrix (Fin n) (Fin n) ℂ) :
    Filter.Tendsto (seriesMatrix X) Filter.atTop (nhds (NormedSpace.exp X)) := by
  have h := (NormedSpace.exp_series_hasSum_exp' (𝕂 := ℂ) X).tendsto_sum_nat
  exact h.comp (Filter.tendsto_add_atTop_nat 1)

theorem step_exp (A : Matrix (Fin n) (Fin n) ℂ) (a mu : ℂ) (s : ℕ) (hs : 0 < s) :
    (Complex.exp (a * (mu / (s : ℂ))) • NormedSpace.exp ((a / (s : ℂ)) • (A - mu • (1 : Matrix (Fin n) (Fin n) ℂ)))) ^ s = NormedSpace.exp (a • A) := by
  have hs' : (s : ℂ) ≠ 0 := Nat.cast_ne_zero.2 (by omega)
  have e1 : NormedSpace.exp ((a * (mu / (s : ℂ))) • (1 : Matrix (Fin n) (Fin n) ℂ)) = Complex.exp (a * (mu / (s : ℂ))) • 1 := by
    rw [← Matrix.diagonal_one, ← Matrix.diagonal_smul, Matrix.exp_diagonal, ← Matrix.diagonal_smul]
    congr 1
    funext i
    rw [Complex.exp_eq_exp_ℂ, Pi.coe_exp]
    simp
  have e2 : Complex.exp (a * (mu / (s : ℂ))) • NormedSpace.exp ((a / (s : ℂ)) • (A - mu • (1 : Matrix (Fin n) (Fin n) ℂ))) =
      NormedSpace.exp ((a / (s : ℂ)) • A) := by
    rw [← one_mul (NormedSpace.exp ((a / (s : ℂ)) • (A - mu • (1 : Matrix (Fin n) (Fin n) ℂ)))), ← smul_mul_assoc, ← e1,
      ← Matrix.exp_add_of_commute]
    · congr 1
      rw [smul_sub, smul_smul]
      have : a * (mu / (s : ℂ)) = a / (s : ℂ) * mu := by ring
      rw [this]
      abel
    · exact (Commute.one_left _).smul_left _
  rw [e2, ← Matrix.exp_nsmul]
  congr 1
  rw [← Nat.cast_smul_eq_nsmul ℂ, smul_smul]
  congr 1
  field_simp

theorem step_continuous (c : ℂ) (s : ℕ) (v : Fin n → ℂ) :
    Continuous fun (B : Matrix (Fin n) (Fin n) ℂ) => (c • B) ^ s *ᵥ v :=
  Continuous.matrix_mulVec ((continuous_id.const_smul c).pow s) continuous_const

end limit

/-- With tolerance 0 the results tend to `exp(a A) v` as the number of terms grows, for every choice of shift, steps, threads and orders. -/
theorem C69_limit (p : Input) (hn : p.n ≤ M) (hA : p.A.Valid p.n p.n) (hT : 0 < p.numThreads) (hteam : p.team = p.numThreads)
    (hs : 0 < p.s) (htol : p.tol = 0) (F : Mem M ℂ) (G : ℕ → Mem M ℂ) (h : ∀ m, ExpmMultiply { p with mStar := m } F (G m)) :
    Filter.Tendsto (fun m (k : Fin p.n) => G m ((k : ℕ) : ZMod M)) Filter.atTop
      (nhds (NormedSpace.exp (p.a • (Matrix.of fun i j : Fin p.n => csrEntry p.A i j)) *ᵥ fun k => F ((k : ℕ) : ZMod M))) := by
  have e : ∀ m, (fun (k : Fin p.n) => G m ((k : ℕ) : ZMod M)) =
      (Complex.exp (p.a * (p.mu / (p.s : ℂ))) •
        seriesMatrix ((p.a / (p.s : ℂ)) • ((Matrix.of fun i j : Fin p.n => csrEntry p.A i j) - p.mu • 1)) m) ^ p.s *ᵥ
        fun k => F ((k : ℕ) : ZMod M) := by
    intro m
    have h1 := C69_result { p with mStar := m } hn hA hT hteam F (G m) (h m)
    dsimp only at h1
    rw [htol] at h1
    exact approximates_full h1 le_rfl
  rw [funext e, ← step_exp _ p.a p.mu p.s hs]
  exact ((step_continuous _ p.s _).tendsto _).comp (series_tends _)

/-! ### a team that is smaller than the number of threads asked for -/

theorem phase_untouched {n T team tid k : ℕ} (hn : n ≤ M) (hk : k ∈ share n T tid) (ht : team ≤ tid) {f : ℕ → Vectors M → Vectors M}
    {gF gB : ℂ → ℂ → ℂ → ℂ} (hf : Local f gF gB) {v v' : Vectors M} (h : Phase n T team f v v') : v'.F k = v.F k := by
  obtain ⟨l, hl, rfl⟩ := h
  have hmem : ∀ e ∈ l, e.2 < n ∧ e.2 ≠ k := by
    intro e he
    have h1 : e.2 ∈ share n T e.1 := by
      rw [← hl.2 e.1 (hl.1 e he)]
      exact List.mem_map.2 ⟨e, List.mem_filter.2 ⟨he, by simp⟩, rfl⟩
    refine ⟨(mem_share.1 h1).1, ?_⟩
    rintro rfl
    have := share_disjoint h1 hk
    have := hl.1 e he
    omega
  have hkn := (mem_share.1 hk).1
  clear hl
  revert hmem
  generalize v = u
  induction l generalizing u with
  | nil => intro _; rfl
  | cons e l ih =>
    intro hmem
    rw [List.foldl_cons, ih _ fun x hx => hmem x (List.mem_cons_of_mem _ hx), hf.F, Function.update_of_ne]
    intro hc
    obtain ⟨h1, h2⟩ := hmem e List.mem_cons_self
    exact h2 (cell_inj hn hkn h1 hc).symm

/-- OpenMP may give fewer threads than `omp_get_max_threads()` (dynamic adjustment, thread limits, nested regions), but the elements are
divided by that number: those of the missing threads are returned as they were passed. -/
theorem C69_fails_team (p : Input) (hn : p.n ≤ M) (k tid : ℕ) (hk : k ∈ share p.n p.numThreads tid) (ht : p.team ≤ tid)
    (F F' : Mem M ℂ) (h : ExpmMultiply p F F') : F' (k : ZMod M) = F (k : ZMod M) := by
  obtain ⟨w1, w2, v, v', h1, h2, rfl⟩ := h
  rw [← show v.F k = F k from phase_untouched hn hk ht copy_local h1]
  clear h1
  have terms : ∀ {j : ℕ} {c : ℝ} {v w : Vectors M}, Terms p j c v w → w.F (k : ZMod M) = v.F k := by
    intro j c v w h
    induction h with
    | done => rfl
    | stop _ ht' _ =>
      obtain ⟨u, ⟨st, y, _, _, rfl⟩, hp, _, _⟩ := ht'
      have h := phase_untouched hn hk ht (term_local _) hp
      exact h
    | next _ ht' _ _ ih =>
      obtain ⟨u, ⟨st, y, _, _, rfl⟩, hp, _, _⟩ := ht'
      have h := phase_untouched hn hk ht (term_local _) hp
      exact ih.trans h
  have steps : ∀ {i : ℕ} {c : ℝ} {v w : Vectors M}, Steps p i c v w → w.F (k : ZMod M) = v.F k := by
    intro i c v w h
    induction h with
    | done => rfl
    | next _ hterms hp _ ih => rw [ih, phase_untouched hn hk ht (end_local _) hp, terms hterms]
  exact steps h2

/-- The unit matrix of two rows, as stored. -/
def unitCsr : Compressed ℂ := { Ap := fun k => k, Aj := fun k => k, Ax := fun _ => 1 }

/-- `expm_multiply_parallel(identity(2)).dot(v)` with a given number of threads. -/
noncomputable def unitInput (T team : ℕ) : Input :=
  { n := 2, A := unitCsr, s := 1, mStar := 3, tol := 0, mu := 1, a := 1, numThreads := T, team := team }

theorem unit_valid : unitCsr.Valid 2 2 := ⟨rfl, fun k _ => Nat.le_succ k, fun _ h => h⟩

/-- With two threads asked for and one given, the second element of `exp(1) v` is that of `v`. -/
theorem C69_fails_team_result (F F' : Mem 8 ℂ) (hF : F 1 = 1) (h : ExpmMultiply (unitInput 2 1) F F') : F' 1 = 1 := by
  rw [← hF]
  exact_mod_cast C69_fails_team (unitInput 2 1) (by decide) 1 1 (by decide) (by decide) F F' h

example : ∃ F' : Mem 8 ℂ, ExpmMultiply (unitInput 2 1) (fun _ => 1) F' := C69_executes _ _

/-! ### the norm -/

/-- The diagonal matrix with elements 1, ..., 1, -3. -/
noncomputable def lastMinus (n : ℕ) : Compressed ℂ :=
  { Ap := fun k => k, Aj := fun k => k, Ax := fun k => if k + 1 = n then -3 else 1 }

theorem lastMinus_mean (n : ℕ) (hn : 0 < n) : meanDiagonal n (lastMinus n) = 1 - 4 / n := by
  have hn' : (n : ℂ) ≠ 0 := Nat.cast_ne_zero.2 (by omega)
  have h : ∀ i : ℕ, List.range' i (i + 1 - i) = [i] := fun i => by rw [Nat.add_sub_cancel_left]; rfl
  unfold meanDiagonal lastMinus
  simp only [h, List.map_cons, List.map_nil, List.sum_cons, List.sum_nil, if_true, add_zero]
  obtain ⟨m, rfl⟩ := Nat.exists_eq_succ_of_ne_zero (show n ≠ 0 by omega)
  rw [Nat.succ_eq_add_one, List.range_succ, List.map_append, List.sum_append]
  have h2 : (List.range m).map (fun x => if x + 1 = m + 1 then (-3 : ℂ) else 1) = List.replicate m 1 := by
    rw [List.eq_replicate_iff]
    refine ⟨by simp, ?_⟩
    intro b hb
    obtain ⟨x, hx, rfl⟩ := List.mem_map.1 hb
    rw [if_neg]
    have := List.mem_range.1 hx
    omega
  rw [h2]
  simp only [List.sum_replicate, List.map_cons, List.map_nil, if_true, List.sum_cons, List.sum_nil, nsmul_eq_mul, mul_one, add_zero]
  push_cast at hn' ⊢
  field_simp
  ring

/-- The number of terms is chosen from a norm of `A + mu` (`csr_1_norm` adds the shift), but the series is that of `A - mu`: for the diagonal
matrix 1, ..., 1, -3 this number is at most 2 + 4/n while the matrix that is exponentiated has an element of size 4 - 4/n. -/
theorem C69_fails_norm (n : ℕ) (hn : 4 ≤ n) :
    oneNorm n (lastMinus n) ≤ 2 + 4 / n ∧
      ‖csrEntry (lastMinus n) (n - 1) (n - 1) - meanDiagonal n (lastMinus n)‖ = 4 - 4 / n := by
  have hn' : (4 : ℝ) ≤ n := by exact_mod_cast hn
  have hpos : (0 : ℝ) < 4 / n := by positivity
  have hle : (4 : ℝ) / n ≤ 1 := by rw [div_le_one (by linarith)]; exact hn'
  have h : ∀ i : ℕ, List.range' i (i + 1 - i) = [i] := fun i => by rw [Nat.add_sub_cancel_left]; rfl
  constructor
  · unfold oneNorm csrNorm
    rw [lastMinus_mean n (by omega)]
    unfold lastMinus
    simp only [h, List.map_cons, List.map_nil, List.sum_cons, List.sum_nil, if_true, add_zero]
    have key : ∀ (l : List ℝ) (c : ℝ), c ≤ 2 + 4 / n → (∀ x ∈ l, x ≤ 2 + 4 / n) → l.foldl max c ≤ 2 + 4 / n := by
      intro l
      induction l with
      | nil => intro c hc _; exact hc
      | cons x l ih =>
        intro c hc hl
        exact ih _ (max_le hc (hl x List.mem_cons_self)) fun y hy => hl y (List.mem_cons_of_mem _ hy)
    apply key _ _ (by linarith)
    intro x hx
    obtain ⟨i, _, rfl⟩ := List.mem_map.1 hx
    split
    · have e : (1 - 4 / (n : ℂ) + -3) = ((-(2 + 4 / (n : ℝ)) : ℝ) : ℂ) := by push_cast; ring
      rw [e, Complex.norm_real, Real.norm_eq_abs, abs_neg, abs_of_nonneg (by linarith)]
    · have e : (1 - 4 / (n : ℂ) + 1) = (((2 - 4 / (n : ℝ)) : ℝ) : ℂ) := by push_cast; ring
      rw [e, Complex.norm_real, Real.norm_eq_abs, abs_of_nonneg (by linarith)]
      linarith
  · rw [lastMinus_mean n (by omega)]
    have e : csrEntry (lastMinus n) (n - 1) (n - 1) = -3 := by
      unfold csrEntry lastMinus
      simp only
      rw [Nat.Ico_succ_singleton, Finset.sum_singleton, if_pos rfl, if_pos (by omega)]
    rw [e]
    have e2 : (-3 - (1 - 4 / (n : ℂ))) = ((-(4 - 4 / (n : ℝ)) : ℝ) : ℂ) := by push_cast; ring
    rw [e2, Complex.norm_real, Real.norm_eq_abs, abs_neg, abs_of_nonneg (by linarith)]

/-! ### examples -/

example : (unitInput 2 2).n ≤ 8 ∧ (unitInput 2 2).A.Valid 2 2 ∧ 0 < (unitInput 2 2).numThreads ∧
    (unitInput 2 2).team = (unitInput 2 2).numThreads ∧ 0 < (unitInput 2 2).s ∧ (unitInput 2 2).tol = 0 ∧
    ∃ F' : Mem 8 ℂ, ExpmMultiply (unitInput 2 2) (fun _ => 1) F' :=
  ⟨by decide, unit_valid, by decide, rfl, by decide, rfl, C69_executes _ _⟩

/-- With a full team both elements of `exp(1) v` come out. -/
theorem unit_result (F' : Mem 8 ℂ) (h : ExpmMultiply (unitInput 2 2) (fun _ => 1) F') : F' 1 = Complex.exp 1 := by
  have h1 := approximates_full (C69_result (unitInput 2 2) (by decide) unit_valid (by decide) rfl _ F' h) le_rfl
  have h2 := congrFun h1 (⟨1, by decide⟩ : Fin 2)
  have hX : ((1 : ℂ) / ((1 : ℕ) : ℂ)) • ((Matrix.of fun i j : Fin 2 => csrEntry unitCsr i j) - (1 : ℂ) • (1 : Matrix (Fin 2) (Fin 2) ℂ)) = 0 := by
    ext i j
    fin_cases i <;> fin_cases j <;> simp [csrEntry, unitCsr]
  change F' (((1 : Fin 2) : ℕ) : ZMod 8) = _ at h2
  have e3 : seriesMatrix (0 : Matrix (Fin 2) (Fin 2) ℂ) 3 = 1 := by
    unfold seriesMatrix
    simp [Finset.sum_range_succ]
  change _ = ((Complex.exp (1 * (1 / ((1 : ℕ) : ℂ))) • seriesMatrix (((1 : ℂ) / ((1 : ℕ) : ℂ)) •
    ((Matrix.of fun i j : Fin 2 => csrEntry unitCsr i j) - (1 : ℂ) • (1 : Matrix (Fin 2) (Fin 2) ℂ))) 3) ^ 1 *ᵥ fun _ => 1) 1 at h2
  rw [hX, e3, pow_one, smul_mulVec, one_mulVec] at h2
  simpa using h2

/-- The results with one and with two of the two threads asked for differ. -/
theorem C69_fails_team_differs (F₁ F₂ : Mem 8 ℂ) (h₁ : ExpmMultiply (unitInput 2 1) (fun _ => 1) F₁)
    (h₂ : ExpmMultiply (unitInput 2 2) (fun _ => 1) F₂) : F₁ 1 ≠ F₂ 1 := by
  rw [C69_fails_team_result _ F₁ rfl h₁, unit_result F₂ h₂]
  intro h
  have h2 := congrArg Complex.re h
  have h3 : (Complex.exp 1).re = Real.exp 1 := by
    rw [← Complex.ofReal_one, Complex.exp_ofReal_re]
  rw [h3, Complex.one_re] at h2
  have := Real.add_one_lt_exp (x := 1) one_ne_zero
  linarith

end Props
