import Verif.Model.Misc
import Verif.Spec.Misc
import Verif.Props.C22
import Mathlib.Tactic.FinCases
import Mathlib.Analysis.SpecialFunctions.Log.Deriv
import Mathlib.Tactic.Linarith
import Mathlib.Tactic.Positivity
import Mathlib.Tactic.FieldSimp
import Mathlib.Tactic.NormNum

/-!
C80: `project_op` carries operators between a space and a subspace.
C81: `KL_div` is the relative entropy.
C82: `mean_level_spacing` is the mean ratio of neighbouring spacings.
-/

namespace Props
open Model.Misc Spec.Misc

/-! ### C80 -/

theorem arr_dot {a b c : ℕ} (A : Matrix (Fin a) (Fin b) ℂ) (B : Matrix (Fin b) (Fin c) ℂ) :
    Arr.dot ⟨a, b, A⟩ ⟨b, c, B⟩ = some ⟨a, c, A * B⟩ := by
  rw [Arr.dot, dif_pos rfl]; rfl

theorem arr_dagger {a b : ℕ} (A : Matrix (Fin a) (Fin b) ℂ) : Arr.dagger ⟨a, b, A⟩ = ⟨b, a, A.conjTranspose⟩ := rfl

theorem orZeros_same {m : ℕ} (B : Matrix (Fin m) (Fin m) ℂ) : Arr.orZeros m ⟨m, m, B⟩ = ⟨m, m, B⟩ := by
  unfold Arr.orZeros Arr.isZero
  split
  · rename_i h
    have h : B = 0 := h
    rw [h]; rfl
  · rfl

theorem orZeros_zero {a b m : ℕ} : Arr.orZeros m ⟨a, b, 0⟩ = ⟨m, m, 0⟩ := by
  unfold Arr.orZeros Arr.isZero
  rw [if_pos rfl]; rfl

theorem orZeros_ne {a b m : ℕ} {B : Matrix (Fin a) (Fin b) ℂ} (h : B ≠ 0) : Arr.orZeros m ⟨a, b, B⟩ = ⟨a, b, B⟩ := by
  unfold Arr.orZeros Arr.isZero
  rw [if_neg h]

theorem leftDriven_nil (P : Arr) : leftDriven P [] = some [] := rfl

theorem leftDriven_one {a b c : ℕ} (P : Matrix (Fin a) (Fin b) ℂ) (f : ℝ → ℂ) (D : Matrix (Fin b) (Fin c) ℂ) (h : P * D ≠ 0) :
    leftDriven ⟨a, b, P⟩ [(f, ⟨b, c, D⟩)] = some [(f, ⟨a, c, P * D⟩)] := by
  have : ¬ Arr.isZero ⟨a, c, P * D⟩ := h
  simp [leftDriven, arr_dot, this]

/-- C80: for an array or sparse matrix on the large space the result is the operator seen from the small space; for one
on the small space (of a different size) it is the operator on the large one. -/
theorem C80_arrays {n m : ℕ} (P : Matrix (Fin n) (Fin m) ℂ) :
    (∀ A, projectArr ⟨n, n, A⟩ ⟨n, m, P⟩ = some ⟨m, m, down P A⟩) ∧
      (m ≠ n → ∀ A, projectArr ⟨m, m, A⟩ ⟨n, m, P⟩ = some ⟨n, n, up P A⟩) := by
  constructor
  · intro A
    simp [projectArr, Arr.dot, Arr.dagger, down, Matrix.mul_assoc]
  · intro h A
    simp [projectArr, arr_dot, arr_dagger, up, Matrix.mul_assoc, h]

/-- C80: every other combination of shapes raises. -/
theorem C80_shapes (obs proj : Arr) :
    projectArr obs proj = none ↔ obs.rows ≠ obs.cols ∨ (obs.rows ≠ proj.rows ∧ obs.rows ≠ proj.cols) := by
  obtain ⟨a, b, A⟩ := obs
  obtain ⟨n, m, P⟩ := proj
  by_cases h1 : a = b
  · subst h1
    by_cases h2 : a = n
    · subst h2
      simp [projectArr, Arr.dot, Arr.dagger]
    · by_cases h3 : a = m
      · subst h3
        simp [projectArr, Arr.dot, Arr.dagger, h2]
      · simp [projectArr, h2, h3]
  · simp [projectArr, h1]

/-- C80: the elements of the projected operator are those of the operator between the embedded states. -/
theorem C80_elements {n m : ℕ} (P : Matrix (Fin n) (Fin m) ℂ) (A : Matrix (Fin n) (Fin n) ℂ) (v w : Fin m → ℂ) {X : Arr}
    (hX : projectArr ⟨n, n, A⟩ ⟨n, m, P⟩ = some X) :
    ∃ Y : Matrix (Fin m) (Fin m) ℂ, X = ⟨m, m, Y⟩ ∧
      sandwich v Y w = sandwich (P.mulVec v) A (P.mulVec w) := by
  rw [(C80_arrays P).1] at hX
  refine ⟨_, (Option.some.inj hX).symm, ?_⟩
  have key : ∀ {k : ℕ} (B : Matrix (Fin k) (Fin k) ℂ) (x y : Fin k → ℂ),
      sandwich x B y = dotProduct (star x) (B.mulVec y) := by
    intro k B x y
    simp only [sandwich, dotProduct, Matrix.mulVec, Finset.mul_sum, Pi.star_apply, mul_assoc]
  rw [key, key, down, ← Matrix.mulVec_mulVec, ← Matrix.mulVec_mulVec, Matrix.dotProduct_mulVec, ← Matrix.star_mulVec]

/-- C80: for orthonormal columns, carrying an operator of the small space up and down again gives it back, and the operator
on the large space has the same elements. -/
theorem C80_isometry {n m : ℕ} (hnm : m ≠ n) (P : Matrix (Fin n) (Fin m) ℂ) (hP : P.conjTranspose * P = 1)
    (A : Matrix (Fin m) (Fin m) ℂ) :
    ∃ X, projectArr ⟨m, m, A⟩ ⟨n, m, P⟩ = some X ∧ projectArr X ⟨n, m, P⟩ = some ⟨m, m, A⟩ := by
  refine ⟨_, (C80_arrays P).2 hnm A, ?_⟩
  rw [(C80_arrays P).1]
  have : down P (up P A) = A := by
    rw [down, up]
    calc P.conjTranspose * (P * A * P.conjTranspose) * P
        = (P.conjTranspose * P) * A * (P.conjTranspose * P) := by simp only [Matrix.mul_assoc]
      _ = A := by rw [hP, Matrix.one_mul, Matrix.mul_one]
  rw [this]

section Ham
open Model.Ham Model.Drive Proof.Ham
variable {F A T : Type} (env : Env F A ℂ) (app : F → List A → T → ℂ) (S : F × List A → Prop) (b : Nat)

/-- C80, part: hamiltonians, also driven ones, with an array as projector, at every time.
Missing: driven hamiltonians with a basis as projector (`C80_fails_driven`). -/
theorem C80_hamiltonian_partial (hc : NoCollision env.hash S b) (ht : Threshold env 0) {n m : ℕ}
    (P : Matrix (Fin n) (Fin m) ℂ) :
    (∀ (H : Ham F A (Fin n) (Fin n) ℂ), Keys S b H.dynamic → ∀ X, projectHamArray env H P = some X →
      ∃ Y : Ham F A (Fin m) (Fin m) ℂ, X = ⟨m, Y⟩ ∧ ∀ t, toMatrix app Y t = down P (toMatrix app H t)) ∧
    (m ≠ n → ∀ (H : Ham F A (Fin m) (Fin m) ℂ), Keys S b H.dynamic → ∀ X, projectHamArray env H P = some X →
      ∃ Y : Ham F A (Fin n) (Fin n) ℂ, X = ⟨n, Y⟩ ∧ ∀ t, toMatrix app Y t = up P (toMatrix app H t)) := by
  constructor
  · intro H hH X hX
    rw [projectHamArray, dif_pos rfl, Option.map_eq_some_iff] at hX
    obtain ⟨Y, hY, rfl⟩ := hX
    exact ⟨Y, rfl, fun t => C54_dense_partial env app S b hc ht H _ Y hH hY t⟩
  · intro h H hH X hX
    rw [projectHamArray, dif_neg h, dif_pos rfl, Option.map_eq_some_iff] at hX
    obtain ⟨Y, hY, rfl⟩ := hX
    refine ⟨Y, rfl, fun t => (C54_dense_partial env app S b hc ht H _ Y hH hY t).trans ?_⟩
    simp [up]

end Ham

/-- C80, part: a hamiltonian without time dependence and a basis (sparse matrix) as projector.
Missing: driven hamiltonians with a basis as projector (`C80_fails_driven`). -/
theorem C80_sparse_partial {n m : ℕ} (P : Matrix (Fin n) (Fin m) ℂ) (t : ℝ) :
    (∀ A, ∃ X, projectHamSparse ⟨n, ⟨n, n, A⟩, []⟩ ⟨n, m, P⟩ = some X ∧ X.toArray t = some ⟨m, m, down P A⟩) ∧
    (m ≠ n → ∀ A, ∃ X, projectHamSparse ⟨m, ⟨m, m, A⟩, []⟩ ⟨n, m, P⟩ = some X ∧
      X.toArray t = some ⟨n, n, up P A⟩) := by
  have key : ∀ {n m : ℕ} (P : Matrix (Fin n) (Fin m) ℂ) (A : Matrix (Fin n) (Fin n) ℂ),
      projectToSparse ⟨n, ⟨n, n, A⟩, []⟩ ⟨n, m, P⟩ = some ⟨m, ⟨m, m, down P A⟩, []⟩ := by
    intro n m P A
    rw [projectToSparse, if_neg (by simp), rmulSparse, arr_dagger, arr_dot, leftDriven_nil, Option.bind_some, Option.map_some,
      Option.bind_some, imulSparse]
    by_cases h0 : P.conjTranspose * A = 0
    · simp only [h0, orZeros_zero, arr_dot, Matrix.zero_mul, Option.bind_some, leftDriven_nil, Option.map_some, down]
    · simp only [orZeros_ne h0, arr_dot, Option.bind_some, leftDriven_nil, Option.map_some, down, orZeros_same]
  constructor
  · intro A
    exact ⟨_, by rw [projectHamSparse, if_neg (by simp)]; exact key P A, rfl⟩
  · intro h A
    refine ⟨⟨n, ⟨n, n, up P A⟩, []⟩, ?_, rfl⟩
    rw [projectHamSparse, if_pos h, if_neg (by simp)]
    refine (key P.conjTranspose A).trans ?_
    rw [down, up, Matrix.conjTranspose_conjTranspose]

/-- The driven operator `f(t) sigma_x` of two states. -/
noncomputable def drivenX (f : ℝ → ℂ) : SHam := ⟨2, ⟨2, 2, 0⟩, [(f, ⟨2, 2, !![0, 1; 1, 0]⟩)]⟩

/-- The symmetric combination of two states, as a matrix with one column. -/
noncomputable def evenColumn : Arr := ⟨2, 1, !![1; 1]⟩

/-- C80 fails for a driven hamiltonian and a basis: `project_op` returns an object whose static part has the size of the
small space and whose driven part that of the large one, and every evaluation of it raises. -/
theorem C80_fails_driven (f : ℝ → ℂ) (t : ℝ) :
    ∃ X, projectHamSparse (drivenX f) evenColumn = some X ∧ X.size = 1 ∧ X.driven.map (fun e => e.2.rows) = [2] ∧
      X.toArray t = none := by
  have e1 : (!![1; 1] : Matrix (Fin 2) (Fin 1) ℂ).conjTranspose * (!![0, 1; 1, 0] : Matrix (Fin 2) (Fin 2) ℂ) ≠ 0 := by
    intro h
    have := congrFun (congrFun h 0) 0
    simp [Matrix.mul_apply, Fin.sum_univ_two] at this
  have e2 : (!![1; 1] : Matrix (Fin 2) (Fin 1) ℂ) * ((!![1; 1] : Matrix (Fin 2) (Fin 1) ℂ).conjTranspose * (!![0, 1; 1, 0] : Matrix (Fin 2) (Fin 2) ℂ)) ≠ 0 := by
    intro h
    have := congrFun (congrFun h 0) 0
    simp [Matrix.mul_apply, Fin.sum_univ_two] at this
  refine ⟨⟨1, ⟨1, 1, 0⟩, [(f, ⟨2, 2, (!![1; 1] : Matrix (Fin 2) (Fin 1) ℂ) * ((!![1; 1] : Matrix (Fin 2) (Fin 1) ℂ).conjTranspose * (!![0, 1; 1, 0] : Matrix (Fin 2) (Fin 2) ℂ))⟩)]⟩,
    ?_, rfl, rfl, ?_⟩
  · rw [projectHamSparse, drivenX, evenColumn, if_neg (by simp), projectToSparse, if_neg (by simp), rmulSparse, arr_dagger, arr_dot,
      leftDriven_one _ _ _ e1, Matrix.mul_zero, Option.bind_some, Option.map_some, Option.bind_some, imulSparse, orZeros_zero,
      arr_dot, leftDriven_one _ _ _ e2, Option.bind_some, Option.map_some, Matrix.zero_mul, orZeros_zero]
  · simp [SHam.toArray, Arr.add]

/-! ### C81 -/

/-- The entries of a list as a function. -/
def entries (l : List ℝ) (n : ℕ) (h : l.length = n) : Fin n → ℝ := fun i => l.get (i.cast h.symm)

theorem zip_sum (g : ℝ → ℝ → ℝ) : ∀ (p q : List ℝ) (n : ℕ) (hp : p.length = n) (hq : q.length = n),
    ((p.zip q).map fun e => g e.1 e.2).sum = ∑ i, g (entries p n hp i) (entries q n hq i)
  | [], [], 0, _, _ => rfl
  | a :: p, b :: q, n + 1, hp, hq => by
    rw [Fin.sum_univ_succ, List.zip_cons_cons, List.map_cons, List.sum_cons,
      zip_sum g p q n (by simpa using hp) (by simpa using hq)]
    rfl

theorem sum_entries (p : List ℝ) (n : ℕ) (hp : p.length = n) : p.sum = ∑ i, entries p n hp i := by
  subst hp
  simp [entries, Fin.sum_univ_def]

/-- C81: which pairs of lists are accepted, and that the result is the relative entropy. -/
theorem C81_value (p q : List ℝ) (x : ℝ) :
    klDiv p q = some x ↔ ∃ (n : ℕ) (hp : p.length = n) (hq : q.length = n), (∀ i, 0 < entries p n hp i) ∧
      (∀ i, 0 < entries q n hq i) ∧ |(∑ i, entries p n hp i) - 1| ≤ 1 / 10 ^ 13 ∧ |(∑ i, entries q n hq i) - 1| ≤ 1 / 10 ^ 13 ∧
        x = relativeEntropy (entries p n hp) (entries q n hq) := by
  have mem : ∀ (l : List ℝ) (n : ℕ) (h : l.length = n), (∀ i, 0 < entries l n h i) ↔ ∀ x ∈ l, 0 < x := by
    intro l n h
    subst h
    rw [List.forall_mem_iff_forall_getElem]
    exact ⟨fun H i hi => H ⟨i, hi⟩, fun H i => H i.1 i.2⟩
  unfold klDiv
  by_cases h1 : p.length = q.length
  · rw [if_neg (by simpa using h1)]
    by_cases h2 : (∃ x ∈ p, x ≤ 0) ∨ ∃ x ∈ q, x ≤ 0
    · rw [if_pos h2]
      simp only [reduceCtorEq, false_iff]
      rintro ⟨n, hp, hq, ha, hb, -⟩
      rw [mem] at ha hb
      rcases h2 with ⟨x, hx, h⟩ | ⟨x, hx, h⟩
      · exact absurd (ha x hx) (not_lt.2 h)
      · exact absurd (hb x hx) (not_lt.2 h)
    · rw [if_neg h2]
      push Not at h2
      obtain ⟨ha, hb⟩ := h2
      by_cases h3 : |p.sum - 1| > klTol
      · rw [if_pos h3]
        simp only [reduceCtorEq, false_iff]
        rintro ⟨n, hp, hq, -, -, hs, -⟩
        rw [sum_entries p n hp] at h3
        exact absurd h3 (not_lt.2 hs)
      · rw [if_neg h3]
        by_cases h4 : |q.sum - 1| > klTol
        · rw [if_pos h4]
          simp only [reduceCtorEq, false_iff]
          rintro ⟨n, hp, hq, -, -, -, hs, -⟩
          rw [sum_entries q n hq] at h4
          exact absurd h4 (not_lt.2 hs)
        · rw [if_neg h4]
          have h5 : ¬ ∃ x ∈ p, x = 0 := by
            rintro ⟨x, hx, h⟩
            exact absurd (ha x hx) (by rw [h]; exact lt_irrefl _)
          simp only [if_neg h5, Option.some.injEq]
          rw [zip_sum (fun a b => a * Real.log (a / b)) p q p.length rfl h1.symm]
          constructor
          · rintro rfl
            rw [sum_entries p _ rfl] at h3
            rw [sum_entries q _ h1.symm] at h4
            exact ⟨_, rfl, h1.symm, (mem _ _ _).2 ha, (mem _ _ _).2 hb, not_lt.1 h3, not_lt.1 h4, rfl⟩
          · rintro ⟨n, hp, hq, -, -, -, -, rfl⟩
            subst hp
            rfl
  · rw [if_pos (by simpa using h1)]
    simp only [reduceCtorEq, false_iff]
    rintro ⟨n, hp, hq, -⟩
    exact h1 (hp.trans hq.symm)

theorem log_bound {a b : ℝ} (ha : 0 < a) (hb : 0 < b) : a - b ≤ a * Real.log (a / b) := by
  have h := Real.log_le_sub_one_of_pos (div_pos hb ha)
  have e : Real.log (a / b) = -Real.log (b / a) := by rw [← Real.log_inv, inv_div]
  have h2 : a * Real.log (b / a) ≤ a * (b / a - 1) := mul_le_mul_of_nonneg_left h ha.le
  have h3 : a * (b / a - 1) = b - a := by field_simp
  rw [e]
  linarith

theorem log_bound_eq {a b : ℝ} (ha : 0 < a) (hb : 0 < b) (h : a * Real.log (a / b) = a - b) : a = b := by
  by_contra hne
  have h1 : b / a ≠ 1 := fun h => hne (by rw [div_eq_one_iff_eq ha.ne'] at h; exact h.symm)
  have h' := Real.log_lt_sub_one_of_pos (div_pos hb ha) h1
  have e : Real.log (a / b) = -Real.log (b / a) := by rw [← Real.log_inv, inv_div]
  have h2 : a * Real.log (b / a) < a * (b / a - 1) := mul_lt_mul_of_pos_left h' ha
  have h3 : a * (b / a - 1) = b - a := by field_simp
  rw [e] at h
  linarith

/-- C81: for normalised lists the result is not negative, and zero exactly when the lists are equal; within the tolerance
of the code the result is never below `-2e-13`. -/
theorem C81_gibbs (p q : List ℝ) (x : ℝ) (h : klDiv p q = some x) :
    -(2 / 10 ^ 13) ≤ x ∧ (p.sum = q.sum → 0 ≤ x ∧ (x = 0 ↔ p = q)) := by
  obtain ⟨n, hp, hq, ha, hb, hs, ht, rfl⟩ := (C81_value p q x).1 h
  have low : ∑ i, entries p n hp i - ∑ i, entries q n hq i ≤ relativeEntropy (entries p n hp) (entries q n hq) := by
    rw [← Finset.sum_sub_distrib]
    exact Finset.sum_le_sum fun i _ => log_bound (ha i) (hb i)
  constructor
  · have h1 := (abs_le.1 hs).1
    have h2 := (abs_le.1 ht).2
    linarith
  · intro hsum
    rw [sum_entries p n hp, sum_entries q n hq] at hsum
    refine ⟨by linarith, fun h0 => ?_, ?_⟩
    · have hz : ∑ i, (entries p n hp i * Real.log (entries p n hp i / entries q n hq i) -
          (entries p n hp i - entries q n hq i)) = 0 := by
        rw [Finset.sum_sub_distrib, Finset.sum_sub_distrib, ← hsum, sub_self, sub_zero]
        exact h0
      have each := (Finset.sum_eq_zero_iff_of_nonneg (fun i _ => sub_nonneg.2 (log_bound (ha i) (hb i)))).1 hz
      refine List.ext_get (hp.trans hq.symm) fun k h1 h2 => ?_
      have := each ⟨k, hp ▸ h1⟩ (Finset.mem_univ _)
      exact log_bound_eq (ha ⟨k, hp ▸ h1⟩) (hb ⟨k, hp ▸ h1⟩) (sub_eq_zero.1 this)
    · rintro rfl
      refine Finset.sum_eq_zero fun i _ => ?_
      show entries p n hp i * Real.log (entries p n hp i / entries p n hp i) = 0
      rw [div_self (ha i).ne', Real.log_one, mul_zero]

/-- C81 fails for distributions with an entry zero: the relative entropy of `(0, 1)` with respect to `(1/2, 1/2)` is
`log 2` (terms `0 log 0` are dropped, as the code intends in its last branch), but every list with a zero is
rejected, and that branch is never reached. -/
theorem C81_fails_zero :
    (∀ p q : List ℝ, 0 ∈ p → klDiv p q = none) ∧ klDiv [0, 1] [1 / 2, 1 / 2] = none ∧
      relativeEntropy ![0, 1] ![1 / 2, 1 / 2] = Real.log 2 := by
  have h : ∀ p q : List ℝ, 0 ∈ p → klDiv p q = none := by
    intro p q h0
    rw [Option.eq_none_iff_forall_ne_some]
    intro x hx
    obtain ⟨n, hp, hq, ha, -⟩ := (C81_value p q x).1 hx
    obtain ⟨k, hk, e⟩ := List.getElem_of_mem h0
    have := ha ⟨k, hp ▸ hk⟩
    simp only [entries, List.get_eq_getElem, Fin.val_cast, e, lt_irrefl] at this
  refine ⟨h, h _ _ (by simp), ?_⟩
  simp [relativeEntropy, Fin.sum_univ_two]

/-- The hypotheses are met: two different normalised lists. -/
example : ∃ x, klDiv [1 / 4, 3 / 4] [1 / 2, 1 / 2] = some x ∧ 0 < x := by
  have h : klDiv [1 / 4, 3 / 4] [1 / 2, 1 / 2] = some (relativeEntropy (entries [1 / 4, 3 / 4] 2 rfl) (entries [1 / 2, 1 / 2] 2 rfl)) := by
    refine (C81_value _ _ _).2 ⟨2, rfl, rfl, ?_, ?_, ?_, ?_, rfl⟩
    · intro i; fin_cases i <;> norm_num [entries]
    · intro i; fin_cases i <;> norm_num [entries]
    · norm_num [entries, Fin.sum_univ_two]
    · norm_num [entries, Fin.sum_univ_two]
  refine ⟨_, h, ?_⟩
  have g := (C81_gibbs _ _ _ h).2 (by norm_num)
  refine lt_of_le_of_ne g.1 fun e => ?_
  have := g.2.1 e.symm
  norm_num at this

/-! ### C82 -/

/-- The levels of a list as a function of their number. -/
def levels (E : List ℝ) : ℕ → ℝ := fun i => E.getD i 0

theorem diff_length : ∀ E : List ℝ, (diff E).length = E.length - 1
  | [] => rfl
  | [_] => rfl
  | a :: b :: l => by
    rw [diff, List.length_cons, diff_length (b :: l)]
    simp

theorem diff_get : ∀ (E : List ℝ) (i : ℕ) (h : i < (diff E).length), (diff E)[i] = spacing (levels E) i
  | a :: b :: l, 0, _ => rfl
  | a :: b :: l, i + 1, h => by
    have h' : i < (diff (b :: l)).length := by
      rw [diff, List.length_cons] at h
      omega
    have := diff_get (b :: l) i h'
    simp only [diff, List.getElem_cons_succ, this, spacing, levels, List.getD_cons_succ]

/-- The part of the computation after the tests. -/
theorem ratios_eq (E : List ℝ) (k : ℕ) (hE : E.length = k + 2) :
    ((diff E).zipWith (fun a b => min a b / max a b) ((diff E).rotate 1)).dropLast =
      (List.range k).map (ratio (levels E)) := by
  have hl : (diff E).length = k + 1 := by rw [diff_length, hE]; rfl
  refine List.ext_getElem ?_ fun i h1 h2 => ?_
  · simp [hl]
  · have hi : i < k := by simpa using h2
    simp only [List.getElem_dropLast, List.getElem_zipWith, List.getElem_map, List.getElem_range, List.getElem_rotate, hl,
      Nat.mod_eq_of_lt (show i + 1 < k + 1 by omega), diff_get, ratio]

theorem sorted_iff (E : List ℝ) : E.insertionSort (· ≤ ·) = E ↔ E.Pairwise (· ≤ ·) :=
  ⟨fun h => h ▸ List.pairwise_insertionSort _ _, fun h => h.insertionSort_eq⟩

theorem distinct_iff (E : List ℝ) : E.dedup.length = E.length ↔ E.Nodup :=
  ⟨fun h => List.dedup_eq_self.1 ((List.dedup_sublist E).eq_of_length h), fun h => by rw [List.dedup_eq_self.2 h]⟩

theorem strict_iff (E : List ℝ) : E.Pairwise (· < ·) ↔ E.Pairwise (· ≤ ·) ∧ E.Nodup := by
  rw [List.Nodup, ← List.pairwise_and_iff]
  exact ⟨fun h => h.imp fun h => lt_iff_le_and_ne.1 h, fun h => h.imp fun h => lt_iff_le_and_ne.2 h⟩

/-- C82: what happens for every list: it is rejected if empty or not ascending; the result is `nan` if a value repeats or
there are fewer than three levels; otherwise it is the mean ratio of neighbouring spacings. -/
theorem C82_outcome (E : List ℝ) :
    (meanLevelSpacing E = .raises ↔ E = [] ∨ ¬E.Pairwise (· ≤ ·)) ∧
    (meanLevelSpacing E = .nan ↔ E ≠ [] ∧ E.Pairwise (· ≤ ·) ∧ (¬E.Nodup ∨ E.length ≤ 2)) ∧
    ∀ x, meanLevelSpacing E = .value x ↔
      E.Pairwise (· < ·) ∧ ∃ k, 0 < k ∧ E.length = k + 2 ∧ x = meanRatio k (levels E) := by
  unfold meanLevelSpacing
  by_cases h1 : E.Pairwise (· ≤ ·)
  · rw [if_neg (by rw [not_not]; exact (sorted_iff E).2 h1)]
    by_cases h2 : E.Nodup
    · rw [if_neg (by rw [not_not]; exact (distinct_iff E).2 h2)]
      by_cases h3 : E.length = 0
      · have h3' : E = [] := List.length_eq_zero_iff.1 h3
        simp [h3']
      · rw [if_neg h3]
        have h3' : E ≠ [] := fun h => h3 (by simp [h])
        by_cases h4 : E.length ≤ 2
        · have hl : (((diff E).zipWith (fun a b => min a b / max a b) ((diff E).rotate 1)).dropLast) = [] := by
            rw [← List.length_eq_zero_iff]
            simp [diff_length]
            omega
          simp only [hl, mean, if_true]
          refine ⟨by simp [h1, h3'], by simp [h1, h3', h4], fun x => ?_⟩
          simp only [reduceCtorEq, false_iff]
          rintro ⟨-, k, hk, hE, -⟩
          omega
        · obtain ⟨k, hk⟩ : ∃ k, E.length = k + 2 := ⟨E.length - 2, by omega⟩
          have hk0 : 0 < k := by omega
          simp only [ratios_eq E k hk, mean]
          rw [if_neg (by simp; omega)]
          refine ⟨by simp [h1, h3'], by simp [h1, h3', h4, h2], fun x => ?_⟩
          simp only [Outcome.value.injEq, List.length_map, List.length_range]
          have e : ((List.range k).map (ratio (levels E))).sum / (k : ℝ) = meanRatio k (levels E) := by
            rw [meanRatio, Finset.sum_eq_multiset_sum]
            rfl
          rw [e]
          constructor
          · rintro rfl
            exact ⟨(strict_iff E).2 ⟨h1, h2⟩, k, hk0, hk, rfl⟩
          · rintro ⟨-, k', -, hk', rfl⟩
            obtain rfl : k = k' := by omega
            rfl
    · rw [if_pos (fun h => h2 ((distinct_iff E).1 h))]
      have h3 : E ≠ [] := fun h => h2 (by rw [h]; exact List.nodup_nil)
      refine ⟨by simp [h1, h3], by simp [h1, h2, h3], fun x => ?_⟩
      simp only [reduceCtorEq, false_iff]
      rintro ⟨h, -⟩
      exact h2 ((strict_iff E).1 h).2
  · rw [if_pos (fun h => h1 ((sorted_iff E).1 h))]
    refine ⟨by simp [h1], by simp [h1], fun x => ?_⟩
    simp only [reduceCtorEq, false_iff]
    rintro ⟨h, -⟩
    exact h1 ((strict_iff E).1 h).1

theorem spacing_pos {E : List ℝ} (h : E.Pairwise (· < ·)) {i : ℕ} (hi : i + 1 < E.length) : 0 < spacing (levels E) i := by
  have := List.pairwise_iff_getElem.1 h i (i + 1) (by omega) hi (by omega)
  simp only [spacing, levels, List.getD_eq_getElem?_getD, List.getElem?_eq_getElem hi,
    List.getElem?_eq_getElem (show i < E.length by omega), Option.getD_some]
  linarith

/-- C82: the result lies between zero (excluded) and one; it is one exactly for equally spaced levels. -/
theorem C82_range (E : List ℝ) (x : ℝ) (h : meanLevelSpacing E = .value x) :
    0 < x ∧ x ≤ 1 ∧ (x = 1 ↔ ∀ i, i + 2 < E.length → spacing (levels E) i = spacing (levels E) (i + 1)) := by
  obtain ⟨hE, k, hk, hl, rfl⟩ := ((C82_outcome E).2.2 x).1 h
  have hk' : (0 : ℝ) < k := by exact_mod_cast hk
  have pos : ∀ i ∈ Finset.range k, 0 < spacing (levels E) i ∧ 0 < spacing (levels E) (i + 1) := by
    intro i hi
    rw [Finset.mem_range] at hi
    exact ⟨spacing_pos hE (by omega), spacing_pos hE (by omega)⟩
  have r1 : ∀ i ∈ Finset.range k, 0 < ratio (levels E) i := fun i hi =>
    div_pos (lt_min (pos i hi).1 (pos i hi).2) (lt_max_of_lt_left (pos i hi).1)
  have r2 : ∀ i ∈ Finset.range k, ratio (levels E) i ≤ 1 := fun i hi =>
    (div_le_one (lt_max_of_lt_left (pos i hi).1)).2 (min_le_max)
  have r3 : ∀ i ∈ Finset.range k, (ratio (levels E) i = 1 ↔ spacing (levels E) i = spacing (levels E) (i + 1)) := by
    intro i hi
    rw [ratio, div_eq_one_iff_eq (lt_max_of_lt_left (pos i hi).1).ne']
    refine ⟨fun h => le_antisymm ?_ ?_, fun h => by rw [h, min_self, max_self]⟩
    · exact (le_max_left _ _).trans (h.symm.le.trans (min_le_right _ _))
    · exact (le_max_right _ _).trans (h.symm.le.trans (min_le_left _ _))
  refine ⟨div_pos (Finset.sum_pos r1 ⟨0, Finset.mem_range.2 hk⟩) hk', ?_, ?_⟩
  · rw [meanRatio, div_le_one hk']
    exact (Finset.sum_le_card_nsmul _ _ 1 r2).trans (by simp)
  · rw [meanRatio, div_eq_one_iff_eq hk'.ne']
    have : (∑ i ∈ Finset.range k, ratio (levels E) i = k) ↔ ∑ i ∈ Finset.range k, (1 - ratio (levels E) i) = 0 := by
      rw [Finset.sum_sub_distrib]
      simp only [Finset.sum_const, Finset.card_range, nsmul_eq_mul, mul_one, sub_eq_zero]
      exact eq_comm
    rw [this, Finset.sum_eq_zero_iff_of_nonneg fun i hi => sub_nonneg.2 (r2 i hi)]
    constructor
    · intro H i hi
      have hi' : i ∈ Finset.range k := Finset.mem_range.2 (by omega)
      exact (r3 i hi').1 (sub_eq_zero.1 (H i hi')).symm
    · intro H i hi
      rw [(r3 i hi).2 (H i (by rw [Finset.mem_range] at hi; omega)), sub_self]

theorem ratio_affine (E : ℕ → ℝ) {a : ℝ} (ha : 0 < a) (b : ℝ) (i : ℕ) : ratio (fun j => a * E j + b) i = ratio E i := by
  have e : ∀ j, spacing (fun j => a * E j + b) j = a * spacing E j := fun j => by simp only [spacing]; ring
  rw [ratio, e, e, ← mul_min_of_nonneg _ _ ha.le, ← mul_max_of_nonneg _ _ ha.le, mul_div_mul_left _ _ ha.ne', ratio]

/-- C82: shifting the energies and measuring them in another (positive) unit changes nothing. -/
theorem C82_units (E : List ℝ) {a : ℝ} (ha : 0 < a) (b : ℝ) :
    meanLevelSpacing (E.map fun e => a * e + b) = meanLevelSpacing E := by
  have mono : StrictMono fun e : ℝ => a * e + b := fun x y h => by
    have := mul_lt_mul_of_pos_left h ha
    simpa using this
  have p1 : (E.map fun e => a * e + b).Pairwise (· ≤ ·) ↔ E.Pairwise (· ≤ ·) := by
    rw [List.pairwise_map]
    exact List.Pairwise.iff (fun {x y} => mono.le_iff_le)
  have p2 : (E.map fun e => a * e + b).Nodup ↔ E.Nodup := List.nodup_map_iff mono.injective
  have p3 : (E.map fun e => a * e + b).Pairwise (· < ·) ↔ E.Pairwise (· < ·) := by
    rw [strict_iff, strict_iff, p1, p2]
  have p4 : ∀ k, E.length = k + 2 → meanRatio k (levels (E.map fun e => a * e + b)) = meanRatio k (levels E) := by
    intro k hk
    rw [meanRatio, meanRatio]
    congr 1
    refine Finset.sum_congr rfl fun i hi => ?_
    rw [Finset.mem_range] at hi
    rw [← ratio_affine (levels E) ha b i]
    have : ∀ j, j < E.length → levels (E.map fun e => a * e + b) j = a * levels E j + b := by
      intro j hj
      simp [levels, List.getD_eq_getElem?_getD, List.getElem?_eq_getElem hj]
    simp only [ratio, spacing]
    rw [this i (by omega), this (i + 1) (by omega), this (i + 1 + 1) (by omega)]
  have o := C82_outcome E
  have o' := C82_outcome (E.map fun e => a * e + b)
  cases h : meanLevelSpacing E with
  | raises =>
    rw [o'.1, p1]
    simpa using o.1.1 h
  | nan =>
    rw [o'.2.1, p1, p2]
    simpa using o.2.1.1 h
  | value x =>
    rw [o'.2.2, p3]
    obtain ⟨h1, k, h2, h3, rfl⟩ := (o.2.2 x).1 h
    exact ⟨h1, k, h2, by simpa using h3, (p4 k h3).symm⟩

/-- C82 fails for two levels: the documentation promises `nan` for degenerate spectra only, but the answer for any two
different levels is `nan` (mean of an empty array), and so it is for a single level. -/
theorem C82_fails_two (a b : ℝ) (h : a < b) :
    [a, b].Nodup ∧ meanLevelSpacing [a, b] = .nan ∧ meanLevelSpacing [a] = .nan := by
  refine ⟨by simp [h.ne], (C82_outcome _).2.1.2 ⟨by simp, by simp [h.le], Or.inr (by simp)⟩,
    (C82_outcome _).2.1.2 ⟨by simp, by simp, Or.inr (by simp)⟩⟩

/-- The hypotheses are met: the levels 0, 1, 3, 4 have spacings 1, 2, 1 and mean ratio 1/2. -/
example : meanLevelSpacing [0, 1, 3, 4] = .value (1 / 2) := by
  refine ((C82_outcome _).2.2 _).2 ⟨by norm_num, 2, by omega, rfl, ?_⟩
  norm_num [meanRatio, ratio, spacing, levels, Finset.sum_range_succ]

/-- The projector on the first of two states is an isometry. -/
example : (!![1; 0] : Matrix (Fin 2) (Fin 1) ℂ).conjTranspose * (!![1; 0] : Matrix (Fin 2) (Fin 1) ℂ) = 1 := by
  ext i j
  fin_cases i; fin_cases j
  simp [Matrix.mul_apply, Fin.sum_univ_two]

section
open Model.Ham Model.Drive Proof.Ham

/-- The environment of the examples of C20 with complex numbers. -/
noncomputable def complexEnv : Env Nat Nat ℂ where
  hash := sampleEnv.hash
  tiny := fun M => @decide (M = 0) (Classical.propDecidable _)

/-- A driven operator of two states. -/
def complexHam : Ham Nat Nat (Fin 2) (Fin 2) ℂ := ⟨⟨.array, 1⟩, [(.atom (.base 1 []), ⟨.array, !![0, 1; 1, 0]⟩)]⟩

/-- Projection of a driven hamiltonian with an array. -/
example (app : Nat → List Nat → ℝ → ℂ) (t : ℝ) : ∃ Y : Ham Nat Nat (Fin 1) (Fin 1) ℂ,
    projectHamArray complexEnv complexHam (!![1; 1] : Matrix (Fin 2) (Fin 1) ℂ) = some ⟨1, Y⟩ ∧
      toMatrix app Y t = down (!![1; 1] : Matrix (Fin 2) (Fin 1) ℂ) (toMatrix app complexHam t) := by
  have hX : ∃ X, projectHamArray complexEnv complexHam (!![1; 1] : Matrix (Fin 2) (Fin 1) ℂ) = some X := by
    rw [projectHamArray, dif_pos rfl, projectDense, rmulDense, astype_dict (by simp only [complexHam, Ham.Dict, List.mem_singleton, forall_eq]; exact ⟨⟨_, rfl⟩, by simp⟩)]
    exact ⟨_, rfl⟩
  obtain ⟨X, hX⟩ := hX
  obtain ⟨Y, rfl, h⟩ := (C80_hamiltonian_partial complexEnv app (fun _ => True) 1
    (Proof.Drive.noCollision_of_injective sampleHash_injective _ _) (fun M => by simp [complexEnv, ← Matrix.ext_iff]) _).1 complexHam
    (by
      intro e he
      simp only [complexHam, List.mem_singleton] at he
      subst he
      exact ⟨fun _ _ => trivial, by simp [degree], trivial⟩) X hX
  exact ⟨Y, hX, h t⟩

end

end Props
