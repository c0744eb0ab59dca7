import Verif.Model.ExpmObject
import Verif.Props.C69

/-!
C99: `expm_multiply_parallel` objects: after any history of `set_a` they act as new ones, and results have a type that holds them.

The numbers computed by `dot` are the subject of C69.
-/

namespace Props
open Matrix Spec Spec.Taylor Model.Matvec Model.ExpmParallel Model.ExpmObject Proof.ExpmParallel

/-- The last scalar of a list of arguments, if there is one. -/
def lastScalar (a : Scalar) : List AArg → Scalar
  | [] => a
  | .array :: l => lastScalar a l
  | .scalar b :: l => lastScalar b l

/-- The object after calls of `set_a(a)`, whether they raise or not. -/
noncomputable def afterCalls (fr : Fragment) (o : Obj) (l : List AArg) : Obj := l.foldl (fun o a => (setA fr o a none).1) o

theorem init_default (fr : Fragment) (A : Mat) (a : Scalar) (hA : A.rows = A.cols) (ht : A.type ≠ .int64) :
    init fr A (.scalar a) none = .ok (build fr A a ((A.type.float.join a.min).join f64)) := by
  simp [init, hA, chooseType, ht]

theorem setA_build (fr : Fragment) (A : Mat) (a b : Scalar) (d : DType) :
    setA fr (build fr A a d) (.scalar b) none = (build fr A b ((A.type.float.join b.min).join f64), none) := rfl

/-- After every history of calls `set_a(a)` the object is the same as a new one with the last `a`. -/
theorem C99_history (fr : Fragment) (A : Mat) (a : Scalar) (l : List AArg) (o : Obj) (h : init fr A (.scalar a) none = .ok o) :
    init fr A (.scalar (lastScalar a l)) none = .ok (afterCalls fr o l) := by
  have hA : A.rows = A.cols := by
    by_contra hA
    simp [init, hA] at h
  have ht : A.type ≠ .int64 := by
    intro ht
    simp [init, hA, chooseType, ht] at h
  rw [init_default fr A a hA ht] at h
  obtain rfl := Except.ok.inj h
  rw [init_default fr A _ hA ht]
  congr 1
  clear h
  induction l generalizing a with
  | nil => rfl
  | cons x l ih =>
    cases x with
    | array => exact ih a
    | scalar b => exact ih b

/-- A type given to the constructor holds until the first successful `set_a`; from then on the object is a new one with the default type. -/
theorem C99_history_dtype (fr : Fragment) (A : Mat) (a b : Scalar) (d : DType) (l : List AArg) (o : Obj) (h : init fr A (.scalar a) (some d) = .ok o) :
    init fr A (.scalar (lastScalar b l)) none = .ok (afterCalls fr (setA fr o (.scalar b) none).1 l) := by
  have hA : A.rows = A.cols := by
    by_contra hA
    simp [init, hA] at h
  have ht : A.type ≠ .int64 := by
    intro ht
    simp only [init, hA, ne_eq, not_true_eq_false, if_false, ht, if_true] at h
    split at h <;> cases h
  have ho : o = build fr A a d := by
    simp only [init, hA, ne_eq, not_true_eq_false, if_false, if_neg ht, chooseType] at h
    split at h
    · cases h
    · rename_i e
      split at e
      · cases e; exact (Except.ok.inj h).symm
      · cases e
  subst ho
  rw [setA_build]
  exact C99_history fr A b l _ (init_default fr A b hA ht)

/-- `set_a` of an array raises and changes nothing. -/
theorem C99_refused (fr : Fragment) (o : Obj) (d : Option DType) : setA fr o .array d = (o, some .valueError) := rfl

/-- The constructor accepts a type exactly if matrix and scalar can be cast to it. -/
theorem C99_constructor (fr : Fragment) (A : Mat) (a : Scalar) (d : DType) (hA : A.rows = A.cols) (ht : A.type ≠ .int64) :
    (∃ o, init fr A (.scalar a) (some d) = .ok o) ↔ A.type.float.canCast d = true ∧ a.min.canCast d = true := by
  have e : ((A.type.float.join a.min).join f32).canCast d = (A.type.float.canCast d && a.min.canCast d) := by
    rcases A.type.float with ⟨x, y⟩
    rcases a.min with ⟨z, w⟩
    rcases d with ⟨u, v⟩
    cases x <;> cases y <;> cases z <;> cases w <;> cases u <;> cases v <;> rfl
  simp only [init, hA, ne_eq, not_true_eq_false, if_false, if_neg ht, chooseType, e]
  cases h1 : A.type.float.canCast d <;> cases h2 : a.min.canCast d <;> simp

/-- Objects that a program can hold: made by the constructor, then changed by any calls of `set_a`. -/
inductive Reached (fr : Fragment) : Obj → Prop
  | new {A a d o} : init fr A a d = .ok o → Reached fr o
  | set {o} (a : AArg) (d : Option DType) : Reached fr o → Reached fr (setA fr o a d).1

theorem canCast_refl (x : DType) : x.canCast x = true := by
  rcases x with ⟨_ | _, _ | _⟩ <;> rfl

theorem canCast_join (x y : DType) : x.canCast (x.join y) = true := by
  rcases x with ⟨_ | _, _ | _⟩ <;> rcases y with ⟨_ | _, _ | _⟩ <;> rfl

theorem canCast_join' (x y : DType) : x.canCast (y.join x) = true := by
  rcases x with ⟨_ | _, _ | _⟩ <;> rcases y with ⟨_ | _, _ | _⟩ <;> rfl

theorem canCast_trans {x y z : DType} (h : x.canCast y = true) (h' : y.canCast z = true) : x.canCast z = true := by
  revert h h'
  rcases x with ⟨_ | _, _ | _⟩ <;> rcases y with ⟨_ | _, _ | _⟩ <;> rcases z with ⟨_ | _, _ | _⟩ <;> decide

theorem init_spec {fr : Fragment} {A : Mat} {a : AArg} {d : Option DType} {o : Obj} (h : init fr A a d = .ok o) :
    o.A = A ∧ A.rows = A.cols ∧ A.type ≠ .int64 ∧ A.type.float.canCast o.dtype = true ∧ o.a.min.canCast o.dtype = true := by
  cases a with
  | array => cases h
  | scalar a =>
    by_cases hA : A.rows = A.cols
    · by_cases ht : A.type = .int64
      · simp only [init, hA, ne_eq, not_true_eq_false, if_false, ht, if_true] at h
        split at h <;> cases h
      · cases d with
        | none =>
          rw [init_default fr A a hA ht] at h
          obtain rfl := Except.ok.inj h
          exact ⟨rfl, hA, ht, canCast_trans (canCast_join _ a.min) (canCast_join _ _), canCast_trans (canCast_join' _ A.type.float) (canCast_join _ _)⟩
        | some d =>
          have hc := (C99_constructor fr A a d hA ht).1 ⟨o, h⟩
          simp only [init, hA, ne_eq, not_true_eq_false, if_false, if_neg ht, chooseType] at h
          split at h
          · cases h
          · rename_i e
            split at e
            · cases e
              obtain rfl := Except.ok.inj h
              exact ⟨rfl, hA, ht, hc.1, hc.2⟩
            · cases e
    · simp [init, hA] at h

theorem reached_spec {fr : Fragment} {o : Obj} (h : Reached fr o) :
    o.A.rows = o.A.cols ∧ o.A.type ≠ .int64 ∧ o.A.type.float.canCast o.dtype = true := by
  induction h with
  | new h =>
    obtain ⟨rfl, h1, h2, h3, _⟩ := init_spec h
    exact ⟨h1, h2, h3⟩
  | @set o a d _ ih =>
    cases a with
    | array => exact ih
    | scalar b =>
      cases d with
      | some d => exact ih
      | none => exact ⟨ih.1, ih.2.1, canCast_trans (canCast_join _ b.min) (canCast_join _ _)⟩

/-- What `dot` accepts, after any history: vectors with as many components as the matrix has rows.  If the result is to overwrite the vector, this must be contiguous, writable and of the type of the
result, and a work array must have twice the length and that type. -/
theorem C99_dot_accepts (fr : Fragment) (o : Obj) (h : Reached fr o) (c : DotCall) :
    (∃ d, dotCheck o c = .ok d) ↔ c.ndim = 1 ∧ c.len = o.A.rows ∧ (c.overwrite = true → o.dtype.canCast c.type = true ∧ c.carray = true) ∧
      ∀ w ∈ c.work, w = ([2 * o.A.rows], o.dtype.join c.type) := by
  obtain ⟨hA, ht, hcast⟩ := reached_spec h
  have hs : signature o.A.type (o.dtype.join c.type) = true := by
    have := canCast_trans hcast (canCast_join o.dtype c.type)
    unfold signature
    split
    · rename_i e; exact absurd e ht
    · exact this
  have hj : o.dtype.join c.type ≠ c.type ↔ ¬ o.dtype.canCast c.type = true := by
    generalize o.dtype = x
    generalize c.type = y
    rcases x with ⟨_ | _, _ | _⟩ <;> rcases y with ⟨_ | _, _ | _⟩ <;> decide
  unfold dotCheck
  simp only [hj, ← hA, hs, if_true]
  by_cases h1 : c.ndim = 1
  · by_cases h2 : c.len = o.A.rows
    · by_cases h3 : c.overwrite = true ∧ ¬ o.dtype.canCast c.type = true
      · simp only [h1, h2, ne_eq, not_true_eq_false, if_false, if_pos h3]
        constructor
        · rintro ⟨_, h⟩; cases h
        · rintro ⟨-, -, h, -⟩; exact absurd (h h3.1).1 h3.2
      · by_cases h4 : c.overwrite = true ∧ ¬ c.carray = true
        · simp only [h1, h2, ne_eq, not_true_eq_false, if_false, if_neg h3, if_pos h4]
          constructor
          · rintro ⟨_, h⟩; cases h
          · rintro ⟨-, -, h, -⟩; exact absurd (h h4.1).2 h4.2
        · simp only [h1, h2, ne_eq, not_true_eq_false, if_false, if_neg h3, if_neg h4]
          have h5 : c.overwrite = true → o.dtype.canCast c.type = true ∧ c.carray = true :=
            fun ho => ⟨by_contra fun hh => h3 ⟨ho, hh⟩, by_contra fun hh => h4 ⟨ho, hh⟩⟩
          cases hw : c.work with
          | none => exact ⟨fun _ => ⟨trivial, trivial, h5, by simp⟩, fun _ => ⟨_, rfl⟩⟩
          | some w =>
            obtain ⟨shape, t⟩ := w
            by_cases h6 : shape = [2 * o.A.rows]
            · by_cases h7 : t = o.dtype.join c.type
              · simp [h6, h7]
                exact h5
              · simp [h6, h7]
            · simp [h6]
    · simp [h1, h2]
  · simp [h1]

/-- The type of a result holds the matrix and the vector, and after a successful `set_a` or constructor the scalar. -/
theorem C99_dot_type (fr : Fragment) (o : Obj) (h : Reached fr o) (c : DotCall) (d : DType) (hd : dotCheck o c = .ok d) :
    d = o.dtype.join c.type ∧ o.A.type.float.canCast d = true ∧ c.type.canCast d = true ∧ (c.overwrite = true → d = c.type) := by
  obtain ⟨_, _, hcast⟩ := reached_spec h
  have key : d = o.dtype.join c.type ∧ ¬ (c.overwrite = true ∧ o.dtype.join c.type ≠ c.type) := by
    unfold dotCheck at hd
    simp only at hd
    split at hd
    · cases hd
    · split at hd
      · cases hd
      · split at hd
        · cases hd
        · rename_i hne
          refine ⟨?_, hne⟩
          split at hd
          · cases hd
          · split at hd
            · split at hd
              · cases hd
              · split at hd
                · cases hd
                · split at hd
                  · exact (Except.ok.inj hd).symm
                  · cases hd
            · split at hd
              · exact (Except.ok.inj hd).symm
              · cases hd
  obtain ⟨rfl, hne⟩ := key
  refine ⟨rfl, canCast_trans hcast (canCast_join _ _), canCast_join' _ _, fun ho => ?_⟩
  by_contra hh
  exact hne ⟨ho, hh⟩

/-- After the constructor the scalar is held by the type of every result. -/
theorem C99_scalar_type (fr : Fragment) (A : Mat) (a : AArg) (d : Option DType) (o : Obj) (h : init fr A a d = .ok o) (c : DotCall) (t : DType)
    (ht : dotCheck o c = .ok t) : o.a.min.canCast t = true := by
  rw [(C99_dot_type fr o (.new h) c t ht).1]
  exact canCast_trans (init_spec h).2.2.2.2 (canCast_join _ _)

/-! ### no terms of the series -/

theorem foldl_max_zero : ∀ (l : List ℝ) (c : ℝ), 0 ≤ c → (∀ x ∈ l, 0 ≤ x) → l.foldl max c = 0 → c = 0 ∧ ∀ x ∈ l, x = 0
  | [], c, _, _, h => ⟨h, by simp⟩
  | x :: l, c, hc, hl, h => by
    obtain ⟨h1, h2⟩ := foldl_max_zero l (max c x) (le_max_of_le_left hc) (fun y hy => hl y (List.mem_cons_of_mem _ hy)) h
    have hx := hl x List.mem_cons_self
    have hc' : c ≤ 0 := h1 ▸ le_max_left c x
    have hx' : x ≤ 0 := h1 ▸ le_max_right c x
    refine ⟨le_antisymm hc' hc, fun y hy => ?_⟩
    rcases List.mem_cons.1 hy with rfl | hy
    · exact le_antisymm hx' hx
    · exact h2 y hy

theorem sum_zero_of_nonneg : ∀ (l : List ℝ), (∀ x ∈ l, 0 ≤ x) → l.sum = 0 → ∀ x ∈ l, x = 0
  | [], _, _ => by simp
  | y :: l, hl, h => by
    have hy := hl y List.mem_cons_self
    have hs : 0 ≤ l.sum := List.sum_nonneg fun x hx => hl x (List.mem_cons_of_mem _ hx)
    rw [List.sum_cons] at h
    intro x hx
    rcases List.mem_cons.1 hx with rfl | hx
    · linarith
    · exact sum_zero_of_nonneg l (fun x hx => hl x (List.mem_cons_of_mem _ hx)) (by linarith) x hx

theorem list_sum_neg (mu : ℂ) : ∀ (l : List ℂ), (∀ x ∈ l, x = -mu ∨ x = 0) → ∃ c : ℕ, l.sum = -(c * mu)
  | [], _ => ⟨0, by simp⟩
  | x :: l, h => by
    obtain ⟨c, hc⟩ := list_sum_neg mu l fun y hy => h y (List.mem_cons_of_mem _ hy)
    rcases h x List.mem_cons_self with rfl | rfl
    · exact ⟨c + 1, by rw [List.sum_cons, hc]; push_cast; ring⟩
    · exact ⟨c, by rw [List.sum_cons, hc, zero_add]⟩

theorem list_sum_multiple (mu : ℂ) : ∀ (l : List ℂ), (∀ x ∈ l, ∃ c : ℕ, x = -(c * mu)) → ∃ c : ℕ, l.sum = -(c * mu)
  | [], _ => ⟨0, by simp⟩
  | x :: l, h => by
    obtain ⟨c, hc⟩ := list_sum_multiple mu l fun y hy => h y (List.mem_cons_of_mem _ hy)
    obtain ⟨d, rfl⟩ := h x List.mem_cons_self
    exact ⟨c + d, by rw [List.sum_cons, hc]; push_cast; ring⟩

/-- The norm that is computed vanishes for the matrix 0 only, although it is that of `A + mu`. -/
theorem norm_zero (n : ℕ) (A : Compressed ℂ) (h : oneNorm n A = 0) :
    meanDiagonal n A = 0 ∧ ∀ i < n, ∀ jj, A.Ap i ≤ jj → jj < A.Ap (i + 1) → A.Ax jj = 0 := by
  unfold oneNorm csrNorm at h
  set mu := meanDiagonal n A with hmu
  have h1 := (foldl_max_zero _ _ le_rfl (by
    intro x hx
    obtain ⟨i, _, rfl⟩ := List.mem_map.1 hx
    apply List.sum_nonneg
    intro y hy
    obtain ⟨jj, _, rfl⟩ := List.mem_map.1 hy
    split <;> positivity) h).2
  have h2 : ∀ i < n, ∀ jj, A.Ap i ≤ jj → jj < A.Ap (i + 1) → if A.Aj jj = i then mu + A.Ax jj = 0 else A.Ax jj = 0 := by
    intro i hi jj hj1 hj2
    have h3 := sum_zero_of_nonneg _ (by
      intro y hy
      obtain ⟨jj, _, rfl⟩ := List.mem_map.1 hy
      split <;> positivity) (h1 _ (List.mem_map.2 ⟨i, List.mem_range.2 hi, rfl⟩))
    have h4 := h3 _ (List.mem_map.2 ⟨jj, List.mem_range'_1.2 ⟨hj1, by omega⟩, rfl⟩)
    split
    · rename_i e; rw [if_pos e] at h4; exact norm_eq_zero.1 h4
    · rename_i e; rw [if_neg e] at h4; exact norm_eq_zero.1 h4
  have h0 : mu = 0 := by
    obtain ⟨c, hc⟩ := list_sum_multiple mu ((List.range n).map fun (i : ℕ) => ((List.range' (A.Ap i) (A.Ap (i + 1) - A.Ap i)).map fun (jj : ℕ) =>
        if A.Aj jj = i then A.Ax jj else 0).sum) (by
      intro x hx
      obtain ⟨i, hi, rfl⟩ := List.mem_map.1 hx
      apply list_sum_neg
      intro y hy
      obtain ⟨jj, hjj, rfl⟩ := List.mem_map.1 hy
      have hjj := List.mem_range'_1.1 hjj
      have := h2 i (List.mem_range.1 hi) jj hjj.1 (by omega)
      split
      · rename_i e
        rw [if_pos e] at this
        left
        linear_combination this
      · right; rfl)
    have e : mu = -(c * mu) / n := by
      rw [← hc, hmu]
      rfl
    by_cases hn : n = 0
    · rw [e, hn]; simp
    · have hn' : (n : ℂ) ≠ 0 := Nat.cast_ne_zero.2 hn
      rw [eq_div_iff hn'] at e
      have e2 : mu * ((n + c : ℕ) : ℂ) = 0 := by push_cast; linear_combination e
      rcases mul_eq_zero.1 e2 with e3 | e3
      · exact e3
      · have := Nat.cast_eq_zero.1 e3
        omega
  refine ⟨h0, fun i hi jj hj1 hj2 => ?_⟩
  have := h2 i hi jj hj1 hj2
  rw [h0] at this
  split at this
  · simpa using this
  · exact this

theorem no_terms {n : ℕ} {tol : ℝ} {eta : ℂ} {X : Matrix (Fin n) (Fin n) ℂ} {c : ℝ} {v w : Fin n → ℂ} (h : Approximates 0 tol eta X 1 c v w) : w = eta • v := by
  cases h with
  | step hord hrest =>
    rename_i m
    have hm0 : m = 0 := Nat.le_zero.1 hord.le
    subst hm0
    cases hrest with
    | done => simp [partialSum, term]

/-- If no terms of the series are summed because the norm or the scalar vanishes, the result is exactly `exp(a A) v`. -/
theorem C99_no_terms {M : ℕ} (fr : Fragment) (A : Mat) (a : Scalar) (d : DType) (h0 : ‖a.val‖ * oneNorm A.rows A.csr = 0) (hn : A.rows ≤ M)
    (hA : A.csr.Valid A.rows A.rows) (T : ℕ) (hT : 0 < T) (F F' : Mem M ℂ) (h : ExpmMultiply (input (build fr A a d) T T) F F') :
    (fun k : Fin A.rows => F' ((k : ℕ) : ZMod M)) =
      NormedSpace.exp (a.val • (Matrix.of fun i j : Fin A.rows => csrEntry A.csr i j)) *ᵥ fun k => F ((k : ℕ) : ZMod M) := by
  have hp : partition fr A (oneNorm A.rows A.csr) a.val (meanDiagonal A.rows A.csr) d (halfEps d) = (0, 1) := by
    unfold partition
    rw [if_pos h0]
  have hm : (input (build fr A a d) T T).mStar = 0 := congrArg Prod.fst hp
  have hs : (input (build fr A a d) T T).s = 1 := congrArg Prod.snd hp
  have key := C69_result (input (build fr A a d) T T) hn hA hT rfl F F' h
  rw [hm, hs] at key
  have hzero : a.val = 0 ∨ (meanDiagonal A.rows A.csr = 0 ∧ (Matrix.of fun i j : Fin A.rows => csrEntry A.csr i j) = 0) := by
    rcases mul_eq_zero.1 h0 with h | h
    · left; simpa using h
    · right
      obtain ⟨h1, h2⟩ := norm_zero _ _ h
      refine ⟨h1, ?_⟩
      ext i j
      simp only [Matrix.of_apply, csrEntry, Matrix.zero_apply]
      apply Finset.sum_eq_zero
      intro jj hjj
      have hjj := Finset.mem_Ico.1 hjj
      rw [h2 i i.2 jj hjj.1 hjj.2, ite_self]
  have hexp : NormedSpace.exp (a.val • (Matrix.of fun i j : Fin A.rows => csrEntry A.csr i j)) = 1 := by
    have : a.val • (Matrix.of fun i j : Fin A.rows => csrEntry A.csr i j) = 0 := by
      rcases hzero with h | ⟨_, h⟩
      · rw [h, zero_smul]
      · rw [h, smul_zero]
    rw [this, NormedSpace.exp_zero]
  have heta : Complex.exp (a.val * (meanDiagonal A.rows A.csr / ((1 : ℕ) : ℂ))) = 1 := by
    rcases hzero with h | ⟨h, _⟩ <;> rw [h] <;> simp
  rw [hexp, one_mulVec]
  refine (no_terms key).trans ?_
  change Complex.exp (a.val * (meanDiagonal A.rows A.csr / ((1 : ℕ) : ℂ))) • _ = _
  rw [heta, one_smul]
  rfl

/-! ### the defects -/

/-- `set_a(a, dtype=…)` always raises `NameError`, and nevertheless changes `a`, without the number of terms and steps that belong to it. -/
theorem C99_fails_set_a (fr : Fragment) (o : Obj) (a : Scalar) (d : DType) : setA fr o (.scalar a) (some d) = ({ o with a }, some .nameError) := rfl

/-- The matrix with diagonal 1, -1. -/
noncomputable def signs : Mat := { rows := 2, cols := 2, csr := { Ap := fun k => k, Aj := fun k => k, Ax := fun k => if k = 0 then 1 else -1 }, type := .flt f64 }

theorem signs_mu : meanDiagonal 2 signs.csr = 0 := by
  simp [meanDiagonal, signs, List.range_succ]

theorem signs_entries : (Matrix.of fun i j : Fin 2 => csrEntry signs.csr i j) = Matrix.diagonal ![1, -1] := by
  ext i j
  fin_cases i <;> fin_cases j <;> simp [csrEntry, signs]

/-- An object made with `a=0`, then `set_a(1, dtype=float64)`, whose exception is caught: `dot` returns the vector unchanged, although `a` is 1 and `exp(A) v` has the components `e v0` and
`v1/e`. -/
theorem C99_fails_stale (fr : Fragment) (o : Obj) (h : init fr signs (.scalar ⟨0, false, false⟩) none = .ok o) (F F' : Mem 8 ℂ) (T : ℕ) (hT : 0 < T) (t : DType)
    (c : DotCall) (hd : Dot (setA fr o (.scalar ⟨1, false, false⟩) (some f64)).1 c T T F t F') :
    (setA fr o (.scalar ⟨1, false, false⟩) (some f64)).1.a.val = 1 ∧ F' 0 = F 0 ∧
      (NormedSpace.exp ((1 : ℂ) • (Matrix.of fun i j : Fin 2 => csrEntry signs.csr i j)) *ᵥ fun k => F ((k : ℕ) : ZMod 8)) 0 = Complex.exp 1 * F 0 := by
  have ho := init_default fr signs ⟨0, false, false⟩ rfl (by decide)
  rw [h] at ho
  obtain rfl := Except.ok.inj ho
  refine ⟨rfl, ?_, ?_⟩
  · obtain ⟨_, hx⟩ := hd
    have hA : signs.csr.Valid 2 2 := ⟨rfl, fun k _ => Nat.le_succ k, fun _ h => h⟩
    have key := C69_result (input (setA fr (build fr signs ⟨0, false, false⟩ ((signs.type.float.join (Scalar.min ⟨0, false, false⟩)).join f64))
      (.scalar ⟨1, false, false⟩) (some f64)).1 T T) (show 2 ≤ 8 by decide) hA hT rfl F F' hx
    have hp : ∀ d, partition fr signs (oneNorm 2 signs.csr) 0 (meanDiagonal 2 signs.csr) d (halfEps d) = (0, 1) := by
      intro d
      unfold partition
      rw [if_pos (by simp)]
    have hm : (input (setA fr (build fr signs ⟨0, false, false⟩ ((signs.type.float.join (Scalar.min ⟨0, false, false⟩)).join f64))
      (.scalar ⟨1, false, false⟩) (some f64)).1 T T).mStar = 0 := congrArg Prod.fst (hp _)
    have hs : (input (setA fr (build fr signs ⟨0, false, false⟩ ((signs.type.float.join (Scalar.min ⟨0, false, false⟩)).join f64))
      (.scalar ⟨1, false, false⟩) (some f64)).1 T T).s = 1 := congrArg Prod.snd (hp _)
    rw [hm, hs] at key
    have e := congrFun (no_terms key) (0 : Fin 2)
    have e2 : F' 0 = Complex.exp (1 * (meanDiagonal 2 signs.csr / ((1 : ℕ) : ℂ))) * F 0 := by
      refine (Eq.trans ?_ e).trans ?_
      · simp
      · change Complex.exp (1 * (meanDiagonal 2 signs.csr / ((1 : ℕ) : ℂ))) * F (((0 : Fin 2) : ℕ) : ZMod 8) = _
        simp
    rw [e2, signs_mu]
    simp
  · rw [signs_entries, one_smul, Matrix.exp_diagonal, mulVec_diagonal]
    simp [Complex.exp_eq_exp_ℂ, Pi.coe_exp]

/-- The object of `C99_fails_stale` exists, `dot` accepts vectors of two components, and it runs. -/
example (fr : Fragment) : ∃ o, init fr signs (.scalar ⟨0, false, false⟩) none = .ok o ∧
    ∃ F' t, Dot (M := 8) (setA fr o (.scalar ⟨1, false, false⟩) (some f64)).1 ⟨1, 2, f64, true, none, false⟩ 2 2 (fun _ => 1) t F' := by
  refine ⟨_, init_default fr signs _ rfl (by decide), ?_⟩
  obtain ⟨F', h⟩ := C69_executes (input (setA fr (build fr signs ⟨0, false, false⟩ ((signs.type.float.join (Scalar.min ⟨0, false, false⟩)).join f64))
      (.scalar ⟨1, false, false⟩) (some f64)).1 2 2) (fun _ : ZMod 8 => (1 : ℂ))
  exact ⟨F', _, rfl, h⟩

/-- Matrices of 64-bit (or 32-bit) integers are refused, whatever the type asked for. -/
theorem C99_fails_integers (fr : Fragment) (A : Mat) (a : Scalar) (hA : A.rows = A.cols) (ht : A.type = .int64) :
    init fr A (.scalar a) none = .error .typeError := by
  simp [init, hA, chooseType, ht]

end Props
