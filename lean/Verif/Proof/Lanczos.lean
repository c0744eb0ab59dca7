import Verif.Model.Lanczos
import Mathlib.Tactic.LinearCombination

/-! Lemmas on the model of the Lanczos routines. -/

namespace Proof.Lanczos
open Matrix Model.Lanczos
open Spec.Lanczos (ip norm tridiagonal IsLanczos)

variable {n : Type} [Fintype n]

/-! ### Inner product -/

theorem ip_add_right (x y z : n → ℂ) : ip x (y + z) = ip x y + ip x z := by simp [ip, mul_add, Finset.sum_add_distrib]

theorem ip_sub_right (x y z : n → ℂ) : ip x (y - z) = ip x y - ip x z := by simp [ip, mul_sub, Finset.sum_sub_distrib]

theorem ip_smul_right (c : ℂ) (x y : n → ℂ) : ip x (c • y) = c * ip x y := by
  simp only [ip, Pi.smul_apply, smul_eq_mul, Finset.mul_sum]
  exact Finset.sum_congr rfl fun i _ => by ring

theorem ip_zero_right (x : n → ℂ) : ip x 0 = 0 := by simp [ip]

theorem star_ip (x y : n → ℂ) : star (ip x y) = ip y x := by
  simp only [ip, star_sum, star_mul', star_star]
  exact Finset.sum_congr rfl fun i _ => by ring

theorem ip_add_left (x y z : n → ℂ) : ip (x + y) z = ip x z + ip y z := by simp [ip, add_mul, Finset.sum_add_distrib]

theorem ip_smul_left (c : ℂ) (x y : n → ℂ) : ip (c • x) y = star c * ip x y := by
  rw [← star_ip, ip_smul_right, star_mul', star_ip]

theorem ip_self (x : n → ℂ) : ip x x = ((norm x ^ 2 : ℝ) : ℂ) := by
  rw [norm, Real.sq_sqrt (Finset.sum_nonneg fun i _ => Complex.normSq_nonneg _)]
  push_cast
  exact Finset.sum_congr rfl fun i _ => by rw [← Complex.mul_conj, mul_comm]; rfl

theorem norm_nonneg (x : n → ℂ) : 0 ≤ norm x := Real.sqrt_nonneg _

theorem ip_herm {A : Matrix n n ℂ} (hA : A.IsHermitian) (x y : n → ℂ) : ip x (A *ᵥ y) = ip (A *ᵥ x) y := by
  simp only [ip, Matrix.mulVec, dotProduct, Finset.mul_sum, star_sum, Finset.sum_mul]
  rw [Finset.sum_comm]
  refine Finset.sum_congr rfl fun j _ => Finset.sum_congr rfl fun i _ => ?_
  have : star (A j i) = A i j := hA.apply i j
  rw [star_mul', this]
  ring

omit [Fintype n] in
theorem divide_eq (x : n → ℂ) (c : ℝ) : divide x c = ((c : ℂ)⁻¹) • x := by
  funext i; simp [divide, div_eq_inv_mul]

omit [Fintype n] in
theorem smul_divide (x : n → ℂ) (c : ℝ) (h : c ≠ 0) : (c : ℂ) • divide x c = x := by
  rw [divide_eq, smul_smul, mul_inv_cancel₀ (by exact_mod_cast h), one_smul]

theorem ip_divide_right (x y : n → ℂ) (c : ℝ) : ip x (divide y c) = (c : ℂ)⁻¹ * ip x y := by rw [divide_eq, ip_smul_right]

theorem ip_divide_self (x : n → ℂ) (h : norm x ≠ 0) : ip (divide x (norm x)) (divide x (norm x)) = 1 := by
  have h' : (norm x : ℂ) ≠ 0 := by exact_mod_cast h
  rw [ip_divide_right, divide_eq, ip_smul_left, ip_self, star_inv₀]
  have : star (norm x : ℂ) = norm x := Complex.conj_ofReal _
  rw [this]
  push_cast
  field_simp

/-! ### The sequence of states -/

/-- State number `k`. -/
noncomputable def seq (A : Matrix n n ℂ) (q : n → ℂ) : ℕ → State n
  | 0 => start A q
  | k + 1 => next A (seq A q k)

section
variable {A : Matrix n n ℂ} {q : n → ℂ}

/-- The vector before `q`, times its coefficient. -/
noncomputable def back (A : Matrix n n ℂ) (q : n → ℂ) (i : ℕ) : n → ℂ :=
  if i = 0 then 0 else ((seq A q (i - 1)).b : ℂ) • (seq A q (i - 1)).q

theorem seq_r (i : ℕ) : (seq A q i).r = A *ᵥ (seq A q i).q - back A q i - ((seq A q i).a : ℂ) • (seq A q i).q := by
  cases i with
  | zero => simp [seq, start, back]
  | succ i => simp [seq, next, back]

theorem seq_a (i : ℕ) : (seq A q i).a = (ip (seq A q i).q (A *ᵥ (seq A q i).q - back A q i)).re := by
  cases i with
  | zero => simp [seq, start, back]
  | succ i => simp [seq, next, back]

theorem seq_b (i : ℕ) : (seq A q i).b = norm (seq A q i).r := by
  cases i with
  | zero => simp [seq, start]
  | succ i => simp [seq, next]

theorem seq_succ_q (i : ℕ) : (seq A q (i + 1)).q = divide (seq A q i).r (seq A q i).b := rfl

theorem seq_smul (i : ℕ) (h : (seq A q i).b ≠ 0) : ((seq A q i).b : ℂ) • (seq A q (i + 1)).q = (seq A q i).r := by
  rw [seq_succ_q, smul_divide _ _ h]

theorem seq_A (i : ℕ) : A *ᵥ (seq A q i).q = back A q i + ((seq A q i).a : ℂ) • (seq A q i).q + (seq A q i).r := by
  rw [seq_r]; abel

theorem seq_recurrence (i : ℕ) (h : (seq A q i).b ≠ 0) : A *ᵥ (seq A q i).q =
    back A q i + ((seq A q i).a : ℂ) • (seq A q i).q + ((seq A q i).b : ℂ) • (seq A q (i + 1)).q := by
  rw [seq_smul i h, ← seq_A]

/-- The next residual is orthogonal to all vectors so far. -/
theorem residual (hA : A.IsHermitian) (k : ℕ) (hb : ∀ i < k, (seq A q i).b ≠ 0)
    (ho : ∀ i ≤ k, ∀ j ≤ k, ip (seq A q i).q (seq A q j).q = if i = j then 1 else 0) :
    ∀ j ≤ k, ip (seq A q j).q (seq A q k).r = 0 := by
  intro j hj
  have hback (j : ℕ) (hj : j ≤ k) : ip (seq A q j).q (back A q k) = if j + 1 = k then ((seq A q j).b : ℂ) else 0 := by
    unfold back
    split_ifs with h0 h1 h1
    · omega
    · exact ip_zero_right _
    · subst h1
      simp only [Nat.add_sub_cancel]
      rw [ip_smul_right, ho j (by omega) j (by omega), if_pos rfl, mul_one]
    · rw [ip_smul_right, ho j hj (k - 1) (by omega), if_neg (by omega), mul_zero]
  rw [seq_r, ip_sub_right, ip_sub_right, ip_smul_right, ho j hj k le_rfl, hback j hj]
  rcases Nat.lt_or_ge j k with h | h
  · -- move `A` to the left
    have hl (i : ℕ) (hi : i < k) : ip (back A q i) (seq A q k).q = 0 := by
      unfold back
      split_ifs with h0
      · rw [← star_ip, ip_zero_right, star_zero]
      · rw [ip_smul_left, ho (i - 1) (by omega) k le_rfl, if_neg (by omega), mul_zero]
    rw [ip_herm hA, seq_recurrence j (hb j h), ip_add_left, ip_add_left, ip_smul_left, ip_smul_left, hl j h, ho j hj k le_rfl,
      ho (j + 1) (by omega) k le_rfl, if_neg (by omega : j ≠ k)]
    have : star ((seq A q j).b : ℂ) = (seq A q j).b := Complex.conj_ofReal _
    rw [this]
    by_cases h1 : j + 1 = k
    · simp [h1]
    · simp [h1]
  · have hjk : j = k := by omega
    subst hjk
    rw [if_neg (by omega), if_pos rfl, sub_zero, mul_one, seq_a, ip_sub_right, hback j le_rfl, if_neg (by omega), sub_zero]
    have hreal : star (ip (seq A q j).q (A *ᵥ (seq A q j).q)) = ip (seq A q j).q (A *ᵥ (seq A q j).q) := by
      rw [star_ip, ← ip_herm hA]
    have : (((ip (seq A q j).q (A *ᵥ (seq A q j).q)).re : ℝ) : ℂ) = ip (seq A q j).q (A *ᵥ (seq A q j).q) :=
      Complex.conj_eq_iff_re.mp hreal
    rw [this, sub_self]

theorem ortho (hA : A.IsHermitian) (hq : ip q q = 1) (k : ℕ) (hb : ∀ i < k, (seq A q i).b ≠ 0) :
    ∀ i ≤ k, ∀ j ≤ k, ip (seq A q i).q (seq A q j).q = if i = j then 1 else 0 := by
  induction k with
  | zero =>
    intro i hi j hj
    have h1 : i = 0 := by omega
    have h2 : j = 0 := by omega
    subst h1; subst h2
    simpa [seq, start] using hq
  | succ k ih =>
    have ho := ih fun i hi => hb i (by omega)
    have hres := residual hA k (fun i hi => hb i (by omega)) ho
    have hnew (i : ℕ) (hi : i ≤ k) : ip (seq A q i).q (seq A q (k + 1)).q = 0 := by
      rw [seq_succ_q, ip_divide_right, hres i hi, mul_zero]
    intro i hi j hj
    rcases Nat.lt_or_ge i (k + 1) with h1 | h1
    · rcases Nat.lt_or_ge j (k + 1) with h2 | h2
      · exact ho i (by omega) j (by omega)
      · have : j = k + 1 := by omega
        subst this
        rw [hnew i (by omega), if_neg (by omega)]
    · have : i = k + 1 := by omega
      subst this
      rcases Nat.lt_or_ge j (k + 1) with h2 | h2
      · rw [← star_ip, hnew j (by omega), star_zero, if_neg (by omega)]
      · have : j = k + 1 := by omega
        subst this
        rw [if_pos rfl, seq_succ_q, seq_b]
        apply ip_divide_self
        rw [← seq_b]
        exact hb k (by omega)

end

/-! ### Lists -/

theorem loop_some (A : Matrix n n ℂ) (q : n → ℂ) (eps : ℝ) (k i : ℕ) (l : List (State n)) (br : Bool)
    (h : loop A eps k (seq A q i) = some (l, br)) :
    l = (List.range l.length).map (fun j => seq A q (i + 1 + j)) ∧ l.length ≤ k ∧ (∀ j < l.length, (seq A q (i + j)).b ≠ 0) ∧
      (br = false → l.length = k) ∧ (br = true → 0 < l.length ∧ (seq A q (i + l.length)).b < eps) ∧
      ∀ j, 1 ≤ j → j ≤ l.length → (br = true → j < l.length) → ¬(seq A q (i + j)).b < eps := by
  induction k generalizing i l with
  | zero =>
    simp only [loop, Option.some.injEq, Prod.mk.injEq] at h
    obtain ⟨rfl, rfl⟩ := h
    simp
    omega
  | succ k ih =>
    simp only [loop] at h
    have hn : next A (seq A q i) = seq A q (i + 1) := rfl
    rw [hn] at h
    split_ifs at h with h1 h2
    · simp only [Option.some.injEq, Prod.mk.injEq] at h
      obtain ⟨rfl, rfl⟩ := h
      refine ⟨by simp, by simp, fun j hj => ?_, by simp, by simpa using h2, fun j hj1 hj2 hj3 => ?_⟩
      · have : j = 0 := by simpa using hj
        subst this; exact h1
      · have := hj3 rfl
        simp at this
        omega
    · rw [Option.map_eq_some_iff] at h
      obtain ⟨⟨l', br'⟩, hl, he⟩ := h
      simp only [Prod.mk.injEq] at he
      obtain ⟨rfl, rfl⟩ := he
      obtain ⟨e1, e2, e3, e4, e5, e6⟩ := ih (i + 1) l' hl
      refine ⟨?_, by simp; omega, fun j hj => ?_, fun hb => by simp [e4 hb], fun hb => ⟨by simp, ?_⟩, fun j hj1 hj2 hj3 => ?_⟩
      · rw [List.length_cons, List.range_succ_eq_map, List.map_cons, List.map_map]
        congr 1
        conv_lhs => rw [e1]
        refine List.map_congr_left fun j _ => ?_
        simp only [Function.comp]
        congr 1
        omega
      · cases j with
        | zero => exact h1
        | succ j =>
          have := e3 j (by simpa using hj)
          rwa [show i + 1 + j = i + (j + 1) by omega] at this
      · have := (e5 hb).2
        rwa [show i + 1 + l'.length = i + (l'.length + 1) by omega] at this
      · rcases Nat.eq_or_lt_of_le hj1 with h | h
        · subst h; exact h2
        · have := e6 (j - 1) (by omega) (by simp at hj2; omega) (fun hb => by have := hj3 hb; simp at this; omega)
          rwa [show i + 1 + (j - 1) = i + j by omega] at this

/-- The states both functions go through. -/
theorem states_some (A : Matrix n n ℂ) (v0 : n → ℂ) (m : ℕ) (eps : ℝ) (p : List (State n) × Bool) (h : states A v0 m eps = some p) :
    ∃ q k, Model.Lanczos.normalize eps v0 = some q ∧ 0 < m ∧ m < Fintype.card n ∧ k < m ∧ p.1 = (List.range (k + 1)).map (seq A q) ∧
      (∀ j < k, (seq A q j).b ≠ 0) ∧ (p.2 = false → k + 1 = m) ∧ (p.2 = true → 0 < k ∧ (seq A q k).b < eps) ∧
      ∀ j, 1 ≤ j → j ≤ k → (p.2 = true → j < k) → ¬(seq A q j).b < eps := by
  unfold states at h
  split_ifs at h with h0
  rw [Option.bind_eq_some_iff] at h
  obtain ⟨q, hq, h⟩ := h
  rw [Option.map_eq_some_iff] at h
  obtain ⟨⟨l, br⟩, hl, rfl⟩ := h
  obtain ⟨e1, e2, e3, e4, e5, e6⟩ := loop_some A q eps (m - 1) 0 l br hl
  refine ⟨q, l.length, hq, by omega, by omega, by omega, ?_, fun j hj => ?_, fun hb => ?_, fun hb => ?_, fun j hj1 hj2 hj3 => ?_⟩
  · rw [List.range_succ_eq_map, List.map_cons, List.map_map]
    have : start A q = seq A q 0 := rfl
    rw [this]
    simp only [List.cons.injEq, true_and]
    conv_lhs => rw [e1]
    refine List.map_congr_left fun j _ => ?_
    simp only [Function.comp]
    congr 1
    omega
  · have := e3 j hj
    rwa [Nat.zero_add] at this
  · have := e4 hb; omega
  · have := e5 hb
    rwa [Nat.zero_add] at this
  · have := e6 j hj1 hj2 hj3
    rwa [Nat.zero_add] at this

theorem normalize_one (eps : ℝ) (v : n → ℂ) (hv : norm v = 1) : Model.Lanczos.normalize eps v = some v := by
  have e : divide v 1 = v := by funext i; simp [divide]
  unfold Model.Lanczos.normalize
  rw [hv, if_neg one_ne_zero, e, ite_self]

theorem normalize_ip (eps : ℝ) (v q : n → ℂ) (h : Model.Lanczos.normalize eps v = some q) (hv : norm v = 1 ∨ eps < |norm v - 1|) :
    ip q q = 1 ∧ (norm v : ℂ) • q = v := by
  unfold Model.Lanczos.normalize at h
  split_ifs at h with h1 h2
  · cases h
    exact ⟨ip_divide_self v h2, smul_divide v _ h2⟩
  · cases h
    rcases hv with hv | hv
    · rw [ip_self, hv]; simp
    · exact absurd hv h1

theorem getD_range {α : Type} (d : α) (k : ℕ) (f : ℕ → α) (i : ℕ) (h : i < k) : ((List.range k).map f).getD i d = f i := by
  simp [List.getD_eq_getElem?_getD, h]

/-- The first `k + 1` vectors are a Lanczos basis. -/
theorem isLanczos {A : Matrix n n ℂ} (hA : A.IsHermitian) {v q : n → ℂ} (hq : ip q q = 1) (hv : (norm v : ℂ) • q = v) (k : ℕ)
    (hb : ∀ i < k, (seq A q i).b ≠ 0) :
    IsLanczos A v ((List.range (k + 1)).map fun i => (seq A q i).q) ((List.range (k + 1)).map fun i => (seq A q i).a)
      ((List.range k).map fun i => (seq A q i).b) := by
  have ho := ortho hA hq k hb
  have hQ : ∀ i ≤ k, ((List.range (k + 1)).map fun i => (seq A q i).q).getD i 0 = (seq A q i).q :=
    fun i hi => getD_range _ _ _ _ (by omega)
  have hAa : ∀ i ≤ k, ((List.range (k + 1)).map fun i => (seq A q i).a).getD i 0 = (seq A q i).a :=
    fun i hi => getD_range _ _ _ _ (by omega)
  have hB : ∀ i < k, ((List.range k).map fun i => (seq A q i).b).getD i 0 = (seq A q i).b :=
    fun i hi => getD_range _ _ _ _ hi
  have hres := residual hA k hb ho
  refine ⟨by simp, by simp, ?_, ?_, ?_, ?_, ?_⟩
  · rw [hQ 0 (by omega)]; exact hv
  · intro i hi j hj
    simp only [List.length_map, List.length_range] at hi hj
    rw [hQ i (by omega), hQ j (by omega)]
    exact ho i (by omega) j (by omega)
  · intro x hx
    simp only [List.mem_map, List.mem_range] at hx
    obtain ⟨i, hi, rfl⟩ := hx
    have h0 : 0 ≤ (seq A q i).b := by rw [seq_b]; exact norm_nonneg _
    exact lt_of_le_of_ne h0 (Ne.symm (hb i hi))
  · intro i hi
    simp only [List.length_map, List.length_range] at hi
    rw [hQ i (by omega), hQ (i + 1) (by omega), hAa i (by omega), hB i (by omega), seq_recurrence i (hb i (by omega))]
    congr 2
    unfold back
    split_ifs with h0
    · rfl
    · rw [hB (i - 1) (by omega), hQ (i - 1) (by omega)]
  · -- `T = Q† A Q`
    intro i hi j hj
    simp only [List.length_map, List.length_range] at hi hj
    rw [hQ i (by omega), hQ j (by omega), seq_A j, ip_add_right, ip_add_right, ip_smul_right, ho i (by omega) j (by omega)]
    have hr : ip (seq A q i).q (seq A q j).r = if i = j + 1 then ((seq A q j).b : ℂ) else 0 := by
      rcases Nat.lt_or_ge j k with h | h
      · rw [← seq_smul j (hb j h), ip_smul_right, ho i (by omega) (j + 1) (by omega)]
        split_ifs <;> simp
      · have : j = k := by omega
        subst this
        rw [hres i (by omega), if_neg (by omega)]
    have hk : ip (seq A q i).q (back A q j) = if j = i + 1 then ((seq A q i).b : ℂ) else 0 := by
      unfold back
      split_ifs with h0 h1 h1
      · omega
      · exact ip_zero_right _
      · subst h1
        simp only [Nat.add_sub_cancel]
        rw [ip_smul_right, ho i (by omega) i (by omega), if_pos rfl, mul_one]
      · rw [ip_smul_right, ho i (by omega) (j - 1) (by omega), if_neg (by omega), mul_zero]
    rw [hr, hk]
    unfold tridiagonal
    by_cases h1 : i = j
    · subst h1
      rw [if_pos rfl, if_pos rfl, if_neg (by omega), hAa i (by omega)]
      ring
    · rw [if_neg h1, if_neg h1]
      by_cases h2 : j = i + 1
      · rw [if_pos h2, if_pos h2, if_neg (by omega), hB i (by omega)]; ring
      · rw [if_neg h2, if_neg h2]
        by_cases h3 : i = j + 1
        · rw [if_pos h3, if_pos h3, hB j (by omega)]; ring
        · rw [if_neg h3, if_neg h3]; simp

/-! ### The generator -/

theorem vecLoop_seq (A : Matrix n n ℂ) (q : n → ℂ) (k i : ℕ) (hb : ∀ j < k, (seq A q (i + j)).b ≠ 0) :
    vecLoop A (seq A q i).q (seq A q i).r ((List.range k).map fun j => ((seq A q (i + 1 + j)).a, (seq A q (i + j)).b)) =
      some ((List.range k).map fun j => (seq A q (i + 1 + j)).q) := by
  induction k generalizing i with
  | zero => rfl
  | succ k ih =>
    rw [List.range_succ_eq_map, List.map_cons, List.map_map, List.map_cons, List.map_map, vecLoop]
    have h0 : (seq A q (i + 0)).b ≠ 0 := hb 0 (by omega)
    simp only [Nat.add_zero] at h0 ⊢
    rw [if_neg h0]
    have hq : divide (seq A q i).r (seq A q i).b = (seq A q (i + 1)).q := rfl
    have hr : A *ᵥ (seq A q (i + 1)).q - ((seq A q i).b : ℂ) • (seq A q i).q - ((seq A q (i + 1)).a : ℂ) • (seq A q (i + 1)).q =
        (seq A q (i + 1)).r := by
      rw [seq_r (i + 1), back, if_neg (by omega)]; rfl
    rw [hq, hr]
    have hl : List.map ((fun j => ((seq A q (i + 1 + j)).a, (seq A q (i + j)).b)) ∘ Nat.succ) (List.range k) =
        (List.range k).map fun j => ((seq A q (i + 1 + 1 + j)).a, (seq A q (i + 1 + j)).b) := by
      refine List.map_congr_left fun j _ => ?_
      simp only [Function.comp, Nat.succ_eq_add_one]
      rw [show i + 1 + (j + 1) = i + 1 + 1 + j by omega, show i + (j + 1) = i + 1 + j by omega]
    rw [hl, ih (i + 1) fun j hj => by have := hb (j + 1) (by omega); rwa [show i + (j + 1) = i + 1 + j by omega] at this]
    simp only [Option.map_some, Option.some.injEq, List.cons.injEq, true_and]
    refine List.map_congr_left fun j _ => ?_
    simp only [Function.comp, Nat.succ_eq_add_one]
    rw [show i + 1 + 1 + j = i + 1 + (j + 1) by omega]

theorem zip_range {α β : Type} (k : ℕ) (f : ℕ → α) (g : ℕ → β) :
    ((List.range k).map f).zip ((List.range k).map g) = (List.range k).map fun j => (f j, g j) := by
  rw [List.zip_map']

theorem vectors_seq (feps : ℝ) (A : Matrix n n ℂ) (v0 q : n → ℂ) (k : ℕ) (hq : Model.Lanczos.normalize feps v0 = some q)
    (hb : ∀ j < k, (seq A q j).b ≠ 0) :
    vectors feps A v0 ((List.range (k + 1)).map fun i => (seq A q i).a) ((List.range k).map fun i => (seq A q i).b) =
      some ((List.range (k + 1)).map fun i => (seq A q i).q) := by
  rw [List.range_succ_eq_map, List.map_cons, List.map_map, List.map_cons, List.map_map]
  simp only [vectors, hq, Option.bind_some]
  have hr : A *ᵥ q - ((seq A q 0).a : ℂ) • q = (seq A q 0).r := rfl
  have h0 : (seq A q 0).q = q := rfl
  rw [zip_range, hr]
  have := vecLoop_seq A q k 0 (by simpa using hb)
  simp only [Nat.zero_add, h0] at this
  have e : (List.range k).map (fun j => (((fun i => (seq A q i).a) ∘ Nat.succ) j, (seq A q j).b)) =
      (List.range k).map fun j => ((seq A q (1 + j)).a, (seq A q j).b) := by
    refine List.map_congr_left fun j _ => ?_
    simp only [Function.comp, Nat.succ_eq_add_one, Nat.add_comm]
  rw [e, this]
  simp only [Option.map_some, Option.some.injEq, h0, List.cons.injEq, true_and]
  refine List.map_congr_left fun j _ => ?_
  simp only [Function.comp, Nat.succ_eq_add_one, Nat.add_comm]

/-! ### Results -/

theorem iter_some (A : Matrix n n ℂ) (v0 : n → ℂ) (m : ℕ) (eps : ℝ) (p : List (State n) × Bool) (h : states A v0 m eps = some p)
    (q : n → ℂ) (k : ℕ) (hp : p.1 = (List.range (k + 1)).map (seq A q)) :
    iter A v0 m eps = some ((List.range (k + 1)).map (fun i => (seq A q i).a), (List.range k).map fun i => (seq A q i).b) := by
  rw [iter, h, Option.map_some, hp, List.map_map, List.map_map, List.range_succ, List.map_append, List.map_append]
  simp [Function.comp_def]

theorem full_some (A : Matrix n n ℂ) (v0 : n → ℂ) (m : ℕ) (eps : ℝ) (p : List (State n) × Bool) (h : states A v0 m eps = some p)
    (q : n → ℂ) (k : ℕ) (hp : p.1 = (List.range (k + 1)).map (seq A q)) (hm : p.2 = false → k + 1 = m) :
    full A v0 m eps = some
      ((List.range (if p.2 then k else k + 1)).map (fun i => (seq A q i).a),
        (List.range ((if p.2 then k else k + 1) - 1)).map (fun i => (seq A q i).b),
        (List.range (if p.2 then k else k + 1)).map fun i => (seq A q i).q) := by
  have hs : fullSize m p = if p.2 then k else k + 1 := by
    unfold fullSize
    rcases hb : p.2 with _ | _
    · simp [hm hb]
    · simp [hp]
  rw [full, h, Option.map_some, hs]
  have ht : (if p.2 then k else k + 1) ≤ k + 1 := by split_ifs <;> omega
  generalize (if p.2 then k else k + 1) = t at *
  rw [hp, List.map_map, List.map_map, List.map_map, ← List.map_take, ← List.map_take, ← List.map_take, List.take_range, List.take_range,
    Nat.min_eq_left ht, Nat.min_eq_left (by omega)]
  rfl

end Proof.Lanczos
