import Verif.Model.ExpmParallel
import Verif.Spec.ExpmParallel
import Verif.Proof.MatvecMerge
/-!
Proofs about `expm_multiply_parallel` (C69).
-/
namespace Proof.ExpmParallel
open Matrix Spec Spec.Taylor Model.Matvec Model.ExpmParallel Proof.Matvec

variable {M : ℕ}

theorem hypot_eq (B : ℂ) : Real.sqrt (|B.re| ^ 2 + |B.im| ^ 2) = ‖B‖ := by
  rw [Complex.norm_def, Complex.normSq_apply, sq_abs, sq_abs]
  congr 1
  ring

theorem compareAbs_eq (R : ℝ) (B : ℂ) (hR : 0 ≤ R) : compareAbs R B = max R ‖B‖ := by
  unfold compareAbs
  simp only [hypot_eq]
  split_ifs with h1 h2 h3
  · rw [max_eq_left]
    exact (Complex.norm_le_abs_re_add_abs_im B).trans h1
  · rw [max_eq_right]
    rcases h2 with h | h
    · exact h.le.trans (Complex.abs_re_le_norm B)
    · exact h.le.trans (Complex.abs_im_le_norm B)
  · rw [max_eq_left h3]
  · rw [max_eq_right (le_of_lt (not_le.1 h3))]

/-- The elements of a vector. -/
def vec (n : ℕ) (x : Mem M ℂ) : Fin n → ℂ := fun k => x ((k : ℕ) : ZMod M)

theorem cell_inj {n : ℕ} (hn : n ≤ M) {i j : ℕ} (hi : i < n) (hj : j < n) (h : (i : ZMod M) = (j : ZMod M)) : i = j := by
  rw [ZMod.natCast_eq_natCast_iff'] at h
  rwa [Nat.mod_eq_of_lt (by omega), Nat.mod_eq_of_lt (by omega)] at h

/-! ### the shares of the threads -/

theorem mem_share {n T tid k : ℕ} : k ∈ share n T tid ↔
    k < n ∧ (n + T - 1) / T * tid ≤ k ∧ k < (n + T - 1) / T * (tid + 1) := by
  unfold share
  simp only [List.mem_range'_1]
  rw [Nat.mul_succ]
  generalize (n + T - 1) / T * tid = q
  generalize (n + T - 1) / T = r
  omega

theorem owner {n T : ℕ} (hT : 0 < T) {k : ℕ} (hk : k < n) : ∃ tid < T, k ∈ share n T tid := by
  have hpos : 0 < (n + T - 1) / T := Nat.div_pos (by omega) hT
  have hge : n ≤ (n + T - 1) / T * T := by
    have := Nat.div_add_mod (n + T - 1) T
    have h2 := Nat.mod_lt (n + T - 1) hT
    rw [Nat.mul_comm] at this
    omega
  refine ⟨k / ((n + T - 1) / T), ?_, ?_⟩
  · rw [Nat.div_lt_iff_lt_mul hpos, Nat.mul_comm]; omega
  · rw [mem_share]
    refine ⟨hk, ?_, ?_⟩
    · exact Nat.mul_div_le _ _
    · exact Nat.lt_mul_div_succ _ hpos

theorem share_disjoint {n T a b k : ℕ} (ha : k ∈ share n T a) (hb : k ∈ share n T b) : a = b := by
  rw [mem_share] at ha hb
  by_contra h
  rcases Nat.lt_or_gt_of_ne h with h | h
  · have := Nat.mul_le_mul_left ((n + T - 1) / T) (show a + 1 ≤ b by omega)
    omega
  · have := Nat.mul_le_mul_left ((n + T - 1) / T) (show b + 1 ≤ a by omega)
    omega

theorem share_nodup (n T tid : ℕ) : (share n T tid).Nodup := List.nodup_range'

/-- Every element is visited once, in whatever order. -/
theorem visits {n T : ℕ} (hT : 0 < T) {l : List (ℕ × ℕ)} (hl : Interleaving T (share n T) l) :
    (l.map (·.2)).Nodup ∧ ∀ k, k ∈ l.map (·.2) ↔ k < n := by
  have hmem : ∀ e ∈ l, e.2 ∈ share n T e.1 := by
    intro e he
    rw [← hl.2 e.1 (hl.1 e he)]
    exact List.mem_map.2 ⟨e, List.mem_filter.2 ⟨he, by simp⟩, rfl⟩
  constructor
  · rw [List.nodup_iff_count_le_one]
    intro k
    by_cases hk : k ∈ l.map (·.2)
    · obtain ⟨e, he, rfl⟩ := List.mem_map.1 hk
      have h1 : (l.map (·.2)).count e.2 = ((l.filter fun x => x.1 = e.1).map (·.2)).count e.2 := by
        rw [List.count_eq_countP, List.count_eq_countP, List.countP_map, List.countP_map, List.countP_filter]
        apply List.countP_congr
        intro x hx
        simp only [Function.comp_apply, beq_iff_eq, Bool.and_eq_true, decide_eq_true_eq]
        constructor
        · intro h
          exact ⟨h, share_disjoint (by rw [← h]; exact hmem x hx) (hmem e he)⟩
        · exact fun h => h.1
      rw [h1, hl.2 e.1 (hl.1 e he)]
      exact List.nodup_iff_count_le_one.1 (share_nodup n T e.1) e.2
    · rw [List.count_eq_zero.2 hk]; omega
  · intro k
    constructor
    · intro hk
      obtain ⟨e, he, rfl⟩ := List.mem_map.1 hk
      exact (mem_share.1 (hmem e he)).1
    · intro hk
      obtain ⟨tid, ht, hk'⟩ := owner hT hk
      rw [← hl.2 tid ht] at hk'
      obtain ⟨e, he, rfl⟩ := List.mem_map.1 hk'
      exact List.mem_map.2 ⟨e, (List.mem_filter.1 he).1, rfl⟩

/-! ### loops over elements -/

/-- A body that computes new values of `F[k]` and `B1[k]` from the old ones of element `k`. -/
structure Local (f : ℕ → Vectors M → Vectors M) (gF gB : ℂ → ℂ → ℂ → ℂ) : Prop where
  F : ∀ k v, (f k v).F = Function.update v.F (k : ZMod M) (gF (v.F k) (v.B1 k) (v.B2 k))
  B1 : ∀ k v, (f k v).B1 = Function.update v.B1 (k : ZMod M) (gB (v.F k) (v.B1 k) (v.B2 k))
  B2 : ∀ k v, (f k v).B2 = v.B2

theorem fold_local {f : ℕ → Vectors M → Vectors M} {gF gB : ℂ → ℂ → ℂ → ℂ} (hf : Local f gF gB) {n : ℕ} (hn : n ≤ M) :
    ∀ (ks : List ℕ) (v : Vectors M), ks.Nodup → (∀ k ∈ ks, k < n) →
      (ks.foldl (fun v k => f k v) v).B2 = v.B2 ∧ ∀ k < n,
        (ks.foldl (fun v k => f k v) v).F k = (if k ∈ ks then gF (v.F k) (v.B1 k) (v.B2 k) else v.F k) ∧
        (ks.foldl (fun v k => f k v) v).B1 k = (if k ∈ ks then gB (v.F k) (v.B1 k) (v.B2 k) else v.B1 k) := by
  intro ks
  induction ks with
  | nil => intro v _ _; simp
  | cons k0 ks ih =>
    intro v hnd hlt
    rw [List.nodup_cons] at hnd
    obtain ⟨h2, h⟩ := ih (f k0 v) hnd.2 fun k hk => hlt k (List.mem_cons_of_mem _ hk)
    rw [List.foldl_cons]
    refine ⟨by rw [h2, hf.B2], fun k hk => ?_⟩
    obtain ⟨hF, hB⟩ := h k hk
    rw [hF, hB, hf.F, hf.B1, hf.B2]
    by_cases hk0 : k = k0
    · subst hk0
      simp only [if_neg hnd.1, List.mem_cons, true_or, if_true, Function.update_self, and_self]
    · have hne : (k : ZMod M) ≠ (k0 : ZMod M) := fun h => hk0 (cell_inj hn hk (hlt k0 List.mem_cons_self) h)
      simp only [Function.update_of_ne hne, List.mem_cons, hk0, false_or, and_self]

theorem phase_local {f : ℕ → Vectors M → Vectors M} {gF gB : ℂ → ℂ → ℂ → ℂ} (hf : Local f gF gB) {n T : ℕ} (hn : n ≤ M) (hT : 0 < T)
    {v v' : Vectors M} (h : Phase n T T f v v') :
    v'.B2 = v.B2 ∧ ∀ k < n, v'.F k = gF (v.F k) (v.B1 k) (v.B2 k) ∧ v'.B1 k = gB (v.F k) (v.B1 k) (v.B2 k) := by
  obtain ⟨l, hl, rfl⟩ := h
  obtain ⟨hnd, hmem⟩ := visits hT hl
  have e : l.foldl (fun v e => f e.2 v) v = (l.map (·.2)).foldl (fun v k => f k v) v := by rw [List.foldl_map]
  rw [e]
  obtain ⟨h2, h⟩ := fold_local hf hn (l.map (·.2)) v hnd fun k hk => (hmem k).1 hk
  refine ⟨h2, fun k hk => ?_⟩
  obtain ⟨hF, hB⟩ := h k hk
  rw [if_pos ((hmem k).2 hk)] at hF hB
  exact ⟨hF, hB⟩

theorem copy_local : Local (M := M) copyBody (fun F _ _ => F) (fun F _ _ => F) where
  F k v := by simp [copyBody]
  B1 k v := rfl
  B2 k v := rfl

theorem term_local (b : ℂ) : Local (M := M) (termBody b) (fun F B1 B2 => F + (B2 - b * B1)) (fun _ B1 B2 => B2 - b * B1) where
  F k v := rfl
  B1 k v := rfl
  B2 k v := rfl

theorem end_local (eta : ℂ) : Local (M := M) (endBody eta) (fun F _ _ => F * eta) (fun F _ _ => F * eta) where
  F k v := rfl
  B1 k v := rfl
  B2 k v := rfl

/-! ### maxima -/

theorem fold_max (ks : List ℕ) (x : Mem M ℂ) : ∀ c : ℝ, 0 ≤ c →
    ∀ r : ℝ, ks.foldl (fun c (k : ℕ) => compareAbs c (x (k : ZMod M))) c ≤ r ↔ c ≤ r ∧ ∀ k ∈ ks, ‖x (k : ZMod M)‖ ≤ r := by
  induction ks with
  | nil => intro c _ r; simp
  | cons k ks ih =>
    intro c hc r
    rw [List.foldl_cons, compareAbs_eq _ _ hc, ih _ (hc.trans (le_max_left _ _))]
    simp only [max_le_iff, List.mem_cons, forall_eq_or_imp]
    tauto

theorem foldl_max_le_iff (l : List ℝ) : ∀ c r : ℝ, l.foldl max c ≤ r ↔ c ≤ r ∧ ∀ x ∈ l, x ≤ r := by
  induction l with
  | nil => intro c r; simp
  | cons a l ih =>
    intro c r
    rw [List.foldl_cons, ih]
    simp only [max_le_iff, List.mem_cons, forall_eq_or_imp]
    tauto

theorem maxElement_eq {n T : ℕ} (hT : 0 < T) (x : Mem M ℂ) : maxElement n T T x = ‖vec n x‖ := by
  apply eq_of_forall_ge_iff
  intro r
  unfold maxElement
  rw [foldl_max_le_iff]
  constructor
  · rintro ⟨h0, h⟩
    rw [pi_norm_le_iff_of_nonneg h0]
    intro k
    obtain ⟨tid, ht, hk⟩ := owner (n := n) hT k.2
    have := h _ (List.mem_map.2 ⟨tid, List.mem_range.2 ht, rfl⟩)
    rw [if_pos ht, threadMax, fold_max _ _ _ le_rfl] at this
    exact this.2 k hk
  · intro h
    have h0 : 0 ≤ r := (norm_nonneg _).trans h
    refine ⟨h0, ?_⟩
    intro y hy
    obtain ⟨tid, ht, rfl⟩ := List.mem_map.1 hy
    rw [if_pos (List.mem_range.1 ht), threadMax, fold_max _ _ _ le_rfl]
    refine ⟨h0, fun k hk => ?_⟩
    rw [pi_norm_le_iff_of_nonneg h0] at h
    exact h ⟨k, (mem_share.1 hk).1⟩

/-! ### one term -/

/-- The matrix of the call. -/
noncomputable def matrixOf (p : Input) : Matrix (Fin p.n) (Fin p.n) ℂ := Matrix.of fun i j => csrEntry p.A i j

/-- `a (A - mu) / s` -/
noncomputable def scaled (p : Input) : Matrix (Fin p.n) (Fin p.n) ℂ := (p.a / (p.s : ℂ)) • (matrixOf p - p.mu • (1 : Matrix _ _ ℂ))

theorem cells {n : ℕ} (hn : n ≤ M) : CellsDistinct M n 1 := by
  intro i hi j hj h
  rw [mul_one, mul_one] at h
  exact cell_inj hn hi hj (by exact_mod_cast h)

theorem product_eq {p : Input} (hn : p.n ≤ M) (hA : p.A.Valid p.n p.n) (hT : 0 < p.team) {j : ℕ} {v v' : Vectors M} (h : Product p j v v') :
    v'.F = v.F ∧ v'.B1 = v.B1 ∧ vec p.n v'.B2 = (p.a / ((j * p.s : ℕ) : ℂ)) • (matrixOf p *ᵥ vec p.n v.B1) := by
  obtain ⟨st, y', _, h, rfl⟩ := h
  refine ⟨rfl, rfl, ?_⟩
  have hc := csrOmp_computes true p.team p.n p.n hT p.A hA _ 1 v.B1 1 (cells hn) st y' h
  funext k
  have := hc.out k k.2
  simp only [ptr, mul_one, if_true, zero_add, Int.cast_natCast] at this
  simp only [vec, this, Pi.smul_apply, smul_eq_mul, mulVec, dotProduct, matrixOf, Matrix.of_apply]
  congr 1
  rw [Finset.sum_range]

theorem term_eq {p : Input} (hn : p.n ≤ M) (hA : p.A.Valid p.n p.n) (hT : 0 < p.numThreads) (hteam : p.team = p.numThreads) {j : ℕ}
    {v v' : Vectors M} {c2 c3 : ℝ} (h : Term p j v v' c2 c3) :
    vec p.n v'.B1 = ((j : ℕ) : ℂ)⁻¹ • (scaled p *ᵥ vec p.n v.B1) ∧ vec p.n v'.F = vec p.n v.F + vec p.n v'.B1 ∧
      c2 = ‖vec p.n v'.B1‖ ∧ c3 = ‖vec p.n v'.F‖ := by
  obtain ⟨u, hu, hp, h2, h3⟩ := h
  rw [hteam] at hp h2 h3
  obtain ⟨e1, e2, e3⟩ := product_eq hn hA (by omega) hu
  obtain ⟨_, hk⟩ := phase_local (term_local _) hn hT hp
  rw [maxElement_eq hT] at h2 h3
  refine ⟨?_, ?_, h2, h3⟩
  · funext k
    have h1 := (hk k k.2).2
    have h4 := congrFun e3 k
    simp only [vec] at h4 ⊢
    rw [h1, e2, h4]
    simp only [scaled, Pi.smul_apply, smul_eq_mul, smul_mulVec, sub_mulVec, one_mulVec, Pi.sub_apply, vec]
    push_cast
    simp only [div_eq_mul_inv, mul_inv]
    ring
  · funext k
    have h1 := (hk k k.2)
    simp only [vec, Pi.add_apply]
    rw [h1.1, h1.2, e1]

theorem term_zero {n : ℕ} (X : Matrix (Fin n) (Fin n) ℂ) (v : Fin n → ℂ) : term X 0 v = v := by simp [term]

theorem term_succ {n : ℕ} (X : Matrix (Fin n) (Fin n) ℂ) (j : ℕ) (v : Fin n → ℂ) :
    term X (j + 1) v = ((j + 1 : ℕ) : ℂ)⁻¹ • (X *ᵥ term X j v) := by
  unfold term
  rw [mulVec_smul, smul_smul, pow_succ', mulVec_mulVec, Nat.factorial_succ]
  push_cast
  rw [mul_inv]

theorem partialSum_zero {n : ℕ} (X : Matrix (Fin n) (Fin n) ℂ) (v : Fin n → ℂ) : partialSum X 0 v = v := by
  simp [partialSum, term_zero]

theorem partialSum_succ {n : ℕ} (X : Matrix (Fin n) (Fin n) ℂ) (m : ℕ) (v : Fin n → ℂ) :
    partialSum X (m + 1) v = partialSum X m v + term X (m + 1) v := by
  unfold partialSum
  rw [Finset.sum_range_succ]

/-- The loop over `j`, from `j = m + 1` on. -/
theorem terms_eq {p : Input} (hn : p.n ≤ M) (hA : p.A.Valid p.n p.n) (hT : 0 < p.numThreads) (hteam : p.team = p.numThreads) {c0 : ℝ}
    {x : Fin p.n → ℂ} {j : ℕ} {c1 : ℝ} {v w : Vectors M} (h : Terms p j c1 v w) :
    ∀ m, j = m + 1 → m ≤ p.mStar → vec p.n v.B1 = term (scaled p) m x → vec p.n v.F = partialSum (scaled p) m x →
      c1 = (if m = 0 then c0 else ‖term (scaled p) m x‖) → (∀ i, 1 ≤ i → i ≤ m → ¬ SmallTerms p.tol (scaled p) x c0 i) →
      ∃ m', IsOrder p.mStar p.tol (scaled p) x c0 m' ∧ vec p.n w.F = partialSum (scaled p) m' x := by
  induction h with
  | done hj =>
    intro m hm hle _ hF _ hb
    exact ⟨m, ⟨hle, fun i h1 h2 => hb i h1 h2.le, Or.inl (by omega)⟩, hF⟩
  | @stop j c1 v v' c2 c3 hj ht hs =>
    intro m hm hle hB hF hc hb
    obtain ⟨e1, e2, e3, e4⟩ := term_eq hn hA hT hteam ht
    have hB' : vec p.n v'.B1 = term (scaled p) (m + 1) x := by rw [e1, hB, hm, term_succ]
    have hF' : vec p.n v'.F = partialSum (scaled p) (m + 1) x := by rw [e2, hF, hB', partialSum_succ]
    refine ⟨m + 1, ⟨by omega, fun i h1 h2 => hb i h1 (by omega), Or.inr ⟨by omega, ?_⟩⟩, hF'⟩
    unfold SmallTerms
    rw [e3, e4, hB', hF', hc] at hs
    simpa using hs
  | @next j c1 v v' c2 c3 w hj ht hs _ ih =>
    intro m hm hle hB hF hc hb
    obtain ⟨e1, e2, e3, e4⟩ := term_eq hn hA hT hteam ht
    have hB' : vec p.n v'.B1 = term (scaled p) (m + 1) x := by rw [e1, hB, hm, term_succ]
    have hF' : vec p.n v'.F = partialSum (scaled p) (m + 1) x := by rw [e2, hF, hB', partialSum_succ]
    refine ih (m + 1) (by omega) (by omega) hB' hF' (by rw [e3, hB']; simp) ?_
    intro i h1 h2
    rcases Nat.lt_or_ge i (m + 1) with h | h
    · exact hb i h1 (by omega)
    · obtain rfl : i = m + 1 := by omega
      unfold SmallTerms
      rw [e3, e4, hB', hF', hc] at hs
      simpa using hs

theorem steps_eq {p : Input} (hn : p.n ≤ M) (hA : p.A.Valid p.n p.n) (hT : 0 < p.numThreads) (hteam : p.team = p.numThreads)
    {i : ℕ} {c1 : ℝ} {v w : Vectors M} (h : Steps p i c1 v w) :
    i ≤ p.s → vec p.n v.B1 = vec p.n v.F →
      Approximates p.mStar p.tol (Complex.exp (p.a * (p.mu / (p.s : ℂ)))) (scaled p) (p.s - i) c1 (vec p.n v.F) (vec p.n w.F) := by
  induction h with
  | done hi =>
    intro hi' _
    obtain rfl : _ = p.s := le_antisymm hi' hi
    rw [Nat.sub_self]
    exact .done
  | @next i c1 v u u' w hi ht hp _ ih =>
    intro _ hB
    obtain ⟨m, hm, hF⟩ := terms_eq hn hA hT hteam (c0 := c1) (x := vec p.n v.F) ht 0 rfl (by omega) (by rw [hB, term_zero])
      (by rw [partialSum_zero]) (by simp) (by intro i h1 h2; omega)
    rw [hteam] at hp
    obtain ⟨_, hk⟩ := phase_local (end_local _) hn hT hp
    have hF' : vec p.n u'.F = Complex.exp (p.a * (p.mu / (p.s : ℂ))) • partialSum (scaled p) m (vec p.n v.F) := by
      rw [← hF]
      funext k
      simp only [vec, Pi.smul_apply, smul_eq_mul]
      rw [(hk k k.2).1, mul_comm]
    have hB' : vec p.n u'.B1 = vec p.n u'.F := by
      funext k
      simp only [vec]
      rw [(hk k k.2).1, (hk k k.2).2]
    have := ih (by omega) hB'
    rw [hteam, maxElement_eq hT, hF'] at this
    have e : p.s - i = p.s - (i + 1) + 1 := by omega
    rw [e]
    exact .step hm this

theorem expm_eq {p : Input} (hn : p.n ≤ M) (hA : p.A.Valid p.n p.n) (hT : 0 < p.numThreads) (hteam : p.team = p.numThreads)
    {F F' : Mem M ℂ} (h : ExpmMultiply p F F') :
    Approximates p.mStar p.tol (Complex.exp (p.a * (p.mu / (p.s : ℂ)))) (scaled p) p.s 0 (vec p.n F) (vec p.n F') := by
  obtain ⟨w1, w2, v, v', hp, hs, rfl⟩ := h
  rw [hteam] at hp
  obtain ⟨_, hk⟩ := phase_local copy_local hn hT hp
  have h1 : vec p.n v.F = vec p.n F := by
    funext k
    exact (hk k k.2).1
  have h2 : vec p.n v.B1 = vec p.n v.F := by
    rw [h1]
    funext k
    exact (hk k k.2).2
  have := steps_eq hn hA hT hteam hs (Nat.zero_le _) h2
  rwa [h1] at this

theorem order_unique {n mStar : ℕ} {tol : ℝ} {X : Matrix (Fin n) (Fin n) ℂ} {v : Fin n → ℂ} {c : ℝ} {m m' : ℕ}
    (h : IsOrder mStar tol X v c m) (h' : IsOrder mStar tol X v c m') : m = m' := by
  have key : ∀ {a b}, IsOrder mStar tol X v c a → IsOrder mStar tol X v c b → ¬ a < b := by
    intro a b ha hb hab
    rcases ha.stop with h | ⟨h1, h2⟩
    · have := hb.le; omega
    · exact hb.before a h1 hab h2
  have h1 := key h h'
  have h2 := key h' h
  omega

theorem approximates_unique {n mStar : ℕ} {tol : ℝ} {eta : ℂ} {X : Matrix (Fin n) (Fin n) ℂ} {k : ℕ} {c : ℝ} {v w : Fin n → ℂ}
    (h : Approximates mStar tol eta X k c v w) : ∀ {w'}, Approximates mStar tol eta X k c v w' → w = w' := by
  induction h with
  | done => intro w' h'; cases h'; rfl
  | step hm _ ih =>
    intro w' h'
    cases h' with
    | step hm' h'' =>
      obtain rfl := order_unique hm hm'
      exact ih h''

end Proof.ExpmParallel
