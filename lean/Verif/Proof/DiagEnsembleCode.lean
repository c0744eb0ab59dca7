import Verif.Proof.DiagEnsemble
/-! The loops and checks of `diag_ensemble`. -/
namespace Proof.DiagEns
open Matrix Spec.Quench Model.DiagEns

variable {n m : ℕ}

theorem eps_pos : 0 < eps := by unfold eps; positivity

theorem zip_ge (δ : ℝ) : ∀ s : List ℝ, (∀ d ∈ List.zipWith (fun a b => b - a) s s.tail, δ ≤ d) ↔ s.IsChain (fun a b => a + δ ≤ b)
  | [] => by simp
  | [a] => by simp
  | a :: b :: s => by
    have := zip_ge δ (b :: s)
    simp only [List.tail_cons] at this
    simp only [List.tail_cons, List.zipWith_cons_cons, List.mem_cons, forall_eq_or_imp, List.isChain_cons_cons, this]
    constructor
    · rintro ⟨h1, h2⟩; exact ⟨by linarith, h2⟩
    · rintro ⟨h1, h2⟩; exact ⟨by linarith, h2⟩

theorem degenerate_iff (E : Fin n → ℝ) : degenerate E ↔ ∃ i j, i ≠ j ∧ |E i - E j| < 1000 * eps := by
  set δ := 1000 * eps with hδ
  have hpos : 0 < δ := by have := eps_pos; positivity
  set s := (List.ofFn E).insertionSort (· ≤ ·) with hs
  have hperm : s.Perm (List.ofFn E) := List.perm_insertionSort _ _
  have hsort : s.Pairwise (· ≤ ·) := List.pairwise_insertionSort _ _
  have h1 : ¬ degenerate E ↔ s.IsChain (fun a b => a + δ ≤ b) := by
    rw [← zip_ge]
    unfold degenerate
    simp only [not_exists, not_and, not_lt]
    rfl
  have h2 : s.IsChain (fun a b => a + δ ≤ b) ↔ s.Pairwise (fun a b => a + δ ≤ b) := by
    haveI : IsTrans ℝ (fun a b => a + δ ≤ b) := ⟨fun a b c h1 h2 => by linarith⟩
    exact List.isChain_iff_pairwise
  have h3 : s.Pairwise (fun a b => a + δ ≤ b) ↔ s.Pairwise (fun a b => δ ≤ |a - b|) := by
    constructor
    · intro h
      refine h.imp fun {a b} hab => ?_
      rw [abs_sub_comm]
      exact le_trans (by linarith) (le_abs_self _)
    · intro h
      refine (h.and hsort).imp fun {a b} hab => ?_
      have := hab.1
      rw [abs_sub_comm, abs_of_nonneg (by linarith [hab.2])] at this
      linarith
  have h4 : s.Pairwise (fun a b => δ ≤ |a - b|) ↔ (List.ofFn E).Pairwise (fun a b => δ ≤ |a - b|) :=
    hperm.pairwise_iff (fun {a b} h => by rwa [abs_sub_comm])
  have h5 : (List.ofFn E).Pairwise (fun a b => δ ≤ |a - b|) ↔ ∀ i j, i ≠ j → δ ≤ |E i - E j| := by
    rw [List.pairwise_ofFn]
    constructor
    · intro h i j hij
      rcases lt_or_gt_of_ne hij with h' | h'
      · exact h h'
      · rw [abs_sub_comm]; exact h h'
    · intro h i j hij
      exact h i j hij.ne
  rw [← not_iff_not, h1, h2, h3, h4, h5]
  push Not
  rfl

theorem gaps_injective {E : Fin n → ℝ} (h : ∀ i j, i ≠ j → 1000 * eps ≤ |E i - E j|) : Function.Injective E := by
  intro i j hij
  by_contra hne
  have := h i j hne
  rw [hij, sub_self, abs_zero] at this
  have := eps_pos
  linarith

theorem not_degenerate {E : Fin n → ℝ} (h : ∀ i j, i ≠ j → 1000 * eps ≤ |E i - E j|) : ¬ degenerate E := by
  rw [degenerate_iff]
  rintro ⟨i, j, h1, h2⟩
  exact absurd (h i j h1) (not_le.2 h2)

theorem clip_close (r : ℝ) (hr : 0 ≤ r) : |clip r - r| ≤ if r ≤ 1 / 10 ^ 16 then eps else 0 := by
  unfold clip
  by_cases h : r ≤ 1 / 10 ^ 16
  · rw [if_pos h, if_pos h, abs_le]
    have : (1 : ℝ) / 10 ^ 16 ≤ eps := by unfold eps; norm_num
    exact ⟨by linarith, by linarith⟩
  · rw [if_neg h, if_neg h]; simp

theorem clip_eq {r : ℝ} (h : 1 / 10 ^ 16 < r) : clip r = r := by
  unfold clip; rw [if_neg (not_le.2 h)]

theorem obs_close (A : Matrix (Fin n) (Fin n) ℂ) (r : Fin n → ℝ) (hr : ∀ k, 0 ≤ r k) :
    |obsD A (fun k => clip (r k)) - ∑ k, obsDiag A k * r k| ≤ ∑ k, if r k ≤ 1 / 10 ^ 16 then eps * |(A k k).re| else 0 := by
  unfold obsD
  rw [← Finset.sum_sub_distrib]
  refine (Finset.abs_sum_le_sum_abs _ _).trans (Finset.sum_le_sum fun k _ => ?_)
  rw [← mul_sub, abs_mul]
  have := clip_close (r k) (hr k)
  by_cases h : r k ≤ 1 / 10 ^ 16
  · rw [if_pos h] at this ⊢
    rw [mul_comm]
    exact mul_le_mul_of_nonneg_right this (abs_nonneg _)
  · rw [if_neg h] at this ⊢
    have : |clip (r k) - r k| = 0 := le_antisymm this (abs_nonneg _)
    rw [this, mul_zero]

/-! ### The quantities of one column -/

/-- `value /= N`. -/
noncomputable def scaled (N : ℕ) (fl : Flags) (x : Option ℝ) : Option ℝ := if fl.density then x.map (· / N) else x

/-- The quantities returned. -/
def keys (fl : Flags) (some? : Bool) : List Quantity :=
  (if some? then [.obs] ++ (if fl.deltaT || fl.deltaQ then [.deltaT] else []) ++ (if fl.deltaQ then [.deltaQ] else []) else [])
    ++ (if fl.sd then [.sd] else [])

/-- Their values. -/
noncomputable def val (N : ℕ) (fl : Flags) (V O : Matrix (Fin n) (Fin n) ℂ) (r : Fin n → ℝ) : Quantity → Option ℝ
  | .obs => scaled N fl (some (obsD (rotated V O) r))
  | .deltaT => scaled N fl (sqrtNan (deltaTSq (rotated V O) r))
  | .deltaQ => scaled N fl (sqrtNan (deltaQSq (rotated V O) r))
  | .sd => scaled N fl (some (Model.DiagEns.entropy fl.alpha r))

theorem infTime_eq (N : ℕ) (fl : Flags) (V : Matrix (Fin n) (Fin n) ℂ) (O : Option (Matrix (Fin n) (Fin n) ℂ))
    (r : Fin n → ℝ) : infTime N fl V O r = (keys fl O.isSome).map fun q => (q, val N fl V (O.getD 0) r q) := by
  unfold infTime keys
  cases O <;> cases fl.deltaT <;> cases fl.deltaQ <;> cases fl.sd <;> simp [val, scaled]

theorem keys_nodup (fl : Flags) (b : Bool) : (keys fl b).Nodup := by
  unfold keys
  cases b <;> cases fl.deltaT <;> cases fl.deltaQ <;> cases fl.sd <;> decide

theorem lookup_keys {β : Type} (f : Quantity → β) (q : Quantity) :
    ∀ ks : List Quantity, (ks.map fun q => (q, f q)).lookup q = if q ∈ ks then some (f q) else none
  | [] => by simp
  | k :: ks => by
    rw [List.map_cons, List.lookup_cons]
    by_cases h : q = k
    · subst h; simp
    · rw [show (q == k) = false from by simpa using h, lookup_keys f q ks]
      simp [h]

theorem grouped_eq (ks : List Quantity) (cols : List (Fin n → ℝ)) (hc : cols ≠ []) (f : (Fin n → ℝ) → Quantity → Option ℝ) :
    grouped (cols.map fun r => ks.map fun q => (q, f r q)) = ks.map fun q => (q, cols.map fun r => f r q) := by
  obtain ⟨c, cols, rfl⟩ := List.exists_cons_of_ne_nil hc
  unfold grouped
  rw [List.map_cons]
  simp only [List.length_map]
  apply List.ext_getElem?
  intro i
  have e : ∀ (l : List ℕ), (∀ i ∈ l, i < ks.length) → (l.filterMap fun i =>
      ((ks.map fun q => (q, f c q))[i]?).map fun q => (q.1, ((ks.map fun q => (q, f c q)) :: cols.map fun r => ks.map fun q => (q, f r q)).map
        fun c => ((c[i]?).map (·.2)).getD none)) = l.map fun i => (ks.getD i .obs, (c :: cols).map fun r => f r (ks.getD i .obs)) := by
    intro l
    induction l with
    | nil => simp
    | cons i l ih =>
      intro hl
      have hi := hl i (by simp)
      rw [List.filterMap_cons, ih fun j hj => hl j (by simp [hj]), List.map_cons]
      simp [List.getElem?_map, List.getElem?_eq_getElem hi, List.getD]
  rw [e _ (by simp)]
  by_cases hi : i < ks.length
  · simp [List.getElem?_map, List.getElem?_eq_getElem hi, List.getD, hi]
  · simp [List.getElem?_map, hi, List.getElem?_eq_none (not_lt.1 hi)]

theorem dotNan_ofFn : ∀ {m : ℕ} (x w : Fin m → ℝ), dotNan (List.ofFn fun p => some (x p)) (List.ofFn w) = some (∑ p, x p * w p)
  | 0, _, _ => by simp [dotNan]
  | m + 1, x, w => by
    rw [List.ofFn_succ, List.ofFn_succ, dotNan, dotNan_ofFn (fun p => x p.succ) (fun p => w p.succ), Fin.sum_univ_succ]
    rfl

theorem rhoDict_eq (V : Matrix (Fin n) (Fin n) ℂ) (V1 : Matrix (Fin n) (Fin m) ℂ) (p : Fin m) :
    rhoDict V V1 p = rhoPure V (fun i => V1 i p) := by
  ext k
  unfold rhoDict rhoPure
  rw [← norm_star]
  congr 2
  simp only [Matrix.mul_apply, conjTranspose_apply, star_sum, star_mul', star_star]
  exact Finset.sum_congr rfl fun i _ => mul_comm _ _

end Proof.DiagEns
