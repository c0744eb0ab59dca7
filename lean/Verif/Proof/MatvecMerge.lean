import Verif.Proof.MatvecOmp
/-! The merge-based CSR product. -/
namespace Proof.Matvec
open Spec Model.Matvec

variable {R : Type} [CommRing R] {M : Nat}

theorem mergeSearch_spec (d n : Nat) (e : Nat → Nat) (hmono : ∀ i j, i ≤ j → j < n → e i ≤ e j) (lo hi : Nat)
    (hlh : lo ≤ hi) (hhd : hi ≤ min d n) (h1 : ∀ i < lo, e i + i < d) (h2 : hi < min d n → d ≤ e hi + hi) :
    let r := mergeSearch d e lo hi
    r ≤ min d n ∧ (∀ i < r, e i + i < d) ∧ (r < min d n → d ≤ e r + r) := by
  induction hk : hi - lo using Nat.strong_induction_on generalizing lo hi with
  | _ k ih =>
    unfold mergeSearch
    by_cases hlt : lo < hi
    · rw [if_pos hlt]
      simp only []
      have hp1 : lo ≤ (lo + hi) / 2 := by omega
      have hp2 : (lo + hi) / 2 < hi := by omega
      by_cases hc : e ((lo + hi) / 2) ≤ d - (lo + hi) / 2 - 1
      · rw [if_pos hc]
        refine ih (hi - ((lo + hi) / 2 + 1)) (by omega) _ hi (by omega) hhd ?_ h2 rfl
        intro i hi'
        have := hmono i ((lo + hi) / 2) (by omega) (by omega)
        omega
      · rw [if_neg hc]
        refine ih ((lo + hi) / 2 - lo) (by omega) lo _ hp1 (by omega) h1 ?_ rfl
        intro _; omega
    · rw [if_neg hlt]
      have : lo = hi := by omega
      subst this
      exact ⟨hhd, h1, h2⟩

/-- a point of the merge path -/
theorem coord_spec {A : Compressed R} {n m : Nat} (hA : A.Valid n m) (d : Nat) (hd : d ≤ n + A.Ap n) :
    (coord n A d).1 ≤ n ∧ (coord n A d).1 + (coord n A d).2 = d ∧ A.Ap (coord n A d).1 ≤ (coord n A d).2 ∧
      ((coord n A d).1 < n → (coord n A d).2 ≤ A.Ap ((coord n A d).1 + 1)) := by
  have hm := valid_mono hA
  have h := mergeSearch_spec d n (fun i => A.Ap (i + 1)) (fun i j hij hj => hm _ _ (by omega) (by omega))
    (d - A.Ap n) (min d n) (by omega) (le_refl _) (by
      intro i hi
      have := hm (i + 1) n (by omega) (le_refl _)
      omega) (by omega)
  simp only [] at h
  unfold coord mergePathSearch
  simp only []
  generalize hr : mergeSearch d (fun i => A.Ap (i + 1)) (d - A.Ap n) (min d n) = r at h
  obtain ⟨h1, h2, h3⟩ := h
  have hrn : r ≤ n := by omega
  have hrd : r ≤ d := by omega
  rw [Nat.min_eq_left hrn]
  refine ⟨hrn, by omega, ?_, ?_⟩
  · rcases Nat.eq_zero_or_pos r with h0 | h0
    · rw [h0, hA.zero]; exact Nat.zero_le _
    · have := h2 (r - 1) (by omega)
      rw [show r - 1 + 1 = r by omega] at this
      omega
  · intro hlt
    by_cases hc : r < min d n
    · have := h3 hc; omega
    · have : r = d := by omega
      omega

theorem coord_mono {A : Compressed R} {n m : Nat} (hA : A.Valid n m) (d d' : Nat) (hdd : d ≤ d') (hd : d' ≤ n + A.Ap n) :
    (coord n A d).1 ≤ (coord n A d').1 ∧ (coord n A d).2 ≤ (coord n A d').2 := by
  have hm := valid_mono hA
  obtain ⟨a1, a2, a3, a4⟩ := coord_spec hA d (by omega)
  obtain ⟨b1, b2, b3, b4⟩ := coord_spec hA d' hd
  constructor
  · by_contra hc
    have h1 := b4 (by omega)
    have h2 := hm ((coord n A d').1 + 1) (coord n A d).1 (by omega) a1
    omega
  · by_contra hc
    have h1 := a4 (by omega)
    have h2 := hm ((coord n A d).1 + 1) (coord n A d').1 (by omega) b1
    omega

/-- the starting point of iteration `t` -/
def X (T n : Nat) (A : Compressed R) (t : Nat) : Nat := (coord n A (diagonalOf T n A t)).1
/-- the starting point of iteration `t` -/
def Y (T n : Nat) (A : Compressed R) (t : Nat) : Nat := (coord n A (diagonalOf T n A t)).2

theorem diagonalEnd_eq (T n : Nat) (A : Compressed R) (t : Nat) : diagonalEnd T n A t = diagonalOf T n A (t + 1) := by
  unfold diagonalEnd diagonalOf
  rw [Nat.mul_succ]
  generalize (n + A.Ap n + T - 1) / T = p
  generalize p * t = q
  omega

theorem diagonal_mono (T n : Nat) (A : Compressed R) (t t' : Nat) (h : t ≤ t') : diagonalOf T n A t ≤ diagonalOf T n A t' := by
  unfold diagonalOf
  have := Nat.mul_le_mul_left ((n + A.Ap n + T - 1) / T) h
  omega

theorem diagonal_le (T n : Nat) (A : Compressed R) (t : Nat) : diagonalOf T n A t ≤ n + A.Ap n := by
  unfold diagonalOf; exact Nat.min_le_right _ _

theorem diagonal_zero (T n : Nat) (A : Compressed R) : diagonalOf T n A 0 = 0 := by unfold diagonalOf; simp

theorem diagonal_last (T n : Nat) (hT : 0 < T) (A : Compressed R) : diagonalOf T n A T = n + A.Ap n := by
  unfold diagonalOf
  have := Nat.div_add_mod (n + A.Ap n + T - 1) T
  have h2 := Nat.mod_lt (n + A.Ap n + T - 1) hT
  rw [Nat.mul_comm] at this
  omega

section
variable {A : Compressed R} {n m : Nat} (hA : A.Valid n m) (T : Nat)

include hA

theorem X_mono (t t' : Nat) (h : t ≤ t') : X T n A t ≤ X T n A t' :=
  (coord_mono hA _ _ (diagonal_mono T n A t t' h) (diagonal_le T n A t')).1
theorem Y_mono (t t' : Nat) (h : t ≤ t') : Y T n A t ≤ Y T n A t' :=
  (coord_mono hA _ _ (diagonal_mono T n A t t' h) (diagonal_le T n A t')).2
theorem X_le (t : Nat) : X T n A t ≤ n := (coord_spec hA _ (diagonal_le T n A t)).1
theorem XY_lower (t : Nat) : A.Ap (X T n A t) ≤ Y T n A t := (coord_spec hA _ (diagonal_le T n A t)).2.2.1
theorem XY_upper (t : Nat) (h : X T n A t < n) : Y T n A t ≤ A.Ap (X T n A t + 1) :=
  (coord_spec hA _ (diagonal_le T n A t)).2.2.2 h
theorem X_zero : X T n A 0 = 0 := by
  have := (coord_spec hA _ (diagonal_le T n A 0)).2.1
  rw [diagonal_zero] at this
  unfold X
  rw [diagonal_zero]; omega
theorem X_last (hT : 0 < T) : X T n A T = n ∧ Y T n A T = A.Ap n := by
  obtain ⟨h1, h2, h3, h4⟩ := coord_spec hA _ (diagonal_le T n A T)
  rw [diagonal_last T n hT] at h1 h2 h3 h4
  unfold X Y
  rw [diagonal_last T n hT]
  have hm := valid_mono hA
  by_cases hc : (coord n A (n + A.Ap n)).1 < n
  · have h5 := h4 hc
    have := hm ((coord n A (n + A.Ap n)).1 + 1) n (by omega) (le_refl _)
    omega
  · omega

end

/-- values times vector, entries `a ≤ jj < b` -/
def segment (A : Compressed R) (xs : Int) (x : Mem M R) (a b : Nat) : R :=
  ∑ jj ∈ Finset.Ico a b, A.Ax jj * x (ptr M (A.Aj jj * xs))

theorem mergeSum_eq (A : Compressed R) (xs : Int) (x : Mem M R) (a b : Nat) : mergeSum A xs x a b = segment A xs x a b :=
  forLoop_sum a b _

/-- accesses of one row -/
def rowOps (ow : Bool) (p : ZMod M) (v : R) : List (MemOp (ZMod M) R) := if ow then [.set p v] else plainAdd p v

theorem mergeRows_spec (ow : Bool) (A : Compressed R) (n m : Nat) (hA : A.Valid n m) (a : R) (xs : Int) (x : Mem M R) (ys : Int)
    (x0 x1 y0 : Nat) (h01 : x0 ≤ x1) (h1n : x1 ≤ n) (hy : A.Ap x0 ≤ y0) :
    mergeRows ow A a xs x ys x0 x1 y0 =
      ((List.range' x0 (x1 - x0)).flatMap fun r : Nat => rowOps ow (ptr M (r * ys)) (a * segment A xs x (max y0 (A.Ap r)) (A.Ap (r + 1))),
        max y0 (A.Ap x1)) := by
  unfold mergeRows
  refine forLoop_inv (fun b st => st = ((List.range' x0 (b - x0)).flatMap fun r : Nat =>
    rowOps ow (ptr M (r * ys)) (a * segment A xs x (max y0 (A.Ap r)) (A.Ap (r + 1))), max y0 (A.Ap b))) x0 x1 h01 _ _ ?_ ?_
  · rw [Nat.sub_self]
    simp only [List.range'_zero, List.flatMap_nil]
    rw [Nat.max_eq_left hy]
  · intro k st hk hk1 hst
    subst hst
    refine Prod.ext ?_ ?_
    · simp only []
      rw [show k + 1 - x0 = (k - x0) + 1 by omega, List.range'_concat, List.flatMap_append]
      simp only [List.flatMap_cons, List.flatMap_nil, List.append_nil]
      rw [show x0 + 1 * (k - x0) = k by omega, mergeSum_eq]
      rfl
    · simp only []
      have := hA.mono k (by omega)
      omega

theorem mergeOps_spec (ow : Bool) (T n m : Nat) (A : Compressed R) (hA : A.Valid n m) (a : R) (xs : Int) (x : Mem M R) (ys : Int)
    (t : Nat) : mergeOps ow T n A a xs x ys t =
      (List.range' (X T n A t) (X T n A (t + 1) - X T n A t)).flatMap fun r : Nat =>
        rowOps ow (ptr M (r * ys)) (a * segment A xs x (max (Y T n A t) (A.Ap r)) (A.Ap (r + 1))) := by
  unfold mergeOps
  simp only [diagonalEnd_eq]
  change (mergeRows ow A a xs x ys (X T n A t) (X T n A (t + 1)) (Y T n A t)).1 = _
  rw [mergeRows_spec ow A n m hA a xs x ys _ _ _ (X_mono hA T t (t + 1) (by omega)) (X_le hA T (t + 1)) (XY_lower hA T t)]

theorem mergeCarry_spec (T n m : Nat) (A : Compressed R) (hA : A.Valid n m) (xs : Int) (x : Mem M R) (t : Nat) :
    mergeCarry T n A xs x t = (X T n A (t + 1),
      segment A xs x (max (Y T n A t) (A.Ap (X T n A (t + 1)))) (Y T n A (t + 1))) := by
  unfold mergeCarry
  simp only [diagonalEnd_eq]
  change (X T n A (t + 1), mergeSum A xs x (mergeRows true A 0 xs x 0 (X T n A t) (X T n A (t + 1)) (Y T n A t)).2 (Y T n A (t + 1))) = _
  rw [mergeRows_spec true A n m hA 0 xs x 0 _ _ _ (X_mono hA T t (t + 1) (by omega)) (X_le hA T (t + 1)) (XY_lower hA T t),
    mergeSum_eq]

theorem rowOps_addr (ow : Bool) (p : ZMod M) (v : R) : ∀ o ∈ rowOps ow p v, o.addr = p := by
  unfold rowOps plainAdd
  intro o ho
  cases ow
  · simp only [Bool.false_eq_true, if_false, List.mem_cons, List.not_mem_nil, or_false] at ho
    rcases ho with rfl | rfl <;> rfl
  · simp only [if_true, List.mem_singleton] at ho
    subst ho; rfl

theorem mem_mergeOps (ow : Bool) (T n m : Nat) (A : Compressed R) (hA : A.Valid n m) (a : R) (xs : Int) (x : Mem M R) (ys : Int)
    (t : Nat) (o : MemOp (ZMod M) R) (ho : o ∈ mergeOps ow T n A a xs x ys t) :
    ∃ r, X T n A t ≤ r ∧ r < X T n A (t + 1) ∧ o.addr = ptr M (r * ys) := by
  rw [mergeOps_spec ow T n m A hA, List.mem_flatMap] at ho
  obtain ⟨r, hr, ho⟩ := ho
  rw [List.mem_range'_1] at hr
  exact ⟨r, hr.1, by omega, rowOps_addr ow _ _ o ho⟩

/-- the parallel part on a row -/
theorem merge_row (ow : Bool) (T n m : Nat) (A : Compressed R) (hA : A.Valid n m) (a : R) (xs : Int) (x : Mem M R) (ys : Int)
    (hd : CellsDistinct M n ys) (l : List (Nat × MemOp (ZMod M) R)) (hl : Interleaving T (mergeOps ow T n A a xs x ys) l)
    (s : Shared M R) (t : Nat) (ht : t < T) (r : Nat) (h1 : X T n A t ≤ r) (h2 : r < X T n A (t + 1)) :
    (run l s).y (ptr M (r * ys)) = (if ow then 0 else s.y (ptr M (r * ys))) +
      a * segment A xs x (max (Y T n A t) (A.Ap r)) (A.Ap (r + 1)) := by
  have hrn : r < n := lt_of_lt_of_le h2 (X_le hA T _)
  rw [run_private T _ l hl _ t ht]
  · have hf : ((mergeOps ow T n A a xs x ys t).filter fun o => o.addr = ptr M (r * ys)) =
        rowOps ow (ptr M (r * ys)) (a * segment A xs x (max (Y T n A t) (A.Ap r)) (A.Ap (r + 1))) := by
      rw [mergeOps_spec ow T n m A hA]
      have : ∀ (xs' : List Nat) (f : Nat → List (MemOp (ZMod M) R)), xs'.Nodup → (∀ q ∈ xs', q < n) →
          (∀ q, ∀ o ∈ f q, o.addr = ptr M (q * ys)) →
          (xs'.flatMap f).filter (fun o => o.addr = ptr M (r * ys)) = if r ∈ xs' then f r else [] := by
        intro xs' f
        induction xs' with
        | nil => intro _ _ _; simp
        | cons q xs' ih =>
          intro hnd hlt hf
          rw [List.nodup_cons] at hnd
          rw [List.flatMap_cons, List.filter_append, ih hnd.2 (fun q hq => hlt q (by simp [hq])) hf]
          by_cases hq : r = q
          · subst hq
            rw [if_neg hnd.1, List.append_nil, if_pos (by simp), List.filter_eq_self.2]
            intro o ho; simpa using hf r o ho
          · rw [List.filter_eq_nil_iff.2, List.nil_append]
            · simp [hq]
            · intro o ho hc
              have hc : o.addr = ptr M (r * ys) := by simpa using hc
              rw [hf q o ho] at hc
              exact hq (hd q (hlt q (by simp)) r hrn hc).symm
      rw [this _ _ List.nodup_range' _ (fun q => rowOps_addr ow _ _), if_pos]
      · rw [List.mem_range'_1]; omega
      · intro q hq
        rw [List.mem_range'_1] at hq
        have := X_le hA T (t + 1)
        omega
    rw [hf]
    unfold rowOps plainAdd
    cases ow
    · simp [run, step]
    · simp [run, step]
  · intro t' ht' hne o ho hc
    obtain ⟨r', a1, a2, a3⟩ := mem_mergeOps ow T n m A hA a xs x ys t' o ho
    rw [a3] at hc
    have hr'n : r' < n := lt_of_lt_of_le a2 (X_le hA T _)
    have := hd r' hr'n r hrn hc
    subst this
    rcases Nat.lt_or_gt_of_ne hne with h | h
    · have := X_mono hA T (t' + 1) t h; omega
    · have := X_mono hA T (t + 1) t' h; omega

theorem mergeFix_apply (T n m : Nat) (A : Compressed R) (hA : A.Valid n m) (a : R) (xs : Int) (x : Mem M R) (ys : Int)
    (y : Mem M R) (q : ZMod M) : mergeFix T n A a xs x ys y q = y q + ∑ t ∈ Finset.range (T - 1),
      if X T n A (t + 1) < n ∧ ptr M (X T n A (t + 1) * ys) = q then
        a * segment A xs x (max (Y T n A t) (A.Ap (X T n A (t + 1)))) (Y T n A (t + 1)) else 0 := by
  unfold mergeFix
  rw [Finset.range_eq_Ico]
  refine forLoop_adds 0 (T - 1) _ (fun t q => if X T n A (t + 1) < n ∧ ptr M (X T n A (t + 1) * ys) = q then
        a * segment A xs x (max (Y T n A t) (A.Ap (X T n A (t + 1)))) (Y T n A (t + 1)) else 0) ?_ y q
  intro t _ _ y q
  simp only [mergeCarry_spec T n m A hA]
  by_cases h : X T n A (t + 1) < n
  · rw [if_pos h, addTo_apply]; simp [h]
  · rw [if_neg h]; simp [h]

/-- contribution of iteration `t` to row `r` -/
def contrib (T n : Nat) (A : Compressed R) (xs : Int) (x : Mem M R) (r t : Nat) : R :=
  segment A xs x (max (Y T n A t) (A.Ap r)) (min (Y T n A (t + 1)) (A.Ap (r + 1)))

theorem contrib_sum (T n m : Nat) (A : Compressed R) (hA : A.Valid n m) (xs : Int) (x : Mem M R) (r : Nat) (hr : r < n) (k : Nat) :
    ∑ t ∈ Finset.range k, contrib T n A xs x r t =
      segment A xs x (max (Y T n A 0) (A.Ap r)) (max (max (Y T n A 0) (A.Ap r)) (min (Y T n A k) (A.Ap (r + 1)))) := by
  induction k with
  | zero =>
    rw [Finset.sum_range_zero]
    unfold segment
    rw [Finset.Ico_eq_empty, Finset.sum_empty]
    omega
  | succ k ih =>
    rw [Finset.sum_range_succ, ih]
    unfold contrib
    have hY := Y_mono hA T k (k + 1) (by omega)
    have hY0 := Y_mono hA T 0 k (by omega)
    have hAp := hA.mono r hr
    unfold segment
    by_cases hc : Y T n A k < A.Ap (r + 1) ∧ A.Ap r < Y T n A (k + 1)
    · rw [show max (Y T n A k) (A.Ap r) = max (max (Y T n A 0) (A.Ap r)) (min (Y T n A k) (A.Ap (r + 1))) by omega,
        Finset.sum_Ico_consecutive _ (by omega) (by omega)]
      congr 2
      omega
    · rw [Finset.Ico_eq_empty (by omega : ¬ max (Y T n A k) (A.Ap r) < min (Y T n A (k + 1)) (A.Ap (r + 1))), Finset.sum_empty,
        add_zero]
      congr 2
      omega

theorem contrib_total (T n m : Nat) (hT : 0 < T) (A : Compressed R) (hA : A.Valid n m) (xs : Int) (x : Mem M R) (r : Nat) (hr : r < n) :
    ∑ t ∈ Finset.range T, contrib T n A xs x r t = segment A xs x (A.Ap r) (A.Ap (r + 1)) := by
  rw [contrib_sum T n m A hA xs x r hr]
  have h0 : Y T n A 0 = 0 := by
    have := (coord_spec hA _ (diagonal_le T n A 0)).2.1
    rw [diagonal_zero] at this
    unfold Y; rw [diagonal_zero]; omega
  have hl := (X_last hA T hT).2
  have hm := valid_mono hA (r + 1) n (by omega) (le_refl _)
  have := hA.mono r hr
  rw [h0, hl]
  congr 1 <;> omega

theorem csrOmp_computes (ow : Bool) (T nRow nCol : Nat) (hT : 0 < T) (A : Compressed R) (hA : A.Valid nRow nCol) (a : R)
    (xs : Int) (x : Mem M R) (ys : Int) (hd : CellsDistinct M nRow ys) (s : Shared M R) (y' : Mem M R)
    (h : CsrOmp ow T nRow A a xs x ys s y') :
    Computes nRow nCol (csrEntry A) ow a (fun j => x (ptr M (j * xs))) (fun i => ptr M (i * ys)) s.y y' := by
  obtain ⟨l, hl, rfl⟩ := h
  have hm := valid_mono hA
  constructor
  · intro r hr
    -- the iteration that finishes row r
    have hex : ∃ t < T, X T nRow A t ≤ r ∧ r < X T nRow A (t + 1) := by
      by_contra hc
      push Not at hc
      have : ∀ t ≤ T, X T nRow A t ≤ r := by
        intro t
        induction t with
        | zero => intro _; rw [X_zero hA T]; omega
        | succ t ih => intro ht; exact hc t (by omega) (ih (by omega))
      have h1 := this T (le_refl _)
      rw [(X_last hA T hT).1] at h1
      omega
    obtain ⟨t, ht, h1, h2⟩ := hex
    rw [csr_row_sum A nCol r _ (valid_idx hA r hr), mergeFix_apply T nRow nCol A hA,
      merge_row ow T nRow nCol A hA a xs x ys hd l hl s t ht r h1 h2, add_assoc]
    congr 1
    have htot := contrib_total T nRow nCol hT A hA xs x r hr
    change _ = a * segment A xs x (A.Ap r) (A.Ap (r + 1))
    rw [← htot, Finset.mul_sum]
    obtain ⟨T', rfl⟩ : ∃ T', T = T' + 1 := ⟨T - 1, by omega⟩
    -- each contribution is a finished part or a carry
    have hc : ∀ k < T' + 1, contrib (T' + 1) nRow A xs x r k =
        (if k = t then segment A xs x (max (Y (T' + 1) nRow A t) (A.Ap r)) (A.Ap (r + 1)) else 0) +
        if X (T' + 1) nRow A (k + 1) < nRow ∧ X (T' + 1) nRow A (k + 1) = r then
          segment A xs x (max (Y (T' + 1) nRow A k) (A.Ap (X (T' + 1) nRow A (k + 1)))) (Y (T' + 1) nRow A (k + 1)) else 0 := by
      intro k hk
      unfold contrib
      rcases Nat.lt_trichotomy k t with hkt | hkt | hkt
      · have hX := X_mono hA (T' + 1) (k + 1) t hkt
        rw [if_neg (by omega), zero_add]
        by_cases he : X (T' + 1) nRow A (k + 1) = r
        · rw [if_pos ⟨by omega, he⟩, he]
          have := XY_upper hA (T' + 1) (k + 1) (by omega)
          rw [he] at this
          rw [Nat.min_eq_left this]
        · rw [if_neg (fun hc => he hc.2)]
          have h3 := XY_upper hA (T' + 1) (k + 1) (by omega)
          have h4 := hm (X (T' + 1) nRow A (k + 1) + 1) r (by omega) (by omega)
          unfold segment
          rw [Finset.Ico_eq_empty (by omega), Finset.sum_empty]
      · subst hkt
        rw [if_pos rfl, if_neg (by omega), add_zero]
        have h3 := XY_lower hA (T' + 1) (k + 1)
        have h4 := hm (r + 1) (X (T' + 1) nRow A (k + 1)) (by omega) (X_le hA _ _)
        rw [Nat.min_eq_right (by omega)]
      · have hX := X_mono hA (T' + 1) (t + 1) k hkt
        have hX2 := X_mono hA (T' + 1) (t + 1) (k + 1) (by omega)
        rw [if_neg (by omega), zero_add, if_neg (by omega)]
        have h3 := XY_lower hA (T' + 1) k
        have h4 := hm (r + 1) (X (T' + 1) nRow A k) (by omega) (X_le hA _ _)
        unfold segment
        rw [Finset.Ico_eq_empty (by omega), Finset.sum_empty]
    have hc' := Finset.sum_congr (rfl : Finset.range (T' + 1) = _) fun k hk => congrArg (a * ·) (hc k (Finset.mem_range.1 hk))
    rw [hc']
    simp only [mul_add]
    rw [Finset.sum_add_distrib]
    congr 1
    · rw [Finset.sum_eq_single t]
      · rw [if_pos rfl]
      · intro k _ hk; rw [if_neg hk, mul_zero]
      · intro hc; exact absurd (Finset.mem_range.2 ht) hc
    · rw [Finset.sum_range_succ, if_neg (by rw [(X_last hA (T' + 1) hT).1]; omega), mul_zero, add_zero]
      apply Finset.sum_congr rfl
      intro k _
      by_cases hX : X (T' + 1) nRow A (k + 1) < nRow
      · by_cases he : X (T' + 1) nRow A (k + 1) = r
        · rw [if_pos ⟨hX, by rw [he]⟩, if_pos ⟨hX, he⟩]
        · rw [if_neg (fun hc => he (hd _ hX _ hr hc.2)), if_neg (fun hc => he hc.2), mul_zero]
      · rw [if_neg (fun hc => hX hc.1), if_neg (fun hc => hX hc.1), mul_zero]
  · intro p hp
    rw [mergeFix_apply T nRow nCol A hA, Finset.sum_eq_zero, add_zero]
    · refine run_unused T _ l hl p ?_ s
      intro t _ o ho hc
      obtain ⟨r, a1, a2, a3⟩ := mem_mergeOps ow T nRow nCol A hA a xs x ys t o ho
      exact hp r (lt_of_lt_of_le a2 (X_le hA T _)) (by rw [← a3, hc])
    · intro k _
      rw [if_neg]
      rintro ⟨h1, h2⟩
      exact hp _ h1 h2.symm

end Proof.Matvec
