import Verif.Model.Matvec
import Mathlib.Algebra.BigOperators.Ring.Finset
import Mathlib.Algebra.BigOperators.Group.Finset.Piecewise
import Mathlib.Data.Finset.Interval
import Mathlib.Tactic.Ring
import Mathlib.Tactic.LinearCombination
import Mathlib.Algebra.Order.BigOperators.Group.LocallyFinite
/-! Serial products. -/
namespace Proof.Matvec
open Spec Model.Matvec

variable {R : Type} [CommRing R] {M : Nat}

theorem forLoop_empty {σ : Type} (a b : Nat) (h : b ≤ a) (body : Nat → σ → σ) (s : σ) : forLoop a b body s = s := by
  unfold forLoop
  rw [Nat.sub_eq_zero_of_le h]; rfl

theorem forLoop_succ {σ : Type} (a b : Nat) (h : a ≤ b) (body : Nat → σ → σ) (s : σ) :
    forLoop a (b + 1) body s = body b (forLoop a b body s) := by
  unfold forLoop
  rw [show b + 1 - a = (b - a) + 1 by omega, List.range'_concat, List.foldl_append]
  simp only [List.foldl_cons, List.foldl_nil]
  congr 1; omega

theorem forLoop_inv {σ : Type} (Inv : Nat → σ → Prop) (a b : Nat) (hab : a ≤ b) (body : Nat → σ → σ) (s : σ)
    (h0 : Inv a s) (hs : ∀ k s, a ≤ k → k < b → Inv k s → Inv (k + 1) (body k s)) : Inv b (forLoop a b body s) := by
  induction b with
  | zero => rw [forLoop_empty a 0 (Nat.zero_le _)]; have : a = 0 := by omega
            subst this; exact h0
  | succ b ih =>
    by_cases hb : a ≤ b
    · rw [forLoop_succ a b hb]
      exact hs b _ hb (by omega) (ih hb fun k s h1 h2 => hs k s h1 (by omega))
    · have : a = b + 1 := by omega
      subst this
      rw [forLoop_empty _ _ (le_refl _)]; exact h0

/-- loops that add to every cell -/
theorem forLoop_adds {P : Type} (a b : Nat) (body : Nat → (P → R) → (P → R)) (F : Nat → P → R)
    (h : ∀ k, a ≤ k → k < b → ∀ y q, body k y q = y q + F k q) (y : P → R) (q : P) :
    forLoop a b body y q = y q + ∑ k ∈ Finset.Ico a b, F k q := by
  by_cases hab : a ≤ b
  · exact forLoop_inv (fun b z => z q = y q + ∑ k ∈ Finset.Ico a b, F k q) a b hab body y (by simp) (by
      intro k z h1 h2 hz
      rw [h k h1 h2, hz, Finset.sum_Ico_succ_top h1, add_assoc])
  · rw [forLoop_empty _ _ (by omega), Finset.Ico_eq_empty (by omega)]; simp

theorem forLoop_sum (a b : Nat) (f : Nat → R) : forLoop a b (fun k s => s + f k) 0 = ∑ k ∈ Finset.Ico a b, f k := by
  have := forLoop_adds (P := Unit) a b (fun k y q => y q + f k) (fun k _ => f k) (fun _ _ _ _ _ => rfl) (fun _ => 0) ()
  rw [zero_add] at this
  rw [← this]
  by_cases hab : a ≤ b
  · clear this
    induction b with
    | zero => rw [forLoop_empty _ _ (Nat.zero_le _), forLoop_empty _ _ (Nat.zero_le _)]
    | succ b ih =>
      by_cases hb : a ≤ b
      · rw [forLoop_succ _ _ hb, forLoop_succ _ _ hb, ih hb]
      · rw [forLoop_empty _ _ (by omega), forLoop_empty _ _ (by omega)]
  · rw [forLoop_empty _ _ (by omega), forLoop_empty _ _ (by omega)]

theorem addTo_apply (y : Mem M R) (p q : ZMod M) (v : R) : addTo y p v q = y q + if p = q then v else 0 := by
  unfold addTo
  by_cases h : p = q
  · subst h; simp
  · rw [Function.update_of_ne (fun hc => h hc.symm), if_neg h, add_zero]

/-- cells of the output are distinct -/
def CellsDistinct (M n : Nat) (s : Int) : Prop := ∀ i < n, ∀ j < n, ptr M (i * s) = ptr M (j * s) → i = j

theorem zero_apply (ow : Bool) (n : Nat) (ys : Int) (y : Mem M R) (q : ZMod M) :
    zeroLoop ow n ys y q = if ow = true ∧ ∃ i < n, q = ptr M (i * ys) then 0 else y q := by
  unfold zeroLoop
  cases ow
  · simp
  · simp only [if_true, true_and]
    refine forLoop_inv (fun b z => z q = if ∃ i < b, q = ptr M (i * ys) then 0 else y q) 0 n (Nat.zero_le _) _ y (by simp) ?_
    intro k z _ _ hz
    by_cases hq : q = ptr M (k * ys)
    · rw [if_pos ⟨k, by omega, hq⟩, hq]; simp
    · rw [Function.update_of_ne hq, hz]
      congr 1
      apply propext
      constructor
      · rintro ⟨i, hi, h⟩; exact ⟨i, by omega, h⟩
      · rintro ⟨i, hi, h⟩
        rcases Nat.lt_succ_iff_lt_or_eq.1 hi with h' | rfl
        · exact ⟨i, h', h⟩
        · exact absurd h hq

theorem csr_row_sum (A : Compressed R) (nCol i : Nat) (x : Nat → R)
    (hidx : ∀ jj, A.Ap i ≤ jj → jj < A.Ap (i + 1) → A.Aj jj < nCol) :
    ∑ j ∈ Finset.range nCol, csrEntry A i j * x j = ∑ jj ∈ Finset.Ico (A.Ap i) (A.Ap (i + 1)), A.Ax jj * x (A.Aj jj) := by
  unfold csrEntry
  simp only [Finset.sum_mul]
  rw [Finset.sum_comm]
  apply Finset.sum_congr rfl
  intro jj hjj
  rw [Finset.mem_Ico] at hjj
  rw [Finset.sum_eq_single (A.Aj jj)]
  · simp
  · intro j _ hj; rw [if_neg (fun h => hj h.symm), zero_mul]
  · intro h; exact absurd (Finset.mem_range.2 (hidx jj hjj.1 hjj.2)) h

theorem valid_mono {A : Compressed R} {n m : Nat} (h : A.Valid n m) : ∀ i j, i ≤ j → j ≤ n → A.Ap i ≤ A.Ap j := by
  intro i j hij hj
  induction j with
  | zero => have : i = 0 := by omega
            subst this; exact le_refl _
  | succ j ih =>
    rcases Nat.lt_or_ge j i with h' | h'
    · have : i = j + 1 := by omega
      subst this; exact le_refl _
    · exact le_trans (ih h' (by omega)) (h.mono j (by omega))

theorem valid_idx {A : Compressed R} {n m : Nat} (h : A.Valid n m) (i : Nat) (hi : i < n) (jj : Nat)
    (_ : A.Ap i ≤ jj) (h2 : jj < A.Ap (i + 1)) : A.Aj jj < m :=
  h.index jj (lt_of_lt_of_le h2 (valid_mono h (i + 1) n (by omega) (le_refl _)))

theorem csrNoomp_computes (ow : Bool) (nRow nCol : Nat) (A : Compressed R) (hA : A.Valid nRow nCol) (a : R) (xs : Int)
    (x : Mem M R) (ys : Int) (hd : CellsDistinct M nRow ys) (y : Mem M R) :
    Computes nRow nCol (csrEntry A) ow a (fun j => x (ptr M (j * xs))) (fun i => ptr M (i * ys)) y
      (csrNoomp ow nRow A a xs x ys y) := by
  have key : ∀ ow', csrNoomp ow' nRow A a xs x ys y = forLoop 0 nRow (fun k (z : Mem M R) =>
      Function.update z (ptr M (k * ys)) ((if ow' = true then 0 else z (ptr M (k * ys))) +
        a * ∑ jj ∈ Finset.Ico (A.Ap k) (A.Ap (k + 1)), A.Ax jj * x (ptr M (A.Aj jj * xs)))) y := by
    intro ow'
    unfold csrNoomp
    cases ow'
    · simp only [Bool.false_eq_true, if_false, forLoop_sum, addTo]
    · simp only [if_true, forLoop_sum, zero_add]
  have inv := forLoop_inv (fun b (z : Mem M R) => (∀ i < b, z (ptr M (i * ys)) = (if ow = true then 0 else y (ptr M (i * ys))) +
        a * ∑ jj ∈ Finset.Ico (A.Ap i) (A.Ap (i + 1)), A.Ax jj * x (ptr M (A.Aj jj * xs))) ∧
        ∀ p, (∀ i < b, p ≠ ptr M (i * ys)) → z p = y p) 0 nRow (Nat.zero_le _) (fun k (z : Mem M R) =>
      Function.update z (ptr M (k * ys)) ((if ow = true then 0 else z (ptr M (k * ys))) +
        a * ∑ jj ∈ Finset.Ico (A.Ap k) (A.Ap (k + 1)), A.Ax jj * x (ptr M (A.Aj jj * xs)))) y
    ⟨by simp, by simp⟩ (by
      rintro k z _ hk ⟨h1, h2⟩
      constructor
      · intro i hi
        rcases Nat.lt_succ_iff_lt_or_eq.1 hi with h' | rfl
        · rw [Function.update_of_ne, h1 i h']
          intro hc
          have := hd i (by omega) k hk hc
          omega
        · rw [Function.update_self, h2]
          intro j hj hc
          have := hd i hk j (by omega) hc
          omega
      · intro p hp
        rw [Function.update_of_ne (hp k (by omega)), h2 p (fun i hi => hp i (by omega))])
  rw [← key ow] at inv
  refine ⟨fun i hi => ?_, inv.2⟩
  rw [inv.1 i hi, csr_row_sum A nCol i (fun j => x (ptr M (j * xs))) (valid_idx hA i hi)]

/-- from "zero then add" to the specification -/
theorem computes_of_adds (ow : Bool) (nRow nCol : Nat) (E : Nat → Nat → R) (a : R) (x : Nat → R) (ys : Int)
    (y y' : Mem M R) (F : ZMod M → R)
    (h : ∀ q, y' q = zeroLoop ow nRow ys y q + F q)
    (hF : ∀ i < nRow, F (ptr M (i * ys)) = a * ∑ j ∈ Finset.range nCol, E i j * x j)
    (hF0 : ∀ p, (∀ i < nRow, p ≠ ptr M (i * ys)) → F p = 0) :
    Computes nRow nCol E ow a x (fun i => ptr M (i * ys)) y y' := by
  constructor
  · intro i hi
    rw [h, zero_apply, hF i hi]
    cases ow
    · simp
    · rw [if_pos ⟨rfl, i, hi, rfl⟩]; simp
  · intro p hp
    rw [h, zero_apply, hF0 p hp, add_zero, if_neg]
    rintro ⟨_, i, hi, rfl⟩
    exact hp i hi rfl

/-- what a CSC product adds to a cell -/
def cscAdd (nCol : Nat) (A : Compressed R) (a : R) (x : Nat → R) (cell : Nat → ZMod M) (q : ZMod M) : R :=
  ∑ j ∈ Finset.range nCol, ∑ ii ∈ Finset.Ico (A.Ap j) (A.Ap (j + 1)), if cell (A.Aj ii) = q then a * A.Ax ii * x j else 0

theorem cscAdd_cell (nRow nCol : Nat) (A : Compressed R) (hA : A.Valid nCol nRow) (a : R) (x : Nat → R) (cell : Nat → ZMod M)
    (hd : ∀ i < nRow, ∀ j < nRow, cell i = cell j → i = j) (i : Nat) (hi : i < nRow) :
    cscAdd nCol A a x cell (cell i) = a * ∑ j ∈ Finset.range nCol, cscEntry A i j * x j := by
  unfold cscAdd cscEntry csrEntry
  rw [Finset.mul_sum]
  apply Finset.sum_congr rfl
  intro j hj
  rw [Finset.mem_range] at hj
  rw [Finset.sum_mul, Finset.mul_sum]
  apply Finset.sum_congr rfl
  intro ii hii
  rw [Finset.mem_Ico] at hii
  have := valid_idx hA j hj ii hii.1 hii.2
  by_cases h : A.Aj ii = i
  · rw [if_pos (by rw [h]), if_pos h]; ring
  · rw [if_neg (fun hc => h (hd _ this _ hi hc)), if_neg h]; ring

theorem cscAdd_rest (nRow nCol : Nat) (A : Compressed R) (hA : A.Valid nCol nRow) (a : R) (x : Nat → R) (cell : Nat → ZMod M)
    (q : ZMod M) (hq : ∀ i < nRow, q ≠ cell i) : cscAdd nCol A a x cell q = 0 := by
  unfold cscAdd
  apply Finset.sum_eq_zero
  intro j hj
  apply Finset.sum_eq_zero
  intro ii hii
  rw [Finset.mem_range] at hj
  rw [Finset.mem_Ico] at hii
  rw [if_neg]
  intro hc
  exact hq _ (valid_idx hA j hj ii hii.1 hii.2) hc.symm

theorem cscNoomp_computes (ow : Bool) (nRow nCol : Nat) (A : Compressed R) (hA : A.Valid nCol nRow) (a : R) (xs : Int)
    (x : Mem M R) (ys : Int) (hd : CellsDistinct M nRow ys) (y : Mem M R) :
    Computes nRow nCol (cscEntry A) ow a (fun j => x (ptr M (j * xs))) (fun i => ptr M (i * ys)) y
      (cscNoomp ow nRow nCol A a xs x ys y) := by
  refine computes_of_adds ow nRow nCol _ a _ ys y _
    (cscAdd nCol A a (fun j => x (ptr M (j * xs))) (fun i => ptr M (i * ys))) ?_
    (cscAdd_cell nRow nCol A hA a _ (fun i => ptr M (i * ys)) hd) (cscAdd_rest nRow nCol A hA a _ (fun i => ptr M (i * ys)))
  intro q
  unfold cscNoomp cscAdd
  rw [Finset.range_eq_Ico]
  refine forLoop_adds 0 nCol _ (fun j q => ∑ ii ∈ Finset.Ico (A.Ap j) (A.Ap (j + 1)),
    if ptr M (A.Aj ii * ys) = q then a * A.Ax ii * x (ptr M (j * xs)) else 0) ?_ _ q
  intro j _ _ z q
  exact forLoop_adds _ _ _ (fun ii q => if ptr M (A.Aj ii * ys) = q then a * A.Ax ii * x (ptr M (j * xs)) else 0)
    (fun ii _ _ z q => addTo_apply _ _ _ _) z q

/-- what a DIA product adds to a cell -/
def diaAdd (nRow nCol nDiags L : Nat) (offsets : Nat → Int) (data : Nat → R) (a : R) (x : Nat → R) (cell : Nat → ZMod M)
    (q : ZMod M) : R :=
  ∑ d ∈ Finset.range nDiags, ∑ n ∈ Finset.range (diagLen nRow nCol L (offsets d)),
    if cell ((iStart (offsets d)).toNat + n) = q then
      a * data (d * L + (jStart (offsets d)).toNat + n) * x ((jStart (offsets d)).toNat + n) else 0

theorem dia_row_lt {nRow nCol L : Nat} {k : Int} {n : Nat} (hn : n < diagLen nRow nCol L k) :
    (iStart k).toNat + n < nRow ∧ (jStart k).toNat + n < nCol ∧ (jStart k).toNat + n < L ∧
      (((jStart k).toNat + n : Nat) : Int) = ((iStart k).toNat + n : Nat) + k := by
  unfold diagLen at hn
  unfold iStart jStart at *
  omega

theorem diaAdd_cell (nRow nCol nDiags L : Nat) (offsets : Nat → Int) (data : Nat → R) (a : R) (x : Nat → R)
    (cell : Nat → ZMod M) (hd : ∀ i < nRow, ∀ j < nRow, cell i = cell j → i = j) (i : Nat) (hi : i < nRow) :
    diaAdd nRow nCol nDiags L offsets data a x cell (cell i) =
      a * ∑ j ∈ Finset.range nCol, diaEntry nDiags L offsets data i j * x j := by
  unfold diaAdd diaEntry
  simp only [Finset.sum_mul]
  rw [Finset.sum_comm, Finset.mul_sum]
  apply Finset.sum_congr rfl
  intro d _
  -- both sides have at most one term
  by_cases hex : ∃ n < diagLen nRow nCol L (offsets d), (iStart (offsets d)).toNat + n = i
  · obtain ⟨n, hn, hni⟩ := hex
    obtain ⟨h1, h2, h3, h4⟩ := dia_row_lt hn
    rw [Finset.sum_eq_single n, Finset.sum_eq_single ((jStart (offsets d)).toNat + n)]
    · rw [if_pos (by rw [hni]), if_pos ⟨by rw [h4, hni], h3⟩, ← add_assoc]; ring
    · intro j _ hj
      rw [if_neg, zero_mul]
      rintro ⟨hj1, _⟩
      apply hj
      have : (((jStart (offsets d)).toNat + n : Nat) : Int) = (j : Int) := by rw [h4, hni, hj1]
      exact_mod_cast this.symm
    · intro h; exact absurd (Finset.mem_range.2 h2) h
    · intro m hm hmn
      rw [if_neg]
      intro hc
      have := hd _ (dia_row_lt (Finset.mem_range.1 hm)).1 _ hi hc
      omega
    · intro h; exact absurd (Finset.mem_range.2 hn) h
  · push Not at hex
    rw [Finset.sum_eq_zero, Finset.sum_eq_zero, mul_zero]
    · intro j hj
      rw [Finset.mem_range] at hj
      rw [if_neg, zero_mul]
      rintro ⟨h1, h2⟩
      refine hex (i - (iStart (offsets d)).toNat) ?_ ?_
      · unfold diagLen iStart jStart; omega
      · unfold iStart; omega
    · intro n hn
      rw [Finset.mem_range] at hn
      rw [if_neg]
      intro hc
      exact hex n hn (hd _ (dia_row_lt hn).1 _ hi hc)

theorem diaAdd_rest (nRow nCol nDiags L : Nat) (offsets : Nat → Int) (data : Nat → R) (a : R) (x : Nat → R)
    (cell : Nat → ZMod M) (q : ZMod M) (hq : ∀ i < nRow, q ≠ cell i) :
    diaAdd nRow nCol nDiags L offsets data a x cell q = 0 := by
  unfold diaAdd
  apply Finset.sum_eq_zero
  intro d _
  apply Finset.sum_eq_zero
  intro n hn
  rw [if_neg]
  intro hc
  exact hq _ (dia_row_lt (Finset.mem_range.1 hn)).1 hc.symm

theorem start_cast (k : Int) : (((iStart k).toNat : Nat) : Int) = iStart k ∧ (((jStart k).toNat : Nat) : Int) = jStart k := by
  unfold iStart jStart; omega

theorem diaNoomp_computes (ow : Bool) (nRow nCol nDiags L : Nat) (offsets : Nat → Int) (data : Nat → R) (a : R) (xs : Int)
    (x : Mem M R) (ys : Int) (hd : CellsDistinct M nRow ys) (y : Mem M R) :
    Computes nRow nCol (diaEntry nDiags L offsets data) ow a (fun j => x (ptr M (j * xs))) (fun i => ptr M (i * ys)) y
      (diaNoomp ow nRow nCol nDiags L offsets data a xs x ys y) := by
  refine computes_of_adds ow nRow nCol _ a _ ys y _
    (diaAdd nRow nCol nDiags L offsets data a (fun j => x (ptr M (j * xs))) (fun i => ptr M (i * ys))) ?_
    (diaAdd_cell nRow nCol nDiags L offsets data a _ (fun i => ptr M (i * ys)) hd)
    (diaAdd_rest nRow nCol nDiags L offsets data a _ (fun i => ptr M (i * ys)))
  intro q
  unfold diaNoomp diaAdd
  simp only [Finset.range_eq_Ico]
  refine forLoop_adds 0 nDiags _ (fun d q => ∑ n ∈ Finset.Ico 0 (diagLen nRow nCol L (offsets d)),
    if ptr M ((((iStart (offsets d)).toNat + n : Nat) : Int) * ys) = q then
      a * data (d * L + (jStart (offsets d)).toNat + n) * x (ptr M ((((jStart (offsets d)).toNat + n : Nat) : Int) * xs)) else 0) ?_ _ q
  intro d _ _ z q
  refine forLoop_adds _ _ _ (fun n q => if ptr M ((((iStart (offsets d)).toNat + n : Nat) : Int) * ys) = q then
      a * data (d * L + (jStart (offsets d)).toNat + n) * x (ptr M ((((jStart (offsets d)).toNat + n : Nat) : Int) * xs)) else 0) ?_ z q
  intro n _ _ z q
  rw [addTo_apply]
  obtain ⟨c1, c2⟩ := start_cast (offsets d)
  simp only [Nat.cast_add, c1, c2, add_mul]

end Proof.Matvec
