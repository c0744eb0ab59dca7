import Verif.Proof.Matvec
/-! Products with several vectors. -/
namespace Proof.Matvec
open Spec Model.Matvec

variable {R : Type} [CommRing R] {M : Nat}

theorem forLoop_ptr {σ : Type} (n : Nat) (g : Nat → Int → σ → σ) (s p0 : Int) (y : σ) :
    forLoop 0 n (fun k (st : σ × Int) => (g k st.2 st.1, st.2 + s)) (y, p0) =
      (forLoop 0 n (fun k y => g k (p0 + k * s) y) y, p0 + n * s) := by
  induction n with
  | zero => rw [forLoop_empty 0 0 (le_refl _), forLoop_empty 0 0 (le_refl _)]; simp
  | succ n ih =>
    rw [forLoop_succ 0 n (Nat.zero_le _), forLoop_succ 0 n (Nat.zero_le _), ih]
    simp only [Nat.cast_add, Nat.cast_one]
    congr 1
    ring

theorem forLoop_ptr2 {σ : Type} (n : Nat) (g : Nat → Int → Int → σ → σ) (s t p0 q0 : Int) (y : σ) :
    forLoop 0 n (fun k (st : σ × Int × Int) => (g k st.2.1 st.2.2 st.1, st.2.1 + s, st.2.2 + t)) (y, p0, q0) =
      (forLoop 0 n (fun k y => g k (p0 + k * s) (q0 + k * t) y) y, p0 + n * s, q0 + n * t) := by
  induction n with
  | zero => rw [forLoop_empty 0 0 (le_refl _), forLoop_empty 0 0 (le_refl _)]; simp
  | succ n ih =>
    rw [forLoop_succ 0 n (Nat.zero_le _), forLoop_succ 0 n (Nat.zero_le _), ih]
    simp only [Nat.cast_add, Nat.cast_one]
    congr 1
    refine Prod.ext ?_ ?_ <;> simp only [] <;> ring

/-- loops over `0 ≤ k < n` whose bodies add -/
theorem loop_adds {P : Type} (n : Nat) (body : Nat → (P → R) → (P → R)) (F : Nat → P → R)
    (h : ∀ k < n, ∀ y q, body k y q = y q + F k q) (y : P → R) (q : P) :
    forLoop 0 n body y q = y q + ∑ k ∈ Finset.range n, F k q := by
  rw [Finset.range_eq_Ico]
  exact forLoop_adds 0 n body F (fun k _ hk => h k hk) y q

/-- the same at one address -/
theorem adds_at {P : Type} (a b : Nat) (body : Nat → (P → R) → (P → R)) (q : P) (f : Nat → R)
    (h : ∀ k, a ≤ k → k < b → ∀ y, body k y q = y q + f k) (y : P → R) :
    forLoop a b body y q = y q + ∑ k ∈ Finset.Ico a b, f k := by
  by_cases hab : a ≤ b
  · exact forLoop_inv (fun b z => z q = y q + ∑ k ∈ Finset.Ico a b, f k) a b hab body y (by simp) (by
      intro k z h1 h2 hz
      rw [h k h1 h2, hz, Finset.sum_Ico_succ_top h1, add_assoc])
  · rw [forLoop_empty a b (by omega), Finset.Ico_eq_empty (by omega), Finset.sum_empty, add_zero]

theorem adds_range {P : Type} (n : Nat) (body : Nat → (P → R) → (P → R)) (q : P) (f : Nat → R)
    (h : ∀ k < n, ∀ y, body k y q = y q + f k) (y : P → R) :
    forLoop 0 n body y q = y q + ∑ k ∈ Finset.range n, f k := by
  rw [Finset.range_eq_Ico]
  exact adds_at 0 n body q f (fun k _ hk => h k hk) y

theorem axpy_apply (n : Nat) (a : R) (xs : Int) (x : Mem M R) (xp ys yp : Int) (y : Mem M R) (q : ZMod M) :
    axpyStrided n a xs x xp ys yp y q =
      y q + ∑ v ∈ Finset.range n, if ptr M (yp + v * ys) = q then a * x (ptr M (xp + v * xs)) else 0 := by
  unfold axpyStrided
  rw [forLoop_ptr2 n (fun _ p r (z : Mem M R) => addTo z (ptr M r) (a * x (ptr M p)))]
  refine adds_range n _ q _ ?_ y
  intro k _ z
  exact addTo_apply z _ q _

/-- addresses of output elements -/
abbrev cellOf (M : Nat) (ysr ysc : Int) (i v : Nat) : ZMod M := ptr M (i * ysr + v * ysc)

theorem zeroLoops_apply (ow : Bool) (nRow nVec : Nat) (ysr ysc : Int) (y : Mem M R) (q : ZMod M) :
    zeroLoops ow nRow nVec ysr ysc y q =
      if ow = true ∧ ∃ i < nRow, ∃ v < nVec, q = cellOf M ysr ysc i v then 0 else y q := by
  unfold zeroLoops
  cases ow
  · simp
  · simp only [if_true, true_and]
    have hin : ∀ (i : Nat) (z : Mem M R), forLoop 0 nVec (fun j z => Function.update z (ptr M (i * ysr + j * ysc)) 0) z q =
        if ∃ v < nVec, q = cellOf M ysr ysc i v then 0 else z q := by
      intro i z
      refine forLoop_inv (fun b (w : Mem M R) => w q = if ∃ v < b, q = cellOf M ysr ysc i v then 0 else z q) 0 nVec
        (Nat.zero_le _) _ z (by simp) ?_
      intro k w _ _ hw
      by_cases h : q = ptr M (i * ysr + k * ysc)
      · rw [h, Function.update_self, if_pos ⟨k, by omega, rfl⟩]
      · rw [Function.update_of_ne h, hw]
        congr 1
        apply propext
        constructor
        · rintro ⟨v, hv, hq⟩; exact ⟨v, by omega, hq⟩
        · rintro ⟨v, hv, hq⟩
          refine ⟨v, ?_, hq⟩
          rcases Nat.lt_succ_iff_lt_or_eq.1 hv with h1 | h1
          · exact h1
          · subst h1; exact absurd hq h
    refine forLoop_inv (fun b (w : Mem M R) => w q = if ∃ i < b, ∃ v < nVec, q = cellOf M ysr ysc i v then 0 else y q) 0 nRow
      (Nat.zero_le _) _ y (by simp) ?_
    intro k w _ _ hw
    rw [hin k w]
    by_cases h : ∃ v < nVec, q = cellOf M ysr ysc k v
    · rw [if_pos h, if_pos ⟨k, by omega, h⟩]
    · rw [if_neg h, hw]
      congr 1
      apply propext
      constructor
      · rintro ⟨i, hi, hq⟩; exact ⟨i, by omega, hq⟩
      · rintro ⟨i, hi, hq⟩
        refine ⟨i, ?_, hq⟩
        rcases Nat.lt_succ_iff_lt_or_eq.1 hi with h1 | h1
        · exact h1
        · subst h1; exact absurd hq h

/-- different elements of the output are in different cells -/
def CellsDistinct2 (M nRow nVec : Nat) (ysr ysc : Int) : Prop :=
  ∀ i < nRow, ∀ v < nVec, ∀ i' < nRow, ∀ v' < nVec, cellOf M ysr ysc i v = cellOf M ysr ysc i' v' → i = i' ∧ v = v'

theorem computesAll_of_adds (ow : Bool) (nRow nCol nVec : Nat) (E : Nat → Nat → R) (a : R) (x : Nat → Nat → R)
    (ysr ysc : Int) (hd : CellsDistinct2 M nRow nVec ysr ysc) (y y' : Mem M R) (F : Nat → ZMod M → R)
    (h : ∀ q, y' q = zeroLoops ow nRow nVec ysr ysc y q + ∑ v ∈ Finset.range nVec, F v q)
    (hF : ∀ v < nVec, ∀ i < nRow, F v (cellOf M ysr ysc i v) = a * ∑ j ∈ Finset.range nCol, E i j * x j v)
    (hF0 : ∀ v < nVec, ∀ p, (∀ i < nRow, p ≠ cellOf M ysr ysc i v) → F v p = 0) :
    ComputesAll nRow nCol nVec E ow a x (cellOf M ysr ysc) y y' := by
  constructor
  · intro i hi v hv
    rw [h, zeroLoops_apply, Finset.sum_eq_single v]
    · rw [hF v hv i hi]
      congr 1
      cases ow
      · simp
      · simp only [if_true, true_and]
        rw [if_pos ⟨i, hi, v, hv, rfl⟩]
    · intro w hw hne
      rw [Finset.mem_range] at hw
      apply hF0 w hw
      intro i' hi' hc
      exact hne (hd i hi v hv i' hi' w hw hc).2.symm
    · intro hc; exact absurd (Finset.mem_range.2 hv) hc
  · intro p hp
    rw [h, zeroLoops_apply, if_neg, Finset.sum_eq_zero, add_zero]
    · intro v hv
      rw [Finset.mem_range] at hv
      exact hF0 v hv p fun i hi => hp i hi v hv
    · rintro ⟨_, i, hi, v, hv, hc⟩; exact hp i hi v hv hc

theorem col_distinct {nRow nVec : Nat} {ysr ysc : Int} (hd : CellsDistinct2 M nRow nVec ysr ysc) (v : Nat) (hv : v < nVec) :
    ∀ i < nRow, ∀ j < nRow, cellOf M ysr ysc i v = cellOf M ysr ysc j v → i = j :=
  fun i hi j hj h => (hd i hi v hv j hj v hv h).1

/-- input elements -/
abbrev inputOf (x : Mem M R) (xsr xsc : Int) (j v : Nat) : R := x (ptr M (j * xsr + v * xsc))

theorem cscMatvecs_computes (ow : Bool) (nRow nCol nVec : Nat) (A : Compressed R) (hA : A.Valid nCol nRow) (a : R)
    (xsr xsc : Int) (x : Mem M R) (ysr ysc : Int) (hd : CellsDistinct2 M nRow nVec ysr ysc) (y : Mem M R) :
    ComputesAll nRow nCol nVec (cscEntry A) ow a (inputOf x xsr xsc) (cellOf M ysr ysc) y
      (cscMatvecs ow nRow nCol nVec A a xsr xsc x ysr ysc y) := by
  refine computesAll_of_adds ow nRow nCol nVec _ a _ ysr ysc hd y _
    (fun v q => cscAdd nCol A a (fun j => inputOf x xsr xsc j v) (fun i => cellOf M ysr ysc i v) q) ?_ ?_ ?_
  · intro q
    unfold cscMatvecs cscAdd
    by_cases hb : ysc < ysr
    · rw [if_pos hb, forLoop_ptr nCol (fun j p (z : Mem M R) => forLoop (A.Ap j) (A.Ap (j + 1)) (fun ii z =>
        axpyStrided nVec (a * A.Ax ii) xsc x p ysc (ysr * A.Aj ii) z) z) xsr 0]
      simp only []
      rw [loop_adds nCol _ (fun j q => ∑ ii ∈ Finset.Ico (A.Ap j) (A.Ap (j + 1)), ∑ v ∈ Finset.range nVec,
        if ptr M (ysr * A.Aj ii + v * ysc) = q then a * A.Ax ii * x (ptr M (0 + j * xsr + v * xsc)) else 0)
        (by
          intro j _ z q
          refine adds_at _ _ _ q _ ?_ z
          intro ii _ _ z
          exact axpy_apply _ _ _ _ _ _ _ z q)]
      congr 1
      rw [Finset.sum_comm]
      apply Finset.sum_congr rfl
      intro j _
      rw [Finset.sum_comm]
      apply Finset.sum_congr rfl
      intro ii _
      apply Finset.sum_congr rfl
      intro v _
      rw [zero_add, mul_comm ysr]
    · rw [if_neg hb]
      have hbody : (fun (_ : Nat) (st : Mem M R × Int × Int) =>
          ((forLoop 0 nCol (fun j (st' : Mem M R × Int) =>
            (forLoop (A.Ap j) (A.Ap (j + 1)) (fun ii y =>
              addTo y (ptr M (st.2.2 + ysr * A.Aj ii)) (a * A.Ax ii * x (ptr M st'.2))) st'.1, st'.2 + xsr))
            (st.1, st.2.1)).1, st.2.1 + xsc, st.2.2 + ysc)) =
          (fun _ st => (forLoop 0 nCol (fun j z => forLoop (A.Ap j) (A.Ap (j + 1)) (fun ii y =>
              addTo y (ptr M (st.2.2 + ysr * A.Aj ii)) (a * A.Ax ii * x (ptr M (st.2.1 + j * xsr)))) z) st.1,
              st.2.1 + xsc, st.2.2 + ysc)) := by
        funext k st
        rw [forLoop_ptr nCol (fun j p (z : Mem M R) => forLoop (A.Ap j) (A.Ap (j + 1)) (fun ii y =>
              addTo y (ptr M (st.2.2 + ysr * A.Aj ii)) (a * A.Ax ii * x (ptr M p))) z) xsr st.2.1 st.1]
      simp only [] at hbody ⊢
      rw [hbody, forLoop_ptr2 nVec (fun _ p r (z : Mem M R) => forLoop 0 nCol (fun j z => forLoop (A.Ap j) (A.Ap (j + 1))
        (fun ii y => addTo y (ptr M (r + ysr * A.Aj ii)) (a * A.Ax ii * x (ptr M (p + j * xsr)))) z) z)]
      simp only []
      rw [loop_adds nVec _ (fun v q => ∑ j ∈ Finset.range nCol, ∑ ii ∈ Finset.Ico (A.Ap j) (A.Ap (j + 1)),
        if ptr M (0 + v * ysc + ysr * A.Aj ii) = q then a * A.Ax ii * x (ptr M (0 + v * xsc + j * xsr)) else 0)
        (by
          intro v _ z q
          refine adds_range nCol _ q _ ?_ z
          intro j _ z
          refine adds_at _ _ _ q _ ?_ z
          intro ii _ _ z
          exact addTo_apply z _ q _)]
      congr 1
      apply Finset.sum_congr rfl
      intro v _
      apply Finset.sum_congr rfl
      intro j _
      apply Finset.sum_congr rfl
      intro ii _
      rw [zero_add, zero_add, mul_comm ysr, add_comm (v * ysc : Int), add_comm (v * xsc : Int)]
  · intro v hv i hi
    exact cscAdd_cell nRow nCol A hA a _ _ (col_distinct hd v hv) i hi
  · intro v hv p hp
    exact cscAdd_rest nRow nCol A hA a _ _ p hp

theorem diaMatvecs_computes (ow : Bool) (nRow nCol nVec nDiags L : Nat) (offsets : Nat → Int) (data : Nat → R) (a : R)
    (xsr xsc : Int) (x : Mem M R) (ysr ysc : Int) (hd : CellsDistinct2 M nRow nVec ysr ysc) (y : Mem M R) :
    ComputesAll nRow nCol nVec (diaEntry nDiags L offsets data) ow a (inputOf x xsr xsc) (cellOf M ysr ysc) y
      (diaMatvecs ow nRow nCol nVec nDiags L offsets data a xsr xsc x ysr ysc y) := by
  have e1 : ∀ (d n v : Nat) (s t : Int), (iStart (offsets d) * s + n * s + v * t : Int) =
      (((iStart (offsets d)).toNat + n : Nat) : Int) * s + v * t := by
    intro d n v s t
    rw [Nat.cast_add, (start_cast (offsets d)).1]; ring
  have e2 : ∀ (d n v : Nat) (s t : Int), (jStart (offsets d) * s + n * s + v * t : Int) =
      (((jStart (offsets d)).toNat + n : Nat) : Int) * s + v * t := by
    intro d n v s t
    rw [Nat.cast_add, (start_cast (offsets d)).2]; ring
  refine computesAll_of_adds ow nRow nCol nVec _ a _ ysr ysc hd y _
    (fun v q => diaAdd nRow nCol nDiags L offsets data a (fun j => inputOf x xsr xsc j v) (fun i => cellOf M ysr ysc i v) q) ?_ ?_ ?_
  · intro q
    unfold diaMatvecs diaAdd
    by_cases hb : ysc < ysr
    · rw [if_pos hb]
      rw [loop_adds nDiags _ (fun d q => ∑ n ∈ Finset.range (diagLen nRow nCol L (offsets d)), ∑ v ∈ Finset.range nVec,
        if ptr M (iStart (offsets d) * ysr + n * ysr + v * ysc) = q then
          a * data (d * L + (jStart (offsets d)).toNat + n) * x (ptr M (jStart (offsets d) * xsr + n * xsr + v * xsc)) else 0)]
      · congr 1
        rw [Finset.sum_comm]
        apply Finset.sum_congr rfl
        intro d _
        rw [Finset.sum_comm]
        apply Finset.sum_congr rfl
        intro n _
        apply Finset.sum_congr rfl
        intro v _
        rw [e1, e2]
      · intro d _ z q
        rw [forLoop_ptr2 _ (fun n p r (z : Mem M R) =>
          axpyStrided nVec (a * data (d * L + (jStart (offsets d)).toNat + n)) xsc x p ysc r z)]
        refine adds_range _ _ q _ ?_ z
        intro n _ z
        exact axpy_apply _ _ _ _ _ _ _ z q
    · rw [if_neg hb]
      rw [loop_adds nDiags _ (fun d q => ∑ v ∈ Finset.range nVec, ∑ n ∈ Finset.range (diagLen nRow nCol L (offsets d)),
        if ptr M (iStart (offsets d) * ysr + v * ysc + n * ysr) = q then
          a * data (d * L + (jStart (offsets d)).toNat + n) * x (ptr M (jStart (offsets d) * xsr + v * xsc + n * xsr)) else 0)]
      · congr 1
        rw [Finset.sum_comm]
        apply Finset.sum_congr rfl
        intro v _
        apply Finset.sum_congr rfl
        intro d _
        apply Finset.sum_congr rfl
        intro n _
        rw [add_right_comm (iStart _ * _), e1, add_right_comm (jStart _ * _), e2]
      · intro d _ z q
        have hbody : (fun (_ : Nat) (st : Mem M R × Int × Int) =>
            ((forLoop 0 (diagLen nRow nCol L (offsets d)) (fun n (st' : Mem M R × Int × Int) =>
              (addTo st'.1 (ptr M st'.2.2) (a * data (d * L + (jStart (offsets d)).toNat + n) * x (ptr M st'.2.1)),
                st'.2.1 + xsr, st'.2.2 + ysr)) (st.1, st.2.1, st.2.2)).1, st.2.1 + xsc, st.2.2 + ysc)) =
            (fun _ st => (forLoop 0 (diagLen nRow nCol L (offsets d)) (fun n z =>
              addTo z (ptr M (st.2.2 + n * ysr)) (a * data (d * L + (jStart (offsets d)).toNat + n) * x (ptr M (st.2.1 + n * xsr))))
              st.1, st.2.1 + xsc, st.2.2 + ysc)) := by
          funext k st
          rw [forLoop_ptr2 _ (fun n p r (z : Mem M R) =>
            addTo z (ptr M r) (a * data (d * L + (jStart (offsets d)).toNat + n) * x (ptr M p)))]
        rw [hbody, forLoop_ptr2 nVec (fun _ p r (z : Mem M R) => forLoop 0 (diagLen nRow nCol L (offsets d)) (fun n z =>
              addTo z (ptr M (r + n * ysr)) (a * data (d * L + (jStart (offsets d)).toNat + n) * x (ptr M (p + n * xsr)))) z)]
        refine adds_range _ _ q _ ?_ z
        intro v _ z
        refine adds_range _ _ q _ ?_ z
        intro n _ z
        exact addTo_apply z _ q _
  · intro v hv i hi
    exact diaAdd_cell nRow nCol nDiags L offsets data a _ _ (col_distinct hd v hv) i hi
  · intro v hv p hp
    exact diaAdd_rest nRow nCol nDiags L offsets data a _ _ p hp

/-- what the CSR loops add for one vector -/
def csrAdd (nRow : Nat) (A : Compressed R) (a : R) (x : Nat → R) (cell : Nat → ZMod M) (q : ZMod M) : R :=
  ∑ k ∈ Finset.range nRow, ∑ jj ∈ Finset.Ico (A.Ap k) (A.Ap (k + 1)), if cell k = q then a * A.Ax jj * x (A.Aj jj) else 0

theorem csrAdd_cell (nRow nCol : Nat) (A : Compressed R) (hA : A.Valid nRow nCol) (a : R) (x : Nat → R) (cell : Nat → ZMod M)
    (hd : ∀ i < nRow, ∀ j < nRow, cell i = cell j → i = j) (i : Nat) (hi : i < nRow) :
    csrAdd nRow A a x cell (cell i) = a * ∑ j ∈ Finset.range nCol, csrEntry A i j * x j := by
  unfold csrAdd
  rw [csr_row_sum A nCol i x (valid_idx hA i hi), Finset.sum_eq_single i, Finset.mul_sum]
  · apply Finset.sum_congr rfl
    intro jj _
    rw [if_pos rfl, mul_assoc]
  · intro k hk hne
    apply Finset.sum_eq_zero
    intro jj _
    rw [if_neg (fun hc => hne (hd k (Finset.mem_range.1 hk) i hi hc))]
  · intro hc; exact absurd (Finset.mem_range.2 hi) hc

theorem csrAdd_rest (nRow : Nat) (A : Compressed R) (a : R) (x : Nat → R) (cell : Nat → ZMod M)
    (q : ZMod M) (hq : ∀ i < nRow, q ≠ cell i) : csrAdd nRow A a x cell q = 0 := by
  unfold csrAdd
  refine Finset.sum_eq_zero fun k hk => Finset.sum_eq_zero fun jj _ => ?_
  rw [if_neg (fun hc => hq k (Finset.mem_range.1 hk) hc.symm)]

/-- What `csr_matvecs` adds in its second branch: vector `v` goes to the cells from `v * nRow * ysr` on. -/
theorem csrMatvecs_second (ow : Bool) (nRow nVec : Nat) (A : Compressed R) (a : R) (xsr xsc : Int) (x : Mem M R)
    (ysr ysc : Int) (hb : ¬ ysc < ysr) (y : Mem M R) (q : ZMod M) :
    csrMatvecs ow nRow nVec A a xsr xsc x ysr ysc y q = zeroLoops ow nRow nVec ysr ysc y q +
      ∑ v ∈ Finset.range nVec, csrAdd nRow A a (fun j => inputOf x xsr xsc j v) (fun i => ptr M (i * ysr + v * (nRow * ysr))) q := by
  unfold csrMatvecs csrAdd
  rw [if_neg hb]
  have hbody : (fun (_ : Nat) (st : Mem M R × Int × Int) =>
      ((forLoop 0 nRow (fun k (st' : Mem M R × Int) =>
        (forLoop (A.Ap k) (A.Ap (k + 1)) (fun jj y =>
          addTo y (ptr M st'.2) (a * A.Ax jj * x (ptr M (st.2.1 + xsr * A.Aj jj)))) st'.1, st'.2 + ysr)) (st.1, st.2.2)).1,
        st.2.1 + xsc,
       (forLoop 0 nRow (fun k (st' : Mem M R × Int) =>
        (forLoop (A.Ap k) (A.Ap (k + 1)) (fun jj y =>
          addTo y (ptr M st'.2) (a * A.Ax jj * x (ptr M (st.2.1 + xsr * A.Aj jj)))) st'.1, st'.2 + ysr)) (st.1, st.2.2)).2)) =
      (fun _ st => (forLoop 0 nRow (fun k z => forLoop (A.Ap k) (A.Ap (k + 1)) (fun jj y =>
          addTo y (ptr M (st.2.2 + k * ysr)) (a * A.Ax jj * x (ptr M (st.2.1 + xsr * A.Aj jj)))) z) st.1,
        st.2.1 + xsc, st.2.2 + nRow * ysr)) := by
    funext k st
    rw [forLoop_ptr nRow (fun k p (z : Mem M R) => forLoop (A.Ap k) (A.Ap (k + 1)) (fun jj y =>
          addTo y (ptr M p) (a * A.Ax jj * x (ptr M (st.2.1 + xsr * A.Aj jj)))) z)]
  simp only [] at hbody ⊢
  rw [hbody, forLoop_ptr2 nVec (fun _ p r (z : Mem M R) => forLoop 0 nRow (fun k z => forLoop (A.Ap k) (A.Ap (k + 1)) (fun jj y =>
          addTo y (ptr M (r + k * ysr)) (a * A.Ax jj * x (ptr M (p + xsr * A.Aj jj)))) z) z)]
  simp only []
  rw [loop_adds nVec _ (fun v q => ∑ k ∈ Finset.range nRow, ∑ jj ∈ Finset.Ico (A.Ap k) (A.Ap (k + 1)),
    if ptr M (0 + v * (nRow * ysr) + k * ysr) = q then a * A.Ax jj * x (ptr M (0 + v * xsc + xsr * A.Aj jj)) else 0)
    (by
      intro v _ z q
      refine adds_range _ _ q _ ?_ z
      intro k _ z
      refine adds_at _ _ _ q _ ?_ z
      intro jj _ _ z
      exact addTo_apply z _ q _)]
  congr 1
  refine Finset.sum_congr rfl fun v _ => Finset.sum_congr rfl fun k _ => Finset.sum_congr rfl fun jj _ => ?_
  rw [zero_add, zero_add, mul_comm xsr, add_comm _ (k * ysr : Int), add_comm (v * xsc : Int)]

theorem csrMatvecs_computes (ow : Bool) (nRow nCol nVec : Nat) (A : Compressed R) (hA : A.Valid nRow nCol) (a : R)
    (xsr xsc : Int) (x : Mem M R) (ysr ysc : Int) (hd : CellsDistinct2 M nRow nVec ysr ysc)
    (hs : ysc < ysr ∨ ysc = nRow * ysr ∨ nVec ≤ 1) (y : Mem M R) :
    ComputesAll nRow nCol nVec (csrEntry A) ow a (inputOf x xsr xsc) (cellOf M ysr ysc) y
      (csrMatvecs ow nRow nVec A a xsr xsc x ysr ysc y) := by
  refine computesAll_of_adds ow nRow nCol nVec _ a _ ysr ysc hd y _
    (fun v q => csrAdd nRow A a (fun j => inputOf x xsr xsc j v) (fun i => cellOf M ysr ysc i v) q) ?_ ?_ ?_
  · intro q
    by_cases hb : ysc < ysr
    · unfold csrMatvecs csrAdd
      rw [if_pos hb, forLoop_ptr nRow (fun k p (z : Mem M R) => forLoop (A.Ap k) (A.Ap (k + 1)) (fun jj z =>
        axpyStrided nVec (a * A.Ax jj) xsc x (xsr * A.Aj jj) ysc p z) z) ysr 0]
      simp only []
      rw [loop_adds nRow _ (fun k q => ∑ jj ∈ Finset.Ico (A.Ap k) (A.Ap (k + 1)), ∑ v ∈ Finset.range nVec,
        if ptr M (0 + k * ysr + v * ysc) = q then a * A.Ax jj * x (ptr M (xsr * A.Aj jj + v * xsc)) else 0)
        (by
          intro j _ z q
          refine adds_at _ _ _ q _ ?_ z
          intro ii _ _ z
          exact axpy_apply _ _ _ _ _ _ _ z q)]
      congr 1
      rw [Finset.sum_comm]
      apply Finset.sum_congr rfl
      intro j _
      rw [Finset.sum_comm]
      refine Finset.sum_congr rfl fun jj _ => Finset.sum_congr rfl fun v _ => ?_
      rw [zero_add, mul_comm xsr]
    · rw [csrMatvecs_second ow nRow nVec A a xsr xsc x ysr ysc hb]
      congr 1
      apply Finset.sum_congr rfl
      intro v hv
      rw [Finset.mem_range] at hv
      rcases hs with h | h | h
      · exact absurd h hb
      · rw [h]
      · have : v = 0 := by omega
        subst this
        simp only [cellOf, Nat.cast_zero, zero_mul]
  · intro v hv i hi
    exact csrAdd_cell nRow nCol A hA a _ _ (col_distinct hd v hv) i hi
  · intro v hv p hp
    exact csrAdd_rest nRow A a _ _ p hp

/-! ### strides in bytes -/

/-- Division of the wrapped byte stride gives the right address, for negative strides as well. -/
theorem elemStride_ptr (size : Nat) (hs : 0 < size) (h64 : size ∣ 2 ^ 64) (s : Int) (k : Int) :
    ptr (2 ^ 64 / size) (k * elemStride (s * size) size) = ptr (2 ^ 64 / size) (k * s) := by
  obtain ⟨m, hm⟩ := h64
  have hM : 2 ^ 64 / size = m := by rw [hm]; exact Nat.mul_div_cancel_left m hs
  rw [hM]
  have hm' : (2 ^ 64 : Int) = m * size := by rw [mul_comm]; exact_mod_cast hm
  have he : elemStride (s * size) size = s % m := by
    unfold elemStride
    rw [hm', mul_comm s, mul_comm (m : Int), Int.mul_emod_mul_of_pos _ _ (by omega), Int.mul_ediv_cancel_left _ (by omega)]
  rw [he]
  show ((k * (s % m) : Int) : ZMod m) = ((k * s : Int) : ZMod m)
  rw [Int.cast_mul, Int.cast_mul]
  congr 1
  rw [ZMod.intCast_eq_intCast_iff]
  exact Int.mod_modEq s m

end Proof.Matvec
