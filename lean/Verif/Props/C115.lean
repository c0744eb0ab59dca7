import Verif.Model.MatvecTypes
import Mathlib.Data.Complex.Basic
import Mathlib.Tactic.LinearCombination
import Mathlib.Tactic.Linarith

/-!
# C115: types and lengths of the arrays of matrix-vector products

The functions of `get_matvec_function` run compiled code for fixed types of all arrays.  Either the arrays have these types and the lengths of the matrix, or the
call has to be refused.
-/
namespace Props
open Spec.NumberTypes Model.MatvecTypes

/-- The number computed from the types leads to the case of the same types, for all lists of types the generator may be given, and types that are generated are
found. -/
theorem C115_table (is ts fs : List Ty) (I T1 T2 T3 : Ty) :
    (∀ k, getSwitch is ts fs I T1 T2 T3 = some k → caseOf is ts fs k = some ⟨I, T1, T2, T3⟩) ∧
    ((∃ k, caseOf is ts fs k = some ⟨I, T1, T2, T3⟩) → getSwitch is ts fs I T1 T2 T3 ≠ none) := by
  unfold getSwitch caseOf
  constructor
  · intro k h
    split at h
    · simp at h
    rename_i i hi
    have hi' : i = I := by simpa using List.find?_some hi
    subst hi'
    obtain ⟨⟨c, n⟩, hc, rfl⟩ := Option.map_eq_some_iff.1 h
    have h1 := List.mem_of_find?_eq_some hc
    have h2 := List.find?_some hc
    rw [List.mem_filter] at h1
    have h3 := List.mem_zipIdx_iff_getElem?.1 h1.1
    simp only [decide_eq_true_eq] at h1 h2
    obtain ⟨-, e⟩ := h1
    obtain ⟨e1, e2, e3⟩ := h2
    rw [h3]
    cases c
    simp_all
  · rintro ⟨k, hk⟩ h
    have hm := List.mem_of_getElem? hk
    have hI : I ∈ is := by
      unfold combos at hm
      simp only [List.mem_flatMap] at hm
      obtain ⟨i, hi, T, -, U, -, V, -, h⟩ := hm
      split at h
      · rw [List.mem_singleton, Combo.mk.injEq] at h
        rw [h.1]; exact hi
      · simp at h
    split at h
    · rename_i h0
      have := List.find?_eq_none.1 h0 I hI
      simp at this
    rename_i i hi
    have hi' : i = I := by simpa using List.find?_some hi
    subst hi'
    rw [Option.map_eq_none_iff, List.find?_eq_none] at h
    have h1 := h (⟨i, T1, T2, T3⟩, k) (by
      rw [List.mem_filter]
      exact ⟨List.mem_zipIdx_iff_getElem?.2 hk, by simp⟩)
    simp at h1

/-- Which types are accepted: 32 or 64 bit indices, a floating matrix, a number `a` of the type of the matrix, and a vector whose type holds that of the matrix. -/
theorem C115_accepted (I T1 T2 T3 : Ty) :
    getSwitch iTypes tTypes fTypes I T1 T2 T3 ≠ none ↔ (I = .int32 ∨ I = .int64) ∧ T2 = T1 ∧ Holds T3 T1 := by
  have key : (∃ k, caseOf iTypes tTypes fTypes k = some ⟨I, T1, T2, T3⟩) ↔ (⟨I, T1, T2, T3⟩ : Combo) ∈ combos iTypes tTypes fTypes := by
    unfold caseOf
    rw [List.mem_iff_getElem?]
  have h1 : getSwitch iTypes tTypes fTypes I T1 T2 T3 ≠ none ↔ ∃ k, caseOf iTypes tTypes fTypes k = some ⟨I, T1, T2, T3⟩ := by
    refine ⟨fun h => ?_, (C115_table _ _ _ I T1 T2 T3).2⟩
    obtain ⟨k, hk⟩ := Option.ne_none_iff_exists'.1 h
    exact ⟨k, (C115_table _ _ _ I T1 T2 T3).1 k hk⟩
  rw [h1, key]
  have e : combos iTypes tTypes fTypes = iTypes.flatMap fun I => [⟨I, .complex128, .complex128, .complex128⟩, ⟨I, .float64, .float64, .complex128⟩,
      ⟨I, .float64, .float64, .float64⟩, ⟨I, .complex64, .complex64, .complex128⟩, ⟨I, .complex64, .complex64, .complex64⟩, ⟨I, .float32, .float32, .complex128⟩,
      ⟨I, .float32, .float32, .float64⟩, ⟨I, .float32, .float32, .complex64⟩, ⟨I, .float32, .float32, .float32⟩] := by decide
  rw [e]
  simp only [iTypes, List.mem_flatMap, List.mem_cons, List.not_mem_nil, or_false, Combo.mk.injEq]
  unfold Holds Floating IsComplex IsDouble
  constructor
  · rintro ⟨i, hi, h⟩
    rcases h with ⟨rfl, rfl, rfl, rfl⟩ | ⟨rfl, rfl, rfl, rfl⟩ | ⟨rfl, rfl, rfl, rfl⟩ | ⟨rfl, rfl, rfl, rfl⟩ | ⟨rfl, rfl, rfl, rfl⟩ | ⟨rfl, rfl, rfl, rfl⟩ |
      ⟨rfl, rfl, rfl, rfl⟩ | ⟨rfl, rfl, rfl, rfl⟩ | ⟨rfl, rfl, rfl, rfl⟩ <;> exact ⟨hi, rfl, by simp⟩
  · rintro ⟨hi, rfl, hT, hU, hc, hd⟩
    refine ⟨I, hi, ?_⟩
    rcases hT with rfl | rfl | rfl | rfl <;> rcases hU with rfl | rfl | rfl | rfl <;> simp_all

/-- Every array is read and written in its own type. -/
def Typed (c : Call) (r : Run) : Prop :=
  r.types.I = c.indptr ∧ r.types.I = c.indices ∧ r.types.T1 = c.data ∧ r.types.T2 = c.data ∧ r.types.T3 = c.x ∧ r.types.T3 = r.out

/-- The lengths are those of the matrix, and the entry of row `k` is written to its place in the output. -/
def Inside (c : Call) (r : Run) : Prop :=
  r.nr = c.rows ∧ r.nc = c.cols ∧ r.outLen = c.rows ∧ ∀ k < r.nr, writtenAt r k = k * bytes r.out ∧ writtenAt r k + bytes r.types.T3 ≤ r.outLen * bytes r.out

theorem dot_spec (c : Call) :
    (dot c = .error .typeError ∧ ¬((c.indptr = .int32 ∨ c.indptr = .int64) ∧ Holds c.x c.data)) ∨
    (dot c = .ok ⟨⟨c.indptr, c.data, c.data, c.x⟩, (c.out.getD (resultType c.data c.x, c.rows)).2, c.xLen, (c.out.getD (resultType c.data c.x, c.rows)).1,
      (c.out.getD (resultType c.data c.x, c.rows)).2⟩ ∧ (c.indptr = .int32 ∨ c.indptr = .int64) ∧ Holds c.x c.data) := by
  have ha := C115_accepted c.indptr c.data c.data c.x
  cases hg : getSwitch iTypes tTypes fTypes c.indptr c.data c.data c.x with
  | none =>
    refine Or.inl ⟨by simp [dot, hg], fun h => ?_⟩
    exact (ha.2 ⟨h.1, rfl, h.2⟩) hg
  | some k =>
    have h := ha.1 (by simp [hg])
    exact Or.inr ⟨by simp [dot, hg, (C115_table _ _ _ _ _ _ _).1 k hg], h.1, h.2.2⟩

theorem inside_of {c : Call} {r : Run} (h1 : r.nr = c.rows) (h2 : r.nc = c.cols) (h3 : r.outLen = c.rows) (h4 : r.types.T3 = r.out) (h5 : Floating r.out) :
    Inside c r := by
  refine ⟨h1, h2, h3, fun k hk => ?_⟩
  have hw : writtenAt r k = k * bytes r.out := by
    unfold writtenAt
    rw [h4]
    rcases h5 with e | e | e | e <;> rw [e] <;> simp [Model.Matvec.elemStride, bytes]
  refine ⟨hw, ?_⟩
  rw [hw, h4, h3, ← h1]
  have : ((k : ℤ) + 1) * bytes r.out ≤ r.nr * bytes r.out := by gcongr; omega
  linarith

/-- Without `out`: a call with a vector of the length of the rows is accepted exactly if the type of the vector holds that of the matrix; then every array is used in
its own type, the new array has the type of the vector and everything stays inside the arrays. -/
theorem C115_new (c : Call) (ho : c.out = none) (hi : c.indices = c.indptr) (hx : c.xLen = c.cols) :
    ((∃ r, dot c = .ok r) ↔ (c.indptr = .int32 ∨ c.indptr = .int64) ∧ Holds c.x c.data) ∧
    ∀ r, dot c = .ok r → Typed c r ∧ Inside c r ∧ r.out = c.x := by
  rcases dot_spec c with ⟨h, hn⟩ | ⟨h, hy⟩
  · refine ⟨⟨fun ⟨r, hr⟩ => by simp [h] at hr, fun hy => absurd hy hn⟩, fun r hr => by simp [h] at hr⟩
  · refine ⟨⟨fun _ => hy, fun _ => ⟨_, h⟩⟩, fun r hr => ?_⟩
    rw [h] at hr
    cases hr
    have hr : resultType c.data c.x = c.x := by
      obtain ⟨-, h1, h2, h3, h4⟩ := hy
      unfold IsComplex IsDouble at *
      rcases h1 with e | e | e | e <;> rcases h2 with e' | e' | e' | e' <;> rw [e, e'] at h3 h4 ⊢ <;> simp_all [resultType]
    rw [ho]
    refine ⟨⟨rfl, hi.symm, rfl, rfl, rfl, hr.symm⟩, inside_of rfl hx rfl hr.symm ?_, hr⟩
    simp only [Option.getD_none, hr]
    exact hy.2.2.1

/-- The call of a real matrix with 64 bit numbers and a complex vector. -/
example : dot ⟨3, 4, .int32, .int32, .float64, .complex128, 4, none⟩ = .ok ⟨⟨.int32, .float64, .float64, .complex128⟩, 3, 4, .complex128, 3⟩ ∧
    Holds .complex128 .float64 := ⟨by decide, by simp [Holds, Floating, IsComplex, IsDouble]⟩

/-- With `out` the same holds if `out` has the type of the vector and the length of the matrix.
Missing: other types and lengths of `out` and of the vector, which are not refused (`C115_fails_output`, `C115_fails_imaginary`, `C115_fails_rows`,
`C115_fails_columns`). -/
theorem C115_given_partial (c : Call) (t : Ty) (n : ℕ) (ho : c.out = some (t, n)) (ht : t = c.x) (hn : n = c.rows) (hi : c.indices = c.indptr) (hx : c.xLen = c.cols) :
    ((∃ r, dot c = .ok r) ↔ (c.indptr = .int32 ∨ c.indptr = .int64) ∧ Holds c.x c.data) ∧
    ∀ r, dot c = .ok r → Typed c r ∧ Inside c r ∧ r.out = t := by
  subst ht hn
  rcases dot_spec c with ⟨h, hn⟩ | ⟨h, hy⟩
  · refine ⟨⟨fun ⟨r, hr⟩ => by simp [h] at hr, fun hy => absurd hy hn⟩, fun r hr => by simp [h] at hr⟩
  · refine ⟨⟨fun _ => hy, fun _ => ⟨_, h⟩⟩, fun r hr => ?_⟩
    rw [h] at hr
    cases hr
    rw [ho]
    exact ⟨⟨rfl, hi.symm, rfl, rfl, rfl, rfl⟩, inside_of rfl hx rfl rfl hy.2.2.1, rfl⟩

example : dot ⟨3, 3, .int64, .int64, .complex64, .complex64, 3, some (.complex64, 3)⟩ = .ok ⟨⟨.int64, .complex64, .complex64, .complex64⟩, 3, 3, .complex64, 3⟩ := by
  decide

/-- DEFECT: the type of `out` is never looked at.  A complex vector and a real output of the same precision are accepted; the entries of all rows are written to the
first place, and with one row the product writes 8 bytes beyond the end of the output. -/
theorem C115_fails_output (rows : ℕ) : ∃ r, dot ⟨rows, rows, .int32, .int32, .float64, .complex128, rows, some (.float64, rows)⟩ = .ok r ∧ ¬Typed
    ⟨rows, rows, .int32, .int32, .float64, .complex128, rows, some (.float64, rows)⟩ r ∧ (∀ k, writtenAt r k = 0) ∧
    (rows = 1 → writtenAt r 0 + bytes r.types.T3 = r.outLen * bytes r.out + 8) := by
  refine ⟨⟨⟨.int32, .float64, .float64, .complex128⟩, rows, rows, .float64, rows⟩, rfl, by simp [Typed], fun k => by simp [writtenAt, Model.Matvec.elemStride, bytes], ?_⟩
  rintro rfl
  simp [writtenAt, Model.Matvec.elemStride, bytes]

/-- DEFECT: with a real vector and a complex output only the first 8 of the 16 bytes of an entry are written, the real part; the imaginary part keeps what was there,
also with `overwrite_out=True`. -/
theorem C115_fails_imaginary (rows : ℕ) : ∃ r, dot ⟨rows, rows, .int32, .int32, .float64, .float64, rows, some (.complex128, rows)⟩ = .ok r ∧
    ∀ k, writtenAt r k = k * bytes r.out ∧ writtenAt r k + bytes r.types.T3 = k * bytes r.out + 8 ∧ bytes r.out = 16 := by
  refine ⟨⟨⟨.int32, .float64, .float64, .float64⟩, rows, rows, .complex128, rows⟩, rfl, fun k => ⟨?_, ?_, rfl⟩⟩ <;>
    simp [writtenAt, Model.Matvec.elemStride, bytes] <;> ring

/-- DEFECT: an output longer than the matrix has rows is accepted, and the product runs over rows that the matrix does not have: it reads beyond `indptr`. -/
theorem C115_fails_rows (n : ℕ) : ∃ r, dot ⟨n, n, .int32, .int32, .float64, .float64, n, some (.float64, n + 1)⟩ = .ok r ∧ r.nr = n + 1 := ⟨_, rfl, rfl⟩

/-- DEFECT: a vector shorter than the matrix has columns is accepted, with and without `out`. -/
theorem C115_fails_columns (n : ℕ) (o : Option (Ty × ℕ)) : ∃ r, dot ⟨n, n + 1, .int32, .int32, .float64, .float64, n, o⟩ = .ok r ∧ r.nc = n := ⟨_, rfl, rfl⟩

/-- DEFECT: products whose result has a type numpy knows are refused: a complex matrix with a real vector, and a matrix of 64 bit numbers with a vector of 32 bit
numbers; and so is every matrix of integers. -/
theorem C115_fails_refused (rows cols n : ℕ) (o : Option (Ty × ℕ)) :
    dot ⟨rows, cols, .int32, .int32, .complex128, .float64, n, o⟩ = .error .typeError ∧ resultType .complex128 .float64 = .complex128 ∧
    dot ⟨rows, cols, .int32, .int32, .float64, .float32, n, o⟩ = .error .typeError ∧ resultType .float64 .float32 = .float64 ∧
    dot ⟨rows, cols, .int32, .int32, .int64, .float64, n, o⟩ = .error .typeError ∧ resultType .int64 .float64 = .float64 := ⟨rfl, rfl, rfl, rfl, rfl, rfl⟩

/-! ### Complex numbers of the compiled code -/

/-- The complex number a wrapper stands for. -/
def toC (A : W) : ℂ := ⟨A.re, A.im⟩

/-- The operators are those of the complex numbers. -/
theorem C115_arithmetic (A B : W) (x : ℝ) :
    toC A.neg = -toC A ∧ toC (A.add B) = toC A + toC B ∧ toC (A.sub B) = toC A - toC B ∧ toC (A.mul B) = toC A * toC B ∧
    (toC B ≠ 0 → toC (A.div B) * toC B = toC A) ∧ toC (A.mulReal x) = toC A * x ∧ (x ≠ 0 → toC (A.divReal x) * x = toC A) ∧ toC (W.ofReal x) = x := by
  refine ⟨?_, ?_, ?_, ?_, ?_, ?_, ?_, ?_⟩
  · apply Complex.ext <;> simp [toC, W.neg]
  · apply Complex.ext <;> simp [toC, W.add]
  · apply Complex.ext <;> simp [toC, W.sub]
  · apply Complex.ext <;> simp [toC, W.mul]
  · intro h
    have h0 : B.re * B.re + B.im * B.im ≠ 0 := by
      intro h1
      apply h
      have h2 : B.re = 0 := by nlinarith [mul_self_nonneg B.re, mul_self_nonneg B.im]
      have h3 : B.im = 0 := by nlinarith [mul_self_nonneg B.re, mul_self_nonneg B.im]
      apply Complex.ext <;> simp [toC, h2, h3]
    have hd := one_div_mul_cancel h0
    apply Complex.ext
    · simp only [toC, W.div, Complex.mul_re]
      linear_combination A.re * hd
    · simp only [toC, W.div, Complex.mul_im]
      linear_combination A.im * hd
  · apply Complex.ext <;> simp [toC, W.mulReal]
  · intro h
    apply Complex.ext <;> simp [toC, W.divReal, h]
  · apply Complex.ext <;> simp [toC, W.ofReal]

/-- The in-place operators change only their number, and to the right value, also if both sides are the same number. -/
theorem C115_in_place (m : W.Mem) (p q : ℕ) :
    toC (W.addTo m p q p) = toC (m p) + toC (m q) ∧ toC (W.subTo m p q p) = toC (m p) - toC (m q) ∧ toC (W.mulTo m p q p) = toC (m p) * toC (m q) ∧
    (toC (m q) ≠ 0 → toC (W.divTo m p q p) * toC (m q) = toC (m p)) ∧
    ∀ i, i ≠ p → W.addTo m p q i = m i ∧ W.subTo m p q i = m i ∧ W.mulTo m p q i = m i ∧ W.divTo m p q i = m i := by
  have hu : ∀ (v : ℝ), (if q = p then (⟨v, (m p).im⟩ : W) else m q).im = (m q).im := by
    intro v
    split
    · rename_i h; rw [h]
    · rfl
  refine ⟨?_, ?_, ?_, ?_, fun i hi => ?_⟩
  · apply Complex.ext <;> simp [toC, W.addTo, W.setRe, W.setIm, Function.update_apply, hu]
  · apply Complex.ext <;> simp [toC, W.subTo, W.setRe, W.setIm, Function.update_apply, hu]
  · apply Complex.ext <;> simp [toC, W.mulTo, W.setRe, W.setIm]
  · intro h
    have := (C115_arithmetic (m p) (m q) 0).2.2.2.2.1 h
    rw [← this]
    congr 1
    simp [toC, W.divTo, W.div, W.setRe, W.setIm]
  · simp [W.addTo, W.subTo, W.mulTo, W.divTo, W.setRe, W.setIm, Function.update_apply, hi]

/-- The comparisons: equality is that of the complex numbers, and exactly one of `A < B`, `A == B`, `B < A` holds. -/
theorem C115_order (A B C : W) :
    (A.eq B = true ↔ toC A = toC B) ∧ (A.ne B = true ↔ toC A ≠ toC B) ∧ (A.lt B = true ∨ A.eq B = true ∨ B.lt A = true) ∧ A.lt A = false ∧
    (A.lt B = true → B.lt C = true → A.lt C = true) := by
  have he : toC A = toC B ↔ A.re = B.re ∧ A.im = B.im := by simp [toC, Complex.ext_iff]
  refine ⟨by simp [W.eq, he], by rw [Ne, he, not_and_or]; simp [W.ne], ?_, by simp [W.lt], ?_⟩
  · simp only [W.lt, W.eq]
    rcases lt_trichotomy A.re B.re with h | h | h
    · simp [h.ne, h]
    · rcases lt_trichotomy A.im B.im with h' | h' | h' <;> simp [h, h']
    · simp [h.ne, h.ne', h]
  · simp only [W.lt]
    intro h1 h2
    split_ifs at h1 h2 ⊢ with a b c <;> simp only [decide_eq_true_eq] at * <;>
      first
        | linarith
        | (exact absurd (by linarith) ‹¬_›)
        | (rcases lt_or_eq_of_le (by linarith : A.re ≤ C.re) with h | h <;> [exact h; exact absurd h ‹¬A.re = C.re›])

end Props
