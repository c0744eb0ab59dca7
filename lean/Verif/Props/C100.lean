import Verif.Model.CsrMatvecOld
import Verif.Props.C18
import Verif.Props.C99

/-!
C100: `csr_matvec(A, v, a, out, overwrite_out)` of `quspin.tools.misc` is `a A v`, added to `out` or overwriting it, whatever the threads do.
-/

namespace Props
open Spec Model.Matvec Model.ExpmObject Model.CsrMatvecOld Proof.Matvec

variable {M : ℕ} {R : Type} [CommRing R]

theorem cells_distinct (n : ℕ) (hn : n ≤ M) : CellsDistinct M n 1 := by
  intro i hi j hj h
  simp only [ptr, mul_one] at h
  push_cast at h
  have h2 := (ZMod.natCast_eq_natCast_iff i j M).1 h
  exact Nat.ModEq.eq_of_lt_of_lt h2 (by omega) (by omega)

/-- Every execution of the compiled function by any number of threads gives the product. -/
theorem C100_kernel (overwrite : Bool) (T n nCol : ℕ) (hT : 0 < T) (hn : n ≤ M) (A : Compressed R) (hA : A.Valid n nCol) (a : R) (x : Mem M R) (s : Shared M R)
    (y' : Mem M R) (h : Kernel overwrite T n A a x s y') :
    Computes n nCol (csrEntry A) overwrite a (fun j => x (j : ℕ)) (fun i => ((i : ℕ) : ZMod M)) s.y y' := by
  obtain ⟨l, hl, h⟩ := h
  have hd := cells_distinct (M := M) n hn
  have key := csrOmp_computes false T n nCol hT A hA a 1 x 1 hd _ y' h
  have hz := zero_omp overwrite n 1 hd l hl s
  have hp : ∀ i : ℕ, ptr M ((i : ℤ) * 1) = ((i : ℕ) : ZMod M) := by
    intro i
    simp [ptr]
  simp only [hp] at key
  constructor
  · intro i hi
    rw [key.out i hi, if_neg (by simp), hz, Proof.Matvec.zero_apply]
    congr 1
    cases overwrite
    · simp
    · rw [if_pos ⟨rfl, i, hi, (hp i).symm⟩, if_pos rfl]
  · intro p hpn
    rw [key.rest p hpn, hz, Proof.Matvec.zero_apply, if_neg]
    rintro ⟨-, i, hi, e⟩
    exact hpn i hi (e.trans (hp i))

/-- The types that are accepted: those whose result has double precision. -/
theorem C100_types (g : Args) : accepted g.aType g.cplx (resultType g) = (g.aType.dbl || g.vType.dbl) := by
  obtain ⟨_, _, ⟨a1, a2⟩, _, ⟨v1, v2⟩, c, _, _⟩ := g
  cases a1 <;> cases a2 <;> cases v1 <;> cases v2 <;> cases c <;> rfl

/-- For square matrices in double precision the call works for every `v` with as many elements as the matrix has columns (any shape), and writes the product to the new array, or to a contiguous `out`
of the same shape and of the type of the result.
Missing: single precision, strided outputs and matrices that are not square (`C100_fails_single`, `C100_fails_strided`, `C100_fails_rows`, `C100_fails_columns`). -/
theorem C100_result_partial (g : Args) (hsq : g.rows = g.cols) (hdbl : g.aType.dbl = true ∨ g.vType.dbl = true) (hsize : g.shape.prod = g.cols)
    (hout : ∀ o ∈ g.out, o = (g.shape, resultType g, true)) (T : ℕ) (hT : 0 < T) (hn : g.rows ≤ M) (A : Compressed R) (hA : A.Valid g.rows g.cols) (a : R)
    (x : Mem M R) (s : Shared M R) :
    (∃ res, Effect g T A a x s res) ∧ ∀ res, Effect g T A a x s res →
      Computes g.rows g.cols (csrEntry A) (g.out.isNone || g.overwrite) a (fun j => x (j : ℕ)) (fun i => ((i : ℕ) : ZMod M)) s.y res := by
  have hacc : accepted g.aType g.cplx (resultType g) = true := by
    rw [C100_types]
    rcases hdbl with h | h <;> simp [h]
  have hcheck : check g = .ok () := by
    unfold check
    rw [if_neg (by simp [hsize])]
    cases ho : g.out with
    | none => simp [hacc]
    | some o =>
      rw [hout o (by simp [ho])]
      simp [hacc]
  constructor
  · obtain ⟨l, hl⟩ := interleaving_exists (if (g.out.isNone || g.overwrite) then g.shape.prod else 0) (zeroOps (M := M) (R := R) 1)
    obtain ⟨l2, hl2⟩ := interleaving_exists T (mergeOps false T g.shape.prod A a 1 x 1)
    exact ⟨_, hcheck, by simp [offsetsRead, offsetsStored, hsize, hsq], _, ⟨l, hl, l2, hl2, rfl⟩, rfl⟩
  · rintro res ⟨-, -, y', hk, rfl⟩
    rw [hsize] at hk
    have key := C100_kernel _ T g.cols g.cols hT (hsq ▸ hn) A (hsq ▸ hA) a x s y' hk
    rw [hsq]
    cases ho : g.out with
    | none => rw [ho] at key; exact key
    | some o =>
      rw [ho] at key
      have e := hout o (by simp [ho])
      subst e
      exact key

/-- The hypotheses are met by `csr_matvec(A, v)` for a real matrix with three rows. -/
example : ∃ g : Args, g.rows = g.cols ∧ g.aType.dbl = true ∧ g.shape.prod = g.cols ∧ (∀ o ∈ g.out, o = (g.shape, resultType g, true)) ∧ g.rows = 3 :=
  ⟨⟨3, 3, f64, [3], f64, false, none, true⟩, rfl, rfl, rfl, by simp, rfl⟩

/-- Exactly the calls with a vector of as many elements as the matrix has columns, an output of the same shape and of the common type, and double precision
somewhere are accepted; every other call raises. -/
theorem C100_accepted (g : Args) : check g = .ok () ↔
    g.shape.prod = g.cols ∧ (∀ shape t c, g.out = some (shape, t, c) → shape = g.shape ∧ t = resultType g) ∧ (g.aType.dbl = true ∨ g.vType.dbl = true) := by
  unfold check
  rw [C100_types g]
  rcases ho : g.out with _ | ⟨shape, t, c⟩
  · by_cases h1 : g.cols = g.shape.prod <;> by_cases h2 : g.aType.dbl = true <;> by_cases h3 : g.vType.dbl = true <;> simp_all <;>
      exact fun h => h1 h.symm
  · by_cases h1 : g.cols = g.shape.prod <;> by_cases h4 : shape = g.shape <;> by_cases h5 : t = resultType g <;> by_cases h2 : g.aType.dbl = true <;>
      by_cases h3 : g.vType.dbl = true <;> simp_all <;> exact fun h => h1 h.symm

example : check ⟨2, 2, ⟨false, true⟩, [2], ⟨false, true⟩, false, none, true⟩ = .ok () := by decide

/-- In single precision every call is refused: the number `a` is passed on in double precision, for which there is no case. -/
theorem C100_fails_single (g : Args) (ha : g.aType.dbl = false) (hv : g.vType.dbl = false) : check g = .error .valueError := by
  have hacc : accepted g.aType g.cplx (resultType g) = false := by rw [C100_types, ha, hv]; rfl
  unfold check
  split
  · rfl
  · split
    · simp [hacc]
    · split
      · rfl
      · split
        · rfl
        · simp [hacc]

/-- An `out` that is not contiguous is left as it was: the product goes to a copy. -/
theorem C100_fails_strided (g : Args) (shape : List ℕ) (t : DType) (ho : g.out = some (shape, t, false)) (T : ℕ) (A : Compressed R) (a : R) (x : Mem M R)
    (s : Shared M R) (res : Mem M R) (h : Effect g T A a x s res) : res = s.y := by
  obtain ⟨-, -, y', -, rfl⟩ := h
  rw [ho]
  rfl

/-- An example of `C100_fails_strided`. -/
example (T : ℕ) (A : Compressed ℤ) (x : Mem 8 ℤ) (s : Shared 8 ℤ) : ∃ res, Effect ⟨3, 3, f64, [3], f64, false, some ([3], f64, false), true⟩ T A 1 x s res := by
  obtain ⟨l, hl⟩ := interleaving_exists 3 (zeroOps (M := 8) (R := ℤ) 1)
  obtain ⟨l2, hl2⟩ := interleaving_exists T (mergeOps false T 3 A 1 1 x 1)
  exact ⟨_, rfl, le_rfl, _, ⟨l, hl, l2, hl2, rfl⟩, rfl⟩

/-- Matrices with more rows than columns are accepted, but only as many elements of the product are computed as the matrix has columns. -/
theorem C100_fails_rows (g : Args) (hlt : g.cols < g.rows) (ho : g.out = none) (T : ℕ) (hT : 0 < T) (hn : g.rows ≤ M) (A : Compressed R)
    (hA : A.Valid g.rows g.cols) (a : R) (x : Mem M R) (s : Shared M R) (res : Mem M R) (h : Effect g T A a x s res) (i : ℕ) (hi : g.cols ≤ i) (hi' : i < g.rows) :
    res (i : ℕ) = s.y (i : ℕ) := by
  obtain ⟨hc, -, y', hk, rfl⟩ := h
  have hsize : g.shape.prod = g.cols := by
    by_contra hne
    simp [check, Ne.symm hne] at hc
  rw [hsize] at hk
  have hA' : A.Valid g.cols g.cols :=
    ⟨hA.zero, fun k hk => hA.mono k (by omega), fun jj hjj => hA.index jj (lt_of_lt_of_le hjj (valid_mono hA g.cols g.rows hlt.le le_rfl))⟩
  have key := C100_kernel _ T g.cols g.cols hT (by omega) A hA' a x s y' hk
  rw [ho]
  refine key.rest _ fun j hj e => ?_
  have h2 := (ZMod.natCast_eq_natCast_iff i j M).1 e
  have := Nat.ModEq.eq_of_lt_of_lt h2 (by omega) (by omega)
  omega

/-- Matrices with fewer rows than columns pass all checks, and row offsets that do not exist are read. -/
theorem C100_fails_columns (rows cols : ℕ) (hlt : rows < cols) : check ⟨rows, cols, f64, [cols], f64, false, none, true⟩ = .ok ()
    ∧ offsetsStored ⟨rows, cols, f64, [cols], f64, false, none, true⟩ < offsetsRead ⟨rows, cols, f64, [cols], f64, false, none, true⟩ := by
  constructor
  · simp [check, accepted, resultType, f64, DType.join]
  · simpa [offsetsRead, offsetsStored] using hlt

end Props
