import Verif.Proof.MatvecMerge
import Verif.Proof.MatvecMulti
/-!
C18  Parallel sparse matrix-vector product (CSR) equals the serial one.
C19  CSC and DIA products are right for every schedule and stride.
C48  Products with several vectors at once are right for every memory layout.
C49  `matvec(array, other, overwrite_out, out, a)` does what its arguments say.

`Spec.Computes nRow nCol E ow a x cell y y'`: `y'` holds in `cell i` the value `a Σ_j E i j x j`, added to what was
there unless `ow`; everything else is unchanged.  Vectors are given by an address and a stride `s` elements
(`s * size` bytes, of any sign) in the machine's memory of `2^64 / size` elements; the cells of the output have to be
different from each other.
-/
namespace Props
open Spec Model.Matvec Proof.Matvec

variable {R : Type} [CommRing R]

/-- Elements of the address space. -/
abbrev Space (size : Nat) : Nat := 2 ^ 64 / size

/-- Element `i` of a vector with stride `s`. -/
abbrev element (size : Nat) (s : Int) (i : Nat) : ZMod (Space size) := ((i * s : Int) : ZMod (Space size))

/-- The elements of a vector of length `n` are different. -/
def Separate (size n : Nat) (s : Int) : Prop := ∀ i < n, ∀ j < n, element size s i = element size s j → i = j

/-- Every stride except 0, if the vector fits into the address space. -/
theorem separate_of_fits (size n : Nat) (s : Int) (h0 : s ≠ 0) (hfit : n * s.natAbs ≤ Space size) : Separate size n s := by
  intro i hi j hj h
  have h' : ((i * s : Int) : ZMod (Space size)) = ((j * s : Int) : ZMod (Space size)) := h
  rw [ZMod.intCast_eq_intCast_iff_dvd_sub] at h'
  obtain ⟨c, hc⟩ := h'
  rw [← sub_mul] at hc
  have habs : ((j : Int) - i).natAbs * s.natAbs = Space size * c.natAbs := by
    have := congrArg Int.natAbs hc
    rw [Int.natAbs_mul, Int.natAbs_mul, Int.natAbs_natCast] at this
    exact this
  by_contra hne
  have hd1 : 0 < ((j : Int) - i).natAbs := by omega
  have hd2 : ((j : Int) - i).natAbs < n := by omega
  have hs : 0 < s.natAbs := by omega
  have hlt : ((j : Int) - i).natAbs * s.natAbs < n * s.natAbs := Nat.mul_lt_mul_of_pos_right hd2 hs
  have hpos : 0 < ((j : Int) - i).natAbs * s.natAbs := Nat.mul_pos hd1 hs
  rcases Nat.eq_zero_or_pos c.natAbs with hc0 | hc0
  · rw [hc0, Nat.mul_zero] at habs; omega
  · have := Nat.le_mul_of_pos_right (Space size) hc0
    omega

example : Separate 16 1000 (-3) := separate_of_fits 16 1000 (-3) (by decide) (by decide)

private theorem dispatch_eq {α : Type} (size : Nat) (xb yb : Int) (f : Int → Int → α) :
    strideDispatch size xb yb f = f (elemStride xb size) (elemStride yb size) := by
  unfold strideDispatch
  by_cases h1 : elemStride yb size = 1 <;> by_cases h2 : elemStride xb size = 1 <;> simp [h1, h2]

private theorem addr_eq (size : Nat) (hs : 0 < size) (h64 : size ∣ 2 ^ 64) (s : Int) :
    (fun i : Nat => ptr (Space size) (i * elemStride (s * size) size)) = element size s := by
  funext i; exact elemStride_ptr size hs h64 s i

private theorem distinct_of (size : Nat) (hs : 0 < size) (h64 : size ∣ 2 ^ 64) (s : Int) (n : Nat) (h : Separate size n s) :
    CellsDistinct (Space size) n (elemStride (s * size) size) := by
  intro i hi j hj hij
  rw [elemStride_ptr size hs h64, elemStride_ptr size hs h64] at hij
  exact h i hi j hj hij

/-! ### C18 -/

/-- The CSR product, by any number of threads and for every interleaving of their accesses to the output, is
the matrix times the vector. -/
theorem C18_product (size : Nat) (hs : 0 < size) (h64 : size ∣ 2 ^ 64) (T : Nat) (hT : 0 < T) (nRow nCol : Nat) (A : Compressed R)
    (hA : A.Valid nRow nCol) (overwrite : Bool) (a : R) (sx : Int) (x : Mem (Space size) R) (sy : Int)
    (hsep : Separate size nRow sy) (s : Shared (Space size) R) (y' : Mem (Space size) R)
    (h : CsrMatvec T size overwrite nRow A a (sx * size) x (sy * size) s y') :
    Computes nRow nCol (csrEntry A) overwrite a (fun j => x (element size sx j)) (element size sy) s.y y' := by
  unfold CsrMatvec at h
  rw [dispatch_eq] at h
  have hd := distinct_of size hs h64 sy nRow hsep
  rw [← addr_eq size hs h64 sy]
  have hx : (fun j => x (element size sx j)) = fun j : Nat => x (ptr (Space size) (j * elemStride (sx * size) size)) := by
    rw [← addr_eq size hs h64 sx]
  rw [hx]
  split at h
  · subst h
    exact csrNoomp_computes overwrite nRow nCol A hA a _ x _ hd s.y
  · exact csrOmp_computes overwrite T nRow nCol hT A hA a _ x _ hd s y' h

/-- Two contents that are both the product are the same. -/
theorem computes_unique {P : Type} {nRow nCol : Nat} {E : Nat → Nat → R} {ow : Bool} {a : R} {x : Nat → R} {cell : Nat → P}
    {y y₁ y₂ : P → R} (h₁ : Computes nRow nCol E ow a x cell y y₁) (h₂ : Computes nRow nCol E ow a x cell y y₂) : y₁ = y₂ := by
  funext p
  by_cases hp : ∃ i < nRow, p = cell i
  · obtain ⟨i, hi, rfl⟩ := hp
    rw [h₁.out i hi, h₂.out i hi]
  · push Not at hp
    rw [h₁.rest p hp, h₂.rest p hp]

/-- Any number of threads in any order leave exactly what the serial function leaves, in the whole memory. -/
theorem C18_parallel_eq_serial (M T : Nat) (hT : 0 < T) (nRow nCol : Nat) (A : Compressed R) (hA : A.Valid nRow nCol)
    (overwrite : Bool) (a : R) (sx : Int) (x : Mem M R) (sy : Int)
    (hsep : ∀ i < nRow, ∀ j < nRow, ((i * sy : Int) : ZMod M) = ((j * sy : Int) : ZMod M) → i = j)
    (s : Shared M R) (y' : Mem M R) (h : CsrOmp overwrite T nRow A a sx x sy s y') :
    y' = csrNoomp overwrite nRow A a sx x sy s.y :=
  computes_unique (csrOmp_computes overwrite T nRow nCol hT A hA a sx x sy hsep s y' h)
    (csrNoomp_computes overwrite nRow nCol A hA a sx x sy hsep s.y)

/-- There is always an execution: the iterations one after the other. -/
theorem interleaving_exists {Op : Type} (T : Nat) (prog : Nat → List Op) : ∃ l, Interleaving T prog l := by
  refine ⟨(List.range T).flatMap fun t => (prog t).map fun o => (t, o), ?_, ?_⟩
  · intro e he
    rw [List.mem_flatMap] at he
    obtain ⟨t, ht, he⟩ := he
    rw [List.mem_map] at he
    obtain ⟨o, _, rfl⟩ := he
    exact List.mem_range.1 ht
  · intro t ht
    have key : ∀ (L : List Nat), L.Nodup → (((L.flatMap fun t => (prog t).map fun o => (t, o)).filter fun e => e.1 = t).map (·.2)) =
        if t ∈ L then prog t else [] := by
      intro L
      induction L with
      | nil => intro _; rfl
      | cons u L ih =>
        intro hnd
        rw [List.nodup_cons] at hnd
        rw [List.flatMap_cons, List.filter_append, List.map_append, ih hnd.2]
        by_cases hu : u = t
        · subst hu
          rw [if_neg hnd.1, if_pos (by simp), List.append_nil, List.filter_eq_self.2 (by simp), List.map_map]
          simp [Function.comp_def]
        · rw [List.filter_eq_nil_iff.2 (by simp [hu])]
          simp [Ne.symm hu]
    rw [key _ List.nodup_range, if_pos (List.mem_range.2 ht)]

/-- The product always has an execution. -/
theorem C18_executes (M T size nRow : Nat) (A : Compressed R) (overwrite : Bool) (a : R) (xb : Int) (x : Mem M R) (yb : Int)
    (s : Shared M R) : ∃ y', CsrMatvec T size overwrite nRow A a xb x yb s y' := by
  unfold CsrMatvec
  simp only [dispatch_eq]
  split
  · exact ⟨_, rfl⟩
  · obtain ⟨l, hl⟩ := interleaving_exists T (mergeOps overwrite T nRow A a (elemStride xb size) x (elemStride yb size))
    exact ⟨_, l, hl, rfl⟩

/-- a matrix with an empty row, an empty last row and a full row shared by threads: rows `[], [(2,5)], [(0,1),(1,2),(2,3)], []` -/
def exampleCsr : Compressed ℤ where
  Ap := fun k => if k ≤ 1 then 0 else if k = 2 then 1 else 4
  Aj := fun k => if k = 0 then 2 else k - 1
  Ax := fun k => if k = 0 then 5 else k

theorem exampleCsr_valid : exampleCsr.Valid 4 3 := by
  refine ⟨rfl, ?_, ?_⟩
  · decide
  · decide

/-- the threads' boundaries fall inside rows -/
example : (List.range 4).map (fun t => coord 4 exampleCsr (diagonalOf 4 4 exampleCsr t)) = [(0, 0), (1, 1), (2, 2), (2, 4)] := by
  decide +kernel

example : Separate 8 4 (-1) ∧ (8 : Nat) ∣ 2 ^ 64 := ⟨separate_of_fits 8 4 (-1) (by decide) (by decide), by decide⟩

/-- a matrix of the parallel branch -/
def identityCsr : Compressed ℤ := ⟨id, id, fun _ => 1⟩

example : identityCsr.Valid 1000 1000 ∧ Separate 8 1000 2 ∧ ¬ 1000 < 100 :=
  ⟨⟨rfl, fun k _ => Nat.le_succ k, fun jj h => h⟩, separate_of_fits 8 1000 2 (by decide) (by decide), by decide⟩

/-! ### C19 -/

/-- The CSC product: columns are treated concurrently; every addition to an output element is one atomic step for real
numbers, two atomic steps for complex ones (`parts` lists them). -/
theorem C19_csc (parts : R → List R) (hparts : ∀ v, (parts v).sum = v) (size : Nat) (hs : 0 < size) (h64 : size ∣ 2 ^ 64)
    (nRow nCol : Nat) (A : Compressed R) (hA : A.Valid nCol nRow) (overwrite : Bool) (a : R) (sx : Int) (x : Mem (Space size) R)
    (sy : Int) (hsep : Separate size nRow sy) (s : Shared (Space size) R) (y' : Mem (Space size) R)
    (h : CscMatvec parts size overwrite nRow nCol A a (sx * size) x (sy * size) s y') :
    Computes nRow nCol (cscEntry A) overwrite a (fun j => x (element size sx j)) (element size sy) s.y y' := by
  unfold CscMatvec at h
  rw [dispatch_eq] at h
  have hd := distinct_of size hs h64 sy nRow hsep
  rw [← addr_eq size hs h64 sy]
  have hx : (fun j => x (element size sx j)) = fun j : Nat => x (ptr (Space size) (j * elemStride (sx * size) size)) := by
    rw [← addr_eq size hs h64 sx]
  rw [hx]
  split at h
  · subst h
    exact cscNoomp_computes overwrite nRow nCol A hA a _ x _ hd s.y
  · obtain ⟨s', h, rfl⟩ := h
    exact cscOmp_computes parts hparts overwrite nRow nCol A hA a _ x _ hd s s' h

/-- The two kinds of atomic addition. -/
theorem C19_real_parts (v : ℝ) : (realParts v).sum = v := by simp [realParts]
theorem C19_complex_parts (v : ℂ) : (complexParts v).sum = v := by
  simp only [complexParts, List.sum_cons, List.sum_nil, add_zero]
  exact Complex.re_add_im v

/-- The DIA product: the diagonals one after the other, the elements of a diagonal concurrently. -/
theorem C19_dia (size : Nat) (hs : 0 < size) (h64 : size ∣ 2 ^ 64)
    (nRow nCol nDiags L : Nat) (offsets : Nat → Int) (data : Nat → R) (overwrite : Bool) (a : R) (sx : Int)
    (x : Mem (Space size) R) (sy : Int) (hsep : Separate size nRow sy) (s : Shared (Space size) R) (y' : Mem (Space size) R)
    (h : DiaMatvec size overwrite nRow nCol nDiags L offsets data a (sx * size) x (sy * size) s y') :
    Computes nRow nCol (diaEntry nDiags L offsets data) overwrite a (fun j => x (element size sx j)) (element size sy) s.y y' := by
  unfold DiaMatvec at h
  rw [dispatch_eq] at h
  have hd := distinct_of size hs h64 sy nRow hsep
  rw [← addr_eq size hs h64 sy]
  have hx : (fun j => x (element size sx j)) = fun j : Nat => x (ptr (Space size) (j * elemStride (sx * size) size)) := by
    rw [← addr_eq size hs h64 sx]
  rw [hx]
  split at h
  · subst h
    exact diaNoomp_computes overwrite nRow nCol nDiags L offsets data a _ x _ hd s.y
  · obtain ⟨s', h, rfl⟩ := h
    exact diaOmp_computes overwrite nRow nCol nDiags L offsets data a _ x _ hd s s' h

/-- Builds without OpenMP use the serial functions and leave the same memory. -/
theorem C19_builds_agree (M : Nat) (parts : R → List R) (hparts : ∀ v, (parts v).sum = v) (nRow nCol : Nat) (A : Compressed R)
    (hA : A.Valid nCol nRow) (overwrite : Bool) (a : R) (nDiags L : Nat) (offsets : Nat → Int) (data : Nat → R) (sx : Int)
    (x : Mem M R) (sy : Int) (hsep : ∀ i < nRow, ∀ j < nRow, ((i * sy : Int) : ZMod M) = ((j * sy : Int) : ZMod M) → i = j)
    (s s' : Shared M R) :
    (CscOmp parts overwrite nRow nCol A a sx x sy s s' → s'.y = cscNoomp overwrite nRow nCol A a sx x sy s.y) ∧
      (DiaOmp overwrite nRow nCol nDiags L offsets data a sx x sy s s' →
        s'.y = diaNoomp overwrite nRow nCol nDiags L offsets data a sx x sy s.y) :=
  ⟨fun h => computes_unique (cscOmp_computes parts hparts overwrite nRow nCol A hA a sx x sy hsep s s' h)
      (cscNoomp_computes overwrite nRow nCol A hA a sx x sy hsep s.y),
    fun h => computes_unique (diaOmp_computes overwrite nRow nCol nDiags L offsets data a sx x sy hsep s s' h)
      (diaNoomp_computes overwrite nRow nCol nDiags L offsets data a sx x sy hsep s.y)⟩

/-- CSC and DIA products always have an execution. -/
theorem C19_executes (M : Nat) (parts : R → List R) (size nRow nCol : Nat) (A : Compressed R) (overwrite : Bool) (a : R)
    (nDiags L : Nat) (offsets : Nat → Int) (data : Nat → R) (xb : Int) (x : Mem M R) (yb : Int) (s : Shared M R) :
    (∃ y', CscMatvec parts size overwrite nRow nCol A a xb x yb s y') ∧
      ∃ y', DiaMatvec size overwrite nRow nCol nDiags L offsets data a xb x yb s y' := by
  constructor
  · unfold CscMatvec
    simp only [dispatch_eq]
    split
    · exact ⟨_, rfl⟩
    · obtain ⟨l₁, h1⟩ := interleaving_exists (if overwrite then nRow else 0) (zeroOps (M := M) (R := R) (elemStride yb size))
      obtain ⟨l₂, h2⟩ := interleaving_exists nCol (cscOps parts A a (elemStride xb size) x (elemStride yb size))
      exact ⟨_, _, ⟨l₁, l₂, h1, h2, rfl⟩, rfl⟩
  · unfold DiaMatvec
    simp only [dispatch_eq]
    split
    · exact ⟨_, rfl⟩
    · obtain ⟨l₁, h1⟩ := interleaving_exists (if overwrite then nRow else 0) (zeroOps (M := M) (R := R) (elemStride yb size))
      have : ∀ n s, ∃ s', DiaDiagonals nRow nCol L offsets data a (elemStride xb size) x (elemStride yb size) n s s' := by
        intro n s
        induction n with
        | zero => exact ⟨s, .none s⟩
        | succ n ih =>
          obtain ⟨s', h⟩ := ih
          obtain ⟨l, hl⟩ := interleaving_exists (diagLen nRow nCol L (offsets n))
            (diaOps L (offsets n) data n a (elemStride xb size) x (elemStride yb size))
          exact ⟨_, .next h hl⟩
      obtain ⟨s', h⟩ := this nDiags (run l₁ s)
      exact ⟨_, s', ⟨l₁, h1, h⟩, rfl⟩

/-- A 2x3 matrix with diagonals -1, 0, 2. -/
example : (List.range 2).map (fun i => (List.range 3).map fun j =>
    diaEntry 3 3 (fun d => if d = 0 then -1 else if d = 1 then 0 else 2) (fun k => (k : ℤ) + 1) i j) =
    [[4, 0, 9], [1, 5, 0]] := by decide +kernel

/-! ### C48 -/

/-- Element of row `i` and column `v` of an array with two strides. -/
abbrev element2 (size : Nat) (sr sc : Int) (i v : Nat) : ZMod (Space size) := ((i * sr + v * sc : Int) : ZMod (Space size))

/-- The elements of an output array are different. -/
def Separate2 (size nRow nVec : Nat) (sr sc : Int) : Prop :=
  ∀ i < nRow, ∀ v < nVec, ∀ i' < nRow, ∀ v' < nVec, element2 size sr sc i v = element2 size sr sc i' v' → i = i' ∧ v = v'

private theorem dispatchAll_eq {α : Type} (size : Nat) (xr xc yr yc : Int) (f : Int → Int → Int → Int → α) :
    strideDispatchAll size xr xc yr yc f =
      f (elemStride xr size) (elemStride xc size) (elemStride yr size) (elemStride yc size) := by
  unfold strideDispatchAll
  simp only []
  by_cases h1 : elemStride yc size = 1
  · rw [if_pos h1, h1]
    by_cases h2 : elemStride xc size = 1
    · rw [if_pos h2, h2]
    · rw [if_neg h2]
      by_cases h3 : elemStride xr size = 1
      · rw [if_pos h3, h3]
      · rw [if_neg h3]
  · rw [if_neg h1]
    by_cases h0 : elemStride yr size = 1
    · rw [if_pos h0, h0]
      by_cases h2 : elemStride xc size = 1
      · rw [if_pos h2, h2]
      · rw [if_neg h2]
        by_cases h3 : elemStride xr size = 1
        · rw [if_pos h3, h3]
        · rw [if_neg h3]
    · rw [if_neg h0]

private theorem addr2_eq (size : Nat) (hs : 0 < size) (h64 : size ∣ 2 ^ 64) (sr sc : Int) :
    cellOf (Space size) (elemStride (sr * size) size) (elemStride (sc * size) size) = element2 size sr sc := by
  funext i v
  have h1 := elemStride_ptr size hs h64 sr i
  have h2 := elemStride_ptr size hs h64 sc v
  unfold ptr at h1 h2
  show ((i * elemStride (sr * size) size + v * elemStride (sc * size) size : Int) : ZMod (Space size)) =
    ((i * sr + v * sc : Int) : ZMod (Space size))
  rw [Int.cast_add, Int.cast_add, h1, h2]

/-- CSC matrices: right for all layouts of the two arrays. -/
theorem C48_csc (size : Nat) (hs : 0 < size) (h64 : size ∣ 2 ^ 64) (nRow nCol nVec : Nat) (A : Compressed R) (hA : A.Valid nCol nRow)
    (overwrite : Bool) (a : R) (xr xc : Int) (x : Mem (Space size) R) (yr yc : Int) (hsep : Separate2 size nRow nVec yr yc)
    (y : Mem (Space size) R) :
    ComputesAll nRow nCol nVec (cscEntry A) overwrite a (fun j v => x (element2 size xr xc j v)) (element2 size yr yc) y
      (strideDispatchAll size (xr * size) (xc * size) (yr * size) (yc * size) fun xsr xsc ysr ysc =>
        cscMatvecs overwrite nRow nCol nVec A a xsr xsc x ysr ysc y) := by
  rw [dispatchAll_eq]
  have := cscMatvecs_computes overwrite nRow nCol nVec A hA a (elemStride (xr * size) size) (elemStride (xc * size) size) x
    (elemStride (yr * size) size) (elemStride (yc * size) size)
    (by unfold CellsDistinct2; rw [addr2_eq size hs h64]; exact hsep) y
  rw [addr2_eq size hs h64] at this
  have hx : (fun j v => x (element2 size xr xc j v)) =
      inputOf x (elemStride (xr * size) size) (elemStride (xc * size) size) := by
    rw [← addr2_eq size hs h64]
  rw [hx]; exact this

/-- DIA matrices: right for all layouts of the two arrays. -/
theorem C48_dia (size : Nat) (hs : 0 < size) (h64 : size ∣ 2 ^ 64) (nRow nCol nVec nDiags L : Nat) (offsets : Nat → Int)
    (data : Nat → R) (overwrite : Bool) (a : R) (xr xc : Int) (x : Mem (Space size) R) (yr yc : Int)
    (hsep : Separate2 size nRow nVec yr yc) (y : Mem (Space size) R) :
    ComputesAll nRow nCol nVec (diaEntry nDiags L offsets data) overwrite a (fun j v => x (element2 size xr xc j v))
      (element2 size yr yc) y
      (strideDispatchAll size (xr * size) (xc * size) (yr * size) (yc * size) fun xsr xsc ysr ysc =>
        diaMatvecs overwrite nRow nCol nVec nDiags L offsets data a xsr xsc x ysr ysc y) := by
  rw [dispatchAll_eq]
  have := diaMatvecs_computes overwrite nRow nCol nVec nDiags L offsets data a (elemStride (xr * size) size)
    (elemStride (xc * size) size) x (elemStride (yr * size) size) (elemStride (yc * size) size)
    (by unfold CellsDistinct2; rw [addr2_eq size hs h64]; exact hsep) y
  rw [addr2_eq size hs h64] at this
  have hx : (fun j v => x (element2 size xr xc j v)) =
      inputOf x (elemStride (xr * size) size) (elemStride (xc * size) size) := by
    rw [← addr2_eq size hs h64]
  rw [hx]; exact this

private theorem elemStride_pos (size : Nat) (hs : 0 < size) (h64 : size ∣ 2 ^ 64) (s : Int) (h0 : 0 ≤ s) (h1 : s < Space size) :
    elemStride (s * size) size = s := by
  obtain ⟨m, hm⟩ := h64
  have hM : Space size = m := by unfold Space; rw [hm]; exact Nat.mul_div_cancel_left m hs
  rw [hM] at h1
  have hm' : (2 ^ 64 : Int) = size * m := by exact_mod_cast hm
  unfold elemStride
  rw [hm', mul_comm s, Int.mul_emod_mul_of_pos _ _ (by omega), Int.mul_ediv_cancel_left _ (by omega), Int.emod_eq_of_lt h0 h1]

/-- CSR matrices: right if columns of the output are closer together than its rows (row-major order), if the columns
follow each other without gaps (column-major order), or if there is one vector.  Missing: other layouts, for which
the product is wrong (`C48_csr_fails`). -/
theorem C48_csr_partial (size : Nat) (hs : 0 < size) (h64 : size ∣ 2 ^ 64) (nRow nCol nVec : Nat) (A : Compressed R)
    (hA : A.Valid nRow nCol) (overwrite : Bool) (a : R) (xr xc : Int) (x : Mem (Space size) R) (yr yc : Int)
    (hsep : Separate2 size nRow nVec yr yc) (hyr : 0 ≤ yr) (hyr' : yr < Space size) (hyc : 0 ≤ yc) (hyc' : yc < Space size)
    (hlayout : yc < yr ∨ yc = nRow * yr ∨ nVec ≤ 1) (y : Mem (Space size) R) :
    ComputesAll nRow nCol nVec (csrEntry A) overwrite a (fun j v => x (element2 size xr xc j v)) (element2 size yr yc) y
      (strideDispatchAll size (xr * size) (xc * size) (yr * size) (yc * size) fun xsr xsc ysr ysc =>
        csrMatvecs overwrite nRow nVec A a xsr xsc x ysr ysc y) := by
  rw [dispatchAll_eq]
  have := csrMatvecs_computes overwrite nRow nCol nVec A hA a (elemStride (xr * size) size) (elemStride (xc * size) size) x
    (elemStride (yr * size) size) (elemStride (yc * size) size)
    (by unfold CellsDistinct2; rw [addr2_eq size hs h64]; exact hsep)
    (by rw [elemStride_pos size hs h64 yr hyr hyr', elemStride_pos size hs h64 yc hyc hyc']; exact hlayout) y
  rw [addr2_eq size hs h64] at this
  have hx : (fun j v => x (element2 size xr xc j v)) =
      inputOf x (elemStride (xr * size) size) (elemStride (xc * size) size) := by
    rw [← addr2_eq size hs h64]
  rw [hx]; exact this

/-- An array in row-major order has separate elements. -/
theorem separate_rows (size nRow nVec : Nat) (hfit : nRow * nVec ≤ Space size) : Separate2 size nRow nVec nVec 1 := by
  intro i hi v hv i' hi' v' hv' h
  have hlt : ∀ i < nRow, ∀ v < nVec, i * nVec + v < Space size := by
    intro i hi v hv
    have : (i + 1) * nVec ≤ nRow * nVec := Nat.mul_le_mul_right _ hi
    rw [Nat.add_mul, Nat.one_mul] at this
    omega
  have h' : (((i * nVec + v : Nat)) : ZMod (Space size)) = ((i' * nVec + v' : Nat) : ZMod (Space size)) := by
    unfold element2 at h
    have e : ∀ i v : Nat, ((i * nVec + v * 1 : Int) : ZMod (Space size)) = ((i * nVec + v : Nat) : ZMod (Space size)) := by
      intro i v
      rw [show (i * nVec + v * 1 : Int) = ((i * nVec + v : Nat) : Int) by push_cast; ring, Int.cast_natCast]
    rw [e, e] at h
    exact h
  rw [ZMod.natCast_eq_natCast_iff'] at h'
  rw [Nat.mod_eq_of_lt (hlt i hi v hv), Nat.mod_eq_of_lt (hlt i' hi' v' hv')] at h'
  have hp : 0 < nVec := by omega
  have hv1 : v = v' := by
    have := congrArg (· % nVec) h'
    simp only [Nat.mul_add_mod_self_right, Nat.mod_eq_of_lt hv, Nat.mod_eq_of_lt hv'] at this
    exact this
  subst hv1
  exact ⟨Nat.eq_of_mul_eq_mul_right hp (by omega), rfl⟩

/-- The output the library allocates itself (row-major order) always gets the right product. -/
theorem C48_csr_new_output (size : Nat) (hs : 0 < size) (h64 : size ∣ 2 ^ 64) (nRow nCol nVec : Nat)
    (hfit : nRow * nVec ≤ Space size) (hfit' : nVec < Space size) (hfit'' : 1 < Space size) (A : Compressed R)
    (hA : A.Valid nRow nCol) (overwrite : Bool) (a : R) (xr xc : Int) (x : Mem (Space size) R) (y : Mem (Space size) R) :
    ComputesAll nRow nCol nVec (csrEntry A) overwrite a (fun j v => x (element2 size xr xc j v)) (element2 size nVec 1) y
      (strideDispatchAll size (xr * size) (xc * size) ((nVec : Int) * size) (1 * size) fun xsr xsc ysr ysc =>
        csrMatvecs overwrite nRow nVec A a xsr xsc x ysr ysc y) :=
  C48_csr_partial size hs h64 nRow nCol nVec A hA overwrite a xr xc x nVec 1 (separate_rows size nRow nVec hfit)
    (by omega) (by exact_mod_cast hfit') (by omega) (by exact_mod_cast hfit'') (by omega) y

/-- In the remaining layouts vector `v` is written from element `v * nRow` of the first column on, not to column `v`. -/
theorem C48_csr_where (M nRow nVec : Nat) (A : Compressed R) (a : R) (xsr xsc : Int) (x : Mem M R) (ysr ysc : Int)
    (hb : ¬ ysc < ysr) (y : Mem M R) (q : ZMod M) :
    csrMatvecs false nRow nVec A a xsr xsc x ysr ysc y q = y q +
      ∑ v ∈ Finset.range nVec, ∑ k ∈ Finset.range nRow, ∑ jj ∈ Finset.Ico (A.Ap k) (A.Ap (k + 1)),
        if ((k * ysr + v * (nRow * ysr) : Int) : ZMod M) = q then a * A.Ax jj * x ((A.Aj jj * xsr + v * xsc : Int) : ZMod M) else 0 :=
  csrMatvecs_second false nRow nVec A a xsr xsc x ysr ysc hb y q

/-- The first row of a 2-row column-major array as output (`out[0:1]`, strides 1 and 2), the 1x1 matrix `(1)`, two
vectors `1` and `10`: element `(0,1)` of the output stays 0 and `out[1,0]`, which does not belong to the output, is
changed. -/
theorem C48_csr_fails : ∃ (size : Nat) (A : Compressed ℤ) (x : Mem (Space size) ℤ) (yr yc : Int),
    size ∣ 2 ^ 64 ∧ A.Valid 1 1 ∧ Separate2 size 1 2 yr yc ∧
      let y' := strideDispatchAll size (2 * size) (1 * size) (yr * size) (yc * size) fun xsr xsc ysr ysc =>
        csrMatvecs true 1 2 A 1 xsr xsc x ysr ysc (fun _ => (0 : ℤ))
      y' (element2 size yr yc 0 1) = 0 ∧ y' 1 = 10 ∧
        ¬ ComputesAll 1 1 2 (csrEntry A) true 1 (fun j v => x (element2 size 2 1 j v)) (element2 size yr yc) (fun _ => 0) y' := by
  have hv : identityCsr.Valid 1 1 := ⟨rfl, fun k _ => Nat.le_succ k, fun jj h => h⟩
  have hS : Space 8 = 2 ^ 61 := by decide
  have e1 : (1 : ZMod (Space 8)) ≠ 0 := by rw [hS]; decide
  have e2 : (2 : ZMod (Space 8)) ≠ 0 := by rw [hS]; decide
  have e3 : (2 : ZMod (Space 8)) ≠ 1 := by rw [hS]; decide
  refine ⟨8, identityCsr, fun p => if p = 0 then 1 else 10, 1, 2, by decide, hv, ?_, ?_⟩
  · intro i hi v hv i' hi' v' hv' h
    have hi0 : i = 0 := by omega
    have hi0' : i' = 0 := by omega
    subst hi0 hi0'
    refine ⟨rfl, ?_⟩
    unfold element2 at h
    rcases (by omega : v = 0 ∨ v = 1) with rfl | rfl <;> rcases (by omega : v' = 0 ∨ v' = 1) with rfl | rfl
    · rfl
    · exact absurd (by simpa using h.symm) e2
    · exact absurd (by simpa using h) e2
    · rfl
  · have key : ∀ q, (strideDispatchAll 8 (2 * (8 : Nat)) (1 * (8 : Nat)) (1 * (8 : Nat)) (2 * (8 : Nat)) fun xsr xsc ysr ysc =>
        csrMatvecs true 1 2 identityCsr 1 xsr xsc (fun p : ZMod (Space 8) => if p = 0 then (1 : ℤ) else 10) ysr ysc (fun _ => (0 : ℤ))) q =
        (if (0 : ZMod (Space 8)) = q then 1 else 0) + if (1 : ZMod (Space 8)) = q then 10 else 0 := by
      intro q
      rw [dispatchAll_eq]
      have s1 : elemStride (1 * (8 : Nat)) 8 = 1 := by decide
      have s2 : elemStride (2 * (8 : Nat)) 8 = 2 := by decide
      rw [s1, s2, csrMatvecs_second _ _ _ _ _ _ _ _ _ _ (by omega), zeroLoops_apply]
      simp [csrAdd, identityCsr, Finset.sum_range_succ, e1]
    simp only []
    refine ⟨?_, ?_, ?_⟩
    · rw [key]
      simp only [element2, Nat.cast_zero, zero_mul, zero_add, Nat.cast_one, one_mul, Int.cast_ofNat]
      rw [if_neg (Ne.symm e2), if_neg (Ne.symm e3)]; rfl
    · rw [key, if_neg (Ne.symm e1), if_pos rfl]; rfl
    · intro hc
      have := hc.rest 1 (by
        intro i hi v hv h
        have hi0 : i = 0 := by omega
        subst hi0
        unfold element2 at h
        rcases (by omega : v = 0 ∨ v = 1) with rfl | rfl
        · exact e1 (by simpa using h)
        · exact e3 (by simpa using h.symm))
      rw [key, if_neg (Ne.symm e1), if_pos rfl] at this
      exact absurd this (by decide)

/-! ### C49 -/

/-- The functions returned by `get_matvec_function`: without `out` the result is `a A v` in a new array, with `out` it is
stored in, or added to, `out`.  `core` is any of the product routines. -/
theorem C49_function {M : Nat} (nRow nCol : Nat) (E : Nat → Nat → R) (v : Nat → R) (cell : Nat → ZMod M)
    (core : Bool → R → Mem M R → Mem M R) (hcore : ∀ ow a y, Computes nRow nCol E ow a v cell y (core ow a y))
    (overwrite : Bool) (a : R) :
    (∀ y, Computes nRow nCol E overwrite a v cell y (dot core overwrite (some y) a)) ∧
      ∀ i < nRow, dot core overwrite none a (cell i) = a * ∑ j ∈ Finset.range nCol, E i j * v j := by
  refine ⟨fun y => hcore overwrite a y, fun i hi => ?_⟩
  have := (hcore true a (fun _ => 0)).out i hi
  rw [if_pos rfl, zero_add] at this
  exact this

/-- `matvec` without optional arguments returns `A v`.  Missing: with optional arguments (`C49_ignored`). -/
theorem C49_matvec_partial {M : Nat} (nRow nCol : Nat) (E : Nat → Nat → R) (v : Nat → R) (cell : Nat → ZMod M)
    (core : Bool → R → Mem M R → Mem M R) (hcore : ∀ ow a y, Computes nRow nCol E ow a v cell y (core ow a y)) :
    ∀ i < nRow, (matvec core false none 1).1 (cell i) = ∑ j ∈ Finset.range nCol, E i j * v j := by
  intro i hi
  have := (C49_function nRow nCol E v cell core hcore false 1).2 i hi
  rw [one_mul] at this
  exact this

/-- `matvec` ignores its optional arguments: whatever they are, it returns `A v`, and `out` is left as it was. -/
theorem C49_ignored {M : Nat} (core : Bool → R → Mem M R → Mem M R) (overwrite : Bool) (out : Option (Mem M R)) (a : R) :
    (matvec core overwrite out a).1 = (matvec core false none 1).1 ∧ (matvec core overwrite out a).2 = out := ⟨rfl, rfl⟩

/-- So `matvec(A, v, out=y)` and `matvec(A, v, a=2)` are wrong already for the 1x1 matrix `(1)` and the vector `(1)`: the
returned value is 1 although `y + A v = 6` and `2 A v = 2`, and `out` still contains 5. -/
theorem C49_fails : ∃ (A : Compressed ℤ) (x : Mem 16 ℤ), A.Valid 1 1 ∧
    let core := fun ow a y => csrNoomp ow 1 A a 1 x 1 y
    (matvec core false (some fun _ => 5) 1).1 0 = 1 ∧ ((matvec core false (some fun _ => 5) 1).2.map fun y => y 0) = some 5 ∧
      dot core false (some fun _ => 5) 1 0 = 6 ∧ (matvec core false none 2).1 0 = 1 ∧ dot core false none 2 0 = 2 :=
  ⟨identityCsr, fun _ => 1, ⟨rfl, fun k _ => Nat.le_succ k, fun jj h => h⟩, by decide +kernel⟩

/-- A routine that meets the hypothesis of `C49_function`. -/
example : ∀ ow a y, Computes 4 3 (csrEntry exampleCsr) ow a (fun j => (fun _ => (1 : ℤ)) ((j * 1 : Int) : ZMod 16))
    (fun i : Nat => ((i * 1 : Int) : ZMod 16)) y (csrNoomp ow 4 exampleCsr a 1 (fun _ => 1) 1 y) :=
  fun ow a y => csrNoomp_computes ow 4 3 exampleCsr exampleCsr_valid a 1 (fun _ => 1) 1 (by unfold CellsDistinct; decide) y

end Props
