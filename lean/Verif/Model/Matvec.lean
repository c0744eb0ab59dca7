import Verif.Spec.Matvec
import Mathlib.Data.Complex.Basic
/-!
Sparse matrix-vector products, `/repo/quspin/tools/matvec/`: `_oputils/csr.h`, `csc.h`, `dia.h`, `csrmv_merge.h`,
`utils.h`, `openmp.h`, `_oputils.pyx`, `matvec_core.py`.  (`matvec.h` and `matvecs.h` are not used: they are only
mentioned inside a string literal of `_oputils.pyx:238-506`.)

Simplifications.  Element types are one commutative ring.  Index arithmetic is exact (the code uses 32 or 64 bit
integers, so the sum of rows and entries, and the number of stored diagonal elements in `dia_matvec_omp_*`, have to
fit).  Memory is a function on `ZMod M`, `M` the number of elements of the address space (`2^64/sizeof`); a vector
starts at address 0 of its memory and strides count elements.  The `_contig` functions are the `_strided` ones with
unit strides.  Private running totals are evaluated at once; only accesses to the shared output are operations of
the interleaving.
-/
namespace Model.Matvec
open Spec

variable {R : Type} [CommRing R] {M : Nat}

/-- Contents of memory. -/
abbrev Mem (M : Nat) (R : Type) := ZMod M → R

/-- `for(I k = a; k < b; k++)` -/
def forLoop {σ : Type} (a b : Nat) (body : Nat → σ → σ) (s : σ) : σ :=
  (List.range' a (b - a)).foldl (fun s k => body k s) s

/-- address of the element at an offset -/
abbrev ptr (M : Nat) (offset : Int) : ZMod M := (offset : ZMod M)

/-- `y[p] += v` -/
def addTo (y : Mem M R) (p : ZMod M) (v : R) : Mem M R := Function.update y p (y p + v)

/-- `x_stride_byte/sizeof(T3)`, `csr.h:277-278` and the other dispatchers: the signed byte stride is converted to
the unsigned type of `sizeof` and divided. -/
def elemStride (bytes : Int) (size : Nat) : Int := (bytes % 2 ^ 64) / size

/-! ### serial products -/

/-- `csr_matvec_noomp_strided`, `csr.h:56-86` (`_contig`, `:25-54`). -/
def csrNoomp (overwrite : Bool) (nRow : Nat) (A : Compressed R) (a : R) (xs : Int) (x : Mem M R) (ys : Int)
    (y : Mem M R) : Mem M R :=
  if overwrite then
    forLoop 0 nRow (fun k y =>
      Function.update y (ptr M (k * ys))
        (a * forLoop (A.Ap k) (A.Ap (k + 1)) (fun jj sum => sum + A.Ax jj * x (ptr M (A.Aj jj * xs))) 0)) y
  else
    forLoop 0 nRow (fun k y =>
      addTo y (ptr M (k * ys))
        (a * forLoop (A.Ap k) (A.Ap (k + 1)) (fun jj sum => sum + A.Ax jj * x (ptr M (A.Aj jj * xs))) 0)) y

/-- The zeroing loop, `csc.h:47-51`, `dia.h:67-71`. -/
def zeroLoop (overwrite : Bool) (nRow : Nat) (ys : Int) (y : Mem M R) : Mem M R :=
  if overwrite then forLoop 0 nRow (fun i y => Function.update y (ptr M (i * ys)) 0) y else y

/-- `csc_matvec_noomp_strided`, `csc.h:34-63` (`_contig`, `:6-32`). -/
def cscNoomp (overwrite : Bool) (nRow nCol : Nat) (A : Compressed R) (a : R) (xs : Int) (x : Mem M R) (ys : Int)
    (y : Mem M R) : Mem M R :=
  forLoop 0 nCol (fun j y =>
    forLoop (A.Ap j) (A.Ap (j + 1)) (fun ii y => addTo y (ptr M (A.Aj ii * ys)) (a * A.Ax ii * x (ptr M (j * xs)))) y)
    (zeroLoop overwrite nRow ys y)

/-- `i_start`, `dia.h:76` -/
def iStart (k : Int) : Int := max 0 (-k)
/-- `j_start`, `dia.h:77` -/
def jStart (k : Int) : Int := max 0 k
/-- `N = j_end - j_start`, `dia.h:78-80`; a loop up to a negative number does nothing. -/
def diagLen (nRow nCol L : Nat) (k : Int) : Nat := (min (min (nRow + k) nCol) L - jStart k).toNat

/-- `dia_matvec_noomp_strided`, `dia.h:52-91` (`_contig`, `:14-50`). -/
def diaNoomp (overwrite : Bool) (nRow nCol nDiags L : Nat) (offsets : Nat → Int) (data : Nat → R) (a : R)
    (xs : Int) (x : Mem M R) (ys : Int) (y : Mem M R) : Mem M R :=
  forLoop 0 nDiags (fun i y =>
    forLoop 0 (diagLen nRow nCol L (offsets i)) (fun n y =>
      addTo y (ptr M (iStart (offsets i) * ys + n * ys))
        (a * data (i * L + (jStart (offsets i)).toNat + n) * x (ptr M (jStart (offsets i) * xs + n * xs)))) y)
    (zeroLoop overwrite nRow ys y)

/-! ### several vectors -/

/-- `axpy_strided`, `utils.h:6-12`: pointers `xp`, `yp` advance. -/
def axpyStrided (n : Nat) (a : R) (xs : Int) (x : Mem M R) (xp : Int) (ys : Int) (yp : Int) (y : Mem M R) : Mem M R :=
  (forLoop 0 n (fun _ (st : Mem M R × Int × Int) =>
    (addTo st.1 (ptr M st.2.2) (a * x (ptr M st.2.1)), st.2.1 + xs, st.2.2 + ys)) (y, xp, yp)).1

/-- The zeroing loops, `csr.h:105-111`, `csc.h:81-87`, `dia.h:110-116`. -/
def zeroLoops (overwrite : Bool) (nRow nVec : Nat) (ysr ysc : Int) (y : Mem M R) : Mem M R :=
  if overwrite then
    forLoop 0 nRow (fun i y => forLoop 0 nVec (fun j y => Function.update y (ptr M (i * ysr + j * ysc)) 0) y) y
  else y

/-- `csr_matvecs_noomp_strided`, `csr.h:90-135`.  Loop states carry the moving pointers. -/
def csrMatvecs (overwrite : Bool) (nRow nVec : Nat) (A : Compressed R) (a : R) (xsr xsc : Int) (x : Mem M R)
    (ysr ysc : Int) (y : Mem M R) : Mem M R :=
  if ysc < ysr then
    (forLoop 0 nRow (fun k (st : Mem M R × Int) =>
      (forLoop (A.Ap k) (A.Ap (k + 1)) (fun jj y =>
        axpyStrided nVec (a * A.Ax jj) xsc x (xsr * A.Aj jj) ysc st.2 y) st.1, st.2 + ysr))
      (zeroLoops overwrite nRow nVec ysr ysc y, 0)).1
  else
    (forLoop 0 nVec (fun _ (st : Mem M R × Int × Int) =>
      let st' := forLoop 0 nRow (fun k (st' : Mem M R × Int) =>
        (forLoop (A.Ap k) (A.Ap (k + 1)) (fun jj y =>
          addTo y (ptr M st'.2) (a * A.Ax jj * x (ptr M (st.2.1 + xsr * A.Aj jj)))) st'.1, st'.2 + ysr))
        (st.1, st.2.2)
      (st'.1, st.2.1 + xsc, st'.2)) (zeroLoops overwrite nRow nVec ysr ysc y, 0, 0)).1

/-- `csc_matvecs_noomp_strided`, `csc.h:65-118`. -/
def cscMatvecs (overwrite : Bool) (nRow nCol nVec : Nat) (A : Compressed R) (a : R) (xsr xsc : Int) (x : Mem M R)
    (ysr ysc : Int) (y : Mem M R) : Mem M R :=
  if ysc < ysr then
    (forLoop 0 nCol (fun j (st : Mem M R × Int) =>
      (forLoop (A.Ap j) (A.Ap (j + 1)) (fun ii y =>
        axpyStrided nVec (a * A.Ax ii) xsc x st.2 ysc (ysr * A.Aj ii) y) st.1, st.2 + xsr))
      (zeroLoops overwrite nRow nVec ysr ysc y, 0)).1
  else
    (forLoop 0 nVec (fun _ (st : Mem M R × Int × Int) =>
      let st' := forLoop 0 nCol (fun j (st' : Mem M R × Int) =>
        (forLoop (A.Ap j) (A.Ap (j + 1)) (fun ii y =>
          addTo y (ptr M (st.2.2 + ysr * A.Aj ii)) (a * A.Ax ii * x (ptr M st'.2))) st'.1, st'.2 + xsr))
        (st.1, st.2.1)
      (st'.1, st.2.1 + xsc, st.2.2 + ysc)) (zeroLoops overwrite nRow nVec ysr ysc y, 0, 0)).1

/-- `dia_matvecs_noomp_strided`, `dia.h:93-168`. -/
def diaMatvecs (overwrite : Bool) (nRow nCol nVec nDiags L : Nat) (offsets : Nat → Int) (data : Nat → R) (a : R)
    (xsr xsc : Int) (x : Mem M R) (ysr ysc : Int) (y : Mem M R) : Mem M R :=
  if ysc < ysr then
    forLoop 0 nDiags (fun i y =>
      (forLoop 0 (diagLen nRow nCol L (offsets i)) (fun n (st : Mem M R × Int × Int) =>
        (axpyStrided nVec (a * data (i * L + (jStart (offsets i)).toNat + n)) xsc x st.2.1 ysc st.2.2 st.1,
          st.2.1 + xsr, st.2.2 + ysr)) (y, jStart (offsets i) * xsr, iStart (offsets i) * ysr)).1)
      (zeroLoops overwrite nRow nVec ysr ysc y)
  else
    forLoop 0 nDiags (fun i y =>
      (forLoop 0 nVec (fun _ (st : Mem M R × Int × Int) =>
        ((forLoop 0 (diagLen nRow nCol L (offsets i)) (fun n (st' : Mem M R × Int × Int) =>
          (addTo st'.1 (ptr M st'.2.2) (a * data (i * L + (jStart (offsets i)).toNat + n) * x (ptr M st'.2.1)),
            st'.2.1 + xsr, st'.2.2 + ysr)) (st.1, st.2.1, st.2.2)).1,
          st.2.1 + xsc, st.2.2 + ysc)) (y, jStart (offsets i) * xsr, iStart (offsets i) * ysr)).1)
      (zeroLoops overwrite nRow nVec ysr ysc y)

/-! ### parallel loops -/

/-- Accesses to the output by an iteration of a parallel loop.  `y[p] = v`; reading `y[p]` into a temporary;
`y[p] = temporary + v`; `y[p] += v` in one indivisible step (`#pragma omp atomic`). -/
inductive MemOp (P R : Type) where
  | set (p : P) (v : R)
  | load (p : P)
  | storeAdd (p : P) (v : R)
  | atomicAdd (p : P) (v : R)

/-- The address an operation concerns. -/
def MemOp.addr {P R : Type} : MemOp P R → P
  | .set p _ => p
  | .load p => p
  | .storeAdd p _ => p
  | .atomicAdd p _ => p

/-- `y[p] += v` outside `omp atomic`: a read, then a write. -/
def plainAdd {P R : Type} (p : P) (v : R) : List (MemOp P R) := [.load p, .storeAdd p v]

/-- Shared memory and the temporaries of each iteration (one for each address it updates). -/
structure Shared (M : Nat) (R : Type) where
  y : Mem M R
  tmp : Nat → ZMod M → R

/-- One operation of iteration `t`. -/
def step (e : Nat × MemOp (ZMod M) R) (s : Shared M R) : Shared M R :=
  match e.2 with
  | .set p v => { s with y := Function.update s.y p v }
  | .load p => { s with tmp := Function.update s.tmp e.1 (Function.update (s.tmp e.1) p (s.y p)) }
  | .storeAdd p v => { s with y := Function.update s.y p (s.tmp e.1 p + v) }
  | .atomicAdd p v => { s with y := addTo s.y p v }

/-- Executing an interleaving. -/
def run (l : List (Nat × MemOp (ZMod M) R)) (s : Shared M R) : Shared M R := l.foldl (fun s e => step e s) s

/-- Iterations of the zeroing loop, `csc.h:184-187`, `dia.h:235-238`. -/
def zeroOps (ys : Int) (i : Nat) : List (MemOp (ZMod M) R) := [.set (ptr M (i * ys)) 0]

/-- `atomic_add`, `openmp.h:11-49`: one atomic addition for a real number, one for each of the two parts of a complex
number.  `parts v` lists what is added. -/
def atomicAdds (parts : R → List R) (p : ZMod M) (v : R) : List (MemOp (ZMod M) R) :=
  (parts v).map fun u => .atomicAdd p u

/-- Iteration `j` (a column) of the loop of `csc_matvec_omp_strided`, `csc.h:190-200` (`_contig`, `:151-161`). -/
def cscOps (parts : R → List R) (A : Compressed R) (a : R) (xs : Int) (x : Mem M R) (ys : Int) (j : Nat) :
    List (MemOp (ZMod M) R) :=
  (List.range' (A.Ap j) (A.Ap (j + 1) - A.Ap j)).flatMap fun ii =>
    atomicAdds parts (ptr M (A.Aj ii * ys)) (a * A.Ax ii * x (ptr M (j * xs)))

/-- Executions of `csc_matvec_omp_strided`, `csc.h:166-203`: the two loops one after the other (the first ends with a
barrier), each with any interleaving of its iterations. -/
def CscOmp (parts : R → List R) (overwrite : Bool) (nRow nCol : Nat) (A : Compressed R) (a : R) (xs : Int)
    (x : Mem M R) (ys : Int) (s s' : Shared M R) : Prop :=
  ∃ l₁ l₂, Interleaving (if overwrite then nRow else 0) (zeroOps ys) l₁ ∧
    Interleaving nCol (cscOps parts A a xs x ys) l₂ ∧ s' = run l₂ (run l₁ s)

/-- Iteration `n` of the loop over one diagonal of `dia_matvec_omp_strided`, `dia.h:253-256` (`_contig`,
`:210-213`). -/
def diaOps (L : Nat) (k : Int) (data : Nat → R) (i : Nat) (a : R) (xs : Int) (x : Mem M R) (ys : Int) (n : Nat) :
    List (MemOp (ZMod M) R) :=
  plainAdd (ptr M (iStart k * ys + n * ys)) (a * data (i * L + (jStart k).toNat + n) * x (ptr M (jStart k * xs + n * xs)))

/-- Executions of the loop over diagonals; the loop inside ends with a barrier. -/
inductive DiaDiagonals (nRow nCol L : Nat) (offsets : Nat → Int) (data : Nat → R) (a : R) (xs : Int) (x : Mem M R)
    (ys : Int) : Nat → Shared M R → Shared M R → Prop
  | none (s) : DiaDiagonals nRow nCol L offsets data a xs x ys 0 s s
  | next {i s s' l} : DiaDiagonals nRow nCol L offsets data a xs x ys i s s' →
      Interleaving (diagLen nRow nCol L (offsets i)) (diaOps L (offsets i) data i a xs x ys) l →
      DiaDiagonals nRow nCol L offsets data a xs x ys (i + 1) s (run l s')

/-- Executions of `dia_matvec_omp_strided`, `dia.h:218-259` (`_contig`, `:177-216`). -/
def DiaOmp (overwrite : Bool) (nRow nCol nDiags L : Nat) (offsets : Nat → Int) (data : Nat → R) (a : R)
    (xs : Int) (x : Mem M R) (ys : Int) (s s' : Shared M R) : Prop :=
  ∃ l₁, Interleaving (if overwrite then nRow else 0) (zeroOps ys) l₁ ∧
    DiaDiagonals nRow nCol L offsets data a xs x ys nDiags (run l₁ s) s'

/-! ### merge-based CSR product -/

/-- The binary search of `MergePathSearch`, `csrmv_merge.h:37-46`; list B is `0, 1, 2, …`. -/
def mergeSearch (diagonal : Nat) (a : Nat → Nat) (xMin xMax : Nat) : Nat :=
  if xMin < xMax then
    let pivot := (xMin + xMax) / 2
    if a pivot ≤ diagonal - pivot - 1 then mergeSearch diagonal a (pivot + 1) xMax
    else mergeSearch diagonal a xMin pivot
  else xMin
termination_by xMax - xMin

/-- `MergePathSearch`, `csrmv_merge.h:29-50`. -/
def mergePathSearch (diagonal aLen bLen : Nat) (a : Nat → Nat) : Nat × Nat :=
  let x := mergeSearch diagonal a (diagonal - bLen) (min diagonal aLen)
  (min x aLen, diagonal - x)

/-- `diagonal`, `csrmv_merge.h:78,114`: where iteration `tid` starts on the merge path; `num_merge_items` is
`nRow + A.Ap nRow`, `items_per_thread` is rounded up. -/
def diagonalOf (T nRow : Nat) (A : Compressed R) (tid : Nat) : Nat :=
  min ((nRow + A.Ap nRow + T - 1) / T * tid) (nRow + A.Ap nRow)

/-- `diagonal_end`, `csrmv_merge.h:79,115`. -/
def diagonalEnd (T nRow : Nat) (A : Compressed R) (tid : Nat) : Nat :=
  min (diagonalOf T nRow A tid + (nRow + A.Ap nRow + T - 1) / T) (nRow + A.Ap nRow)

/-- A coordinate on the merge path. -/
def coord (nRow : Nat) (A : Compressed R) (d : Nat) : Nat × Nat :=
  mergePathSearch d nRow (A.Ap nRow) fun i => A.Ap (i + 1)

/-- The inner loop, `csrmv_merge.h:92-93` and `:100-101`. -/
def mergeSum (A : Compressed R) (xs : Int) (x : Mem M R) (y0 y1 : Nat) : R :=
  forLoop y0 y1 (fun jj s => s + A.Ax jj * x (ptr M (A.Aj jj * xs))) 0

/-- Whole rows, `csrmv_merge.h:88-97` and `:124-133`: accesses to the output and the position in the entries. -/
def mergeRows (overwrite : Bool) (A : Compressed R) (a : R) (xs : Int) (x : Mem M R) (ys : Int) (x0 x1 y0 : Nat) :
    List (MemOp (ZMod M) R) × Nat :=
  forLoop x0 x1 (fun r (st : List (MemOp (ZMod M) R) × Nat) =>
    (st.1 ++ (if overwrite then [.set (ptr M (r * ys)) (a * mergeSum A xs x st.2 (A.Ap (r + 1)))]
        else plainAdd (ptr M (r * ys)) (a * mergeSum A xs x st.2 (A.Ap (r + 1)))),
      max st.2 (A.Ap (r + 1)))) ([], y0)

/-- Iteration `tid`: accesses to the output. -/
def mergeOps (overwrite : Bool) (T nRow : Nat) (A : Compressed R) (a : R) (xs : Int) (x : Mem M R) (ys : Int)
    (tid : Nat) : List (MemOp (ZMod M) R) :=
  (mergeRows overwrite A a xs x ys (coord nRow A (diagonalOf T nRow A tid)).1 (coord nRow A (diagonalEnd T nRow A tid)).1
    (coord nRow A (diagonalOf T nRow A tid)).2).1

/-- Iteration `tid`: `row_carry_out[tid]`, `value_carry_out[tid]`, `csrmv_merge.h:99-105`. -/
def mergeCarry (T nRow : Nat) (A : Compressed R) (xs : Int) (x : Mem M R) (tid : Nat) : Nat × R :=
  ((coord nRow A (diagonalEnd T nRow A tid)).1,
   mergeSum A xs x
    (mergeRows true A 0 xs x 0 (coord nRow A (diagonalOf T nRow A tid)).1 (coord nRow A (diagonalEnd T nRow A tid)).1
      (coord nRow A (diagonalOf T nRow A tid)).2).2
    (coord nRow A (diagonalEnd T nRow A tid)).2)

/-- `Carry-out fix-up`, `csrmv_merge.h:146-152`: done by one thread after the barrier. -/
def mergeFix (T nRow : Nat) (A : Compressed R) (a : R) (xs : Int) (x : Mem M R) (ys : Int) (y : Mem M R) : Mem M R :=
  forLoop 0 (T - 1) (fun tid y =>
    if (mergeCarry T nRow A xs x tid).1 < nRow then
      addTo y (ptr M ((mergeCarry T nRow A xs x tid).1 * ys)) (a * (mergeCarry T nRow A xs x tid).2)
    else y) y

/-- Executions of `csrmv_merge_strided` by `T` threads, `csrmv_merge.h:156-257` (`csrmv_merge`, `:52-153`). -/
def CsrOmp (overwrite : Bool) (T nRow : Nat) (A : Compressed R) (a : R) (xs : Int) (x : Mem M R) (ys : Int)
    (s : Shared M R) (y' : Mem M R) : Prop :=
  ∃ l, Interleaving T (mergeOps overwrite T nRow A a xs x ys) l ∧ y' = mergeFix T nRow A a xs x ys (run l s).y

/-! ### entry points -/

/-- Stride dispatch, `csr.h:264-330`, `csc.h:289-355`, `dia.h:342-412`; `f xs ys` is the strided function and
`f 1 1` the `_contig` one. -/
def strideDispatch {α : Type} (size : Nat) (xBytes yBytes : Int) (f : Int → Int → α) : α :=
  if elemStride yBytes size = 1 then
    if elemStride xBytes size = 1 then f 1 1 else f (elemStride xBytes size) 1
  else
    if elemStride xBytes size = 1 then f 1 (elemStride yBytes size) else f (elemStride xBytes size) (elemStride yBytes size)

/-- Stride dispatch for several vectors, `csr.h:332-427`, `csc.h:357-454`, `dia.h:414-513`; `f xsr xsc ysr ysc`. -/
def strideDispatchAll {α : Type} (size : Nat) (xr xc yr yc : Int) (f : Int → Int → Int → Int → α) : α :=
  let ysr := elemStride yr size
  let ysc := elemStride yc size
  let xsr := elemStride xr size
  let xsc := elemStride xc size
  if ysc = 1 then
    if xsc = 1 then f xsr 1 ysr 1 else if xsr = 1 then f 1 xsc ysr 1 else f xsr xsc ysr 1
  else if ysr = 1 then
    if xsc = 1 then f xsr 1 1 ysc else if xsr = 1 then f 1 xsc 1 ysc else f xsr xsc 1 ysc
  else f xsr xsc ysr ysc

/-- `atomic_add` of real numbers, `openmp.h:11-15`. -/
def realParts (v : R) : List R := [v]

/-- `atomic_add` of complex numbers, `openmp.h:17-48`: the real part, then the imaginary part. -/
noncomputable def complexParts (v : ℂ) : List ℂ := [(v.re : ℂ), (v.im : ℂ) * Complex.I]

/-- `_csr_matvec`, `_oputils.pyx:64-88`: matrices with less than `MAX_NOGIL = 100` rows use the serial function, others
the parallel one (here run by `T` threads). -/
def CsrMatvec (T size : Nat) (overwrite : Bool) (nRow : Nat) (A : Compressed R) (a : R) (xBytes : Int) (x : Mem M R)
    (yBytes : Int) (s : Shared M R) (y' : Mem M R) : Prop :=
  strideDispatch size xBytes yBytes fun xs ys =>
    if nRow < 100 then y' = csrNoomp overwrite nRow A a xs x ys s.y else CsrOmp overwrite T nRow A a xs x ys s y'

/-- `_csc_matvec`, `_oputils.pyx:120-144`. -/
def CscMatvec (parts : R → List R) (size : Nat) (overwrite : Bool) (nRow nCol : Nat) (A : Compressed R) (a : R) (xBytes : Int)
    (x : Mem M R) (yBytes : Int) (s : Shared M R) (y' : Mem M R) : Prop :=
  strideDispatch size xBytes yBytes fun xs ys =>
    if nRow < 100 then y' = cscNoomp overwrite nRow nCol A a xs x ys s.y
    else ∃ s', CscOmp parts overwrite nRow nCol A a xs x ys s s' ∧ y' = s'.y

/-- `_dia_matvec`, `_oputils.pyx:177-202`. -/
def DiaMatvec (size : Nat) (overwrite : Bool) (nRow nCol nDiags L : Nat) (offsets : Nat → Int) (data : Nat → R) (a : R)
    (xBytes : Int) (x : Mem M R) (yBytes : Int) (s : Shared M R) (y' : Mem M R) : Prop :=
  strideDispatch size xBytes yBytes fun xs ys =>
    if nRow < 100 then y' = diaNoomp overwrite nRow nCol nDiags L offsets data a xs x ys s.y
    else ∃ s', DiaOmp overwrite nRow nCol nDiags L offsets data a xs x ys s s' ∧ y' = s'.y

/-- `_matvec`, `_oputils.pyx:576-584`, through `_csr_dot`, `_csc_dot`, `_dia_dot`, `:509-553`: with `out=None` a new
zero vector is overwritten.  `core overwrite a y` is the product routine. -/
def dot (core : Bool → R → Mem M R → Mem M R) (overwrite : Bool) (out : Option (Mem M R)) (a : R) : Mem M R :=
  match out with
  | none => core true a (fun _ => 0)
  | some y => core overwrite a y

/-- The public `matvec(array, other, overwrite_out, out, a)`, `matvec_core.py:47-101`: line 101 is
`return _matvec(array,other,overwrite_out=False,out=None,a=1.0)`.  Result: the returned array and what is in `out`
afterwards. -/
def matvec (core : Bool → R → Mem M R → Mem M R) (_overwrite : Bool) (out : Option (Mem M R)) (_a : R) :
    Mem M R × Option (Mem M R) :=
  (dot core false none 1, out)

end Model.Matvec
