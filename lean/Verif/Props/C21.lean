import Verif.Proof.HeapWorld
import Mathlib.Data.Int.Star

/-!
C21  Arithmetic on a hamiltonian does not change other objects.

A program is a list of statements `runOps`: a statement binds the next variable to a new hamiltonian (`H + G`, `H.T`, ...) or
changes the hamiltonian of a variable (`H += G`, `H *= 2`, ...; `Spec.Sharing.target`).  `view` is what a user sees of a
variable: the static matrix and the drives with their matrices.

The property fails (`C21_fails_*`): `H + G`, `H += G`, `H.T`, `H.astype(.., copy=False)` share matrices with an operand, and
`H + 0`, `H**1` are `H` itself, so that a later in-place operation on the result changes the operand.  What holds:

* statements that bind a new variable change no other variable, whatever was done before (`C21_pure`);
* an in-place operation changes only variables that share data with its target (`C21_in_place_partial`);
* programs without the sharing statements keep all hamiltonians apart, so that an in-place operation changes only its target
  (`C21_apart_partial`).
-/

namespace Props
open Model.Ham (Mat)
open Model.Heap Spec.Sharing Proof.Heap

section

variable {K n R : Type} [DecidableEq K] [CommRing R] [StarRing R] [Fintype n] (env : HEnv K n R)

/-- Whatever was done before (`p`), statements that bind new variables (`l`) leave the value of every variable as it is. -/
theorem C21_pure (p l : List (Op K n R)) (hl : ∀ op ∈ l, target op = none) (u : Nat)
    (hu : u < (runOps env start p).vars.length) :
    (runOps env start (p ++ l)).view u = (runOps env start p).view u := by
  have hp := runOps_wf env p _ start_wf
  rw [runOps, List.foldl_append, ← runOps, ← runOps]
  generalize runOps env start p = w at *
  induction l generalizing w with
  | nil => rfl
  | cons op l ih =>
    have k := kind env hp op
    have ht := hl op (by simp)
    rw [ht] at k
    obtain ⟨k1, k2⟩ := kind_none_view hp k hu
    exact (ih (fun o ho => hl o (by simp [ho])) (step env w op) k2 (kind_wf hp (kind env hp op))).trans k1

/-- After any program, an in-place operation on a variable changes no variable that does not share data with it.
Missing: sums, in-place sums, transposes and conversions share data (`C21_fails_sum` and the other failures). -/
theorem C21_in_place_partial (p : List (Op K n R)) (op : Op K n R) (v : Nat) (ht : target op = some v) (u : Nat)
    (hu : u < (runOps env start p).vars.length) (hs : ¬Shares (runOps env start p) v u) :
    (step env (runOps env start p) op).view u = (runOps env start p).view u := by
  have hp := runOps_wf env p _ start_wf
  have k := kind env hp op
  rw [ht] at k
  exact kind_some_view hp k hu hs

/-- After a program without sharing statements an in-place operation changes only the variable it is applied to.
Missing: sums, in-place sums, transposes and conversions share data (`C21_fails_sum` and the other failures). -/
theorem C21_apart_partial (p : List (Op K n R)) (hp : ApartAll env start p) (op : Op K n R) (v : Nat) (ht : target op = some v) (u : Nat)
    (hu : u < (runOps env start p).vars.length) (huv : u ≠ v) :
    (step env (runOps env start p) op).view u = (runOps env start p).view u :=
  C21_in_place_partial env p op v ht u hu (sep_not_shares (runOps_sep env p _ start_wf start_sep hp) hu huv)

/-- In such programs no two variables share data.
Missing: sums, in-place sums, transposes and conversions share data (`C21_fails_sum` and the other failures). -/
theorem C21_no_sharing_partial (p : List (Op K n R)) (hp : ApartAll env start p) (u v : Nat)
    (hu : u < (runOps env start p).vars.length) (huv : u ≠ v) : ¬Shares (runOps env start p) v u :=
  sep_not_shares (runOps_sep env p _ start_wf start_sep hp) hu huv

end

/-! ### Examples -/

/-- A one by one matrix. -/
def cell1 (f : Model.Ham.Fmt) (x : ℤ) : Mat Unit Unit ℤ := ⟨f, fun _ _ => x⟩

/-- Nothing is tiny except zero; drives are numbers. -/
def env1 : HEnv Nat Unit ℤ := ⟨fun M => M () () = 0, (· * ·), id⟩

/-- Numbers in a view. -/
def numbers (v : Option (Mat Unit Unit ℤ × List (Nat × Mat Unit Unit ℤ))) : Option (ℤ × List (Nat × ℤ)) :=
  v.map fun p => (p.1.val () (), p.2.map fun e => (e.1, e.2.val () ()))

/-- Two hamiltonians with different drives. -/
def two (f : Model.Ham.Fmt) : List (Op Nat Unit ℤ) := [.new (cell1 f 1) [(0, cell1 f 2)], .new (cell1 f 3) [(1, cell1 f 4)]]

/-- A program with sums, products, adjoints and in-place operations that meets the hypotheses of `C21_apart_partial`. -/
def tidy : List (Op Nat Unit ℤ) :=
  [.new (cell1 .sparse 1) [(0, cell1 .array 2)], .copy 0, .add 0 1, .adjoint false 2, .mul 3 0, .imulScalar 2 5, .sub 4 2, .pow 0 2]

theorem tidy_apart : ApartAll env1 start tidy := by
  refine ⟨trivial, trivial, ?_, trivial, trivial, trivial, trivial, trivial, trivial⟩
  intro a b ha hb k hk
  have ha' : a.dynamic = [(0, ⟨2, false⟩)] := by
    have h : some a = some _ := ha.symm.trans rfl
    rw [Option.some.inj h]
    rfl
  have hb' : b.dynamic = [(0, ⟨4, false⟩)] := by
    have h : some b = some _ := hb.symm.trans rfl
    rw [Option.some.inj h]
    rfl
  rw [hb'] at hk
  rw [ha']
  exact hk

example : (runOps env1 start tidy).vars.length = 7 := by decide

example : numbers ((runOps env1 start tidy).view 2) = some (10, [(0, 20)]) := by decide

/-- The in-place operation changes its own variable: the conclusion is about a program that changes something. -/
example : numbers ((step env1 (runOps env1 start tidy) (.imulScalar 2 7)).view 2) = some (70, [(0, 140)]) ∧
    numbers ((step env1 (runOps env1 start tidy) (.imulScalar 2 7)).view 3) = some (2, [(0, 4)]) := by decide

/-! ### The property fails -/

/-- `C = A + B; C *= 2` changes `B`, if `B` has a drive that `A` does not have. -/
theorem C21_fails_sum (f : Model.Ham.Fmt) :
    numbers ((runOps env1 start (two f ++ [.add 0 1])).view 1) = some (3, [(1, 4)]) ∧
      numbers ((runOps env1 start (two f ++ [.add 0 1, .imulScalar 2 2])).view 1) = some (3, [(1, 8)]) := by
  cases f <;> decide

/-- `A += B; A *= 2` changes `B`, if `B` has a drive that `A` does not have. -/
theorem C21_fails_in_place_sum (f : Model.Ham.Fmt) :
    numbers ((runOps env1 start (two f ++ [.iadd 0 1, .imulScalar 0 2])).view 1) = some (3, [(1, 8)]) := by
  cases f <;> decide

/-- `C = A.T; C *= 2` changes `A`. -/
theorem C21_fails_transpose (f : Model.Ham.Fmt) :
    numbers ((runOps env1 start (two f ++ [.transpose false 0, .imulScalar 2 2])).view 0) = some (1, [(0, 4)]) := by
  cases f <;> decide

/-- `C = A.astype(A.dtype); C *= 2` changes `A`. -/
theorem C21_fails_astype (f : Model.Ham.Fmt) :
    numbers ((runOps env1 start (two f ++ [.astype false 0, .imulScalar 2 2])).view 0) = some (1, [(0, 4)]) := by
  cases f <;> decide

/-- `C = A + 0; C *= 2` and `C = A**1; C *= 2` change `A`. -/
theorem C21_fails_zero (f : Model.Ham.Fmt) :
    numbers ((runOps env1 start (two f ++ [.addZero 0, .imulScalar 2 2])).view 0) = some (2, [(0, 4)]) ∧
      numbers ((runOps env1 start (two f ++ [.pow 0 1, .imulScalar 2 2])).view 0) = some (2, [(0, 4)]) := by
  cases f <;> decide

end Props
