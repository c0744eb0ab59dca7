import Verif.Proof.QOpHeap
import Mathlib.LinearAlgebra.Matrix.Notation

/-!
C59: arithmetic with `quantum_operator`s gives the right operator and leaves other operators and the user's matrices unchanged.

The full statement is false (`C59_fails_*` below): copies, transposes and sums share matrices with their operands, `-A` changes `A`, the
constructor adds into the first of several matrices, `A -= A` stops after the first name.  What holds is proved below.

Models `quantum_operator_core.py` on a heap of matrices (`Model/QOpHeap.lean`).
-/

namespace Props
open Model.Ham (Mat)
open Model.QOpHeap Spec.QOpSharing Spec.Pars

section
variable {n R : Type} [CommRing R] (tiny : Matrix n n R → Bool)

/-- After any program, the sum of two operators has the sum of the values, for all parameters. -/
theorem C59_add (ht : ∀ M, tiny M = true → M = 0) (p : List (Stmt n R)) (hp : Dicts p) (v u : Nat) (A B : List (String × Matrix n n R))
    (hA : (run tiny start p).view v = some A) (hB : (run tiny start p).view u = some B) :
    ∃ C, (run tiny start (p ++ [.add v u])).view (run tiny start p).vars.length = some C ∧
      ∀ d, value C d = value A d + value B d := by
  have wf := Proof.QOpHeap.run_wf tiny p hp _ Proof.QOpHeap.start_wf'
  simp only [Proof.QOpHeap.run_snoc]
  generalize run tiny start p = w at *
  obtain ⟨a, ha, rfl⟩ := Option.map_eq_some_iff.mp hA
  obtain ⟨b, hb, rfl⟩ := Option.map_eq_some_iff.mp hB
  have : ((w.emit (add tiny w.heap a b)).view w.vars.length) = some (entries (add tiny w.heap a b).1 (add tiny w.heap a b).2) := by
    simp [World.view, World.obj, World.emit]
  refine ⟨_, by simpa [step, ha, hb] using this, fun d => ?_⟩
  exact Proof.QOpHeap.add_val tiny ht d (wf.objs a (Proof.QOpHeap.obj_mem' ha)) (wf.objs b (Proof.QOpHeap.obj_mem' hb))

/-- The difference. -/
theorem C59_sub (ht : ∀ M, tiny M = true → M = 0) (p : List (Stmt n R)) (hp : Dicts p) (v u : Nat) (A B : List (String × Matrix n n R))
    (hA : (run tiny start p).view v = some A) (hB : (run tiny start p).view u = some B) :
    ∃ C, (run tiny start (p ++ [.sub v u])).view (run tiny start p).vars.length = some C ∧
      ∀ d, value C d = value A d - value B d := by
  have wf := Proof.QOpHeap.run_wf tiny p hp _ Proof.QOpHeap.start_wf'
  simp only [Proof.QOpHeap.run_snoc]
  generalize run tiny start p = w at *
  obtain ⟨a, ha, rfl⟩ := Option.map_eq_some_iff.mp hA
  obtain ⟨b, hb, rfl⟩ := Option.map_eq_some_iff.mp hB
  have : ((w.emit (sub tiny w.heap a b)).view w.vars.length) = some (entries (sub tiny w.heap a b).1 (sub tiny w.heap a b).2) := by
    simp [World.view, World.obj, World.emit]
  refine ⟨_, by simpa [step, ha, hb] using this, fun d => ?_⟩
  exact Proof.QOpHeap.sub_val tiny ht d (wf.objs a (Proof.QOpHeap.obj_mem' ha)) (wf.objs b (Proof.QOpHeap.obj_mem' hb))

/-- The product with a number, even if names share matrices. -/
theorem C59_mul (ht : ∀ M, tiny M = true → M = 0) (p : List (Stmt n R)) (hp : Dicts p) (v : Nat) (x : R) (A : List (String × Matrix n n R))
    (hA : (run tiny start p).view v = some A) :
    ∃ C, (run tiny start (p ++ [.mul v x])).view (run tiny start p).vars.length = some C ∧ ∀ d, value C d = x • value A d := by
  have wf := Proof.QOpHeap.run_wf tiny p hp _ Proof.QOpHeap.start_wf'
  simp only [Proof.QOpHeap.run_snoc]
  generalize run tiny start p = w at *
  obtain ⟨a, ha, rfl⟩ := Option.map_eq_some_iff.mp hA
  have : ((w.emit (mul tiny x w.heap a)).view w.vars.length) = some (entries (mul tiny x w.heap a).1 (mul tiny x w.heap a).2) := by
    simp [World.view, World.obj, World.emit]
  refine ⟨_, by simpa [step, ha] using this, fun d => ?_⟩
  exact Proof.QOpHeap.mul_val tiny ht x d (wf.objs a (Proof.QOpHeap.obj_mem' ha))

/-- Copies. -/
theorem C59_copy (ht : ∀ M, tiny M = true → M = 0) (p : List (Stmt n R)) (v : Nat) (A : List (String × Matrix n n R))
    (hA : (run tiny start p).view v = some A) :
    ∃ C, (run tiny start (p ++ [.copy v])).view (run tiny start p).vars.length = some C ∧ ∀ d, value C d = value A d := by
  simp only [Proof.QOpHeap.run_snoc]
  generalize run tiny start p = w at *
  obtain ⟨a, ha, rfl⟩ := Option.map_eq_some_iff.mp hA
  have : ((w.emit (copyObj tiny w.heap a)).view w.vars.length) = some (entries (copyObj tiny w.heap a).1 (copyObj tiny w.heap a).2) := by
    simp [World.view, World.obj, World.emit]
  refine ⟨_, by simpa [step, ha] using this, fun d => ?_⟩
  exact Proof.QOpHeap.val_dropTiny tiny ht d w.heap a

/-- Transposes. -/
theorem C59_transpose (ht : ∀ M, tiny M = true → M = 0) (p : List (Stmt n R)) (v : Nat) (A : List (String × Matrix n n R))
    (hA : (run tiny start p).view v = some A) :
    ∃ C, (run tiny start (p ++ [.transpose v])).view (run tiny start p).vars.length = some C ∧
      ∀ d, value C d = (value A d).transpose := by
  simp only [Proof.QOpHeap.run_snoc]
  generalize run tiny start p = w at *
  obtain ⟨a, ha, rfl⟩ := Option.map_eq_some_iff.mp hA
  have : ((w.emit (transpose tiny w.heap a)).view w.vars.length) =
      some (entries (transpose tiny w.heap a).1 (transpose tiny w.heap a).2) := by
    simp [World.view, World.obj, World.emit]
  refine ⟨_, by simpa [step, ha] using this, fun d => ?_⟩
  exact Proof.QOpHeap.transpose_val tiny ht d a

/-- `A += B` for different operators: the new value is the sum, and all other operators and all matrices of the user keep their values.
Missing: operators that share matrices, `A += A`, several matrices for one name (`C59_fails_copy`, `C59_fails_self`, `C59_fails_twice`, `C59_fails_user`). -/
theorem C59_iadd_partial (ht : ∀ M, tiny M = true → M = 0) (p : List (Stmt n R)) (hp : Dicts p) (v u : Nat) (A B : List (String × Matrix n n R))
    (hA : (run tiny start p).view v = some A) (hB : (run tiny start p).view u = some B)
    (hne : (run tiny start p).vars[v]? ≠ (run tiny start p).vars[u]?) :
    (∃ C, (run tiny start (p ++ [.iadd v u])).view v = some C ∧ ∀ d, value C d = value A d + value B d) ∧
      (∀ k, (run tiny start p).vars[k]? ≠ (run tiny start p).vars[v]? →
        (run tiny start (p ++ [.iadd v u])).view k = (run tiny start p).view k) ∧
      ∀ i, (run tiny start (p ++ [.iadd v u])).viewMat i = (run tiny start p).viewMat i := by
  have wf := Proof.QOpHeap.run_wf tiny p hp _ Proof.QOpHeap.start_wf'
  simp only [Proof.QOpHeap.run_snoc]
  generalize run tiny start p = w at *
  obtain ⟨a, ha, rfl⟩ := Option.map_eq_some_iff.mp hA
  obtain ⟨b, hb, rfl⟩ := Option.map_eq_some_iff.mp hB
  have ka := wf.objs a (Proof.QOpHeap.obj_mem' ha)
  have kb := wf.objs b (Proof.QOpHeap.obj_mem' hb)
  obtain ⟨hf, -⟩ := Proof.QOpHeap.addLoop_ok tiny ka kb
  have hs : step tiny w (.iadd v u) = w.change v (addLoop tiny w.heap a b) := by simp [step, ha, hb, hne]
  rw [hs]
  refine ⟨⟨_, by rw [World.view, Proof.QOpHeap.obj_change ha, if_pos rfl]; rfl, fun d => Proof.QOpHeap.addLoop_val tiny ht d b ka kb.bound⟩,
    fun k hk => ?_, fun i => ?_⟩
  · refine Proof.QOpHeap.view_same (by rw [Proof.QOpHeap.obj_change ha, if_neg hk]) fun o ho e he => ?_
    have hb := (wf.objs o (Proof.QOpHeap.obj_mem' ho)).bound e he
    exact Proof.Heap.get_frame hf hb (Nat.not_le.mpr hb)
  · unfold World.viewMat
    rcases hi : w.mats[i]? with _ | r
    · simp [World.change, hi]
    · have hb := wf.mats r (List.mem_of_getElem? hi)
      simp only [World.change, hi, Option.map_some, Option.some.injEq]
      rw [Proof.Heap.get_frame hf hb (Nat.not_le.mpr hb)]

/-- `A -= B` for different operators.
Missing: operators that share matrices, `A += A`, several matrices for one name (`C59_fails_copy`, `C59_fails_self`, `C59_fails_twice`, `C59_fails_user`). -/
theorem C59_isub_partial (ht : ∀ M, tiny M = true → M = 0) (p : List (Stmt n R)) (hp : Dicts p) (v u : Nat) (A B : List (String × Matrix n n R))
    (hA : (run tiny start p).view v = some A) (hB : (run tiny start p).view u = some B)
    (hne : (run tiny start p).vars[v]? ≠ (run tiny start p).vars[u]?) :
    (∃ C, (run tiny start (p ++ [.isub v u])).view v = some C ∧ ∀ d, value C d = value A d - value B d) ∧
      (∀ k, (run tiny start p).vars[k]? ≠ (run tiny start p).vars[v]? →
        (run tiny start (p ++ [.isub v u])).view k = (run tiny start p).view k) ∧
      ∀ i, (run tiny start (p ++ [.isub v u])).viewMat i = (run tiny start p).viewMat i := by
  have wf := Proof.QOpHeap.run_wf tiny p hp _ Proof.QOpHeap.start_wf'
  simp only [Proof.QOpHeap.run_snoc]
  generalize run tiny start p = w at *
  obtain ⟨a, ha, rfl⟩ := Option.map_eq_some_iff.mp hA
  obtain ⟨b, hb, rfl⟩ := Option.map_eq_some_iff.mp hB
  have ka := wf.objs a (Proof.QOpHeap.obj_mem' ha)
  have kb := wf.objs b (Proof.QOpHeap.obj_mem' hb)
  obtain ⟨hf, -⟩ := Proof.QOpHeap.subLoop_ok tiny ka kb
  have hs : step tiny w (.isub v u) = w.change v (subLoop tiny w.heap a b) := by simp [step, ha, hb, hne]
  rw [hs]
  refine ⟨⟨_, by rw [World.view, Proof.QOpHeap.obj_change ha, if_pos rfl]; rfl, fun d => Proof.QOpHeap.subLoop_val tiny ht d b ka kb.bound⟩,
    fun k hk => ?_, fun i => ?_⟩
  · refine Proof.QOpHeap.view_same (by rw [Proof.QOpHeap.obj_change ha, if_neg hk]) fun o ho e he => ?_
    have hb := (wf.objs o (Proof.QOpHeap.obj_mem' ho)).bound e he
    exact Proof.Heap.get_frame hf hb (Nat.not_le.mpr hb)
  · unfold World.viewMat
    rcases hi : w.mats[i]? with _ | r
    · simp [World.change, hi]
    · have hb := wf.mats r (List.mem_of_getElem? hi)
      simp only [World.change, hi, Option.map_some, Option.some.injEq]
      rw [Proof.Heap.get_frame hf hb (Nat.not_le.mpr hb)]

/-- `A *= x` for an operator whose names do not share matrices; only operators and matrices that share a matrix with `A` change.
Missing: operators that share matrices, `A += A`, several matrices for one name (`C59_fails_copy`, `C59_fails_self`, `C59_fails_twice`, `C59_fails_user`). -/
theorem C59_imul_partial (p : List (Stmt n R)) (hp : Dicts p) (v : Nat) (x : R) (a : Obj) (ha : (run tiny start p).obj v = some a)
    (hd : Distinct a) :
    (∃ A C, (run tiny start p).view v = some A ∧ (run tiny start (p ++ [.imul v x])).view v = some C ∧ ∀ d, value C d = x • value A d) ∧
      (∀ k o, (run tiny start p).obj k = some o → (∀ l ∈ cells o, l ∉ cells a) →
        (run tiny start (p ++ [.imul v x])).view k = (run tiny start p).view k) ∧
      ∀ i r, (run tiny start p).mats[i]? = some r → r.loc ∉ cells a →
        (run tiny start (p ++ [.imul v x])).viewMat i = (run tiny start p).viewMat i := by
  have wf := Proof.QOpHeap.run_wf tiny p hp _ Proof.QOpHeap.start_wf'
  simp only [Proof.QOpHeap.run_snoc]
  generalize run tiny start p = w at *
  have ka := wf.objs a (Proof.QOpHeap.obj_mem' ha)
  have hs : step tiny w (.imul v x) = w.change v (imulLoop x w.heap a, a) := by simp [step, ha]
  obtain ⟨hf, -⟩ := Proof.QOpHeap.imulLoop_frame x (P := fun l => l ∈ cells a) a w.heap
    fun e he => List.mem_map_of_mem (f := fun e : String × Model.Heap.Ref => e.2.loc) he
  rw [hs]
  refine ⟨⟨_, _, by rw [World.view, ha]; rfl, by rw [World.view, Proof.QOpHeap.obj_change ha, if_pos rfl]; rfl,
    fun d => Proof.QOpHeap.imulLoop_val x d a w.heap ka.bound hd⟩, fun k o ho hsep => ?_, fun i r hi hsep => ?_⟩
  · refine Proof.QOpHeap.view_same ?_ fun o' ho' e he => ?_
    · rw [Proof.QOpHeap.obj_change ha]
      split
      · rename_i h
        rw [World.obj, h]
        exact ha.symm
      · rfl
    · obtain rfl : o = o' := by rw [ho] at ho'; exact Option.some.inj ho'
      have hb := (wf.objs o (Proof.QOpHeap.obj_mem' ho)).bound e he
      exact Proof.Heap.get_frame hf hb (hsep _ (List.mem_map_of_mem (f := fun e : String × Model.Heap.Ref => e.2.loc) he))
  · unfold World.viewMat
    have hb := wf.mats r (List.mem_of_getElem? hi)
    simp only [World.change, hi, Option.map_some, Option.some.injEq]
    rw [Proof.Heap.get_frame hf hb hsep]

/-- The product of an operator with a number never shares matrices with anything, so it can be changed freely. -/
theorem C59_mul_separate (p : List (Stmt n R)) (hp : Dicts p) (v : Nat) (x : R) (o : Obj)
    (ho : (run tiny start (p ++ [.mul v x])).obj (run tiny start p).vars.length = some o) :
    Distinct o ∧ (∀ k < (run tiny start p).vars.length, ∀ a, (run tiny start (p ++ [.mul v x])).obj k = some a → ∀ l ∈ cells a, l ∉ cells o) ∧
      ∀ r ∈ (run tiny start (p ++ [.mul v x])).mats, r.loc ∉ cells o := by
  have wf := Proof.QOpHeap.run_wf tiny p hp _ Proof.QOpHeap.start_wf'
  have hr : run tiny start (p ++ [.mul v x]) = step tiny (run tiny start p) (.mul v x) := by rw [run, List.foldl_append]; rfl
  rw [hr] at ho ⊢
  generalize run tiny start p = w at *
  rcases ha : w.obj v with _ | a
  · simp only [step, ha, Option.elim_none] at ho
    simp [World.obj] at ho
  · have ka := wf.objs a (Proof.QOpHeap.obj_mem' ha)
    have hs : step tiny w (.mul v x) = w.emit (mul tiny x w.heap a) := by simp [step, ha]
    rw [hs] at ho ⊢
    have hoe : (mul tiny x w.heap a).2 = o := by simpa [World.obj, World.emit] using ho
    obtain ⟨-, -, hfr⟩ := Proof.QOpHeap.astype_ok' tiny ka
    have hfresh : ∀ l ∈ cells o, w.heap.length ≤ l := by
      intro l hl
      obtain ⟨e, he, rfl⟩ := List.mem_map.mp hl
      exact hfr e (by rw [← hoe] at he; exact he)
    refine ⟨?_, fun k hk b hb l hl hlo => ?_, fun r hr hlo => ?_⟩
    · rw [← hoe]
      exact (Proof.QOpHeap.mapDyn_entries a w.heap ka.bound).2.sublist (List.Sublist.map _ List.filter_sublist)
    · rw [World.emit, Proof.QOpHeap.obj_emit wf hk] at hb
      obtain ⟨e, he, rfl⟩ := List.mem_map.mp hl
      have := (wf.objs b (Proof.QOpHeap.obj_mem' hb)).bound e he
      have := hfresh _ hlo
      omega
    · have := wf.mats r hr
      have := hfresh _ hlo
      omega

/-- Making something new — a matrix, an operator from at most one matrix per name, a copy, transpose, sum, difference or multiple — leaves
all existing operators and all matrices of the user as they are, after any program.
Missing: operators that share matrices, `A += A`, several matrices for one name (`C59_fails_copy`, `C59_fails_self`, `C59_fails_twice`, `C59_fails_user`). -/
theorem C59_pure_partial (p : List (Stmt n R)) (hp : Dicts p) (s : Stmt n R) (hs : Dicts [s]) (hpure : Spec.QOpSharing.Pure s) (h1 : Single s) :
    (∀ u < (run tiny start p).vars.length, (run tiny start (p ++ [s])).view u = (run tiny start p).view u) ∧
      ∀ i < (run tiny start p).mats.length, (run tiny start (p ++ [s])).viewMat i = (run tiny start p).viewMat i := by
  have wf := Proof.QOpHeap.run_wf tiny p hp _ Proof.QOpHeap.start_wf'
  have hr : run tiny start (p ++ [s]) = step tiny (run tiny start p) s := by rw [run, List.foldl_append]; rfl
  rw [hr]
  obtain ⟨a, b⟩ := Proof.QOpHeap.pure_same tiny wf s (fun l hl => hs l (by simp [hl])) hpure h1
  exact ⟨fun u hu => (a u hu).1, fun i hi => (b i hi).1⟩

/-- Consequently a whole sequence of such statements leaves everything before it as it is.
Missing: operators that share matrices, `A += A`, several matrices for one name (`C59_fails_copy`, `C59_fails_self`, `C59_fails_twice`, `C59_fails_user`). -/
theorem C59_pure_history_partial (p q : List (Stmt n R)) (hp : Dicts (p ++ q)) (hpure : ∀ s ∈ q, Spec.QOpSharing.Pure s) (h1 : ∀ s ∈ q, Single s) :
    (∀ u < (run tiny start p).vars.length, (run tiny start (p ++ q)).view u = (run tiny start p).view u) ∧
      ∀ i < (run tiny start p).mats.length, (run tiny start (p ++ q)).viewMat i = (run tiny start p).viewMat i := by
  have wf := Proof.QOpHeap.run_wf tiny p (fun l hl => hp l (by simp [hl])) _ Proof.QOpHeap.start_wf'
  have hr : run tiny start (p ++ q) = run tiny (run tiny start p) q := by rw [run, List.foldl_append]; rfl
  rw [hr]
  have hq : Dicts q := fun l hl => hp l (by simp [hl])
  generalize run tiny start p = w at *
  clear hr hp
  induction q generalizing w with
  | nil => exact ⟨fun _ _ => rfl, fun _ _ => rfl⟩
  | cons s q ih =>
    obtain ⟨a, b⟩ := Proof.QOpHeap.pure_same tiny wf s (fun l hl => hq l (by simp [hl])) (hpure s (by simp)) (h1 s (by simp))
    obtain ⟨c, d⟩ := ih (fun x hx => hpure x (by simp [hx])) (fun x hx => h1 x (by simp [hx])) (fun l hl => hq l (by simp [hl])) _
      (Proof.QOpHeap.step_wf tiny wf s fun l hl => hq l (by simp [hl]))
    exact ⟨fun u hu => (c u (a u hu).2).trans (a u hu).1, fun i hi => (d i (b i hi).2).trans (b i hi).1⟩

end

/-! ### A concrete program, and what goes wrong -/

/-- Zero is the only almost zero matrix. -/
def isZero : Matrix (Fin 1) (Fin 1) ℤ → Bool := fun M => decide (M 0 0 = 0)

theorem isZero_exact (M : Matrix (Fin 1) (Fin 1) ℤ) (h : isZero M = true) : M = 0 := by
  ext i j
  rw [Subsingleton.elim i 0, Subsingleton.elim j 0]
  exact of_decide_eq_true h

/-- A matrix of one row. -/
def single1 (sparse : Bool) (x : ℤ) : Mat (Fin 1) (Fin 1) ℤ := ⟨if sparse then .sparse else .array, !![x]⟩

/-- Two operators: `{"J": 3, "h": 5}` and `{"J": 2}`. -/
def twoOps : List (Stmt (Fin 1) ℤ) := [.mat (single1 true 3), .mat (single1 true 5), .mat (single1 true 2), .new [("J", [0]), ("h", [1])], .new [("J", [2])]]

/-- Read an operator off as numbers. -/
def numbersOf (p : List (Stmt (Fin 1) ℤ)) (v : Nat) : Option (List (String × ℤ)) :=
  ((run isZero start p).view v).map fun l => l.map fun e => (e.1, e.2 0 0)

/-- Read a matrix of the user off. -/
def matrixOf (p : List (Stmt (Fin 1) ℤ)) (i : Nat) : Option ℤ := ((run isZero start p).viewMat i).map fun M => M 0 0

example : Dicts twoOps ∧ numbersOf twoOps 0 = some [("J", 3), ("h", 5)] ∧ numbersOf twoOps 1 = some [("J", 2)] ∧
    numbersOf (twoOps ++ [.add 0 1]) 2 = some [("J", 5), ("h", 5)] ∧ numbersOf (twoOps ++ [.sub 1 0]) 2 = some [("J", -1), ("h", -5)] ∧
    numbersOf (twoOps ++ [.mul 0 7]) 2 = some [("J", 21), ("h", 35)] ∧
    (run isZero start twoOps).vars[0]? ≠ (run isZero start twoOps).vars[1]? ∧
    ∃ a, (run isZero start twoOps).obj 0 = some a ∧ Distinct a := by
  refine ⟨?_, by decide, by decide, by decide, by decide, by decide, by decide, _, rfl, by simp [Distinct]; decide⟩
  intro l hl
  simp only [twoOps, List.mem_cons, List.not_mem_nil, or_false, reduceCtorEq, false_or, Stmt.new.injEq] at hl
  rcases hl with rfl | rfl <;> decide

/-- Defect: `A.copy()` shares the matrices of `A`: scaling the copy in place scales `A`. -/
theorem C59_fails_copy : numbersOf (twoOps ++ [.copy 0]) 0 = some [("J", 3), ("h", 5)] ∧
    numbersOf (twoOps ++ [.copy 0, .imul 2 10]) 0 = some [("J", 30), ("h", 50)] := by decide

/-- Defect: so does the transpose. -/
theorem C59_fails_transpose : numbersOf (twoOps ++ [.transpose 0, .imul 2 10]) 0 = some [("J", 30), ("h", 50)] := by decide

/-- Defect: `C = B + A` shares the matrices of names that only `A` has: scaling the sum changes `A`. -/
theorem C59_fails_sum : numbersOf (twoOps ++ [.add 1 0]) 2 = some [("J", 5), ("h", 5)] ∧
    numbersOf (twoOps ++ [.add 1 0, .imul 2 10]) 0 = some [("J", 3), ("h", 50)] := by decide

/-- Defect: scaling an operator scales the user's matrices. -/
theorem C59_fails_user : matrixOf twoOps 0 = some 3 ∧ matrixOf (twoOps ++ [.imul 0 10]) 0 = some 30 := by decide

/-- Defect: `-A` changes `A`. -/
theorem C59_fails_neg : numbersOf (twoOps ++ [.neg 0]) 2 = some [("J", -3), ("h", -5)] ∧
    numbersOf (twoOps ++ [.neg 0]) 0 = some [("J", -3), ("h", -5)] := by decide

/-- Defect: an operator made from two dense matrices under one name changes the first matrix of the caller. -/
theorem C59_fails_constructor :
    numbersOf [.mat (single1 false 3), .mat (single1 false 5), .new [("J", [0, 1])]] 0 = some [("J", 8)] ∧
      matrixOf [.mat (single1 false 3), .mat (single1 false 5), .new [("J", [0, 1])]] 0 = some 8 := by decide

/-- Defect: one matrix under two names is scaled twice by `*=`. -/
theorem C59_fails_twice : numbersOf [.mat (single1 true 3), .new [("J", [0]), ("h", [0])], .imul 0 10] 0 = some [("J", 300), ("h", 300)] := by decide

/-- Defect: `A -= A` stops after the first name. -/
theorem C59_fails_self : numbersOf (twoOps ++ [.isub 0 0]) 0 = some [("h", 5)] := by decide

end Props
