import Verif.Model.ExpOp

/-!
Proofs about `exp_op` (C24, C60).
-/

namespace Proof.ExpOp
open Matrix Model.ExpOp Spec.Reads

variable {n m : Type} [Fintype n] [DecidableEq n]

theorem exp_map_star (A : Matrix n n ℂ) : NormedSpace.exp (A.map star) = (NormedSpace.exp A).map star := by
  have h : A.map star = Aᴴᵀ := rfl
  rw [h, Matrix.exp_transpose, Matrix.exp_conjTranspose]
  rfl

theorem getMat_read (r : Read) (x : Obj n) : getMat (readSelf r x) = r.of (getMat x) := by
  cases r with
  | T =>
    rw [readSelf, transposeSelf, getMat, getMat, ← Matrix.transpose_smul, Matrix.exp_transpose]
    rfl
  | conj =>
    have : star x.a • x.O.map star = (x.a • x.O).map star := by
      ext i j
      simp
    rw [readSelf, conjSelf, getMat, getMat, this, exp_map_star]
    rfl
  | H =>
    rw [readSelf, getHSelf, getMat, getMat, ← Matrix.conjTranspose_smul, Matrix.exp_conjTranspose]
    rfl

omit [Fintype n] [DecidableEq n] in
/-- Variables refer to objects. -/
def WF (w : World n) : Prop := ∀ i ∈ w.vars, i < w.objs.length

omit [Fintype n] [DecidableEq n] in
theorem obj_idx {w : World n} {v : Nat} {x : Obj n} (h : w.obj v = some x) : ∃ i, w.vars[v]? = some i ∧ w.objs[i]? = some x ∧ w.vars.getD v 0 = i := by
  simp only [World.obj, Option.bind_eq_some_iff] at h
  obtain ⟨i, hi, hx⟩ := h
  exact ⟨i, hi, hx, by rw [List.getD_eq_getElem?_getD, hi]; rfl⟩

theorem step_wf {w : World n} (wf : WF w) (s : Stmt n) : WF (step w s) := by
  have emit : ∀ x, WF (w.emit x) := by
    intro x i hi
    simp only [World.emit, List.mem_append, List.mem_singleton, List.length_append, List.length_singleton] at hi ⊢
    rcases hi with hi | rfl
    · have := wf i hi
      omega
    · omega
  cases s with
  | new O a => exact emit _
  | read r v =>
    simp only [step]
    rcases hv : w.obj v with _ | x
    · exact wf
    · obtain ⟨i, hi, hx, hd⟩ := obj_idx hv
      intro j hj
      simp only [Option.elim_some, World.again, World.change, List.length_set, List.mem_append, List.mem_singleton] at hj ⊢
      rcases hj with hj | hj
      · exact wf j hj
      · rw [hj, hd]
        exact wf i (List.mem_of_getElem? hi)
  | transposeCopy v => simp only [step]; rcases w.obj v with _ | x; exacts [wf, emit _]
  | getHCopy v => simp only [step]; rcases w.obj v with _ | x; exacts [wf, emit _]
  | copy v => simp only [step]; rcases w.obj v with _ | x; exacts [wf, emit _]
  | setA v a =>
    simp only [step]
    rcases w.obj v with _ | x
    · exact wf
    · intro j hj
      simpa [World.change] using wf j hj
  | getMat v => simp only [step]; rcases w.obj v with _ | x <;> exact wf
  | dot v V => simp only [step]; rcases w.obj v with _ | x <;> exact wf
  | rdot v V => simp only [step]; rcases w.obj v with _ | x <;> exact wf
  | sandwich v C =>
    simp only [step]
    rcases w.obj v with _ | x
    · exact wf
    · intro j hj
      simpa [World.change, World.print] using wf j hj

theorem run_wf (p : List (Stmt n)) : ∀ w : World n, WF w → WF (run w p) := by
  induction p with
  | nil => intro w h; exact h
  | cons s p ih => intro w h; exact ih _ (step_wf h s)

theorem run_snoc (w : World n) (p : List (Stmt n)) (s : Stmt n) : run w (p ++ [s]) = step (run w p) s := by
  rw [run, List.foldl_append]
  rfl

omit [Fintype n] [DecidableEq n] in
theorem obj_emit {w : World n} (wf : WF w) {u : Nat} (hu : u < w.vars.length) (x : Obj n) : (w.emit x).obj u = w.obj u := by
  unfold World.obj World.emit
  have hi := wf _ (List.getElem_mem hu)
  simp only [List.getElem?_append_left hu, List.getElem?_eq_getElem hu, Option.bind_some, List.getElem?_append_left hi]

omit [Fintype n] [DecidableEq n] in
theorem obj_change {w : World n} {v : Nat} {x : Obj n} (h : w.obj v = some x) (y : Obj n) (u : Nat) :
    (w.change v y).obj u = if w.vars[u]? = w.vars[v]? then some y else w.obj u := by
  obtain ⟨i, hi, hx, hd⟩ := obj_idx h
  have hlt : i < w.objs.length := (List.getElem?_eq_some_iff.mp hx).1
  unfold World.obj World.change
  simp only [hd]
  rcases hu : w.vars[u]? with _ | j
  · rw [if_neg (by rw [hi]; simp)]
    rfl
  · rw [hi]
    by_cases hij : j = i
    · subst hij
      simp [List.getElem?_set_self hlt]
    · rw [if_neg (by simpa using hij)]
      simp [List.getElem?_set_ne (Ne.symm hij)]

omit [Fintype n] [DecidableEq n] in
theorem obj_again {w : World n} {v : Nat} {x : Obj n} (h : w.obj v = some x) :
    (w.again v).obj w.vars.length = some x ∧ ∀ u < w.vars.length, (w.again v).obj u = w.obj u := by
  obtain ⟨i, hi, hx, hd⟩ := obj_idx h
  constructor
  · simp only [World.obj, World.again, List.getElem?_append_right (le_refl _), Nat.sub_self, List.getElem?_cons_zero, Option.bind_some, hd]
    exact hx
  · intro u hu
    simp only [World.obj, World.again, List.getElem?_append_left hu]

/-! ### Grids -/

theorem exp_smul_add (M : Matrix n n ℂ) (s t : ℂ) : NormedSpace.exp ((s + t) • M) = NormedSpace.exp (s • M) * NormedSpace.exp (t • M) := by
  rw [add_smul]
  exact Matrix.exp_add_of_commute _ _ ((Commute.refl M).smul_left s |>.smul_right t)

theorem loop_eq {α : Type} (f : α → α) (F : ℂ → α) (st : ℂ) (hF : ∀ t, f (F t) = F (t + st)) (c : ℕ → ℂ) (l : List ℕ) :
    ∀ t, loop f (F t) (l.map c) = (List.range l.length).map fun k => F (t + (k + 1 : ℕ) * st) := by
  induction l with
  | nil => intro t; rfl
  | cons a l ih =>
    intro t
    rw [List.map_cons, loop, hF, ih, List.length_cons, List.range_succ_eq_map, List.map_cons, List.map_map]
    congr 1
    · simp
    · refine List.map_congr_left fun k _ => ?_
      simp only [Function.comp_apply]
      congr 1
      push_cast
      ring

/-- A loop that moves along the grid step by step reaches the value at each point. -/
theorem grid_eq {α : Type} (f : α → α) (F : ℂ → α) (start st : ℂ) (hF : ∀ t, f (F t) = F (t + st)) (num : ℕ) :
    F start :: loop f (F start) (points start st (num + 1)).tail = (points start st (num + 1)).map F := by
  have h : points start st (num + 1) = start :: ((List.range num).map Nat.succ).map fun k : ℕ => start + k * st := by
    rw [points, List.range_succ_eq_map, List.map_cons]
    simp
  rw [h, List.tail_cons, loop_eq f F st hF, List.map_cons, List.length_map, List.length_range, List.map_map, List.map_map]
  congr 1

theorem iterDot_eq (M : Matrix n n ℂ) (V : Matrix n m ℂ) (start st : ℂ) (num : ℕ) :
    iterDot M V st (points start st (num + 1)) = some ((points start st (num + 1)).map fun t => NormedSpace.exp (t • M) * V) := by
  have h : points start st (num + 1) = start :: (points start st (num + 1)).tail := by
    rw [points, List.range_succ_eq_map, List.map_cons]
    simp
  have hM : (if start ≠ 0 then start⁻¹ • (start • M) else M) = M := by
    split
    · rename_i h0
      rw [smul_smul, inv_mul_cancel₀ h0, one_smul]
    · rfl
  have hV : (if start ≠ 0 then expmMultiply (start • M) V else V) = NormedSpace.exp (start • M) * V := by
    split
    · rfl
    · rename_i h0
      rw [not_not.mp h0, zero_smul, NormedSpace.exp_zero, Matrix.one_mul]
  rw [← grid_eq (expmMultiply (st • M)) (fun t => NormedSpace.exp (t • M) * V) start st ?_ num]
  · conv_lhs => rw [h]
    simp only [iterDot]
    rw [hM, hV]
  · intro t
    rw [expmMultiply, ← Matrix.mul_assoc, add_comm, exp_smul_add]

theorem bothSides_eq (M C : Matrix n n ℂ) : bothSides M C = NormedSpace.exp M * C * (NormedSpace.exp M)ᴴ := by
  rw [bothSides, expmMultiply, expmMultiply, Matrix.conjTranspose_mul, Matrix.conjTranspose_conjTranspose]

theorem iterSandwich_eq (M C : Matrix n n ℂ) (start st : ℂ) (num : ℕ) :
    iterSandwich M C st (points start st (num + 1)) =
      some ((points start st (num + 1)).map fun t => NormedSpace.exp (t • M) * C * (NormedSpace.exp (t • M))ᴴ) := by
  have h : points start st (num + 1) = start :: (points start st (num + 1)).tail := by
    rw [points, List.range_succ_eq_map, List.map_cons]
    simp
  have hM : (if start ≠ 0 then start⁻¹ • (start • M) else M) = M := by
    split
    · rename_i h0
      rw [smul_smul, inv_mul_cancel₀ h0, one_smul]
    · rfl
  have hV : (if start ≠ 0 then bothSides (start • M) C else C) = NormedSpace.exp (start • M) * C * (NormedSpace.exp (start • M))ᴴ := by
    split
    · rw [bothSides_eq]
    · rename_i h0
      rw [not_not.mp h0, zero_smul, NormedSpace.exp_zero, Matrix.one_mul, Matrix.conjTranspose_one, Matrix.mul_one]
  rw [← grid_eq (bothSides (st • M)) (fun t => NormedSpace.exp (t • M) * C * (NormedSpace.exp (t • M))ᴴ) start st ?_ num]
  · conv_lhs => rw [h]
    simp only [iterSandwich]
    rw [hM, hV]
  · intro t
    rw [bothSides_eq, add_comm, exp_smul_add, Matrix.conjTranspose_mul]
    simp only [Matrix.mul_assoc]

end Proof.ExpOp
