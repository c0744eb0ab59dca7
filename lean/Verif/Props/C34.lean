import Verif.Proof.BlockDiag
import Verif.Props.C27

/-!
C34: block diagonal hamiltonians.

`dim b`, `op b`: size and operator matrices of block `b`; `fromStrings env big (op b) st dyn` the hamiltonian of block `b`;
`order`: the order in which python iterates over the set of drives (callables with arguments), `Spec.firsts` the order in
which they appear in the dynamic list; `env.tiny` the test with which the constructor drops an almost zero matrix.
`Spec.directSum dim M blocks i j`: element of the matrix with the blocks `M b` along the diagonal.
-/

namespace Props
open Model.BlockDiag Model.Consolidate Model.Ham Model.Drive Proof.Ham Proof.Consolidate Proof.BlockDiag Spec

variable {O I F A T R β : Type} [NormedCommRing R] [StarRing R] [DecidableEq O] [DecidableEq I] [DecidableEq F] [DecidableEq A]

/-- What the code computes whatever the order of the set is: the drive at position `k` of the set gets the operator of the
drive at position `k` of the list. -/
theorem C34_pairing (env : Env F A R) (S : F × List A → Prop) (hc : NoCollision env.hash S 1) (big : R → Bool) (dim : β → Nat)
    (op : (b : β) → O → I → Matrix (Fin (dim b)) (Fin (dim b)) R) (blocks : List β) (st : List (O × List (R × I)))
    (dyn : List (O × List (R × I) × F × List A)) (hS : ∀ e ∈ dyn, S e.2.2) (order : List (F × List A))
    (ho : order.Perm (firsts (dyn.map fun e => e.2.2)))
    (hT : ∀ b ∈ blocks, ∀ e ∈ consolidateDynamic big dyn, env.tiny (makeMatrix (op b) e.2) = false) (app : F → List A → T → R) :
    ∃ h, blockDiagHamiltonian env big dim op order blocks st dyn = some h ∧ h.1 = (blocks.map dim).sum ∧
      ∀ (t : T) (i j : Fin h.1), toMatrix app h.2 t i j = directSum dim (fun b => makeMatrix (op b) (consolidateStatic big st) +
        ((order.zip (consolidateDynamic big dyn)).map fun e => app e.1.1 e.1.2 t • makeMatrix (op b) e.2.2).sum) blocks i j := by
  have hk := consolidate_keys big dyn
  have hmem : ∀ e ∈ consolidateDynamic big dyn, S e.1 := by
    intro e he
    obtain ⟨x, hx, hxe⟩ := List.mem_map.1 (consolidated_mem big dyn e.1 (List.mem_map_of_mem he))
    rw [← hxe]
    exact hS x hx
  have hdyn : ∀ b ∈ blocks, (fromStrings env big (op b) st dyn).dynamic = (consolidateDynamic big dyn).map fun e =>
      ((Fn.atom (.base e.1.1 e.1.2) : Fn F A), (⟨.sparse, makeMatrix (op b) e.2⟩ : Mat (Fin (dim b)) (Fin (dim b)) R)) := by
    intro b hb
    have := makeDynamic_full (env := env) hc ((consolidateDynamic big dyn).map fun e => (e.1, makeMatrix (op b) e.2))
      (by rw [List.map_map]; exact regroup_nodup big _ [] (by simp))
      (fun e he => by obtain ⟨x, hx, rfl⟩ := List.mem_map.1 he; exact hmem x hx)
      (fun e he => by obtain ⟨x, hx, rfl⟩ := List.mem_map.1 he; exact hT b hb x hx)
    rw [fromStrings]
    simp only
    rw [this, List.map_map]
    rfl
  have hl : order.length = (consolidateDynamic big dyn).length := by
    rw [ho.length_eq, ← hk, List.length_map]
  have := assemble_ok (env := env) hc order (fun o ho' => by
      have h1 := ho.subset ho'
      rw [← hk] at h1
      obtain ⟨e, he, rfl⟩ := List.mem_map.1 h1
      exact hmem e he) (consolidateDynamic big dyn) hl (dim := dim)
    (fun b => makeMatrix (op b) (consolidateStatic big st)) (fun e b => makeMatrix (op b) e.2) blocks app
  unfold blockDiagHamiltonian
  rw [show (blocks.map fun b => (fromStrings env big (op b) st dyn).dynamic.map fun e => ofMat e.2.val) =
      blocks.map fun b => (consolidateDynamic big dyn).map fun e => ofMat (makeMatrix (op b) e.2) from
    List.map_congr_left fun b hb => by rw [hdyn b hb, List.map_map]; rfl]
  exact this

/-- C34, part: if the set of drives is iterated in the order of the dynamic list and no drive has a vanishing operator in
some block, the hamiltonian is at every time the direct sum of those of the blocks.  Missing: every other order, see
`C34_fails`, and vanishing operators, see `C34_vanishing_fails`. -/
theorem C34_blocks_partial (env : Env F A R) (S : F × List A → Prop) (hc : NoCollision env.hash S 1) (big : R → Bool)
    (dim : β → Nat) (op : (b : β) → O → I → Matrix (Fin (dim b)) (Fin (dim b)) R) (blocks : List β)
    (st : List (O × List (R × I))) (dyn : List (O × List (R × I) × F × List A)) (hS : ∀ e ∈ dyn, S e.2.2)
    (hT : ∀ b ∈ blocks, ∀ e ∈ consolidateDynamic big dyn, env.tiny (makeMatrix (op b) e.2) = false) (app : F → List A → T → R) :
    ∃ h, blockDiagHamiltonian env big dim op (firsts (dyn.map fun e => e.2.2)) blocks st dyn = some h ∧
      h.1 = (blocks.map dim).sum ∧ ∀ (t : T) (i j : Fin h.1),
        toMatrix app h.2 t i j = directSum dim (fun b => toMatrix app (fromStrings env big (op b) st dyn) t) blocks i j := by
  obtain ⟨h, h1, h2, h3⟩ := C34_pairing env S hc big dim op blocks st dyn hS _ (List.Perm.refl _) hT app
  refine ⟨h, h1, h2, fun t i j => ?_⟩
  rw [h3]
  have hmem : ∀ e ∈ consolidateDynamic big dyn, S e.1 := by
    intro e he
    obtain ⟨x, hx, hxe⟩ := List.mem_map.1 (consolidated_mem big dyn e.1 (List.mem_map_of_mem he))
    rw [← hxe]
    exact hS x hx
  have hz : (firsts (dyn.map fun e => e.2.2)).zip (consolidateDynamic big dyn) = (consolidateDynamic big dyn).map fun e => (e.1, e) := by
    rw [← consolidate_keys big dyn, List.zip_map_left, List.zip_eq_zipWith]
    generalize consolidateDynamic big dyn = l
    induction l with
    | nil => rfl
    | cons e l ih => simpa using ih
  have hb : ∀ b ∈ blocks, makeMatrix (op b) (consolidateStatic big st) +
      (((firsts (dyn.map fun e => e.2.2)).zip (consolidateDynamic big dyn)).map fun e => app e.1.1 e.1.2 t • makeMatrix (op b) e.2.2).sum =
      toMatrix app (fromStrings env big (op b) st dyn) t := by
    intro b hb
    have := makeDynamic_full (env := env) hc ((consolidateDynamic big dyn).map fun e => (e.1, makeMatrix (op b) e.2))
      (by rw [List.map_map]; exact regroup_nodup big _ [] (by simp))
      (fun e he => by obtain ⟨x, hx, rfl⟩ := List.mem_map.1 he; exact hmem x hx)
      (fun e he => by obtain ⟨x, hx, rfl⟩ := List.mem_map.1 he; exact hT b hb x hx)
    rw [hz, toMatrix_eq, fromStrings]
    simp only
    rw [this, dsum, List.map_map, List.map_map, List.map_map]
    rfl
  have hcongr : ∀ (M M' : (b : β) → Matrix (Fin (dim b)) (Fin (dim b)) R) (bs : List β), (∀ b ∈ bs, M b = M' b) → ∀ i j,
      directSum dim M bs i j = directSum dim M' bs i j := by
    intro M M' bs
    induction bs with
    | nil => intros; rfl
    | cons b bs ih =>
      intro hM i j
      simp only [directSum]
      rw [hM b (by simp), ih (fun b hb => hM b (by simp [hb]))]
  exact hcongr _ _ blocks hb i j

/-- C34: with at most one drive there is only one order. -/
theorem C34_one_drive (dyn : List (O × List (R × I) × F × List A)) (d : F × List A) (h1 : ∀ e ∈ dyn, e.2.2 = d)
    (order : List (F × List A)) (ho : order.Perm (firsts (dyn.map fun e => e.2.2))) : order = firsts (dyn.map fun e => e.2.2) := by
  have hf : ∀ l : List (F × List A), (∀ x ∈ l, x = d) → firsts l = [] ∨ firsts l = [d] := by
    intro l
    induction l with
    | nil => intro _; exact Or.inl rfl
    | cons x l ih =>
      intro hx
      obtain rfl := hx x (by simp)
      right
      rw [firsts]
      rcases ih (fun y hy => hx y (by simp [hy])) with h | h <;> simp [h]
  rcases hf (dyn.map fun e => e.2.2) (fun x hx => by obtain ⟨e, he, rfl⟩ := List.mem_map.1 hx; exact h1 e he) with h | h
  · rw [h] at ho ⊢; exact List.perm_nil.1 ho
  · rw [h] at ho ⊢; exact List.perm_singleton.1 ho

/-! ### Where the property fails -/

/-- Blocks of one state; operator strings `true` and `false` are the numbers one and two. -/
def blockOp (_ : Unit) : Bool → Unit → Matrix (Fin 1) (Fin 1) ℝ
  | true, _ => 1
  | false, _ => (2 : ℝ) • 1

/-- C34 fails: two drives `f`, `g` with the operators `1` and `2`.  If python iterates over the set with `g` first, the
hamiltonian is `g(t) 1 + f(t) 2` instead of `f(t) 1 + g(t) 2`. -/
theorem C34_fails (env : Env F A ℝ) (hc : NoCollision env.hash (fun _ => True) 1) (ht : Threshold env tol) (h1 : tol < 1)
    (big : ℝ → Bool) (hbig : ∀ J, big J = true ↔ ¬‖J‖ ≤ 10 / 2 ^ 52) (app : F → List A → T → ℝ) (f g : F) (hfg : f ≠ g) :
    ∃ dyn : List (Bool × List (ℝ × Unit) × F × List A), [(g, []), (f, [])].Perm (firsts (dyn.map fun e => e.2.2)) ∧
      ∃ h, blockDiagHamiltonian env big (fun _ : Unit => 1) blockOp [(g, []), (f, [])] [()] [] dyn = some h ∧ ∃ i : Fin h.1, ∀ t,
        toMatrix app h.2 t i i = app g [] t + 2 * app f [] t ∧
        Spec.OpLists.dynamic (blockOp ()) app dyn t 0 0 = app f [] t + 2 * app g [] t := by
  have hb1 : big 1 = true := by rw [hbig, norm_one]; norm_num
  have hcd : consolidateDynamic big [(true, [((1 : ℝ), ())], f, ([] : List A)), (false, [(1, ())], g, [])] =
      [((f, []), [(true, (), 1)]), ((g, []), [(false, (), 1)])] := by
    simp [consolidateDynamic, gather, upsert, addBond, entries, hb1, hfg]
  have hp : [(g, []), (f, [])].Perm (firsts ([(true, [((1 : ℝ), ())], f, ([] : List A)), (false, [(1, ())], g, [])].map fun e => e.2.2)) := by
    simp only [List.map_cons, List.map_nil, firsts, List.filter_cons, List.filter_nil]
    rw [if_pos (by simp [Ne.symm hfg])]
    exact List.Perm.swap _ _ _
  refine ⟨[(true, [(1, ())], f, []), (false, [(1, ())], g, [])], hp, ?_⟩
  have hT1 : env.tiny (1 : Matrix (Fin 1) (Fin 1) ℝ) = false := by
    rw [← Bool.not_eq_true, ht]
    intro h
    have := h 0 0
    rw [Matrix.one_apply, if_pos rfl, norm_one] at this
    linarith
  have hT2 : env.tiny ((2 : ℝ) • (1 : Matrix (Fin 1) (Fin 1) ℝ)) = false := by
    rw [← Bool.not_eq_true, ht]
    intro h
    have := h 0 0
    rw [Matrix.smul_apply, Matrix.one_apply, if_pos rfl, smul_eq_mul, mul_one, Real.norm_eq_abs] at this
    norm_num at this
    linarith
  obtain ⟨h, e1, e2, e3⟩ := C34_pairing env (fun _ => True) hc big (fun _ : Unit => 1) blockOp [()] []
    [(true, [(1, ())], f, []), (false, [(1, ())], g, [])] (fun _ _ => trivial) [(g, []), (f, [])] hp (by
      intro b _ e he
      rw [hcd] at he
      rcases List.mem_cons.1 he with rfl | he
      · simpa [makeMatrix, blockOp] using hT1
      · rw [List.mem_singleton.1 he]
        simpa [makeMatrix, blockOp] using hT2) app
  refine ⟨h, e1, ⟨0, by rw [e2]; simp⟩, fun t => ⟨?_, ?_⟩⟩
  · rw [e3, hcd]
    simp [directSum, makeMatrix, consolidateStatic, gather, blockOp]
    ring
  · simp [Spec.OpLists.dynamic, blockOp]
    ring

/-- C34 fails: a drive whose operator vanishes in one block, but not in the other, raises an exception, whatever the order of
the set: blocks of one state in which the operator is one and zero. -/
theorem C34_vanishing_fails (env : Env F A ℝ) (ht : Threshold env tol) (h0 : 0 ≤ tol) (h1 : tol < 1) (big : ℝ → Bool)
    (hbig : ∀ J, big J = true ↔ ¬‖J‖ ≤ 10 / 2 ^ 52) (f : F) :
    blockDiagHamiltonian env big (fun _ : Bool => 1) (fun b (_ _ : Unit) => if b then 1 else 0) [(f, [])] [true, false] []
      [((), [(1, ())], f, [])] = none := by
  have hb1 : big 1 = true := by rw [hbig, norm_one]; norm_num
  have hcd : consolidateDynamic big [((), [((1 : ℝ), ())], f, ([] : List A))] = [((f, []), [((), (), 1)])] := by
    simp [consolidateDynamic, gather, upsert, addBond, entries, hb1]
  have hT1 : env.tiny (1 : Matrix (Fin 1) (Fin 1) ℝ) = false := by
    rw [← Bool.not_eq_true, ht]
    intro h
    have := h 0 0
    rw [Matrix.one_apply, if_pos rfl, norm_one] at this
    linarith
  have hT0 : env.tiny (0 : Matrix (Fin 1) (Fin 1) ℝ) = true := by
    rw [ht]
    intro i j
    simpa using h0
  simp [blockDiagHamiltonian, fromStrings, hcd, makeDynamic, makeMatrix, hT1, hT0, assemble, append, resize, blockDiag, SqMat.sum, ofMat]

/-! ### The hypotheses are met -/

/-- Two blocks of a spin, with two drives. -/
example (app : Nat → List Nat → ℝ → ℝ) :
    ∃ h, blockDiagHamiltonian sampleEnv (fun J => @decide (J ≠ 0) (Classical.propDecidable _)) (fun _ : Bool => 2) (fun _ => sampleOp)
        [(0, [3]), (0, [4])] [true, false] [(true, [(1, ())])] [(false, [(1, ())], 0, [3]), (true, [(1, ())], 0, [4])] = some h ∧ h.1 = 4 := by
  have hcd : consolidateDynamic (fun J : ℝ => @decide (J ≠ 0) (Classical.propDecidable _))
      [(false, [(1, ())], 0, [3]), (true, [(1, ())], 0, [4])] = [(((0 : Nat), [(3 : Nat)]), [(false, (), 1)]), ((0, [4]), [(true, (), 1)])] := by
    simp [consolidateDynamic, gather, upsert, addBond, entries]
  obtain ⟨h, h1, h2, -⟩ := C34_blocks_partial sampleEnv (fun _ => True) (Proof.Drive.noCollision_of_injective sampleHash_injective _ _)
    (fun J => @decide (J ≠ 0) (Classical.propDecidable _)) (fun _ : Bool => 2) (fun _ => sampleOp) [true, false] [(true, [(1, ())])]
    [(false, [(1, ())], 0, [3]), (true, [(1, ())], 0, [4])] (fun _ _ => trivial) (by
      intro b _ e he
      rw [hcd] at he
      rw [← Bool.not_eq_true, sampleEnv_threshold]
      intro h
      rcases List.mem_cons.1 he with rfl | he
      · have := h 0 0; norm_num [makeMatrix, sampleOp] at this
      · rw [List.mem_singleton.1 he] at h
        have := h 0 1; norm_num [makeMatrix, sampleOp] at this) app
  exact ⟨h, by simpa [firsts] using h1, by simpa using h2⟩

end Props
