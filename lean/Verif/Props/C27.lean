import Verif.Proof.Consolidate
import Verif.Props.C20

/-!
C27: merging equal terms of the operator lists given to `hamiltonian` preserves the operator.
C50: the constructor of `hamiltonian` builds the operator the lists describe.

`op o i` is the matrix of the operator string `o` on the sites `i`, `app f args t` what the callable `f`
returns; `big J` is the comparison `abs(J) > eps` with which the code keeps a merged coupling.
`Spec.OpLists.static`, `Spec.OpLists.dynamic`: the operator described by a list, before any merging.
-/

namespace Props
open Model.Consolidate Model.Ham Model.Drive Spec.TimeOp Proof.Ham Proof.Consolidate

variable {O I F A T R n : Type} [NormedCommRing R] [StarRing R] [DecidableEq O] [DecidableEq I] [DecidableEq F]
  [DecidableEq A]

/-- C27 (static list), exact: if only zero couplings are dropped, any list gives the same operator after merging.
Missing: exactness for couplings of at most `10 * 2^-52`, which are dropped (`C27_fails`). -/
theorem C27_static_exact_partial (big : R → Bool) (hbig : ∀ J, big J = true ↔ J ≠ 0) (op : O → I → Matrix n n R)
    (l : List (O × List (R × I))) : makeMatrix op (consolidateStatic big l) = Spec.OpLists.static op l := by
  have hd : ∀ (o : O) (d : List (I × R)), makeMatrix op (entries big o d) = (d.map fun x => x.2 • op o x.1).sum := by
    intro o d
    induction d with
    | nil => simp [entries, makeMatrix]
    | cons x d ih =>
      unfold entries makeMatrix at ih ⊢
      rw [List.filter_cons, List.map_cons, List.sum_cons, ← ih]
      split
      · rw [List.map_cons, List.map_cons, List.sum_cons]
      · rename_i h
        have : x.2 = 0 := by by_contra h'; exact h ((hbig _).2 h')
        rw [this, zero_smul, zero_add]
  have h2 := gather_sum op (fun _ => (1 : R)) l
  simp only [one_smul] at h2
  rw [consolidateStatic, makeMatrix_flatMap, Spec.OpLists.static, ← h2]
  exact congrArg List.sum (List.map_congr_left fun e _ => hd e.1 e.2)

/-- C27, part (static list): with the comparison `abs(J) > eps` of the code, every matrix element is right up to
`eps` times the number of bonds times the largest matrix element `B` of an operator string.
Missing: exactness for couplings of at most `10 * 2^-52`, which are dropped (`C27_fails`). -/
theorem C27_static_partial (eps B : ℝ) (h0 : 0 ≤ eps) (hB0 : 0 ≤ B) (big : R → Bool)
    (hbig : ∀ J, big J = true ↔ ¬‖J‖ ≤ eps) (op : O → I → Matrix n n R) (hB : ∀ o i a c, ‖op o i a c‖ ≤ B)
    (l : List (O × List (R × I))) :
    Close (eps * B * (l.map fun e => e.2.length).sum) (makeMatrix op (consolidateStatic big l))
      (Spec.OpLists.static op l) := by
  have := static_close hbig h0 hB0 op hB l
  simpa [count] using this

/-- C27, part (dynamic list): at every time, up to the dropped couplings.
Missing: exactness for couplings of at most `10 * 2^-52`, which are dropped (`C27_fails`). -/
theorem C27_dynamic_partial (eps B : ℝ) (h0 : 0 ≤ eps) (hB0 : 0 ≤ B) (big : R → Bool)
    (hbig : ∀ J, big J = true ↔ ¬‖J‖ ≤ eps) (op : O → I → Matrix n n R) (hB : ∀ o i a c, ‖op o i a c‖ ≤ B)
    (app : F → List A → T → R) (l : List (O × List (R × I) × F × List A)) (t : T) :
    Close (eps * B * (l.map fun e => ‖app e.2.2.1 e.2.2.2 t‖ * e.2.1.length).sum)
      (((consolidateDynamic big l).map fun e => app e.1.1 e.1.2 t • makeMatrix op e.2).sum)
      (Spec.OpLists.dynamic op app l t) :=
  dynamic_close hbig h0 hB0 op hB app t l

/-- After merging, no drive (callable with arguments) occurs twice and none is invented. -/
theorem C27_dynamic_distinct (big : R → Bool) (l : List (O × List (R × I) × F × List A)) :
    ((consolidateDynamic big l).map Prod.fst).Nodup ∧
      ∀ k ∈ (consolidateDynamic big l).map Prod.fst, ∃ e ∈ l, (e.2.2.1, e.2.2.2) = k := by
  refine ⟨regroup_nodup big _ [] (by simp), fun k hk => ?_⟩
  obtain ⟨e, he, rfl⟩ := List.mem_map.1 (consolidated_mem big l k hk)
  exact ⟨e, he, rfl⟩

/-- C50, part: at every time, the hamiltonian built from operator lists is the operator the lists describe, up to
the couplings and matrices that are dropped as almost zero (`eps`, `tol`).  Missing: the case of colliding hashes
(`C50_fails`). -/
theorem C50_constructor_partial (env : Env F A R) (S : F × List A → Prop) (hc : NoCollision env.hash S 1) (tol eps B : ℝ)
    (ht : Threshold env tol) (ht0 : 0 ≤ tol) (h0 : 0 ≤ eps) (hB0 : 0 ≤ B) (big : R → Bool)
    (hbig : ∀ J, big J = true ↔ ¬‖J‖ ≤ eps) (op : O → I → Matrix n n R) (hB : ∀ o i a c, ‖op o i a c‖ ≤ B)
    (app : F → List A → T → R) (st : List (O × List (R × I))) (dyn : List (O × List (R × I) × F × List A))
    (hS : ∀ e ∈ dyn, S e.2.2) (t : T) :
    Close (eps * B * ((st.map fun e => e.2.length).sum + (dyn.map fun e => ‖app e.2.2.1 e.2.2.2 t‖ * e.2.1.length).sum)
        + tol * (dyn.map fun e => ‖app e.2.2.1 e.2.2.2 t‖).sum)
      (toMatrix app (fromStrings env big op st dyn) t)
      (Spec.OpLists.static op st + Spec.OpLists.dynamic op app dyn t) := by
  have := (fromStrings_ok hc ht ht0 hbig h0 hB0 op hB app t st dyn hS).2
  simpa [count, weight, drives] using this

/-- C50, part: with thresholds zero, the hamiltonian is exactly the operator the lists describe.
Missing: matrices and couplings below the thresholds, and drives whose hashes collide (`C50_fails`). -/
theorem C50_constructor_exact_partial (env : Env F A R) (S : F × List A → Prop) (hc : NoCollision env.hash S 1)
    (ht : Threshold env 0) (big : R → Bool) (hbig : ∀ J, big J = true ↔ J ≠ 0) [Finite n] [Finite O] [Finite I]
    (op : O → I → Matrix n n R)
    (app : F → List A → T → R) (st : List (O × List (R × I))) (dyn : List (O × List (R × I) × F × List A))
    (hS : ∀ e ∈ dyn, S e.2.2) (t : T) :
    toMatrix app (fromStrings env big op st dyn) t = Spec.OpLists.static op st + Spec.OpLists.dynamic op app dyn t := by
  obtain ⟨B, hB⟩ := (Set.finite_range fun x : O × I × n × n => ‖op x.1 x.2.1 x.2.2.1 x.2.2.2‖).bddAbove
  have := C50_constructor_partial env S hc 0 0 (max B 0) ht le_rfl le_rfl (le_max_right _ _) big
    (fun J => by rw [hbig, norm_le_zero_iff]) op (fun o i a c => le_trans (hB ⟨(o, i, a, c), rfl⟩) (le_max_left _ _))
    app st dyn hS t
  exact eq_of_close (by simpa using this)

omit [DecidableEq F] [DecidableEq A] in
/-- C50, part: a hamiltonian given by lists of matrices (static matrices, and pairs of drive function and matrix)
is their sum, at every time.
Missing: matrices and couplings below the thresholds, and drives whose hashes collide (`C50_fails`). -/
theorem C50_matrices_partial {m : Type} (env : Env F A R) (S : F × List A → Prop) (b : Nat) (hc : NoCollision env.hash S b)
    (app : F → List A → T → R) (st : List (Mat m n R)) (dyn : List (Fn F A × Mat m n R)) (hk : Keys S b dyn)
    (H : Ham F A m n R) (hH : ofMatrices env.hash st dyn = some H) (t : T) :
    toMatrix app H t = (st.map fun M => M.val).sum + (dyn.map fun e => call app e.1 t • e.2.val).sum := by
  have := (ofMatrices_ok (app := app) (t := t) hc hk hH).2.1
  rw [this]
  rfl

/-! ### Where the property fails -/

/-- C27 fails: a coupling of `2^-50` is dropped, although it is the whole operator. -/
theorem C27_fails (big : ℝ → Bool) (hbig : ∀ J, big J = true ↔ ¬‖J‖ ≤ 10 / 2 ^ 52) (op : O → I → Matrix Unit Unit ℝ)
    (o : O) (i : I) (h1 : op o i = 1) :
    ∃ l, makeMatrix op (consolidateStatic big l) = 0 ∧ Spec.OpLists.static op l ≠ 0 := by
  refine ⟨[(o, [(1 / 2 ^ 50, i)])], ?_, ?_⟩
  · have : big (1 / 2 ^ 50) = false := by
      rw [← Bool.not_eq_true, hbig, not_not, Real.norm_eq_abs]
      norm_num
    have hg : consolidateStatic big [(o, [((1 / 2 ^ 50 : ℝ), i)])] = [] := by
      simp only [consolidateStatic, gather, List.foldl_cons, List.foldl_nil, upsert, addBond, List.flatMap_cons,
        List.flatMap_nil, entries, List.filter_cons, List.filter_nil, this, Bool.false_eq_true, if_false, List.map_nil,
        List.append_nil]
    rw [hg]; rfl
  · intro h
    have := congrFun (congrFun h ()) ()
    simp [Spec.OpLists.static, h1] at this

/-- C50 fails: two terms with the same callable and the arguments -1 and -2.  Python's hashes of -1 and -2 agree,
so the second matrix replaces the first:
`f(t, -1) M + 3 f(t, -2) M` is evaluated to `3 f(t, -1) M`. -/
theorem C50_fails (env : Env F Int ℝ) (hH : env.hash.arg = intHash) (ht : Threshold env tol) (h1 : tol < 1)
    (big : ℝ → Bool) (hbig : ∀ J, big J = true ↔ ¬‖J‖ ≤ 10 / 2 ^ 52) (app : F → List Int → T → ℝ)
    (op : O → I → Matrix Unit Unit ℝ) (o : O) (i : I) (ho : op o i = 1) (f : F) (t : T) :
    toMatrix app (fromStrings env big op [] [(o, [(1, i)], f, [-1]), (o, [(3, i)], f, [-2])]) t =
        (3 * app f [-1] t) • (1 : Matrix Unit Unit ℝ) ∧
      Spec.OpLists.dynamic op app [(o, [(1, i)], f, [-1]), (o, [(3, i)], f, [-2])] t =
        (app f [-1] t + 3 * app f [-2] t) • (1 : Matrix Unit Unit ℝ) := by
  constructor
  · have hb1 : big 1 = true := by rw [hbig, norm_one]; norm_num
    have hb3 : big 3 = true := by rw [hbig, Real.norm_eq_abs]; norm_num
    have ht1 : env.tiny (1 : Matrix Unit Unit ℝ) = false := by
      rw [← Bool.not_eq_true, ht]
      intro h
      have := h () ()
      rw [Matrix.one_apply, if_pos rfl, norm_one] at this
      linarith
    have ht3 : env.tiny ((3 : ℝ) • (1 : Matrix Unit Unit ℝ)) = false := by
      rw [← Bool.not_eq_true, ht]
      intro h
      have := h () ()
      rw [Matrix.smul_apply, Matrix.one_apply, if_pos rfl, smul_eq_mul, mul_one, Real.norm_eq_abs] at this
      norm_num at this
      linarith
    have hcol := C28_collision env.hash hH f
    have hg : consolidateDynamic big [(o, [((1 : ℝ), i)], f, [(-1 : Int)]), (o, [(3, i)], f, [-2])] =
        [((f, [-1]), [(o, i, 1)]), ((f, [-2]), [(o, i, 3)])] := by
      simp [consolidateDynamic, gather, upsert, addBond, entries, hb1, hb3]
    rw [fromStrings, hg]
    simp [makeMatrix, ho, makeDynamic, ht1, ht3, hcol, consolidateStatic, gather, toMatrix, update, call]
    rw [mul_comm, mul_smul]; rfl
  · simp [Spec.OpLists.dynamic, ho, add_smul, mul_comm, mul_smul]

/-! ### The hypotheses are met -/

/-- A two level system: operator strings `true` (sigma_x) and `false` (sigma_z) on one site. -/
def sampleOp : Bool → Unit → Matrix (Fin 2) (Fin 2) ℝ
  | true, _ => !![0, 1; 1, 0]
  | false, _ => !![1, 0; 0, -1]

/-- Couplings that merge and cancel, and a repeated drive. -/
example (app : Nat → List Nat → ℝ → ℝ) (t : ℝ) :
    toMatrix app (fromStrings sampleEnv (fun J => @decide (J ≠ 0) (Classical.propDecidable _)) sampleOp
      [(true, [(1, ()), (2, ())]), (false, [(1, ())]), (true, [(-3, ())])]
      [(false, [(1, ())], 0, [3]), (true, [(1, ())], 0, [4]), (false, [(2, ())], 0, [3])]) t =
    (!![1, 0; 0, -1] : Matrix (Fin 2) (Fin 2) ℝ) + (3 * app 0 [3] t) • !![1, 0; 0, -1] + app 0 [4] t • !![0, 1; 1, 0] := by
  rw [C50_constructor_exact_partial sampleEnv (fun _ => True)
    (Proof.Drive.noCollision_of_injective sampleHash_injective _ _) sampleEnv_threshold _ (fun J => by simp) sampleOp app
    _ _ (fun _ _ => trivial) t]
  ext i j
  fin_cases i <;> fin_cases j <;> simp [Spec.OpLists.static, Spec.OpLists.dynamic, sampleOp] <;> ring

/-- The comparison of the code in double precision, and a bound for the matrix elements. -/
example : ∃ big : ℝ → Bool, (∀ J, big J = true ↔ ¬‖J‖ ≤ 10 / 2 ^ 52) ∧ ∀ o i a c, ‖sampleOp o i a c‖ ≤ 1 :=
  ⟨fun J => @decide (¬‖J‖ ≤ 10 / 2 ^ 52) (Classical.propDecidable _), fun J => by simp, fun o i a c => by
    cases o <;> fin_cases a <;> fin_cases c <;> simp [sampleOp]⟩

end Props
