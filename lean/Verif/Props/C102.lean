import Verif.Model.QOpCalls
import Verif.Proof.Evaluate
import Verif.Props.C55
import Mathlib.LinearAlgebra.Matrix.Hermitian
import Mathlib.Tactic.NormNum

/-!
C102: the methods of `quantum_operator`.

`couplingOf d k` is the number the user gives for the name `k`, or 1; `valueOf` is the sum of the matrices with these numbers.
-/

namespace Props.QOp
open Spec Model.QOpCalls
open Model.Eval (Stored Routine routineOf dotInto)
open Model.Formats (Fmt convert)
open Proof.Eval (read_own dotInto_own mat_trans)
open Props.Formats (mat_convert)

/-- The coupling of a name: as given, or one. -/
def couplingOf (d : Coup) (k : String) : ℂ := (d.lookup k).getD 1

/-- The operator for couplings `c`. -/
noncomputable def valueWith (N : ℕ) (o : QObj) (c : String → ℂ) : Matrix (Fin N) (Fin N) ℂ := (o.map fun e => c e.key • e.mat.mat N).sum

/-- The operator for the parameters `d`. -/
noncomputable def valueOf (N : ℕ) (o : QObj) (d : Coup) : Matrix (Fin N) (Fin N) ℂ := valueWith N o (couplingOf d)

/-- No name twice. -/
def Names (o : QObj) : Prop := (o.map Item.key).Nodup

/-- Parameters without a name twice, with names of the operator. -/
def Fits (o : QObj) (d : Coup) : Prop := (d.map Prod.fst).Nodup ∧ ∀ e ∈ d, e.1 ∈ o.map Item.key

/-- The routines belong to the matrices. -/
def Ready (o : QObj) : Prop := ∀ e ∈ o, e.routine = routineOf e.mat

theorem updateMatvecs_ready (o : QObj) : Ready (updateMatvecs o) := by
  intro e he
  obtain ⟨x, -, rfl⟩ := List.mem_map.mp he
  rfl

theorem complete_ok {o : QObj} {d : Coup} (h : Fits o d) :
    complete o d = some (d ++ (o.filter fun x => !d.any fun e => e.1 == x.key).map fun x => (x.key, 1)) := by
  unfold complete
  rw [if_pos]
  rw [List.all_eq_true]
  intro e he
  obtain ⟨x, hx, hk⟩ := List.mem_map.mp (h.2 e he)
  exact List.any_eq_true.mpr ⟨x, hx, by simp [hk]⟩

theorem item_mem {o : QObj} (hn : Names o) {x : Item} (hx : x ∈ o) : item o x.key = some x := by
  unfold item
  induction o with
  | nil => cases hx
  | cons y l ih =>
    rw [List.find?_cons]
    have hn' := List.nodup_cons.mp (show (y.key :: l.map Item.key).Nodup from hn)
    rcases List.mem_cons.mp hx with rfl | hx
    · simp
    · have : (y.key == x.key) = false := by
        rw [beq_eq_false_iff_ne]
        exact fun h => hn'.1 (h ▸ List.mem_map_of_mem hx)
      rw [this]
      exact ih hn'.2 hx

/-- The names that are added have the coupling one, the others the given one. -/
theorem completed_perm {o : QObj} {d : Coup} (hn : Names o) (h : Fits o d) :
    (d ++ (o.filter fun x => !d.any fun e => e.1 == x.key).map fun x => (x.key, (1 : ℂ))).Perm (o.map fun x => (x.key, couplingOf d x.key)) := by
  have hlook : ∀ {l : Coup}, (l.map Prod.fst).Nodup → ∀ e ∈ l, l.lookup e.1 = some e.2 := by
    intro l
    induction l with
    | nil => intro _ e he; cases he
    | cons y l ih =>
      intro hl e he
      have hl' := List.nodup_cons.mp (show (y.1 :: l.map Prod.fst).Nodup from hl)
      rcases List.mem_cons.mp he with rfl | he
      · simp [List.lookup]
      · have : (e.1 == y.1) = false := by
          rw [beq_eq_false_iff_ne]
          exact fun h => hl'.1 (h ▸ List.mem_map_of_mem he)
        simp only [List.lookup, this]
        exact ih hl'.2 e he
  have hnone : ∀ k, (d.any fun e => e.1 == k) = false → d.lookup k = none := by
    intro k hk
    rw [List.lookup_eq_none_iff]
    intro e he
    have := List.any_eq_false.mp hk e he
    rw [beq_iff_eq] at this
    rw [bne_iff_ne]
    exact Ne.symm this
  have hnd1 : ((d ++ (o.filter fun x => !d.any fun e => e.1 == x.key).map fun x => (x.key, (1 : ℂ))).map Prod.fst).Nodup := by
    rw [List.map_append, List.map_map, List.nodup_append]
    refine ⟨h.1, ?_, ?_⟩
    · exact (hn.sublist (List.filter_sublist.map _))
    · rintro a ha b hb rfl
      obtain ⟨e, he, rfl⟩ := List.mem_map.mp ha
      obtain ⟨x, hx, hxe⟩ := List.mem_map.mp hb
      have h2 := (List.mem_filter.mp hx).2
      simp only [Bool.not_eq_true'] at h2
      have := List.any_eq_false.mp h2 e he
      exact this (by simp at hxe; simp [hxe])
  have hnd2 : (o.map fun x => (x.key, couplingOf d x.key)).Nodup := by
    refine List.Nodup.of_map Prod.fst ?_
    rw [List.map_map]
    exact hn
  rw [List.perm_ext_iff_of_nodup (List.Nodup.of_map _ hnd1) hnd2]
  rintro ⟨k, z⟩
  simp only [List.mem_append, List.mem_map, List.mem_filter, Prod.mk.injEq]
  constructor
  · rintro (he | ⟨x, ⟨hx, hx'⟩, rfl, rfl⟩)
    · obtain ⟨x, hx, hk⟩ := List.mem_map.mp (h.2 _ he)
      refine ⟨x, hx, hk, ?_⟩
      rw [couplingOf, hk, hlook h.1 _ he]
      rfl
    · exact ⟨x, hx, rfl, by rw [couplingOf, hnone _ (by simpa using hx')]; rfl⟩
  · rintro ⟨x, hx, rfl, rfl⟩
    by_cases hd : (d.any fun e => e.1 == x.key) = true
    · obtain ⟨e, he, hk⟩ := List.any_eq_true.mp hd
      rw [beq_iff_eq] at hk
      left
      rw [couplingOf, ← hk, hlook h.1 _ he]
      exact he
    · right
      rw [Bool.not_eq_true] at hd
      exact ⟨x, ⟨hx, by simpa using hd⟩, rfl, by rw [couplingOf, hnone _ hd]; rfl⟩

section
variable {N : ℕ} {κ : Type} (tiny : ℂ → Bool) (zero : Matrix (Fin N) (Fin N) ℂ → Bool)

/-- The loop of `dot` over names of the operator. -/
theorem dot_loop (ht : ∀ z, tiny z = true → z = 0) {o : QObj} (hn : Names o) (hr : Ready o) (a : ℂ) (V : Matrix (Fin N) κ ℂ) :
    ∀ (l : Coup), (∀ e ∈ l, e.1 ∈ o.map Item.key) → ∀ y : Matrix (Fin N) κ ℂ,
      l.foldlM (fun y e => if tiny e.2 then some y else (item o e.1).bind fun x => dotInto N x.routine x.mat V false (a * e.2) y) y =
        some (y + a • ((l.map fun e => e.2 • ((item o e.1).elim 0 fun x => x.mat.mat N)).sum * V)) := by
  intro l
  induction l with
  | nil => intro _ y; simp
  | cons e l ih =>
    intro hl y
    rw [List.foldlM_cons]
    have ih' := ih fun e he => hl e (List.mem_cons_of_mem _ he)
    obtain ⟨x, hx, hk⟩ := List.mem_map.mp (hl e List.mem_cons_self)
    have hi : item o e.1 = some x := hk ▸ item_mem hn hx
    by_cases hz : tiny e.2 = true
    · rw [if_pos hz]
      simp only [Option.bind_eq_bind, Option.bind_some]
      rw [ih', List.map_cons, List.sum_cons, ht _ hz, zero_smul, zero_add]
    · rw [if_neg hz, hi, Option.bind_some, hr x hx, dotInto_own]
      simp only [Option.bind_eq_bind, Option.bind_some]
      rw [ih', List.map_cons, List.sum_cons, hi, Matrix.add_mul, smul_add, Matrix.smul_mul, smul_smul, ← add_assoc]
      rfl

theorem sum_items {o : QObj} (hn : Names o) {d : Coup} (h : Fits o d) :
    ((d ++ (o.filter fun x => !d.any fun e => e.1 == x.key).map fun x => (x.key, (1 : ℂ))).map
      fun e => e.2 • ((item o e.1).elim (0 : Matrix (Fin N) (Fin N) ℂ) fun x => x.mat.mat N)).sum = valueOf N o d := by
  rw [((completed_perm hn h).map _).sum_eq, List.map_map, valueOf, valueWith]
  congr 1
  refine List.map_congr_left fun x hx => ?_
  simp only [Function.comp, item_mem hn hx]
  rfl

theorem completed_names {o : QObj} {d : Coup} (hn : Names o) (h : Fits o d) :
    ∀ e ∈ (d ++ (o.filter fun x => !d.any fun e => e.1 == x.key).map fun x => (x.key, (1 : ℂ))), e.1 ∈ o.map Item.key := by
  intro e he
  obtain ⟨x, hx, rfl⟩ := List.mem_map.mp ((completed_perm hn h).mem_iff.mp he)
  exact List.mem_map_of_mem hx

/-- C102: `dot` writes `a H V` to the output, or adds it. -/
theorem C102_dot (ht : ∀ z, tiny z = true → z = 0) {o : QObj} (hn : Names o) (hr : Ready o) {d : Coup} (h : Fits o d)
    (V : Matrix (Fin N) κ ℂ) (out : Option (Matrix (Fin N) κ ℂ)) (overwrite : Bool) (a : ℂ) :
    dot N tiny o d V out overwrite a = some ((if overwrite then 0 else out.getD 0) + a • (valueOf N o d * V)) := by
  unfold dot
  rw [complete_ok h, Option.bind_some, dot_loop tiny ht hn hr a V _ (completed_names hn h), sum_items hn h]
  cases out <;> cases overwrite <;> rfl

/-- C102: `toarray`, `todense`, `tocsr` and `tocsc` give the operator.
Missing: with `out` the operator is added to it (`C102_fails_out`). -/
theorem C102_toarray_partial {o : QObj} (hn : Names o) {d : Coup} (h : Fits o d) : toarray N o d none = some (valueOf N o d) := by
  have key : ∀ (l : Coup), (∀ e ∈ l, e.1 ∈ o.map Item.key) → ∀ y : Matrix (Fin N) (Fin N) ℂ,
      l.foldlM (fun y e => (item o e.1).map fun x => y + e.2 • x.mat.mat N) y =
        some (y + (l.map fun e => e.2 • ((item o e.1).elim (0 : Matrix (Fin N) (Fin N) ℂ) fun x => x.mat.mat N)).sum) := by
    intro l
    induction l with
    | nil => intro _ y; simp
    | cons e l ih =>
      intro hl y
      obtain ⟨x, hx, hk⟩ := List.mem_map.mp (hl e List.mem_cons_self)
      have hi : item o e.1 = some x := hk ▸ item_mem hn hx
      rw [List.foldlM_cons, hi]
      simp only [Option.map_some, Option.bind_eq_bind, Option.bind_some]
      rw [ih fun e he => hl e (List.mem_cons_of_mem _ he), List.map_cons, List.sum_cons, hi, ← add_assoc]
      rfl
  unfold toarray
  rw [complete_ok h, Option.bind_some, key _ (completed_names hn h), sum_items hn h]
  simp

/-! Objects made by the methods. -/

theorem remake_ready (l : List (String × Stored ℂ)) : Ready (remake N zero l) := updateMatvecs_ready _

theorem remake_names {l : List (String × Stored ℂ)} (hl : (l.map Prod.fst).Nodup) : Names (remake N zero l) := by
  unfold Names remake updateMatvecs
  rw [List.map_map, List.map_map]
  exact hl.sublist (List.filter_sublist.map _)

theorem remake_value (hz : ∀ M, zero M = true → M = 0) (l : List (String × Stored ℂ)) (c : String → ℂ) :
    valueWith N (remake N zero l) c = (l.map fun e => c e.1 • e.2.mat N).sum := by
  unfold valueWith remake updateMatvecs
  rw [List.map_map, List.map_map]
  induction l with
  | nil => rfl
  | cons e l ih =>
    rw [List.filter_cons]
    by_cases h : zero (e.2.mat N) = true
    · rw [if_neg (by simp [h]), ih, List.map_cons, List.sum_cons, hz _ h, smul_zero, zero_add]
    · rw [if_pos (by simpa using h), List.map_cons, List.sum_cons, ih, List.map_cons, List.sum_cons]
      rfl

theorem mat_conj (S : Stored ℂ) : (conjStored S).mat N = (S.mat N).map star := by
  ext i j
  cases S <;> simp [conjStored, Stored.mat, Stored.entry, csrEntry, cscEntry, Matrix.map_apply, apply_ite]

theorem getH_value (hz : ∀ M, zero M = true → M = 0) (o : QObj) (c : String → ℂ) :
    valueWith N (getH N zero o) c = (valueWith N o fun k => star (c k)).conjTranspose := by
  have h1 : valueWith N (getH N zero o) c = ((conjugate N zero o).map fun e => c e.key • (e.mat.mat N).transpose).sum := by
    unfold getH transpose
    rw [remake_value zero hz, List.map_map]
    congr 1
    refine List.map_congr_left fun e _ => ?_
    simp only [Function.comp, mat_trans]
  have h2 : ((conjugate N zero o).map fun e => c e.key • (e.mat.mat N).transpose).sum = (valueWith N (conjugate N zero o) c).transpose := by
    unfold valueWith
    rw [Matrix.transpose_list_sum, List.map_map]
    rfl
  rw [h1, h2]
  unfold conjugate
  rw [remake_value zero hz, List.map_map, valueWith, Matrix.conjTranspose_list_sum, List.map_map, Matrix.transpose_list_sum, List.map_map]
  congr 1
  refine List.map_congr_left fun e _ => ?_
  simp only [Function.comp, mat_conj, Matrix.transpose_smul, Matrix.conjTranspose_smul, star_star]
  rfl

theorem getH_names {o : QObj} (hn : Names o) : Names (getH N zero o) := by
  have h1 : Names (conjugate N zero o) := by
    refine remake_names zero ?_
    rw [List.map_map]
    exact hn
  refine remake_names zero ?_
  rw [List.map_map]
  exact h1

/-- C102: `getH` (and `.H`) is the adjoint operator: for the complex conjugate parameters, and the names whose matrix is not zero. -/
theorem C102_adjoint (hz : ∀ M, zero M = true → M = 0) (o : QObj) (d : Coup) :
    valueOf N (getH N zero o) d = (valueOf N o (d.map fun e => (e.1, star e.2))).conjTranspose := by
  unfold valueOf
  rw [getH_value zero hz]
  congr 2
  funext k
  unfold couplingOf
  induction d with
  | nil => simp
  | cons e d ih =>
    simp only [List.map_cons, List.lookup]
    split
    · simp
    · exact ih

/-- C102: `rmatvec` is the product with the adjoint. -/
theorem C102_rmatvec (ht : ∀ z, tiny z = true → z = 0) (hz : ∀ M, zero M = true → M = 0) {o : QObj} (hn : Names o) (V : Matrix (Fin N) κ ℂ) :
    rmatvec N tiny zero o V = some ((valueOf N o []).conjTranspose * V) := by
  unfold rmatvec
  rw [C102_dot tiny ht (getH_names zero hn) (remake_ready zero _) ⟨by simp, by simp⟩, C102_adjoint zero hz]
  simp

/-- C102: `matvec` is the product. -/
theorem C102_matvec (ht : ∀ z, tiny z = true → z = 0) {o : QObj} (hn : Names o) (hr : Ready o) (V : Matrix (Fin N) κ ℂ) :
    matvec N tiny o V = some (valueOf N o [] * V) := by
  unfold matvec
  rw [C102_dot tiny ht hn hr ⟨by simp, by simp⟩]
  simp

/-- C102, part: with an output array, `rdot` writes `a V H` to it, or adds it.  Missing: without one it raises (`C102_fails_rdot`), and
parameters of names whose matrix vanishes are refused (`C102_fails_zero`). -/
theorem C102_rdot_partial (ht : ∀ z, tiny z = true → z = 0) (hz : ∀ M, zero M = true → M = 0) {o : QObj} (hn : Names o)
    (h0 : ∀ e ∈ o, zero (e.mat.trans.mat N) = false) {d : Coup} (h : Fits o d) (V out : Matrix κ (Fin N) ℂ) (overwrite : Bool) (a : ℂ) :
    rdot N tiny zero o d V (some out) overwrite a = some ((if overwrite then 0 else out) + a • (V * valueOf N o d)) := by
  have hkeys : (transpose N zero o).map Item.key = o.map Item.key := by
    unfold transpose remake updateMatvecs
    rw [List.filter_eq_self.mpr]
    · simp [List.map_map, Function.comp_def]
    · intro e he
      obtain ⟨x, hx, rfl⟩ := List.mem_map.mp he
      simpa using h0 x hx
  have hf : Fits (transpose N zero o) d := ⟨h.1, fun e he => hkeys ▸ h.2 e he⟩
  have hnames : Names (transpose N zero o) := by
    unfold Names
    rw [hkeys]
    exact hn
  have hval : valueOf N (transpose N zero o) d = (valueOf N o d).transpose := by
    unfold valueOf transpose
    rw [remake_value zero hz, valueWith, Matrix.transpose_list_sum, List.map_map, List.map_map]
    congr 1
    refine List.map_congr_left fun e _ => ?_
    simp only [Function.comp, mat_trans, Matrix.transpose_smul]
  unfold rdot
  rw [Option.bind_some, C102_dot tiny ht hnames (remake_ready zero _) hf, hval, Option.map_some, ← Matrix.transpose_mul]
  cases overwrite <;> simp

/-- C102, part: the linear operator acts as the operator, and its `rmatvec` as the adjoint, if the parameters are real.  Missing: complex
parameters (`C102_fails_linear`). -/
theorem C102_linear_partial (ht : ∀ z, tiny z = true → z = 0) (hz : ∀ M, zero M = true → M = 0) {o : QObj} (hn : Names o) (hr : Ready o)
    (h0 : (getH N zero o).map Item.key = o.map Item.key) {d : Coup} (h : Fits o d) (hreal : ∀ e ∈ d, star e.2 = e.2) :
    ∃ f g, linear (κ := κ) N tiny zero o d = some (f, g) ∧
      (∀ V, f V = some (valueOf N o d * V)) ∧ ∀ V, g V = some ((valueOf N o d).conjTranspose * V) := by
  have hp := completed_perm hn h
  generalize hd' : (d ++ (o.filter fun x => !d.any fun e => e.1 == x.key).map fun x => (x.key, (1 : ℂ))) = d' at hp
  have hc : complete o d = some d' := by rw [complete_ok h, hd']
  have hnd : (d'.map Prod.fst).Nodup := by
    have := (hp.map Prod.fst).nodup_iff.mpr (by rw [List.map_map]; exact hn)
    exact this
  have hf : Fits o d' := ⟨hnd, hd' ▸ completed_names hn h⟩
  have hcoup : ∀ k, couplingOf d' k = couplingOf d k := by
    intro k
    rw [← hd']
    unfold couplingOf
    rw [List.lookup_append]
    cases hk : d.lookup k with
    | some z => rfl
    | none =>
      simp only [Option.none_or, Option.getD_none]
      generalize (o.filter fun x => !d.any fun e => e.1 == x.key) = l
      induction l with
      | nil => rfl
      | cons x l ih =>
        rw [List.map_cons]
        simp only [List.lookup]
        split
        · rfl
        · exact ih
  have hval : valueOf N o d' = valueOf N o d := by
    unfold valueOf
    congr 1
    exact funext hcoup
  have hstar : (d'.map fun e => (e.1, star e.2)) = d' := by
    rw [← hd', List.map_append, List.map_map]
    congr 1
    · exact (List.map_congr_left (g := id) fun e he => show (e.1, star e.2) = e from Prod.ext rfl (hreal e he)).trans (List.map_id _)
    · exact List.map_congr_left fun x _ => by simp
  refine ⟨_, _, by unfold linear; rw [hc, Option.map_some], fun V => ?_, fun V => ?_⟩
  · rw [C102_dot tiny ht hn hr hf, hval]
    simp
  · have hf' : Fits (getH N zero o) d' := ⟨hf.1, fun e he => h0 ▸ hf.2 e he⟩
    rw [C102_dot tiny ht (getH_names zero hn) (remake_ready zero _) hf', C102_adjoint zero hz, hstar, hval]
    simp

/-! Formats. -/

theorem reformat_ok {fmts : List (String × Option Fmt)} {e e' : Item} (h : reformat N fmts e = some e') :
    e'.key = e.key ∧ e'.mat.mat N = e.mat.mat N := by
  unfold reformat at h
  split at h
  · cases h; exact ⟨rfl, rfl⟩
  · cases h
  · cases h; exact ⟨rfl, mat_convert (N := N) .dense e.mat⟩
  · cases h
    split
    · exact ⟨rfl, rfl⟩
    · exact ⟨rfl, mat_convert (N := N) _ e.mat⟩

theorem loop_same (fmts : List (String × Option Fmt)) : ∀ o : QObj,
    List.Forall₂ (fun e' e : Item => e'.key = e.key ∧ e'.mat.mat N = e.mat.mat N) (reformatLoop N fmts o).1 o
  | [] => List.Forall₂.nil
  | e :: l => by
    unfold reformatLoop
    cases h : reformat N fmts e with
    | none => exact List.forall₂_same.mpr fun _ _ => ⟨rfl, rfl⟩
    | some e' => exact List.Forall₂.cons (reformat_ok h) (loop_same fmts l)

theorem same_value {o o' : QObj} (h : List.Forall₂ (fun e' e : Item => e'.key = e.key ∧ e'.mat.mat N = e.mat.mat N) o' o) :
    o'.map Item.key = o.map Item.key ∧ ∀ c, valueWith N o' c = valueWith N o c := by
  induction h with
  | nil => exact ⟨rfl, fun _ => rfl⟩
  | cons h _ ih =>
    refine ⟨by simp [h.1, ih.1], fun c => ?_⟩
    have := ih.2 c
    unfold valueWith at this ⊢
    rw [List.map_cons, List.sum_cons, List.map_cons, List.sum_cons, this, h.1, h.2]

theorem update_same (fmts : List (String × Option Fmt)) (o : QObj) :
    (updateFormats N fmts o).1.map Item.key = o.map Item.key ∧ ∀ c, valueWith N (updateFormats N fmts o).1 c = valueWith N o c := by
  have h1 := same_value (loop_same (N := N) fmts o)
  unfold updateFormats
  split
  · split
    · exact h1
    · constructor
      · rw [← h1.1]
        simp [updateMatvecs, List.map_map, Function.comp_def]
      · intro c
        rw [← h1.2 c]
        simp [updateMatvecs, valueWith, List.map_map, Function.comp_def]
  · exact ⟨rfl, fun _ => rfl⟩

/-- C102: changes of the formats, also failed ones, never change the operator or its names. -/
theorem C102_formats (calls : List (List (String × Option Fmt))) (o : QObj) :
    let o' := calls.foldl (fun o f => (updateFormats N f o).1) o
    o'.map Item.key = o.map Item.key ∧ ∀ d, valueOf N o' d = valueOf N o d := by
  induction calls generalizing o with
  | nil => exact ⟨rfl, fun _ => rfl⟩
  | cons f calls ih =>
    have h := ih (updateFormats N f o).1
    have h2 := update_same (N := N) f o
    exact ⟨h.1.trans h2.1, fun d => (h.2 d).trans (h2.2 _)⟩

/-- C102, part: after any history of changes of the formats whose last one does not raise, `dot` multiplies with the operator.  Missing: after one
that raises (`C102_fails_update`). -/
theorem C102_history_partial (ht : ∀ z, tiny z = true → z = 0) (calls : List (List (String × Option Fmt))) (f : List (String × Option Fmt))
    (o : QObj) (hn : Names o) {d : Coup} (h : Fits o d) (V : Matrix (Fin N) κ ℂ) (a : ℂ) :
    let o' := calls.foldl (fun o f => (updateFormats N f o).1) o
    (updateFormats N f o').2 = false → dot N tiny (updateFormats N f o').1 d V none true a = some (a • (valueOf N o d * V)) := by
  intro o' hs
  have h1 := C102_formats (N := N) calls o
  have h2 := update_same (N := N) f o'
  have hk : (updateFormats N f o').1.map Item.key = o.map Item.key := h2.1.trans h1.1
  have hr : Ready (updateFormats N f o').1 := by
    unfold updateFormats at hs ⊢
    split at hs
    · split at hs
      · cases hs
      · rename_i h3 h4
        rw [if_pos h3, if_neg h4]
        exact updateMatvecs_ready _
    · cases hs
  have hn' : Names (updateFormats N f o').1 := by
    unfold Names
    rw [hk]
    exact hn
  rw [C102_dot tiny ht hn' hr ⟨h.1, fun e he => hk ▸ h.2 e he⟩]
  have hv : valueOf N (updateFormats N f o').1 d = valueOf N o d := (h2.2 _).trans (h1.2 d)
  rw [hv]
  simp

/-! Constructor. -/

/-- The matrix an entry of the input stands for. -/
def partMatrix : Part N → Matrix (Fin N) (Fin N) ℂ
  | .opstr M => M
  | .matrix M => M

/-- C102, part: the operator made from lists is the sum of what is in them, with the couplings of the names.  Missing: lists with both operator
strings and matrices (`C102_fails_mix`). -/
theorem C102_construct_partial (hz : ∀ M, zero M = true → M = 0) (input : List (String × List (Part N)))
    (hmix : ∀ e ∈ input, opstrPart e.2 = [] ∨ matrixPart e.2 = []) (c : String → ℂ) :
    ((construct zero input).map fun e => c e.1 • e.2).sum = (input.map fun e => c e.1 • (e.2.map partMatrix).sum).sum := by
  have hsum : ∀ l : List (Part N), (l.map partMatrix).sum = (opstrPart l).sum + (matrixPart l).sum := by
    intro l
    induction l with
    | nil => simp [opstrPart, matrixPart]
    | cons p l ih =>
      rw [List.map_cons, List.sum_cons, ih]
      cases p with
      | opstr M => simp [opstrPart, matrixPart, partMatrix, add_assoc]
      | matrix M => simp [opstrPart, matrixPart, partMatrix, add_left_comm]
  unfold construct
  induction input with
  | nil => rfl
  | cons e input ih =>
    have ih' := ih fun e he => hmix e (List.mem_cons_of_mem _ he)
    rw [List.map_cons, List.sum_cons, ← ih', hsum]
    have step : ∀ (M : Matrix (Fin N) (Fin N) ℂ) (l : List (String × Matrix (Fin N) (Fin N) ℂ)),
        ((((e.1, M) :: l).filter fun e => !zero e.2).map fun e => c e.1 • e.2).sum =
          c e.1 • M + ((l.filter fun e => !zero e.2).map fun e => c e.1 • e.2).sum := by
      intro M l
      rw [List.filter_cons]
      by_cases h : zero M = true
      · rw [if_neg (by simp [h]), hz _ h, smul_zero, zero_add]
      · rw [if_pos (by simpa using h), List.map_cons, List.sum_cons]
    rw [List.filterMap_cons]
    by_cases h1 : matrixPart e.2 = []
    · by_cases h2 : opstrPart e.2 = []
      · simp [h1, h2]
      · simp only [h1, h2, ne_eq, not_true_eq_false, not_false_eq_true, if_true, if_false]
        rw [step]
        simp
    · have h2 : opstrPart e.2 = [] := (hmix e List.mem_cons_self).resolve_right h1
      simp only [h1, h2, ne_eq, not_false_eq_true, if_true]
      rw [step]
      simp

end

/-! Expectation values. -/

section
variable {N : ℕ}

/-- The mean of `H` in the state `v`. -/
def mean (H : Matrix (Fin N) (Fin N) ℂ) (v : Fin N → ℂ) : ℂ := ∑ i, star (v i) * (H.mulVec v) i

theorem mean_cols {n : ℕ} (H : Matrix (Fin N) (Fin N) ℂ) (V : Matrix (Fin N) (Fin n) ℂ) (j : Fin n) :
    ∑ i, star (V i j) * (H * V) i j = mean H fun k => V k j := rfl

/-- C102, part: in a space with at least two states, `expt_value` is the mean for one state, the means for several states in columns, and the
trace of the product for a density matrix.  Missing: spaces with one state (`C102_fails_one`). -/
theorem C102_expt_partial (hN : 2 ≤ N) (H : Matrix (Fin N) (Fin N) ℂ) (enforcePure : Bool) :
    (∀ v, exptValue H enforcePure (.vec v) = .ok (.number (mean H v))) ∧
    (∀ V : Matrix (Fin N) (Fin 1) ℂ, exptValue H enforcePure (.cols 1 V) = .ok (.number (mean H fun k => V k 0))) ∧
    (∀ n, n ≠ 1 → (n ≠ N ∨ enforcePure = true) → ∀ V : Matrix (Fin N) (Fin n) ℂ,
      exptValue H enforcePure (.cols n V) = .ok (.numbers n fun j => mean H fun k => V k j)) ∧
    (enforcePure = false → ∀ V : Matrix (Fin N) (Fin N) ℂ, exptValue H enforcePure (.cols N V) = .ok (.number (H * V).trace)) := by
  have h1 : N ≠ 1 := by omega
  refine ⟨fun v => ?_, fun V => ?_, fun n hn hc V => ?_, fun he V => ?_⟩
  · simp [exptValue, exptVec, h1, mean]
  · simp [exptValue, exptCols, h1, vdot]
    rfl
  · show exptCols V (H * V) enforcePure = _
    unfold exptCols
    rw [if_neg (by tauto), if_neg (by tauto)]
    rcases hc with hc | hc
    · rw [dif_neg (Ne.symm hc)]
      rfl
    · simp only [hc, if_true, dite_eq_ite, ite_self]
      rfl
  · show exptCols V (H * V) enforcePure = _
    unfold exptCols
    rw [if_neg (by tauto), if_neg (by tauto), dif_pos rfl, he]
    rfl

/-- C102, part: for several states in columns, `quant_fluct` of a hermitian operator is the variance in each of them.  Missing: one state as an
array with one dimension (`C102_fails_fluct_state`) and density matrices (`C102_fails_fluct_mixed`). -/
theorem C102_fluct_partial (hN : 2 ≤ N) (H : Matrix (Fin N) (Fin N) ℂ) (hH : H.IsHermitian) (enforcePure : Bool) (n : ℕ) (hn : n ≠ 1)
    (hc : n ≠ N ∨ enforcePure = true) (V : Matrix (Fin N) (Fin n) ℂ) :
    quantFluct H enforcePure (.cols n V) = .ok (.numbers n fun j => mean (H * H) (fun k => V k j) - mean H (fun k => V k j) ^ 2) := by
  have h1 : N ≠ 1 := by omega
  have hcore (L R : Matrix (Fin N) (Fin n) ℂ) : exptCols L R enforcePure = .ok (.numbers n fun j => ∑ i, star (L i j) * R i j) := by
    unfold exptCols
    rw [if_neg (by tauto), if_neg (by tauto)]
    rcases hc with hc | hc
    · rw [dif_neg (Ne.symm hc)]
    · simp only [hc, if_true, dite_eq_ite, ite_self]
  have hsq (j : Fin n) : ∑ i, star ((H * V) i j) * (H * V) i j = mean (H * H) fun k => V k j := by
    have h2 : ∑ i, star ((H * V) i j) * (H * V) i j = ((H * V).conjTranspose * (H * V)) j j := by
      rw [Matrix.mul_apply]
      rfl
    have h3 : mean (H * H) (fun k => V k j) = (V.conjTranspose * ((H * H) * V)) j j := by
      rw [← mean_cols]
      rw [Matrix.mul_apply]
      rfl
    rw [h2, h3, Matrix.conjTranspose_mul, hH.eq]
    simp only [Matrix.mul_assoc]
  rw [show quantFluct H enforcePure (.cols n V) = (exptCols V (H * V) enforcePure).bind fun x =>
    if N = n ∧ enforcePure = false then Except.error QErr.nameError
    else (exptCols (H * V) (H * V) enforcePure).bind fun y =>
      match x, y with
      | Value.number z, Value.number w => Except.ok (Value.number (w - z ^ 2))
      | Value.numbers k z, Value.numbers m w =>
        if h : m = k then Except.ok (Value.numbers m fun j => w j - z (Fin.cast h j) ^ 2)
        else Except.error QErr.valueError
      | _, _ => Except.error QErr.valueError from rfl]
  rw [hcore, hcore]
  simp only [Except.bind]
  rw [if_neg (by rintro ⟨h2, h3⟩; rcases hc with hc | hc; exact hc h2.symm; rw [h3] at hc; cases hc)]
  simp only [dite_true]
  congr 2
  funext j
  rw [hsq]
  rfl

/-- C102: `matrix_ele` gives the matrix elements between the columns, and its diagonal with `diagonal=True`. -/
theorem C102_matrix_ele {m n : ℕ} (H : Matrix (Fin N) (Fin N) ℂ) (Vl : Matrix (Fin N) (Fin m) ℂ) (Vr : Matrix (Fin N) (Fin n) ℂ) :
    (∀ i j, matrixEle H Vl Vr i j = ∑ k, star (Vl k i) * H.mulVec (fun l => Vr l j) k) ∧
      ∀ Vl' : Matrix (Fin N) (Fin n) ℂ, ∀ j, matrixEleDiagonal H Vl' Vr j = matrixEle H Vl' Vr j j := by
  refine ⟨fun i j => ?_, fun Vl' j => ?_⟩
  · simp [matrixEle, Matrix.mul_apply, Matrix.mulVec, dotProduct]
  · simp [matrixEle, matrixEleDiagonal, Matrix.mul_apply]

/-- C102: `tohamiltonian` gives the operator at every time, with the numbers and functions for the names. -/
theorem C102_tohamiltonian {T : Type} (ops : List (String × Matrix (Fin N) (Fin N) ℂ)) (d : List (String × HPar T)) (r : HamInput T N)
    (h : tohamiltonian ops d = some r) (t : T) :
    r.static.sum + (r.dynamic.map fun e => e.2 t • e.1).sum =
      (ops.map fun e => (match (d.lookup e.1).getD (.num 1) with
        | .num z => z
        | .fn f => f t) • e.2).sum := by
  unfold tohamiltonian at h
  split at h
  · simp only at h
    split at h
    · cases h
    · cases h
      simp only
      clear * -
      induction ops with
      | nil => simp
      | cons e ops ih =>
        rw [List.map_cons, List.sum_cons, ← ih, List.filterMap_cons, List.filterMap_cons]
        cases (d.lookup e.1).getD (.num 1) with
        | num z => simp [add_assoc]
        | fn f => simp [add_left_comm]
  · cases h

end

/-! ### Defects -/

/-- `rdot` raises unless an output array is given. -/
theorem C102_fails_rdot {N : ℕ} {κ : Type} (tiny : ℂ → Bool) (zero : Matrix (Fin N) (Fin N) ℂ → Bool) (o : QObj) (d : Coup) (V : Matrix κ (Fin N) ℂ)
    (overwrite : Bool) (a : ℂ) : rdot N tiny zero o d V none overwrite a = none := rfl

/-- The operator `J * 1` on a space with one state. -/
def one1 : QObj := [⟨"J", .dense fun _ _ => 1, .other⟩]

/-- The linear operator for the parameter `J = i`: `rmatvec` multiplies with `i`, the adjoint of the operator with `-i`. -/
theorem C102_fails_linear : ∃ f g, linear (κ := Unit) 1 (fun z => z = 0) (fun M => M = 0) one1 [("J", Complex.I)] = some (f, g) ∧
    g (Matrix.of fun _ _ => 1) = some (Matrix.of fun _ _ => Complex.I) ∧
      (valueOf 1 one1 [("J", Complex.I)]).conjTranspose * (Matrix.of fun _ _ => 1 : Matrix (Fin 1) Unit ℂ) = Matrix.of fun _ _ => -Complex.I := by
  have hv (d : Coup) : valueOf 1 one1 d = Matrix.of fun _ _ => couplingOf d "J" := by
    ext i j
    simp [valueOf, valueWith, one1, Stored.mat, Stored.entry]
  have hz : ∀ M : Matrix (Fin 1) (Fin 1) ℂ, decide (M = 0) = true → M = 0 := fun M h => by simpa using h
  have hn : Names one1 := by simp [Names, one1]
  have hk : (getH 1 (fun M => decide (M = 0)) one1).map Item.key = ["J"] := by
    have hne : ∀ f : Fin 1 → Fin 1 → ℂ, f 0 0 = 1 → (Matrix.of f : Matrix (Fin 1) (Fin 1) ℂ) ≠ 0 := fun f hf h => by
      have := congrFun (congrFun h 0) 0
      simp [hf] at this
    have h1 : (Stored.mat 1 (.dense fun _ _ => 1 : Stored ℂ)) ≠ 0 := hne _ rfl
    simp [getH, transpose, conjugate, remake, updateMatvecs, one1, conjStored, Stored.trans, h1]
  refine ⟨_, _, by unfold linear; rw [complete_ok ⟨by decide, by simp [one1]⟩]; rfl, ?_, ?_⟩
  · rw [C102_dot _ (fun z h => by simpa using h) (getH_names _ hn) (remake_ready _ _) ⟨by decide, by rw [hk]; simp [one1]⟩, C102_adjoint _ hz, hv]
    congr 1
    ext i j
    simp [Matrix.mul_apply, couplingOf, one1, List.lookup]
  · rw [hv]
    ext i j
    simp [Matrix.mul_apply, couplingOf, List.lookup]

/-- A failed change of the formats leaves an operator whose products raise: `a` has become dense, but still has the routine for CSR matrices. -/
theorem C102_fails_update {N : ℕ} {κ : Type} (tiny : ℂ → Bool) (A B : Compressed ℂ) (V : Matrix (Fin N) κ ℂ) (h1 : tiny 1 = false) :
    let o : QObj := [⟨"a", .csr A, .csr⟩, ⟨"b", .csr B, .csr⟩]
    Ready o ∧ (dot N tiny o [] V none true 1).isSome = true ∧
      (updateFormats N [("a", some .dense), ("b", none)] o).2 = true ∧
      dot N tiny (updateFormats N [("a", some .dense), ("b", none)] o).1 [] V none true 1 = none := by
  intro o
  refine ⟨by intro e he; simp [o] at he; rcases he with rfl | rfl <;> rfl, ?_, rfl, ?_⟩
  · simp [dot, complete, o, item, h1, dotInto, Model.Eval.read]
  · simp [dot, complete, o, updateFormats, reformatLoop, reformat, item, h1, dotInto, Model.Eval.read, convert, List.lookup]

/-- A dense matrix stays dense although "csr" is asked for, and no exception says so. -/
theorem C102_fails_dense {N : ℕ} (E : ℕ → ℕ → ℂ) :
    updateFormats N [("a", some .csr)] [⟨"a", .dense E, .other⟩] = ([⟨"a", .dense E, .other⟩], false) := rfl

/-- `toarray` and `todense` add the operator to the array they are given to fill. -/
theorem C102_fails_out : toarray 1 one1 [] (some (Matrix.of fun _ _ => 5)) = some (Matrix.of fun _ _ => 6) := by
  simp only [toarray, complete, one1, List.all_nil, if_true, Option.bind_some, List.any_nil, Bool.not_false, List.filter_cons, List.filter_nil,
    List.map_cons, List.map_nil, List.nil_append, List.foldlM_cons, List.foldlM_nil, item, List.find?_cons, beq_self_eq_true, Option.map_some,
    Option.getD_some, Option.bind_eq_bind, Option.pure_def]
  congr 1
  ext i j
  simp [Stored.mat, Stored.entry]
  norm_num

/-- Operator strings next to a matrix under the same name are lost. -/
theorem C102_fails_mix {N : ℕ} (zero : Matrix (Fin N) (Fin N) ℂ → Bool) (A B : Matrix (Fin N) (Fin N) ℂ) (h : zero B = false) :
    construct zero [("J", [.opstr A, .matrix B])] = [("J", B)] := by
  simp [construct, matrixPart, h]

/-- If the matrix of a name vanishes, its parameter is refused. -/
theorem C102_fails_zero {N : ℕ} {κ : Type} (tiny : ℂ → Bool) (zero : Matrix (Fin N) (Fin N) ℂ → Bool) (S : Stored ℂ)
    (h : zero (S.mat N) = true) (J : ℂ) (V : Matrix (Fin N) κ ℂ) : dot N tiny (remake N zero [("J", S)]) [("J", J)] V none true 1 = none := by
  simp [dot, remake, h, updateMatvecs, complete]

/-- `quant_fluct` raises an `IndexError` for every state given as an array with one dimension. -/
theorem C102_fails_fluct_state {N : ℕ} (H : Matrix (Fin N) (Fin N) ℂ) (enforcePure : Bool) (v : Fin N → ℂ) :
    quantFluct H enforcePure (.vec v) = .error .indexError := by
  show (exptVec v (H.mulVec v)).bind (fun _ => Except.error QErr.indexError) = _
  unfold exptVec
  split <;> rfl

/-- `quant_fluct` raises a `NameError` for every density matrix. -/
theorem C102_fails_fluct_mixed {N : ℕ} (hN : 2 ≤ N) (H V : Matrix (Fin N) (Fin N) ℂ) : quantFluct H false (.cols N V) = .error .nameError := by
  have h1 : N ≠ 1 := by omega
  unfold quantFluct exptCols
  simp [h1, Except.bind]

/-- In a space with one state `expt_value` raises for a state, and returns the sum of the means for several states. -/
theorem C102_fails_one (H : Matrix (Fin 1) (Fin 1) ℂ) (v : Fin 1 → ℂ) :
    exptValue H false (.vec v) = .error .indexError ∧
      exptValue (1 : Matrix (Fin 1) (Fin 1) ℂ) false (.cols 2 (Matrix.of fun _ _ => 1)) = .ok (.number 2) := by
  refine ⟨rfl, ?_⟩
  simp [exptValue, exptCols, vdot]

/-- A `hamiltonian` made from an operator has no basis, and there is none for an operator without matrices. -/
theorem C102_fails_basis {T : Type} {N : ℕ} (A : Matrix (Fin N) (Fin N) ℂ) :
    ((tohamiltonian (T := T) [("J", A)] []).map HamInput.hasBasis) = some false ∧ (tohamiltonian (T := T) (N := N) [] []).isNone = true :=
  ⟨rfl, rfl⟩

/-! ### Non-vacuity -/

example : Names [⟨"J", .dense fun _ _ => 1, .other⟩, ⟨"h", .dia fun _ _ => 2, .dia⟩] ∧
    Ready [⟨"J", .dense fun _ _ => 1, .other⟩, ⟨"h", .dia fun _ _ => 2, .dia⟩] ∧
    Fits [⟨"J", .dense fun _ _ => 1, .other⟩, ⟨"h", .dia fun _ _ => 2, .dia⟩] [("h", 3)] := by
  refine ⟨by simp [Names], ?_, by simp, by simp⟩
  intro e he
  simp at he
  rcases he with rfl | rfl <;> rfl

example : (updateFormats 2 [("h", some .csr)] [⟨"J", .dense fun _ _ => 1, .other⟩, ⟨"h", .dia fun _ _ => 2, .dia⟩]).2 = false := rfl

example : (1 : Matrix (Fin 3) (Fin 3) ℂ).IsHermitian := Matrix.isHermitian_one

end Props.QOp
