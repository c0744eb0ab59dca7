import Verif.Model.Commutator
import Verif.Props.C20
import Verif.Proof.Heap
import Verif.Props.C21
import Verif.Props.C55

/-!
C103: commutators and changes of the type of a hamiltonian.

`valueAt app a t` is the matrix an argument stands for at time `t`.
-/

namespace Props
open Model.Ham Model.Drive Spec.TimeOp Proof.Ham Model.Commutator

section
variable {F A T R n : Type} [NormedCommRing R] [StarRing R] [Fintype n]
variable (env : Env F A R) (app : F → List A → T → R) (S : F × List A → Prop)

/-- The matrix of an argument at time `t`. -/
def valueAt (app : F → List A → T → R) : Arg F A n R → T → Matrix n n R
  | .ham H, t => toMatrix app H t
  | .mat M, _ => M.val

/-- The drives of the argument are products of at most `b` callables. -/
def ArgKeys (S : F × List A → Prop) (b : Nat) : Arg F A n R → Prop
  | .ham H => Keys S b H.dynamic
  | .mat _ => True

/-- Not two hamiltonians with dense matrices of which one does not depend on time. -/
def Storage : Arg F A n R → Arg F A n R → Prop
  | .ham H, .ham G => H.Sparse ∨ G.Sparse ∨ (H.dynamic ≠ [] ∧ G.dynamic ≠ [])
  | _, _ => True

theorem Storage.symm {a b : Arg F A n R} (h : Storage a b) : Storage b a := by
  cases a <;> cases b <;> simp only [Storage] at h ⊢
  tauto

omit [StarRing R] [Fintype n] in
theorem close_eq {e : ℝ} {X Y : Matrix n n R} (h : Close e X Y) (he : e ≤ 0) : X = Y := by
  ext i j
  have h1 := (h i j).trans he
  exact sub_eq_zero.mp (norm_le_zero_iff.mp h1)

theorem times_ok {b1 b2 : Nat} (hc : NoCollision env.hash S (b1 + b2)) (ht : Threshold env 0) {a b : Arg F A n R} (ha : ArgKeys S b1 a)
    (hb : ArgKeys S b2 b) (hs : Storage a b) {X : Ham F A n n R} (hX : times env a b = some X) (t : T) :
    Keys S (b1 + b2) X.dynamic ∧ toMatrix app X t = valueAt app a t * valueAt app b t := by
  cases a with
  | ham H =>
    cases b with
    | ham G =>
      obtain ⟨k, c⟩ := mulHam_ok (app := app) (t := t) hc ht le_rfl ha hb hs hX
      exact ⟨k, close_eq c (by simp)⟩
    | mat M =>
      have ha' : Keys S (b1 + b2) H.dynamic := Keys.mono ha (by omega)
      have hX' : mulMat env H M = some X := hX
      unfold mulMat at hX'
      split at hX'
      · rename_i hf
        obtain ⟨k, c⟩ := mulSparse_ok (app := app) (t := t) hc ht le_rfl ha' (by simp [hf]) hX'
        exact ⟨k, close_eq c (by simp)⟩
      · obtain ⟨k, c⟩ := mulDense_ok (app := app) (t := t) hc ht le_rfl ha' hX'
        exact ⟨k, close_eq c (by simp)⟩
  | mat M =>
    cases b with
    | ham H =>
      have hb' : Keys S (b1 + b2) H.dynamic := Keys.mono hb (by omega)
      have hX' : rmulMat env M H = some X := hX
      unfold rmulMat at hX'
      split at hX'
      · rename_i hf
        obtain ⟨k, c⟩ := rmulSparse_ok (app := app) (t := t) hc ht le_rfl hb' (by simp [hf]) hX'
        exact ⟨k, close_eq c (by simp)⟩
      · obtain ⟨k, c⟩ := rmulDense_ok (app := app) (t := t) hc ht le_rfl hb' hX'
        exact ⟨k, close_eq c (by simp)⟩
    | mat M' => cases hX

/-- C103, part: `commutator` gives `[a, b]` at every time, for hamiltonians and matrices.  Missing: two dense hamiltonians of which one does not
depend on time (`C103_fails_dense`); dense with sparse matrices, for which it raises (`C103_fails_mixed`); matrices below the threshold of
the library (`C20_fails_tiny`). -/
theorem C103_commutator_partial {b1 b2 : Nat} (hc : NoCollision env.hash S (b1 + b2)) (ht : Threshold env 0) {a b X : Arg F A n R}
    (ha : ArgKeys S b1 a) (hb : ArgKeys S b2 b) (hs : Storage a b) (hX : commutatorCall env a b = some X) (t : T) :
    valueAt app X t = valueAt app a t * valueAt app b t - valueAt app b t * valueAt app a t := by
  have key : ∀ {x y : Ham F A n n R}, times env a b = some x → times env b a = some y → (subHam env x y).map Arg.ham = some X →
      valueAt app X t = valueAt app a t * valueAt app b t - valueAt app b t * valueAt app a t := by
    intro x y hx hy h
    obtain ⟨k1, e1⟩ := times_ok env app S hc ht ha hb hs hx t
    obtain ⟨k2, e2⟩ := times_ok env app S (Nat.add_comm b1 b2 ▸ hc) ht hb ha hs.symm hy t
    obtain ⟨z, hz, rfl⟩ := Option.map_eq_some_iff.mp h
    have := (subHam_ok (app := app) (t := t) hc ht le_rfl k1 (Nat.add_comm b2 b1 ▸ k2) hz).2
    show toMatrix app z t = _
    rw [close_eq this (by simp), e1, e2]
  have split : ∀ (h : (times env a b).bind (fun x => (times env b a).bind fun y => (subHam env x y).map Arg.ham) = some X),
      valueAt app X t = valueAt app a t * valueAt app b t - valueAt app b t * valueAt app a t := by
    intro h
    obtain ⟨x, hx, h⟩ := Option.bind_eq_some_iff.mp h
    obtain ⟨y, hy, h⟩ := Option.bind_eq_some_iff.mp h
    exact key hx hy h
  cases a with
  | ham H => exact split (by simpa only [commutatorCall] using hX)
  | mat M =>
    cases b with
    | ham H => exact split (by simpa only [commutatorCall] using hX)
    | mat M' =>
      simp only [commutatorCall] at hX
      obtain ⟨x, hx, h⟩ := Option.bind_eq_some_iff.mp hX
      obtain ⟨y, hy, rfl⟩ := Option.map_eq_some_iff.mp h
      unfold Mat.dot at hx hy
      split at hx
      · cases hx
      · split at hy
        · cases hy
        · cases hx
          cases hy
          rfl

/-- C103, part: `anti_commutator` gives `a b + b a` at every time; missing as for `C103_commutator_partial`. -/
theorem C103_anti_commutator_partial {b1 b2 : Nat} (hc : NoCollision env.hash S (b1 + b2)) (ht : Threshold env 0) {a b X : Arg F A n R}
    (ha : ArgKeys S b1 a) (hb : ArgKeys S b2 b) (hs : Storage a b) (hX : antiCommutator env a b = some X) (t : T) :
    valueAt app X t = valueAt app a t * valueAt app b t + valueAt app b t * valueAt app a t := by
  have split : ∀ (h : (times env a b).bind (fun x => (times env b a).bind fun y => (addHam env x y).map Arg.ham) = some X),
      valueAt app X t = valueAt app a t * valueAt app b t + valueAt app b t * valueAt app a t := by
    intro h
    obtain ⟨x, hx, h⟩ := Option.bind_eq_some_iff.mp h
    obtain ⟨y, hy, h⟩ := Option.bind_eq_some_iff.mp h
    obtain ⟨k1, e1⟩ := times_ok env app S hc ht ha hb hs hx t
    obtain ⟨k2, e2⟩ := times_ok env app S (Nat.add_comm b1 b2 ▸ hc) ht hb ha hs.symm hy t
    obtain ⟨z, hz, rfl⟩ := Option.map_eq_some_iff.mp h
    have := (addHam_ok (app := app) (t := t) hc ht le_rfl k1 (Nat.add_comm b2 b1 ▸ k2) hz).2
    show toMatrix app z t = _
    rw [close_eq this (by simp), e1, e2]
  cases a with
  | ham H => exact split (by simpa only [antiCommutator] using hX)
  | mat M =>
    cases b with
    | ham H => exact split (by simpa only [antiCommutator] using hX)
    | mat M' =>
      simp only [antiCommutator] at hX
      obtain ⟨x, hx, h⟩ := Option.bind_eq_some_iff.mp hX
      obtain ⟨y, hy, rfl⟩ := Option.map_eq_some_iff.mp h
      unfold Mat.dot at hx hy
      split at hx
      · cases hx
      · split at hy
        · cases hy
        · cases hx
          cases hy
          rfl

omit [StarRing R] in
/-- C103: `commutator` of two sparse or two dense matrices does not raise. -/
theorem C103_matrices (M M' : Mat n n R) (h : M.fmt = .sparse ↔ M'.fmt = .sparse) :
    (commutatorCall env (.mat M) (.mat M')).isSome = true ∧ (antiCommutator env (.mat M) (.mat M')).isSome = true := by
  have h1 : ¬(M.fmt ≠ .sparse ∧ M'.fmt = .sparse) := by tauto
  have h2 : ¬(M'.fmt ≠ .sparse ∧ M.fmt = .sparse) := by tauto
  constructor
  · simp [commutatorCall, Mat.dot, h1, h2]
  · simp [antiCommutator, Mat.dot, h1, h2]

omit [StarRing R] in
/-- The commutator of every two dense hamiltonians that do not depend on time is zero. -/
theorem C103_fails_dense (M M' : Matrix n n R) : ∃ X, commutatorCall env (.ham ⟨⟨.array, M⟩, []⟩) (.ham ⟨⟨.array, M'⟩, []⟩) = some (.ham X) ∧
    X.dynamic = [] ∧ X.static.val = 0 := by
  refine ⟨_, by rfl, rfl, ?_⟩
  simp [clean, Mat.sub, Mat.star, Mat.asArray, Mat.add, Mat.zero, Fmt.add, Fmt.asArray, Matrix.hadamard_comm]
  split <;> rfl

omit [StarRing R] in
/-- `commutator` and `anti_commutator` of a dense and a sparse matrix raise, although both are documented arguments. -/
theorem C103_fails_mixed (M M' : Matrix n n R) :
    commutatorCall env (.mat ⟨.array, M⟩) (.mat ⟨.sparse, M'⟩) = none ∧ commutatorCall env (.mat ⟨.sparse, M'⟩) (.mat ⟨.array, M⟩) = none ∧
      antiCommutator env (.mat ⟨.array, M⟩) (.mat ⟨.sparse, M'⟩) = none := by
  simp [commutatorCall, antiCommutator, Mat.dot]

end

/-! ### `as_dense_format` -/

section
open Model.Heap Proof.Heap
variable {K n R : Type} [DecidableEq K] [AddCommMonoid R]

theorem denseDyn_ok (d : List (K × Ref)) : ∀ h : Heap n R, (∀ e ∈ d, e.2.loc < h.length) →
    Frame (fun l => h.length ≤ l) h (denseDyn h d).1 ∧ (denseDyn h d).2.map Prod.fst = d.map Prod.fst ∧
      (∀ e ∈ (denseDyn h d).2, e.2.loc < (denseDyn h d).1.length) ∧
      (denseDyn h d).2.map (fun e => (e.1, (get (denseDyn h d).1 e.2).val)) = d.map (fun e => (e.1, (get h e.2).val)) ∧
      ∀ e ∈ (denseDyn h d).2, (get (denseDyn h d).1 e.2).fmt ≠ .sparse := by
  induction d with
  | nil => intro h _; exact ⟨Frame.refl _ _, rfl, by simp [denseDyn], rfl, by simp [denseDyn]⟩
  | cons e d ih =>
    intro h hb
    have he := hb e List.mem_cons_self
    generalize hp : (if (get h e.2).fmt = .sparse then alloc h ⟨.array, (get h e.2).val⟩ else (h, e.2)) = p
    have hd : denseDyn h (e :: d) = ((denseDyn p.1 d).1, (e.1, p.2) :: (denseDyn p.1 d).2) := by rw [← hp]; rfl
    have hfp : ∀ Q, Frame Q h p.1 := by
      intro Q
      rw [← hp]
      split
      · exact alloc_frame _ _ _
      · exact Frame.refl _ _
    have hlp : p.2.loc < p.1.length := by
      rw [← hp]
      split
      · exact alloc_lt _ _
      · exact he
    have hvp : (get p.1 p.2).val = (get h e.2).val ∧ (get p.1 p.2).fmt ≠ .sparse := by
      rw [← hp]
      split
      · simp [alloc, Model.Heap.get]
      · rename_i hs
        exact ⟨rfl, hs⟩
    obtain ⟨h1, h2, h3, h4, h5⟩ := ih p.1 fun x hx => (hb x (List.mem_cons_of_mem _ hx)).trans_le (hfp (fun _ => True)).le
    rw [hd]
    have hlast : get (denseDyn p.1 d).1 p.2 = get p.1 p.2 := get_frame h1 hlp (by simpa using hlp)
    refine ⟨(hfp _).trans (h1.mono fun l hl => (hfp (fun _ => True)).le.trans hl), by simp [h2], ?_, ?_, ?_⟩
    · intro x hx
      rcases List.mem_cons.mp hx with rfl | hx
      · exact hlp.trans_le h1.le
      · exact h3 x hx
    · simp only [List.map_cons]
      rw [h4, hlast, hvp.1]
      congr 1
      refine List.map_congr_left fun x hx => ?_
      have hx' := hb x (List.mem_cons_of_mem _ hx)
      rw [get_frame (hfp fun _ => False) hx' (by simp)]
    · intro x hx
      rcases List.mem_cons.mp hx with rfl | hx
      · rw [hlast]; exact hvp.2
      · exact h5 x hx

/-- C103, part: `as_dense_format` gives the same matrices under the same drives, all dense, and changes nothing that is there before.  Missing:
hamiltonians with a dense static part before version 2 of numpy (`C103_fails_asarray`), and results that share data (`C103_fails_shared`). -/
theorem C103_as_dense_partial (h : Heap n R) (o : Obj K) (wf : WF h o) (r : Heap n R × Obj K) (asarrayCopy : Bool)
    (hr : asDense asarrayCopy false h o = some r) :
    (get r.1 r.2.static).val = (get h o.static).val ∧ (get r.1 r.2.static).fmt ≠ .sparse ∧
      r.2.dynamic.map (fun e => (e.1, (get r.1 e.2).val)) = o.dynamic.map (fun e => (e.1, (get h e.2).val)) ∧
      (∀ e ∈ r.2.dynamic, (get r.1 e.2).fmt ≠ .sparse) ∧ ∀ x : Ref, x.loc < h.length → get r.1 x = get h x := by
  unfold asDense at hr
  split at hr
  · obtain ⟨h1, h2, h3, h4, h5⟩ := denseDyn_ok o.dynamic h wf.bound
    simp only [Option.some.injEq] at hr
    rw [construct_share _ _ _ (by rw [h2]; exact wf.nodup)] at hr
    subst hr
    have hf := alloc_frame (fun _ => False) (denseDyn h o.dynamic).1 (⟨.array, (get h o.static).val⟩ : Mat n n R).asArray
    refine ⟨by simp [alloc, Model.Heap.get, Mat.asArray], by simp [alloc, Model.Heap.get, Mat.asArray, Fmt.asArray], ?_, ?_, ?_⟩
    · rw [← h4]
      refine List.map_congr_left fun x hx => ?_
      rw [get_frame hf (h3 x hx) (by simp)]
    · intro e he
      rw [get_frame hf (h3 e he) (by simp)]
      exact h5 e he
    · intro x hx
      rw [get_frame hf (hx.trans_le h1.le) (by simp), get_frame h1 hx (by simpa using hx)]
  · cases hr

/-- Before version 2 of numpy `as_dense_format` raises for every hamiltonian with a dense static part. -/
theorem C103_fails_asarray (copy : Bool) (h : Heap n R) (o : Obj K) (hs : (get h o.static).fmt ≠ .sparse) : asDense false copy h o = none := by
  simp [asDense, hs]

end

section
open Model.Heap

/-- A hamiltonian with a sparse static part 1 and a dense drive 2. -/
def mixedHeap : Heap (Fin 1) ℤ := [⟨.sparse, Matrix.of fun _ _ => 1⟩, ⟨.array, Matrix.of fun _ _ => 2⟩]

/-- Its references. -/
def mixedObj : Obj Nat := ⟨⟨0, false⟩, [(0, ⟨1, false⟩)]⟩

/-- `G = H.as_dense_format(); G *= 2` changes the drive of `H`, but not its static part: `H` becomes neither `2 H` nor stays `H`. -/
theorem C103_fails_shared : ∃ r, asDense false false mixedHeap mixedObj = some r ∧
    ((get (imulScalar ⟨fun _ => false, fun a b => a + b, id⟩ 2 r.1 r.2).1 mixedObj.static).val 0 0,
      (get (imulScalar ⟨fun _ => false, fun a b => a + b, id⟩ 2 r.1 r.2).1 ⟨1, false⟩).val 0 0) = ((1 : ℤ), (4 : ℤ)) := by
  refine ⟨_, by rfl, ?_⟩
  decide

/-- C103, part: `as_sparse_format` gives the same operator at every time, and the static part has the format asked for.  Missing: the format
of the drives (`C103_fails_sparse`). -/
theorem C103_as_sparse_partial {T R K κ : Type} [CommRing R] [DecidableEq K] (N : Nat) (f : Model.Formats.Fmt) (d : Model.Formats.DynFmt K)
    (o o' : Model.Formats.Obj T R K) (h : asSparse N f d o = some o') (t : T) (V : Matrix (Fin N) κ R) :
    Proof.Eval.instantOf N o'.ham t = Proof.Eval.instantOf N o.ham t ∧ o'.dot N t V = some (Proof.Eval.instantOf N o.ham t * V) ∧
      Model.Formats.fmtOf o'.static = f := by
  unfold asSparse at h
  split at h
  · cases h
  · rename_i hf
    cases h
    have hp := C55_products_partial (some f) d o (Bool.not_eq_true _ ▸ hf) t V
    exact ⟨C55_operator (some f) d o t, hp.1, hp.2 f rfl⟩

/-- `as_sparse_format` leaves all matrices of the drives as they are, dense or sparse, with its default `dynamic_fmt={}` and with every dictionary
of formats, the documented argument. -/
theorem C103_fails_sparse {T R K : Type} [CommRing R] [DecidableEq K] (N : Nat) (f : Model.Formats.Fmt) (l : List (K × Model.Formats.Fmt))
    (o : Model.Formats.Obj T R K) : ∃ o', asSparse N f (.dict l) o = some o' ∧ o'.dynamic.map (fun e => e.mat) = o.dynamic.map (fun e => e.mat) := by
  refine ⟨_, by simp [asSparse, Model.Formats.update, Model.Formats.setDynamic]; rfl, ?_⟩
  simp [Model.Formats.setStatic, Model.Formats.Obj.getMatvecs]

end

/-! ### The hypotheses are met -/

/-- The hamiltonian of `C103_fails_shared` is well formed. -/
example : Proof.Heap.WF mixedHeap mixedObj :=
  ⟨by simp [mixedObj, mixedHeap], by simp [mixedObj, mixedHeap], by simp [mixedObj]⟩

/-- Two dense matrices that do not commute. -/
example : ∃ X : Mat (Fin 2) (Fin 2) ℝ, commutatorCall sampleEnv (.mat ⟨.array, !![0, 1; 0, 0]⟩) (.mat ⟨.array, !![1, 0; 0, 0]⟩) = some (.mat X) ∧
    X.val 0 1 = -1 := by
  refine ⟨_, by rfl, ?_⟩
  simp [Mat.sub, Mat.prod]

/-- The commutator of the driven two level system with a matrix is computed. -/
example (app : Nat → List Nat → ℝ → ℝ) (t : ℝ) : ∃ X, commutatorCall sampleEnv (.ham sampleHam) (.ham sampleHam) = some X ∧ valueAt app X t = 0 := by
  obtain ⟨X, hX⟩ := C20_returns sampleEnv (fun _ => True) sampleEnv_threshold (fun _ : Unit => sampleHam) (fun _ => 1)
    (fun _ => sampleHam_sparse) (fun _ => sampleHam_keys)
    (fun _ e he => by
      simp only [sampleHam, List.mem_singleton] at he
      subst he; trivial)
    (.sub (.mul (.leaf ()) (.leaf ())) (.mul (.leaf ()) (.leaf ()))) ⟨⟨trivial, trivial⟩, trivial, trivial⟩
    (Proof.Drive.noCollision_of_injective sampleHash_injective _ _)
  have hX' : commutatorCall sampleEnv (.ham sampleHam) (.ham sampleHam) = some (.ham X) := by
    simp only [Model.Ham.build, Option.bind_some] at hX
    simp only [commutatorCall, times]
    obtain ⟨x, hx, h⟩ := Option.bind_eq_some_iff.mp hX
    obtain ⟨y, hy, h⟩ := Option.bind_eq_some_iff.mp h
    rw [hx, Option.bind_some, Option.bind_some]
    rw [hx] at hy
    cases hy
    rw [h]
    rfl
  refine ⟨_, hX', ?_⟩
  rw [C103_commutator_partial sampleEnv app (fun _ => True) (b1 := 1) (b2 := 1)
    (Proof.Drive.noCollision_of_injective sampleHash_injective _ _) sampleEnv_threshold (a := .ham sampleHam) (b := .ham sampleHam) sampleHam_keys sampleHam_keys
    (Or.inl sampleHam_sparse) hX' t]
  simp

end Props
