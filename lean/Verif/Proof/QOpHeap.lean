import Verif.Proof.Heap
import Verif.Spec.QOpSharing
import Mathlib.Algebra.BigOperators.Group.List.Lemmas
import Mathlib.Tactic.Abel

/-!
Proofs about sharing and arithmetic of `quantum_operator`s (C59).
-/

namespace Proof.QOpHeap
open Model.Ham (Mat)
open Model.Heap (Heap Ref alloc iop iscale find setKey pop mapDyn put)
open Model.QOpHeap Spec.QOpSharing Spec.Pars Proof.Heap

variable {n R : Type}

/-- An object inside the heap. -/
structure OK (h : Heap n R) (o : Obj) : Prop where
  bound : ∀ e ∈ o, e.2.loc < h.length
  nodup : (o.map Prod.fst).Nodup

/-- New cells. -/
abbrev Fresh (h : Heap n R) (l : Nat) : Prop := h.length ≤ l

theorem OK.le {h h' : Heap n R} {o : Obj} (k : OK h o) (hle : h.length ≤ h'.length) : OK h' o :=
  ⟨fun e he => (k.bound e he).trans_le hle, k.nodup⟩

theorem OK.filter {h : Heap n R} {o : Obj} (k : OK h o) (f : String × Ref → Bool) : OK h (o.filter f) :=
  ⟨fun e he => k.bound e (List.mem_of_mem_filter he), k.nodup.sublist (List.Sublist.map _ List.filter_sublist)⟩

section

variable [CommRing R] (tiny : Matrix n n R → Bool)

omit tiny in
theorem frame_fresh {h h' h'' : Heap n R} (a : Frame (Fresh h) h h') (b : Frame (Fresh h') h' h'') : Frame (Fresh h) h h'' :=
  a.trans (b.mono fun _ hl => a.le.trans hl)

omit tiny in
theorem entries_frame {P} {h h' : Heap n R} (f : Frame P h h') {o : Obj} (k : ∀ e ∈ o, e.2.loc < h.length ∧ ¬P e.2.loc) :
    entries h' o = entries h o := by
  refine List.map_congr_left fun e he => ?_
  rw [get_frame f (k e he).1 (k e he).2]

omit tiny in
theorem entries_fresh {h h' : Heap n R} (f : Frame (Fresh h) h h') {o : Obj} (k : OK h o) : entries h' o = entries h o :=
  entries_frame f fun e he => ⟨k.bound e he, Nat.not_le.mpr (k.bound e he)⟩

/-! ### Loops -/

theorem addStep_ok {h : Heap n R} {o : Obj} (k : OK h o) {e : String × Ref} (he : e.2.loc < h.length) :
    Frame (Fresh h) h (addStep tiny (h, o) e).1 ∧ OK (addStep tiny (h, o) e).1 (addStep tiny (h, o) e).2 := by
  unfold addStep
  simp only
  rcases hf : find o e.1 with _ | r
  · simp only
    refine ⟨Frame.refl _ _, ?_⟩
    split
    · exact k
    · have : Proof.Heap.Dict (fun _ => True) h (o ++ [(e.1, e.2)]) :=
        Dict.snoc ⟨k.bound, k.nodup, fun _ _ => trivial⟩ (le_refl _) (find_none hf) he trivial
      exact ⟨this.bound, this.nodup⟩
  · simp only
    have hfr := alloc_frame (Fresh h) h (Mat.add (Model.Heap.get h r) (Model.Heap.get h e.2))
    refine ⟨hfr, ?_⟩
    have hd : Proof.Heap.Dict (fun _ => True) h o := ⟨k.bound, k.nodup, fun _ _ => trivial⟩
    split
    · have := hd.pop hfr.le e.1
      exact ⟨this.bound, this.nodup⟩
    · have := hd.setKey hfr.le (k := e.1) (alloc_lt h (Mat.add (Model.Heap.get h r) (Model.Heap.get h e.2))) trivial
      exact ⟨this.bound, this.nodup⟩

theorem subStep_ok {h : Heap n R} {o : Obj} (k : OK h o) {e : String × Ref} :
    Frame (Fresh h) h (subStep tiny (h, o) e).1 ∧ OK (subStep tiny (h, o) e).1 (subStep tiny (h, o) e).2 := by
  unfold subStep
  simp only
  have hd : Proof.Heap.Dict (fun _ => True) h o := ⟨k.bound, k.nodup, fun _ _ => trivial⟩
  rcases hf : find o e.1 with _ | r
  · simp only
    have hfr := alloc_frame (Fresh h) h (Mat.neg (Model.Heap.get h e.2))
    refine ⟨hfr, ?_⟩
    split
    · exact k.le hfr.le
    · have := hd.snoc hfr.le (find_none hf) (alloc_lt h (Mat.neg (Model.Heap.get h e.2))) trivial
      exact ⟨this.bound, this.nodup⟩
  · simp only
    have hfr := alloc_frame (Fresh h) h (Mat.sub (Model.Heap.get h r) (Model.Heap.get h e.2))
    refine ⟨hfr, ?_⟩
    split
    · have := hd.pop hfr.le e.1
      exact ⟨this.bound, this.nodup⟩
    · have := hd.setKey hfr.le (k := e.1) (alloc_lt h (Mat.sub (Model.Heap.get h r) (Model.Heap.get h e.2))) trivial
      exact ⟨this.bound, this.nodup⟩

omit tiny in
theorem loop_ok (step : Heap n R × Obj → String × Ref → Heap n R × Obj)
    (hs : ∀ h o e, OK h o → e.2.loc < h.length → Frame (Fresh h) h (step (h, o) e).1 ∧ OK (step (h, o) e).1 (step (h, o) e).2)
    (l : List (String × Ref)) : ∀ (h : Heap n R) (o : Obj), OK h o → (∀ e ∈ l, e.2.loc < h.length) →
      (Frame (Fresh h) h (l.foldl step (h, o)).1 ∧ OK (l.foldl step (h, o)).1 (l.foldl step (h, o)).2) ∧
      Frame (Fresh h) h (selfLoop step (h, o) l).1 ∧ OK (selfLoop step (h, o) l).1 (selfLoop step (h, o) l).2 := by
  induction l with
  | nil => intro h o k _; exact ⟨⟨Frame.refl _ _, k⟩, Frame.refl _ _, k⟩
  | cons e l ih =>
    intro h o k hl
    obtain ⟨h1, h2⟩ := hs h o e k (hl e (by simp))
    obtain ⟨⟨i1, i2⟩, i3, i4⟩ := ih (step (h, o) e).1 (step (h, o) e).2 h2 fun x hx => (hl x (by simp [hx])).trans_le h1.le
    refine ⟨⟨frame_fresh h1 i1, i2⟩, ?_⟩
    rw [selfLoop]
    split
    · exact ⟨h1, h2⟩
    · exact ⟨frame_fresh h1 i3, i4⟩

theorem addLoop_ok {h : Heap n R} {a b : Obj} (ka : OK h a) (kb : OK h b) :
    Frame (Fresh h) h (addLoop tiny h a b).1 ∧ OK (addLoop tiny h a b).1 (addLoop tiny h a b).2 :=
  (loop_ok (addStep tiny) (fun _ _ _ k he => addStep_ok tiny k he) b h a ka kb.bound).1

theorem subLoop_ok {h : Heap n R} {a b : Obj} (ka : OK h a) (kb : OK h b) :
    Frame (Fresh h) h (subLoop tiny h a b).1 ∧ OK (subLoop tiny h a b).1 (subLoop tiny h a b).2 :=
  (loop_ok (subStep tiny) (fun _ _ _ k _ => subStep_ok tiny k) b h a ka kb.bound).1

theorem astype_ok' {h : Heap n R} {o : Obj} (k : OK h o) :
    Frame (Fresh h) h (astype tiny h o).1 ∧ OK (astype tiny h o).1 (astype tiny h o).2 ∧ ∀ e ∈ (astype tiny h o).2, Fresh h e.2.loc := by
  obtain ⟨h1, h2, h3⟩ := mapDyn_ok (P := Fresh h) id o h fun _ hl => hl
  have : OK (mapDyn id h o).1 (mapDyn id h o).2 := ⟨fun e he => (h3 e he).1, by rw [h2]; exact k.nodup⟩
  exact ⟨h1, this.filter _, fun e he => (h3 e (List.mem_of_mem_filter he)).2⟩

omit tiny in
theorem imulLoop_frame (x : R) {P : Nat → Prop} (o : Obj) : ∀ h : Heap n R, (∀ e ∈ o, P e.2.loc) →
    Frame P h (imulLoop x h o) ∧ (imulLoop x h o).length = h.length := by
  induction o with
  | nil => intro h _; exact ⟨Frame.refl _ _, rfl⟩
  | cons e o ih =>
    intro h hP
    obtain ⟨h1, h2⟩ := ih (iscale x h e.2) fun a ha => hP a (by simp [ha])
    have hf : Frame P h (iscale x h e.2) := iscale_ok (hP e (by simp)) x
    exact ⟨hf.trans h1, h2.trans (by simp [iscale, put])⟩

theorem add_ok {h : Heap n R} {a b : Obj} (ka : OK h a) (kb : OK h b) :
    Frame (Fresh h) h (add tiny h a b).1 ∧ OK (add tiny h a b).1 (add tiny h a b).2 := by
  obtain ⟨h1, h2, _⟩ := astype_ok' tiny ka
  obtain ⟨h3, h4⟩ := addLoop_ok tiny h2 (kb.le h1.le)
  exact ⟨frame_fresh h1 h3, h4⟩

theorem sub_ok {h : Heap n R} {a b : Obj} (ka : OK h a) (kb : OK h b) :
    Frame (Fresh h) h (sub tiny h a b).1 ∧ OK (sub tiny h a b).1 (sub tiny h a b).2 := by
  obtain ⟨h1, h2, _⟩ := astype_ok' tiny ka
  obtain ⟨h3, h4⟩ := subLoop_ok tiny h2 (kb.le h1.le)
  exact ⟨frame_fresh h1 h3, h4⟩

theorem mul_ok (x : R) {h : Heap n R} {a : Obj} (ka : OK h a) :
    Frame (Fresh h) h (mul tiny x h a).1 ∧ OK (mul tiny x h a).1 (mul tiny x h a).2 := by
  obtain ⟨h1, h2, h3⟩ := astype_ok' tiny ka
  obtain ⟨h4, h5⟩ := imulLoop_frame x (P := Fresh h) (astype tiny h a).2 (astype tiny h a).1 h3
  exact ⟨h1.trans h4, h2.le (le_of_eq h5.symm)⟩

theorem copy_ok {h : Heap n R} {a : Obj} (ka : OK h a) : OK h (copyObj tiny h a).2 := ka.filter _

theorem transpose_ok' {h : Heap n R} {a : Obj} (ka : OK h a) : OK h (transpose tiny h a).2 := by
  apply OK.filter
  refine ⟨fun e he => ?_, ?_⟩
  · obtain ⟨x, hx, rfl⟩ := List.mem_map.mp he
    exact ka.bound x hx
  · rw [List.map_map]
    exact ka.nodup

/-- The constructor: cells of the user's matrices may be changed. -/
theorem construct_ok (h : Heap n R) (l : List (String × List Ref)) (hl : ∀ e ∈ l, ∀ r ∈ e.2, r.loc < h.length)
    (hn : (l.map Prod.fst).Nodup) :
    h.length ≤ (construct tiny h l).1.length ∧ OK (construct tiny h l).1 (construct tiny h l).2 ∧
      ((∀ e ∈ l, e.2.length ≤ 1) → (construct tiny h l).1 = h) := by
  have hsum : ∀ (h : Heap n R) (rs : List Ref), (∀ r ∈ rs, r.loc < h.length) →
      h.length ≤ (sumList h rs).1.length ∧ (∀ r, (sumList h rs).2 = some r → r.loc < (sumList h rs).1.length) ∧
      (rs.length ≤ 1 → (sumList h rs).1 = h) := by
    intro h rs hrs
    cases rs with
    | nil => exact ⟨le_refl _, by simp [sumList], fun _ => rfl⟩
    | cons r rs =>
      have : ∀ (rs : List Ref) (h : Heap n R) (r : Ref), r.loc < h.length →
          h.length ≤ (rs.foldl (fun (s : Heap n R × Ref) x => iop Mat.add s.1 s.2 (Model.Heap.get s.1 x)) (h, r)).1.length ∧
          (rs.foldl (fun (s : Heap n R × Ref) x => iop Mat.add s.1 s.2 (Model.Heap.get s.1 x)) (h, r)).2.loc <
            (rs.foldl (fun (s : Heap n R × Ref) x => iop Mat.add s.1 s.2 (Model.Heap.get s.1 x)) (h, r)).1.length := by
        intro rs
        induction rs with
        | nil => intro h r hr; exact ⟨le_refl _, hr⟩
        | cons x rs ih =>
          intro h r hr
          obtain ⟨i1, i2, _⟩ := iop_ok (P := fun _ => True) (h := h) (fun _ _ => trivial) trivial hr Mat.add (Model.Heap.get h x)
          obtain ⟨j1, j2⟩ := ih _ _ i2
          exact ⟨i1.le.trans j1, j2⟩
      obtain ⟨h1, h2⟩ := this rs h r (hrs r (by simp))
      refine ⟨h1, fun r' hr' => ?_, fun hlen => ?_⟩
      · simp only [sumList, Option.some.injEq] at hr'
        subst hr'
        exact h2
      · have : rs = [] := List.length_eq_zero_iff.mp (by simp at hlen; exact hlen ▸ rfl)
        subst this
        rfl
  have hcol : ∀ (l : List (String × List Ref)) (h : Heap n R), (∀ e ∈ l, ∀ r ∈ e.2, r.loc < h.length) →
      h.length ≤ (collect h l).1.length ∧ (∀ e ∈ (collect h l).2, e.2.loc < (collect h l).1.length ∧ e.1 ∈ l.map Prod.fst) ∧
      ((l.map Prod.fst).Nodup → ((collect h l).2.map Prod.fst).Nodup) ∧ ((∀ e ∈ l, e.2.length ≤ 1) → (collect h l).1 = h) := by
    intro l
    induction l with
    | nil => intro h _; exact ⟨le_refl _, by simp [collect], by simp [collect], fun _ => rfl⟩
    | cons e l ih =>
      intro h hl
      obtain ⟨s1, s2, s3⟩ := hsum h e.2 (hl e (by simp))
      obtain ⟨i1, i2, i3, i4⟩ := ih (sumList h e.2).1 fun x hx r hr => (hl x (by simp [hx]) r hr).trans_le s1
      refine ⟨s1.trans i1, fun x hx => ?_, fun hn => ?_, fun hle => ?_⟩
      · simp only [collect, List.mem_append, List.mem_map, Option.mem_toList] at hx
        rcases hx with ⟨r, hr, rfl⟩ | hx
        · exact ⟨(s2 r hr).trans_le i1, by simp⟩
        · exact ⟨(i2 x hx).1, by rw [List.map_cons]; exact List.mem_cons_of_mem _ (i2 x hx).2⟩
      · rw [List.map_cons, List.nodup_cons] at hn
        simp only [collect, List.map_append, List.map_map]
        rw [List.nodup_append]
        refine ⟨?_, i3 hn.2, ?_⟩
        · rcases (sumList h e.2).2 with _ | r <;> simp
        · rintro x hx y hy rfl
          have hxe : x = e.1 := by
            simp only [List.mem_map] at hx
            obtain ⟨r, _, rfl⟩ := hx
            rfl
          obtain ⟨z, hz, hzx⟩ := List.mem_map.mp hy
          exact hn.1 (by rw [← hxe, ← hzx]; exact (i2 z hz).2)
      · have e1 := s3 (hle e (by simp))
        have e2 := i4 fun x hx => hle x (by simp [hx])
        simp only [collect]
        rw [e2, e1]
  obtain ⟨c1, c2, c3, c4⟩ := hcol l h hl
  exact ⟨c1, OK.filter ⟨fun e he => (c2 e he).1, c3 hn⟩ _, c4⟩

/-! ### Values -/

omit tiny in
/-- The matrix of an object for given parameters. -/
def val (d : List (String × R)) (h : Heap n R) (o : Obj) : Matrix n n R := value (entries h o) d

omit tiny in
theorem val_nil (d : List (String × R)) (h : Heap n R) : val d h [] = 0 := rfl

omit tiny in
theorem val_cons (d : List (String × R)) (h : Heap n R) (e : String × Ref) (o : Obj) :
    val d h (e :: o) = coupling d e.1 • (Model.Heap.get h e.2).val + val d h o := by
  simp [val, value, entries]

omit tiny in
theorem val_append (d : List (String × R)) (h : Heap n R) (o o' : Obj) : val d h (o ++ o') = val d h o + val d h o' := by
  simp [val, value, entries]

omit tiny in
theorem val_fresh (d : List (String × R)) {h h' : Heap n R} (f : Frame (Fresh h) h h') {o : Obj} (k : OK h o) : val d h' o = val d h o := by
  rw [val, val, entries_fresh f k]

/-- Almost zero means zero. -/
abbrev Exact (tiny : Matrix n n R → Bool) : Prop := ∀ M, tiny M = true → M = 0

theorem val_dropTiny (ht : Exact tiny) (d : List (String × R)) (h : Heap n R) (o : Obj) : val d h (dropTiny tiny h o) = val d h o := by
  induction o with
  | nil => rfl
  | cons e o ih =>
    rw [dropTiny, List.filter_cons]
    split
    · rw [val_cons, val_cons, ← ih]
      rfl
    · rename_i hz
      have : (Model.Heap.get h e.2).val = 0 := ht _ (by simpa using hz)
      rw [val_cons, this, smul_zero, zero_add, ← ih]
      rfl

omit tiny in
theorem find_split {o : Obj} (hn : (o.map Prod.fst).Nodup) {k : String} {r : Ref} (hf : find o k = some r) (d : List (String × R)) (h : Heap n R) :
    val d h o = val d h (pop o k) + coupling d k • (Model.Heap.get h r).val ∧
      ∀ r', val d h (setKey o k r') = val d h (pop o k) + coupling d k • (Model.Heap.get h r').val := by
  induction o with
  | nil => simp [find] at hf
  | cons e o ih =>
    rw [List.map_cons, List.nodup_cons] at hn
    by_cases he : e.1 = k
    · have hr : e.2 = r := by simpa [find, he] using hf
      have hpop : pop (e :: o) k = o := by
        rw [pop, List.filter_cons, if_neg (by simpa using he), List.filter_eq_self.mpr]
        intro x hx
        simp only [decide_eq_true_eq]
        rintro rfl
        exact hn.1 (he ▸ List.mem_map_of_mem hx)
      rw [hpop]
      refine ⟨by rw [val_cons, he, hr, add_comm], fun r' => ?_⟩
      have hset : setKey (e :: o) k r' = (k, r') :: o := by
        rw [setKey, List.map_cons, if_pos he, he]
        congr 1
        conv_rhs => rw [← List.map_id o]
        refine List.map_congr_left fun x hx => ?_
        rw [if_neg]
        · rfl
        · rintro rfl
          exact hn.1 (he ▸ List.mem_map_of_mem hx)
      rw [hset, val_cons, add_comm]
    · have hf' : find o k = some r := by
        rw [← hf]
        simp [find, he]
      obtain ⟨h1, h2⟩ := ih hn.2 hf'
      have hpop : pop (e :: o) k = e :: pop o k := by rw [pop, List.filter_cons, if_pos (by simpa using he), ← pop]
      rw [hpop, val_cons, val_cons, h1]
      refine ⟨by abel, fun r' => ?_⟩
      have hset : setKey (e :: o) k r' = e :: setKey o k r' := by rw [setKey, List.map_cons, if_neg he, ← setKey]
      rw [hset, val_cons, h2 r']
      abel

omit tiny in
theorem get_alloc (h : Heap n R) (c : Mat n n R) : Model.Heap.get (alloc h c).1 (alloc h c).2 = c := by
  simp [Model.Heap.get, alloc]

theorem addStep_val (ht : Exact tiny) (d : List (String × R)) {h : Heap n R} {o : Obj} (k : OK h o) (e : String × Ref) :
    val d (addStep tiny (h, o) e).1 (addStep tiny (h, o) e).2 = val d h o + coupling d e.1 • (Model.Heap.get h e.2).val := by
  unfold addStep
  simp only
  rcases hf : find o e.1 with _ | r
  · simp only
    split
    · rename_i hz
      rw [ht _ hz, smul_zero, add_zero]
    · rw [val_append, val_cons, val_nil, add_zero]
  · simp only
    obtain ⟨h1, h2⟩ := find_split k.nodup hf d (alloc h (Mat.add (Model.Heap.get h r) (Model.Heap.get h e.2))).1
    have hfr := alloc_frame (Fresh h) h (Mat.add (Model.Heap.get h r) (Model.Heap.get h e.2))
    rw [val_fresh d hfr k, get_frame hfr (k.bound _ (find_some hf)) (Nat.not_le.mpr (k.bound _ (find_some hf)))] at h1
    rw [get_alloc]
    have hsum : (Mat.add (Model.Heap.get h r) (Model.Heap.get h e.2)).val = (Model.Heap.get h r).val + (Model.Heap.get h e.2).val := rfl
    split
    · rename_i hz
      have hz := ht _ hz
      rw [hsum] at hz
      rw [h1, add_assoc, ← smul_add, hz, smul_zero, add_zero]
    · rw [h2, get_alloc, h1, hsum, smul_add, add_assoc]

theorem subStep_val (ht : Exact tiny) (d : List (String × R)) {h : Heap n R} {o : Obj} (k : OK h o) (e : String × Ref) :
    val d (subStep tiny (h, o) e).1 (subStep tiny (h, o) e).2 = val d h o - coupling d e.1 • (Model.Heap.get h e.2).val := by
  unfold subStep
  simp only
  rcases hf : find o e.1 with _ | r
  · simp only
    have hfr := alloc_frame (Fresh h) h (Mat.neg (Model.Heap.get h e.2))
    have hneg : (Mat.neg (Model.Heap.get h e.2)).val = -(Model.Heap.get h e.2).val := rfl
    rw [get_alloc, hneg]
    split
    · rename_i hz
      have hz : (Model.Heap.get h e.2).val = 0 := neg_eq_zero.mp (ht _ hz)
      rw [val_fresh d hfr k, hz, smul_zero, sub_zero]
    · rw [val_append, val_cons, val_nil, add_zero, val_fresh d hfr k, get_alloc, hneg, smul_neg, sub_eq_add_neg]
  · simp only
    obtain ⟨h1, h2⟩ := find_split k.nodup hf d (alloc h (Mat.sub (Model.Heap.get h r) (Model.Heap.get h e.2))).1
    have hfr := alloc_frame (Fresh h) h (Mat.sub (Model.Heap.get h r) (Model.Heap.get h e.2))
    rw [val_fresh d hfr k, get_frame hfr (k.bound _ (find_some hf)) (Nat.not_le.mpr (k.bound _ (find_some hf)))] at h1
    rw [get_alloc]
    have hsum : (Mat.sub (Model.Heap.get h r) (Model.Heap.get h e.2)).val = (Model.Heap.get h r).val - (Model.Heap.get h e.2).val := rfl
    split
    · rename_i hz
      have hz := ht _ hz
      rw [hsum] at hz
      rw [h1, add_sub_assoc, ← smul_sub, hz, smul_zero, add_zero]
    · rw [h2, get_alloc, h1, hsum, smul_sub, add_sub_assoc]

theorem addLoop_val (ht : Exact tiny) (d : List (String × R)) (b : Obj) : ∀ {h : Heap n R} {a : Obj}, OK h a → (∀ e ∈ b, e.2.loc < h.length) →
    val d (addLoop tiny h a b).1 (addLoop tiny h a b).2 = val d h a + val d h b := by
  induction b with
  | nil => intro h a _ _; rw [val_nil, add_zero]; rfl
  | cons e b ih =>
    intro h a k hb
    obtain ⟨h1, h2⟩ := addStep_ok tiny k (hb e (by simp))
    have hb' : val d (addStep tiny (h, a) e).1 b = val d h b := by
      rw [val, val, entries_frame h1 fun x hx => ⟨hb x (by simp [hx]), Nat.not_le.mpr (hb x (by simp [hx]))⟩]
    have := ih h2 fun x hx => (hb x (by simp [hx])).trans_le h1.le
    rw [hb', addStep_val tiny ht d k e] at this
    rw [val_cons, ← add_assoc]
    exact this

theorem subLoop_val (ht : Exact tiny) (d : List (String × R)) (b : Obj) : ∀ {h : Heap n R} {a : Obj}, OK h a → (∀ e ∈ b, e.2.loc < h.length) →
    val d (subLoop tiny h a b).1 (subLoop tiny h a b).2 = val d h a - val d h b := by
  induction b with
  | nil => intro h a _ _; rw [val_nil, sub_zero]; rfl
  | cons e b ih =>
    intro h a k hb
    obtain ⟨h1, h2⟩ := subStep_ok tiny k (e := e)
    have hb' : val d (subStep tiny (h, a) e).1 b = val d h b := by
      rw [val, val, entries_frame h1 fun x hx => ⟨hb x (by simp [hx]), Nat.not_le.mpr (hb x (by simp [hx]))⟩]
    have := ih h2 fun x hx => (hb x (by simp [hx])).trans_le h1.le
    rw [hb', subStep_val tiny ht d k e] at this
    rw [val_cons, sub_add_eq_sub_sub]
    exact this

omit tiny in
theorem mapDyn_entries (o : Obj) : ∀ h : Heap n R, (∀ e ∈ o, e.2.loc < h.length) →
    entries (mapDyn id h o).1 (mapDyn id h o).2 = entries h o ∧ (cells (mapDyn id h o).2).Nodup := by
  induction o with
  | nil => intro h _; exact ⟨rfl, by simp [mapDyn, cells]⟩
  | cons e o ih =>
    intro h hb
    have hf := alloc_frame (Fresh h) h (id (Model.Heap.get h e.2))
    obtain ⟨h1, h2⟩ := ih (alloc h (id (Model.Heap.get h e.2))).1 fun x hx => (hb x (by simp [hx])).trans_le hf.le
    obtain ⟨m1, _, m3⟩ := mapDyn_ok (P := Fresh (alloc h (id (Model.Heap.get h e.2))).1) id o (alloc h (id (Model.Heap.get h e.2))).1 fun _ hl => hl
    constructor
    · simp only [mapDyn]
      rw [entries, List.map_cons]
      change _ :: entries _ _ = _
      rw [h1, get_frame m1 (alloc_lt _ _) (Nat.not_le.mpr (alloc_lt _ _)), get_alloc]
      rw [show entries h (e :: o) = (e.1, (Model.Heap.get h e.2).val) :: entries h o from rfl]
      congr 1
      exact entries_frame hf fun x hx => ⟨hb x (by simp [hx]), Nat.not_le.mpr (hb x (by simp [hx]))⟩
    · simp only [mapDyn, cells, List.map_cons, List.nodup_cons]
      refine ⟨fun hm => ?_, h2⟩
      obtain ⟨x, hx, hxl⟩ := List.mem_map.mp hm
      have := (m3 x hx).2
      rw [hxl] at this
      exact absurd this (Nat.not_le.mpr (alloc_lt _ _))

theorem astype_val (ht : Exact tiny) (d : List (String × R)) {h : Heap n R} {o : Obj} (k : OK h o) :
    val d (astype tiny h o).1 (astype tiny h o).2 = val d h o ∧ Distinct (astype tiny h o).2 := by
  obtain ⟨h1, h2⟩ := mapDyn_entries o h k.bound
  constructor
  · rw [astype, val_dropTiny tiny ht, val, h1]
    rfl
  · exact h2.sublist (List.Sublist.map _ List.filter_sublist)

omit tiny in
theorem get_put (h : Heap n R) (r : Ref) (c : Mat n n R) (hr : r.loc < h.length) : Model.Heap.get (put h r c) r = c := by
  unfold Model.Heap.get put
  rcases r with ⟨l, t⟩
  simp only [List.getD_eq_getElem?_getD, List.getElem?_set_self hr]
  cases t <;> simp [Mat.trans]

omit tiny in
theorem imulLoop_val (x : R) (d : List (String × R)) (o : Obj) : ∀ h : Heap n R, (∀ e ∈ o, e.2.loc < h.length) → Distinct o →
    val d (imulLoop x h o) o = x • val d h o := by
  induction o with
  | nil => intro h _ _; rw [val_nil, val_nil, smul_zero]
  | cons e o ih =>
    intro h hb hd
    rw [Distinct, cells, List.map_cons, List.nodup_cons] at hd
    have hlen : (iscale x h e.2).length = h.length := by simp [iscale, put]
    have hrest := ih (iscale x h e.2) (fun a ha => by rw [hlen]; exact hb a (by simp [ha])) hd.2
    have hf : Frame (fun l => l = e.2.loc) h (iscale x h e.2) := iscale_ok (P := fun l => l = e.2.loc) rfl x
    have hne : ∀ a ∈ o, ¬a.2.loc = e.2.loc := fun a ha h => hd.1 (h ▸ List.mem_map_of_mem (f := fun e : String × Ref => e.2.loc) ha)
    have e1 : val d (iscale x h e.2) o = val d h o := by
      rw [val, val, entries_frame hf fun a ha => ⟨hb a (by simp [ha]), hne a ha⟩]
    have hf2 := (imulLoop_frame x (P := fun l => l ≠ e.2.loc) o (iscale x h e.2) fun a ha => hne a ha).1
    have e2 : Model.Heap.get (imulLoop x (iscale x h e.2) o) e.2 = Model.Heap.get (iscale x h e.2) e.2 :=
      get_frame hf2 (by rw [hlen]; exact hb e (by simp)) (by simp)
    change val d (imulLoop x (iscale x h e.2) o) (e :: o) = _
    rw [val_cons, val_cons, hrest, e1, e2, iscale, get_put _ _ _ (hb e (by simp)), smul_add]
    congr 1
    change coupling d e.1 • (x • (Model.Heap.get h e.2).val) = _
    rw [smul_comm]

theorem add_val (ht : Exact tiny) (d : List (String × R)) {h : Heap n R} {a b : Obj} (ka : OK h a) (kb : OK h b) :
    val d (add tiny h a b).1 (add tiny h a b).2 = val d h a + val d h b := by
  obtain ⟨h1, h2, _⟩ := astype_ok' tiny ka
  rw [add, addLoop_val tiny ht d b h2 fun e he => (kb.bound e he).trans_le h1.le, (astype_val tiny ht d ka).1, val_fresh d h1 kb]

theorem sub_val (ht : Exact tiny) (d : List (String × R)) {h : Heap n R} {a b : Obj} (ka : OK h a) (kb : OK h b) :
    val d (sub tiny h a b).1 (sub tiny h a b).2 = val d h a - val d h b := by
  obtain ⟨h1, h2, _⟩ := astype_ok' tiny ka
  rw [sub, subLoop_val tiny ht d b h2 fun e he => (kb.bound e he).trans_le h1.le, (astype_val tiny ht d ka).1, val_fresh d h1 kb]

theorem mul_val (ht : Exact tiny) (x : R) (d : List (String × R)) {h : Heap n R} {a : Obj} (ka : OK h a) :
    val d (mul tiny x h a).1 (mul tiny x h a).2 = x • val d h a := by
  obtain ⟨h1, h2, _⟩ := astype_ok' tiny ka
  obtain ⟨v1, v2⟩ := astype_val tiny ht d ka
  rw [mul, imulLoop_val x d _ _ h2.bound v2, v1]

theorem transpose_val (ht : Exact tiny) (d : List (String × R)) {h : Heap n R} (a : Obj) :
    val d (transpose tiny h a).1 (transpose tiny h a).2 = (val d h a).transpose := by
  rw [transpose, val_dropTiny tiny ht]
  induction a with
  | nil => simp [val_nil]
  | cons e a ih =>
    rw [List.map_cons, val_cons, val_cons, ih, Matrix.transpose_add, Matrix.transpose_smul]
    congr 2
    unfold Model.Heap.get
    cases e.2.trans <;> simp [Mat.trans]

/-! ### Worlds -/

omit [CommRing R] tiny in
/-- All objects are inside the heap and all variables refer to objects. -/
structure WFW (w : World n R) : Prop where
  objs : ∀ o ∈ w.objs, OK w.heap o
  vars : ∀ i ∈ w.vars, i < w.objs.length
  mats : ∀ r ∈ w.mats, r.loc < w.heap.length

omit [CommRing R] tiny in
theorem obj_mem' {w : World n R} {v : Nat} {o : Obj} (h : w.obj v = some o) : o ∈ w.objs := by
  simp only [World.obj, Option.bind_eq_some_iff] at h
  obtain ⟨i, -, hi⟩ := h
  exact List.mem_of_getElem? hi

omit [CommRing R] tiny in
theorem emit_wf {w : World n R} (wf : WFW w) {r : Heap n R × Obj} (hle : w.heap.length ≤ r.1.length) (k : OK r.1 r.2) : WFW (w.emit r) := by
  refine ⟨fun o ho => ?_, fun i hi => ?_, fun x hx => (wf.mats x hx).trans_le hle⟩
  · simp only [World.emit, List.mem_append, List.mem_singleton] at ho
    rcases ho with ho | rfl
    · exact (wf.objs o ho).le hle
    · exact k
  · simp only [World.emit, List.mem_append, List.mem_singleton] at hi
    simp only [World.emit, List.length_append, List.length_singleton]
    rcases hi with hi | rfl
    · have := wf.vars i hi
      omega
    · omega

omit [CommRing R] tiny in
theorem change_wf {w : World n R} (wf : WFW w) (v : Nat) {r : Heap n R × Obj} (hle : w.heap.length ≤ r.1.length) (k : OK r.1 r.2) :
    WFW (w.change v r) := by
  refine ⟨fun o ho => ?_, fun i hi => by simpa [World.change] using wf.vars i hi, fun x hx => (wf.mats x hx).trans_le hle⟩
  rcases List.mem_or_eq_of_mem_set ho with ho | rfl
  · exact (wf.objs o ho).le hle
  · exact k

/-- The dictionaries of a statement have no repeated names. -/
def Fine (s : Stmt n R) : Prop := ∀ l, s = .new l → (l.map Prod.fst).Nodup

theorem iaddLoop_ok (w : World n R) (same : Prop) [Decidable same] {a b : Obj} (ka : OK w.heap a) (kb : OK w.heap b) (sub : Bool) :
    Frame (Fresh w.heap) w.heap (if same then selfLoop (if sub then subStep tiny else addStep tiny) (w.heap, a) b
      else if sub then subLoop tiny w.heap a b else addLoop tiny w.heap a b).1 ∧
    OK (if same then selfLoop (if sub then subStep tiny else addStep tiny) (w.heap, a) b
      else if sub then subLoop tiny w.heap a b else addLoop tiny w.heap a b).1
      (if same then selfLoop (if sub then subStep tiny else addStep tiny) (w.heap, a) b
      else if sub then subLoop tiny w.heap a b else addLoop tiny w.heap a b).2 := by
  cases sub with
  | false =>
    simp only [Bool.false_eq_true, if_false]
    split
    · exact (loop_ok (addStep tiny) (fun _ _ _ k he => addStep_ok tiny k he) b _ a ka kb.bound).2
    · exact addLoop_ok tiny ka kb
  | true =>
    simp only [if_true]
    split
    · exact (loop_ok (subStep tiny) (fun _ _ _ k _ => subStep_ok tiny k) b _ a ka kb.bound).2
    · exact subLoop_ok tiny ka kb

omit [CommRing R] tiny in
theorem new_refs (w : World n R) (wf : WFW w) (l : List (String × List Nat)) :
    ∀ e ∈ l.map fun e => (e.1, e.2.filterMap fun i => w.mats[i]?), ∀ r ∈ e.2, r.loc < w.heap.length := by
  intro e he r hr
  obtain ⟨x, _, rfl⟩ := List.mem_map.mp he
  obtain ⟨i, _, hi⟩ := List.mem_filterMap.mp hr
  exact wf.mats r (List.mem_of_getElem? hi)

theorem step_wf {w : World n R} (wf : WFW w) (s : Stmt n R) (hs : Fine s) : WFW (step tiny w s) := by
  cases s with
  | mat c =>
    refine ⟨fun o ho => (wf.objs o ho).le (alloc_frame (fun _ => True) _ _).le, wf.vars, fun r hr => ?_⟩
    simp only [step, List.mem_append, List.mem_singleton] at hr
    rcases hr with hr | rfl
    · exact (wf.mats r hr).trans_le (alloc_frame (fun _ => True) _ _).le
    · exact alloc_lt _ _
  | new l =>
    obtain ⟨c1, c2, _⟩ := construct_ok tiny w.heap _ (new_refs w wf l) (by rw [List.map_map]; exact hs l rfl)
    exact emit_wf wf c1 c2
  | copy v =>
    simp only [step]
    rcases hv : w.obj v with _ | o
    · exact wf
    · exact emit_wf wf (le_refl _) (copy_ok tiny (wf.objs o (obj_mem' hv)))
  | transpose v =>
    simp only [step]
    rcases hv : w.obj v with _ | o
    · exact wf
    · exact emit_wf wf (le_refl _) (transpose_ok' tiny (wf.objs o (obj_mem' hv)))
  | add v u =>
    simp only [step]
    rcases hv : w.obj v with _ | a
    · exact wf
    · rcases hu : w.obj u with _ | b
      · exact wf
      · obtain ⟨h1, h2⟩ := add_ok tiny (wf.objs a (obj_mem' hv)) (wf.objs b (obj_mem' hu))
        exact emit_wf wf h1.le h2
  | sub v u =>
    simp only [step]
    rcases hv : w.obj v with _ | a
    · exact wf
    · rcases hu : w.obj u with _ | b
      · exact wf
      · obtain ⟨h1, h2⟩ := sub_ok tiny (wf.objs a (obj_mem' hv)) (wf.objs b (obj_mem' hu))
        exact emit_wf wf h1.le h2
  | mul v x =>
    simp only [step]
    rcases hv : w.obj v with _ | a
    · exact wf
    · obtain ⟨h1, h2⟩ := mul_ok tiny x (wf.objs a (obj_mem' hv))
      exact emit_wf wf h1.le h2
  | neg v =>
    simp only [step]
    rcases hv : w.obj v with _ | a
    · exact wf
    · have hlen := (imulLoop_frame (-1) (P := fun _ => True) a w.heap fun _ _ => trivial).2
      refine ⟨fun o ho => (wf.objs o ho).le (le_of_eq hlen.symm), fun i hi => ?_, fun r hr => lt_of_lt_of_eq (wf.mats r hr) hlen.symm⟩
      simp only [Option.elim_some, List.mem_append, Option.mem_toList] at hi ⊢
      rcases hi with hi | hi
      · exact wf.vars i hi
      · exact wf.vars i (List.mem_of_getElem? hi)
  | iadd v u =>
    simp only [step]
    rcases hv : w.obj v with _ | a
    · exact wf
    · rcases hu : w.obj u with _ | b
      · exact wf
      · obtain ⟨h1, h2⟩ := iaddLoop_ok tiny w (w.vars[v]? = w.vars[u]?) (wf.objs a (obj_mem' hv)) (wf.objs b (obj_mem' hu)) false
        exact change_wf wf v h1.le h2
  | isub v u =>
    simp only [step]
    rcases hv : w.obj v with _ | a
    · exact wf
    · rcases hu : w.obj u with _ | b
      · exact wf
      · obtain ⟨h1, h2⟩ := iaddLoop_ok tiny w (w.vars[v]? = w.vars[u]?) (wf.objs a (obj_mem' hv)) (wf.objs b (obj_mem' hu)) true
        exact change_wf wf v h1.le h2
  | imul v x =>
    simp only [step]
    rcases hv : w.obj v with _ | a
    · exact wf
    · have hlen := (imulLoop_frame x (P := fun _ => True) a w.heap fun _ _ => trivial).2
      exact change_wf wf v (le_of_eq hlen.symm) ((wf.objs a (obj_mem' hv)).le (le_of_eq hlen.symm))

theorem run_wf (l : List (Stmt n R)) (hl : Dicts l) : ∀ w : World n R, WFW w → WFW (run tiny w l) := by
  induction l with
  | nil => intro w h; exact h
  | cons s l ih =>
    intro w h
    exact ih (fun x hx => hl x (by simp [hx])) _ (step_wf tiny h s fun x hx => hl x (by simp [hx]))

theorem run_snoc (w : World n R) (p : List (Stmt n R)) (s : Stmt n R) : run tiny w (p ++ [s]) = step tiny (run tiny w p) s := by
  rw [run, List.foldl_append]
  rfl

omit [CommRing R] tiny in
theorem start_wf' : WFW (start : World n R) := ⟨by simp [start], by simp [start], by simp [start]⟩

omit tiny in
theorem view_same {w w' : World n R} {u : Nat} (hobj : w'.obj u = w.obj u)
    (hget : ∀ o, w.obj u = some o → ∀ e ∈ o, Model.Heap.get w'.heap e.2 = Model.Heap.get w.heap e.2) : w'.view u = w.view u := by
  unfold World.view
  rw [hobj]
  rcases hu : w.obj u with _ | o
  · rfl
  · simp only [Option.map_some, Option.some.injEq]
    refine List.map_congr_left fun e he => ?_
    rw [hget o hu e he]

omit [CommRing R] tiny in
theorem obj_emit {w : World n R} (wf : WFW w) {u : Nat} (hu : u < w.vars.length) (h : Heap n R) (m : List Ref) (os : List Obj) (vs : List Nat) :
    (⟨h, m, w.objs ++ os, w.vars ++ vs⟩ : World n R).obj u = w.obj u := by
  unfold World.obj
  have hi := wf.vars _ (List.getElem_mem hu)
  simp only [List.getElem?_append_left hu, List.getElem?_eq_getElem hu, Option.bind_some, List.getElem?_append_left hi]

omit tiny in
/-- A new object leaves everything as it is, if the heap only grows. -/
theorem emit_same {w : World n R} (wf : WFW w) {r : Heap n R × Obj} (f : Frame (Fresh w.heap) w.heap r.1) :
    (∀ u < w.vars.length, (w.emit r).view u = w.view u) ∧ ∀ i < w.mats.length, (w.emit r).viewMat i = w.viewMat i := by
  constructor
  · intro u hu
    refine view_same (obj_emit wf hu _ _ _ _) fun o ho e he => ?_
    have hb := (wf.objs o (obj_mem' ho)).bound e he
    exact get_frame f hb (Nat.not_le.mpr hb)
  · intro i hi
    unfold World.viewMat
    simp only [World.emit, List.getElem?_eq_getElem hi, Option.map_some, Option.some.injEq]
    have hb := wf.mats _ (List.getElem_mem hi)
    rw [get_frame f hb (Nat.not_le.mpr hb)]

theorem pure_same {w : World n R} (wf : WFW w) (s : Stmt n R) (hs : Fine s) (hp : Pure s) (h1 : Single s) :
    (∀ u < w.vars.length, (step tiny w s).view u = w.view u ∧ u < (step tiny w s).vars.length) ∧
      ∀ i < w.mats.length, (step tiny w s).viewMat i = w.viewMat i ∧ i < (step tiny w s).mats.length := by
  have fin : ∀ {r : Heap n R × Obj}, Frame (Fresh w.heap) w.heap r.1 →
      (∀ u < w.vars.length, (w.emit r).view u = w.view u ∧ u < (w.emit r).vars.length) ∧
      ∀ i < w.mats.length, (w.emit r).viewMat i = w.viewMat i ∧ i < (w.emit r).mats.length := by
    intro r f
    obtain ⟨a, b⟩ := emit_same wf f
    exact ⟨fun u hu => ⟨a u hu, by simp [World.emit]; omega⟩, fun i hi => ⟨b i hi, hi⟩⟩
  have stay : (∀ u < w.vars.length, w.view u = w.view u ∧ u < w.vars.length) ∧
      ∀ i < w.mats.length, w.viewMat i = w.viewMat i ∧ i < w.mats.length := ⟨fun u hu => ⟨rfl, hu⟩, fun i hi => ⟨rfl, hi⟩⟩
  cases s with
  | mat c =>
    have f := alloc_frame (Fresh w.heap) w.heap c
    constructor
    · intro u hu
      refine ⟨view_same rfl fun o ho e he => ?_, hu⟩
      have hb := (wf.objs o (obj_mem' ho)).bound e he
      exact get_frame f hb (Nat.not_le.mpr hb)
    · intro i hi
      refine ⟨?_, by simp [step]; omega⟩
      unfold World.viewMat
      simp only [step, List.getElem?_append_left hi, List.getElem?_eq_getElem hi, Option.map_some, Option.some.injEq]
      have hb := wf.mats _ (List.getElem_mem hi)
      rw [get_frame f hb (Nat.not_le.mpr hb)]
  | new l =>
    obtain ⟨_, _, c3⟩ := construct_ok tiny w.heap _ (new_refs w wf l) (by rw [List.map_map]; exact hs l rfl)
    refine fin ?_
    rw [c3]
    · exact Frame.refl _ _
    · intro e he
      obtain ⟨x, hx, rfl⟩ := List.mem_map.mp he
      exact (List.length_filterMap_le _ _).trans (h1 x hx)
  | copy v =>
    simp only [step]
    rcases hv : w.obj v with _ | o
    · exact stay
    · exact fin (Frame.refl _ _)
  | transpose v =>
    simp only [step]
    rcases hv : w.obj v with _ | o
    · exact stay
    · exact fin (Frame.refl _ _)
  | add v u =>
    simp only [step]
    rcases hv : w.obj v with _ | a
    · exact stay
    · rcases hu : w.obj u with _ | b
      · exact stay
      · exact fin (add_ok tiny (wf.objs a (obj_mem' hv)) (wf.objs b (obj_mem' hu))).1
  | sub v u =>
    simp only [step]
    rcases hv : w.obj v with _ | a
    · exact stay
    · rcases hu : w.obj u with _ | b
      · exact stay
      · exact fin (sub_ok tiny (wf.objs a (obj_mem' hv)) (wf.objs b (obj_mem' hu))).1
  | mul v x =>
    simp only [step]
    rcases hv : w.obj v with _ | a
    · exact stay
    · exact fin (mul_ok tiny x (wf.objs a (obj_mem' hv))).1
  | neg v => exact absurd hp (by simp [Spec.QOpSharing.Pure])
  | iadd v u => exact absurd hp (by simp [Spec.QOpSharing.Pure])
  | isub v u => exact absurd hp (by simp [Spec.QOpSharing.Pure])
  | imul v x => exact absurd hp (by simp [Spec.QOpSharing.Pure])

omit [CommRing R] tiny in
theorem obj_change {w : World n R} {v u : Nat} {o : Obj} (ho : w.obj v = some o) (r : Heap n R × Obj) :
    (w.change v r).obj u = if w.vars[u]? = w.vars[v]? then some r.2 else w.obj u := by
  simp only [World.obj, Option.bind_eq_some_iff] at ho
  obtain ⟨i, hi, hio⟩ := ho
  have hlt : i < w.objs.length := (List.getElem?_eq_some_iff.mp hio).1
  have hd : w.vars.getD v 0 = i := by rw [List.getD_eq_getElem?_getD, hi]; rfl
  unfold World.obj World.change
  simp only [hd]
  rcases hu : w.vars[u]? with _ | j
  · rw [if_neg (by rw [hi]; simp)]
    rfl
  · rw [hi]
    by_cases hij : j = i
    · subst hij
      simp [List.getElem?_set_self hlt]
    · rw [if_neg (by simpa using hij)]
      simp [List.getElem?_set_ne (Ne.symm hij)]

end

end Proof.QOpHeap
