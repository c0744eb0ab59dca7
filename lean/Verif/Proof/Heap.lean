import Verif.Model.Heap
import Mathlib.Data.List.GetD

namespace Proof.Heap
open Model.Ham (Mat)
open Model.Heap

variable {K n R : Type}

/-- Only cells in `P` and new cells are different. -/
structure Frame (P : Nat → Prop) (h h' : Heap n R) : Prop where
  le : h.length ≤ h'.length
  same : ∀ l < h.length, ¬P l → h'[l]? = h[l]?

/-- All cells from the end of the heap on belong to `P`. -/
def Closed (P : Nat → Prop) (h : Heap n R) : Prop := ∀ l, h.length ≤ l → P l

/-- Entries of a dictionary: inside the heap, with different keys, in cells of `Q`. -/
structure Dict (Q : Nat → Prop) (h : Heap n R) (d : List (K × Ref)) : Prop where
  bound : ∀ e ∈ d, e.2.loc < h.length
  nodup : (d.map Prod.fst).Nodup
  refs : ∀ e ∈ d, Q e.2.loc

theorem Frame.refl (P) (h : Heap n R) : Frame P h h := ⟨le_refl _, fun _ _ _ => rfl⟩

theorem Frame.trans {P} {h h' h'' : Heap n R} (a : Frame P h h') (b : Frame P h' h'') : Frame P h h'' :=
  ⟨a.le.trans b.le, fun l hl hP => (b.same l (hl.trans_le a.le) hP).trans (a.same l hl hP)⟩

theorem Frame.mono {P P' : Nat → Prop} {h h' : Heap n R} (a : Frame P h h') (hP : ∀ l, P l → P' l) : Frame P' h h' :=
  ⟨a.le, fun l hl h => a.same l hl fun hp => h (hP l hp)⟩

theorem Closed.frame {P} {h h' : Heap n R} (c : Closed P h) (f : h.length ≤ h'.length) : Closed P h' :=
  fun l hl => c l (f.trans hl)

theorem Dict.frame {Q P} {h h' : Heap n R} {d : List (K × Ref)} (hd : Dict Q h d) (f : Frame P h h') : Dict Q h' d :=
  ⟨fun e he => (hd.bound e he).trans_le f.le, hd.nodup, hd.refs⟩

theorem Dict.mono {Q Q' : Nat → Prop} {h : Heap n R} {d : List (K × Ref)} (hd : Dict Q h d) (hQ : ∀ l, Q l → Q' l) : Dict Q' h d :=
  ⟨hd.bound, hd.nodup, fun e he => hQ _ (hd.refs e he)⟩

theorem get_frame [Zero R] {P} {h h' : Heap n R} (f : Frame P h h') {r : Ref} (hr : r.loc < h.length) (hP : ¬P r.loc) :
    get h' r = get h r := by
  have := f.same r.loc hr hP
  simp only [Model.Heap.get, List.getD_eq_getElem?_getD, this]

theorem alloc_frame (P) (h : Heap n R) (c : Mat n n R) : Frame P h (alloc h c).1 :=
  ⟨by simp [alloc], fun l hl _ => by simp [alloc, List.getElem?_append_left hl]⟩

theorem alloc_loc (h : Heap n R) (c : Mat n n R) : (alloc h c).2.loc = h.length := rfl

theorem alloc_lt (h : Heap n R) (c : Mat n n R) : (alloc h c).2.loc < (alloc h c).1.length := by simp [alloc]

theorem put_frame {P} {h : Heap n R} {r : Ref} (hr : P r.loc) (c : Mat n n R) : Frame P h (put h r c) :=
  ⟨by simp [put], fun l _ hP => by
    rw [put, List.getElem?_set_ne]
    rintro rfl
    exact hP hr⟩

theorem iop_ok [Zero R] {P} {h : Heap n R} (cl : Closed P h) {r : Ref} (hr : P r.loc) (hl : r.loc < h.length)
    (op : Mat n n R → Mat n n R → Mat n n R) (c : Mat n n R) :
    Frame P h (iop op h r c).1 ∧ (iop op h r c).2.loc < (iop op h r c).1.length ∧ P (iop op h r c).2.loc := by
  unfold iop
  split
  · exact ⟨put_frame hr _, by simpa [put] using hl, hr⟩
  · exact ⟨alloc_frame _ _ _, alloc_lt _ _, cl _ (le_refl _)⟩

theorem iscale_ok [MulZeroClass R] {P} {h : Heap n R} {r : Ref} (hr : P r.loc) (x : R) : Frame P h (iscale x h r) := put_frame hr _

section Dicts

variable [DecidableEq K]

theorem find_some {d : List (K × Ref)} {k : K} {r : Ref} (h : find d k = some r) : (k, r) ∈ d := by
  simp only [find, Option.map_eq_some_iff] at h
  obtain ⟨e, he, rfl⟩ := h
  have h1 := List.find?_some he
  have h2 := List.mem_of_find?_eq_some he
  have : e.1 = k := by simpa using h1
  rw [← this]
  exact h2

theorem find_none {d : List (K × Ref)} {k : K} (h : find d k = none) : k ∉ d.map Prod.fst := by
  simp only [find, Option.map_eq_none_iff, List.find?_eq_none, decide_eq_true_eq] at h
  intro hm
  obtain ⟨e, he, rfl⟩ := List.mem_map.1 hm
  exact h e he rfl

theorem find_eq_none {d : List (K × Ref)} {k : K} (h : k ∉ d.map Prod.fst) : find d k = none := by
  simp only [find, Option.map_eq_none_iff, List.find?_eq_none, decide_eq_true_eq]
  rintro e he rfl
  exact h (List.mem_map_of_mem he)

theorem setKey_keys (d : List (K × Ref)) (k : K) (r : Ref) : (setKey d k r).map Prod.fst = d.map Prod.fst := by
  rw [setKey, List.map_map]
  refine List.map_congr_left fun e _ => ?_
  simp only [Function.comp]
  split <;> rfl

theorem setKey_mem {d : List (K × Ref)} {k : K} {r : Ref} {e : K × Ref} (h : e ∈ setKey d k r) :
    e ∈ d ∧ e.1 ≠ k ∨ e = (k, r) := by
  obtain ⟨x, hx, rfl⟩ := List.mem_map.1 h
  split
  · rename_i hk; right; rw [hk]
  · rename_i hk; exact Or.inl ⟨hx, hk⟩

theorem pop_mem {d : List (K × Ref)} {k : K} {e : K × Ref} : e ∈ pop d k ↔ e ∈ d ∧ e.1 ≠ k := by
  simp [pop]

theorem pop_nodup {d : List (K × Ref)} (k : K) (h : (d.map Prod.fst).Nodup) : ((pop d k).map Prod.fst).Nodup :=
  h.sublist (List.Sublist.map _ List.filter_sublist)

theorem Dict.setKey {Q} {h h' : Heap n R} {d : List (K × Ref)} (hd : Dict Q h d) (hle : h.length ≤ h'.length) {k : K} {r : Ref}
    (hr : r.loc < h'.length) (hQ : Q r.loc) : Dict Q h' (setKey d k r) where
  bound e he := by
    rcases setKey_mem he with h | rfl
    · exact (hd.bound e h.1).trans_le hle
    · exact hr
  nodup := by rw [setKey_keys]; exact hd.nodup
  refs e he := by
    rcases setKey_mem he with h | rfl
    · exact hd.refs e h.1
    · exact hQ

theorem Dict.pop {Q} {h h' : Heap n R} {d : List (K × Ref)} (hd : Dict Q h d) (hle : h.length ≤ h'.length) (k : K) :
    Dict Q h' (pop d k) where
  bound e he := (hd.bound e (pop_mem.1 he).1).trans_le hle
  nodup := pop_nodup k hd.nodup
  refs e he := hd.refs e (pop_mem.1 he).1

omit [DecidableEq K] in
theorem Dict.snoc {Q} {h h' : Heap n R} {d : List (K × Ref)} (hd : Dict Q h d) (hle : h.length ≤ h'.length) {k : K} {r : Ref}
    (hk : k ∉ d.map Prod.fst) (hr : r.loc < h'.length) (hQ : Q r.loc) : Dict Q h' (d ++ [(k, r)]) where
  bound e he := by
    rcases List.mem_append.1 he with he | he
    · exact (hd.bound e he).trans_le hle
    · rw [List.mem_singleton.1 he]; exact hr
  nodup := by
    rw [List.map_append, List.nodup_append]
    refine ⟨hd.nodup, by simp, fun x hx y hy hxy => hk ?_⟩
    have : y = k := by simpa using hy
    rw [← this, ← hxy]
    exact hx
  refs e he := by
    rcases List.mem_append.1 he with he | he
    · exact hd.refs e he
    · rw [List.mem_singleton.1 he]; exact hQ

end Dicts

theorem mapDyn_ok [Zero R] {P} (f : Mat n n R → Mat n n R) (d : List (K × Ref)) : ∀ h : Heap n R, Closed P h →
    Frame P h (mapDyn f h d).1 ∧ (mapDyn f h d).2.map Prod.fst = d.map Prod.fst ∧
      ∀ e ∈ (mapDyn f h d).2, e.2.loc < (mapDyn f h d).1.length ∧ P e.2.loc := by
  induction d with
  | nil => intro h _; exact ⟨Frame.refl _ _, rfl, by simp [mapDyn]⟩
  | cons e d ih =>
    intro h cl
    have hf := alloc_frame P h (f (get h e.2))
    obtain ⟨h1, h2, h3⟩ := ih (alloc h (f (get h e.2))).1 (cl.frame hf.le)
    refine ⟨hf.trans h1, by simp [mapDyn, h2], fun x hx => ?_⟩
    rcases List.mem_cons.1 hx with rfl | hx
    · exact ⟨(alloc_lt _ _).trans_le h1.le, cl _ (le_refl _)⟩
    · exact h3 x hx

section Make

variable [DecidableEq K] [AddCommMonoid R]

theorem construct_share (h : Heap n R) (s : Mat n n R) (d : List (K × Ref)) (hn : (d.map Prod.fst).Nodup) :
    construct false h s d = ((alloc h s.asArray).1, ⟨(alloc h s.asArray).2, d⟩) := by
  have main : ∀ (d d' : List (K × Ref)) (h : Heap n R), (d.map Prod.fst).Nodup → (∀ e ∈ d, e.1 ∉ d'.map Prod.fst) →
      d.foldl (initStep false) (h, d') = (h, d' ++ d) := by
    intro d
    induction d with
    | nil => simp
    | cons e d ih =>
      intro d' h hn hd
      have hn' := List.nodup_cons.1 (by simpa using hn : (e.1 :: d.map Prod.fst).Nodup)
      rw [List.foldl_cons, initStep]
      simp only [Bool.false_eq_true, if_false, find_eq_none (hd e (by simp))]
      rw [ih _ _ hn'.2]
      · simp
      · intro x hx
        rw [List.map_append, List.mem_append, not_or]
        refine ⟨hd x (by simp [hx]), ?_⟩
        simp only [List.map_cons, List.map_nil, List.mem_singleton]
        intro e1
        exact hn'.1 (e1 ▸ List.mem_map_of_mem hx)
  simp [construct, main d [] _ hn (by simp)]

/-- Result of an operation: what is changed in the heap, and where the new object lives. -/
structure Good (P Q : Nat → Prop) (h : Heap n R) (r : Heap n R × Obj K) : Prop where
  frame : Frame P h r.1
  static_lt : r.2.static.loc < r.1.length
  static : P r.2.static.loc
  dict : Dict Q r.1 r.2.dynamic

/-- An object inside the heap. -/
structure WF (h : Heap n R) (o : Obj K) : Prop where
  static : o.static.loc < h.length
  bound : ∀ e ∈ o.dynamic, e.2.loc < h.length
  nodup : (o.dynamic.map Prod.fst).Nodup

omit [DecidableEq K] [AddCommMonoid R] in
theorem WF.frame {P} {h h' : Heap n R} {o : Obj K} (w : WF h o) (f : Frame P h h') : WF h' o :=
  ⟨w.static.trans_le f.le, fun e he => (w.bound e he).trans_le f.le, w.nodup⟩

omit [DecidableEq K] [AddCommMonoid R] in
theorem Good.wf {P Q} {h : Heap n R} {r : Heap n R × Obj K} (g : Good P Q h r) : WF r.1 r.2 :=
  ⟨g.static_lt, g.dict.bound, g.dict.nodup⟩

omit [DecidableEq K] [AddCommMonoid R] in
theorem Good.mono {P P' Q Q' : Nat → Prop} {h : Heap n R} {r : Heap n R × Obj K} (g : Good P Q h r) (hP : ∀ l, P l → P' l)
    (hQ : ∀ l, Q l → Q' l) : Good P' Q' h r :=
  ⟨g.frame.mono hP, g.static_lt, hP _ g.static, g.dict.mono hQ⟩

theorem construct_share_ok {P Q} {h : Heap n R} (cl : Closed P h) (s : Mat n n R) {d : List (K × Ref)} (hd : Dict Q h d) :
    Good P Q h (construct false h s d) := by
  rw [construct_share h s d hd.nodup]
  exact ⟨alloc_frame _ _ _, alloc_lt _ _, cl _ (le_refl _), hd.frame (alloc_frame P _ _)⟩

theorem construct_copy_ok {P} {h : Heap n R} (cl : Closed P h) (s : Mat n n R) (d : List (K × Ref)) :
    Good P P h (construct true h s d) := by
  have main : ∀ (d d' : List (K × Ref)) (h : Heap n R), Closed P h → Dict P h d' →
      Frame P h (d.foldl (initStep true) (h, d')).1 ∧
        Dict P (d.foldl (initStep true) (h, d')).1 (d.foldl (initStep true) (h, d')).2 := by
    intro d
    induction d with
    | nil => intro d' h _ hd; exact ⟨Frame.refl _ _, hd⟩
    | cons e d ih =>
      intro d' h cl hd
      rw [List.foldl_cons]
      have key : Frame P h (initStep true (h, d') e).1 ∧ Dict P (initStep true (h, d') e).1 (initStep true (h, d') e).2 := by
        unfold initStep
        simp only [if_true]
        have hf := alloc_frame P h (get h e.2)
        split
        · rename_i r hr
          have hm := find_some hr
          obtain ⟨i1, i2, i3⟩ := iop_ok (cl.frame hf.le) (hd.refs _ hm) ((hd.bound _ hm).trans_le hf.le) Mat.add
            (get (alloc h (get h e.2)).1 (alloc h (get h e.2)).2)
          exact ⟨hf.trans i1, hd.setKey (hf.trans i1).le i2 i3⟩
        · rename_i hr
          exact ⟨hf, hd.snoc hf.le (find_none hr) (alloc_lt _ _) (cl _ (le_refl _))⟩
      obtain ⟨k1, k2⟩ := ih _ _ (cl.frame key.1.le) key.2
      exact ⟨key.1.trans k1, k2⟩
  have hf := alloc_frame P h s.asArray
  obtain ⟨m1, m2⟩ := main d [] (alloc h s.asArray).1 (cl.frame hf.le) ⟨by simp, by simp, by simp⟩
  exact ⟨hf.trans m1, (alloc_lt _ _).trans_le m1.le, cl _ (le_refl _), m2⟩

theorem astype_ok {P} {h : Heap n R} (cl : Closed P h) {o : Obj K} (wf : WF h o) :
    Good P P h (astype true h o) ∧ (astype true h o).2.dynamic.map Prod.fst = o.dynamic.map Prod.fst := by
  obtain ⟨h1, h2, h3⟩ := mapDyn_ok (P := P) id o.dynamic h cl
  have hd : Dict P (mapDyn id h o.dynamic).1 (mapDyn id h o.dynamic).2 :=
    ⟨fun e he => (h3 e he).1, by rw [h2]; exact wf.nodup, fun e he => (h3 e he).2⟩
  have := construct_share_ok (cl.frame h1.le) (get (mapDyn id h o.dynamic).1 o.static) hd
  unfold astype
  simp only [if_true]
  refine ⟨⟨h1.trans this.frame, this.static_lt, this.static, this.dict⟩, ?_⟩
  rw [construct_share _ _ _ hd.nodup]
  exact h2

theorem astype_share_ok {P Q} {h : Heap n R} (cl : Closed P h) {o : Obj K} (wf : WF h o) (hQ : ∀ e ∈ o.dynamic, Q e.2.loc) :
    Good P Q h (astype false h o) := by
  unfold astype
  simp only [Bool.false_eq_true, if_false]
  exact construct_share_ok cl _ ⟨wf.bound, wf.nodup, hQ⟩

theorem transpose_ok {P Q} {h : Heap n R} (copy : Bool) (cl : Closed P h) {o : Obj K} (wf : WF h o) (hPQ : ∀ l, P l → Q l)
    (hQ : copy = false → ∀ e ∈ o.dynamic, Q e.2.loc) : Good P Q h (transpose copy h o) := by
  unfold transpose
  cases copy with
  | true => exact (construct_copy_ok cl _ _).mono (fun _ h => h) hPQ
  | false =>
    refine construct_share_ok cl _ ⟨?_, ?_, ?_⟩
    · intro e he
      obtain ⟨x, hx, rfl⟩ := List.mem_map.1 he
      exact wf.bound x hx
    · rw [List.map_map]; exact wf.nodup
    · intro e he
      obtain ⟨x, hx, rfl⟩ := List.mem_map.1 he
      exact hQ rfl x hx

end Make

theorem Closed.good {P Q} {h : Heap n R} {r : Heap n R × Obj K} (cl : Closed P h) (g : Good P Q h r) : Closed P r.1 := cl.frame g.frame.le

theorem Good.then {P Q Q'} {h : Heap n R} {r s : Heap n R × Obj K} (g : Good P Q h r) (g' : Good P Q' r.1 s) : Good P Q' h s :=
  ⟨g.frame.trans g'.frame, g'.static_lt, g'.static, g'.dict⟩

theorem conjugate_ok [DecidableEq K] [AddCommMonoid R] [Star R] {P} {h : Heap n R} (env : HEnv K n R) (cl : Closed P h) (o : Obj K) :
    Good P P h (conjugate env h o) := by
  obtain ⟨h1, -, -⟩ := mapDyn_ok (P := P) Mat.conj o.dynamic h cl
  have := construct_copy_ok (cl.frame h1.le) (get (mapDyn Mat.conj h o.dynamic).1 o.static).conj
    ((mapDyn Mat.conj h o.dynamic).2.map fun e => (env.kconj e.1, e.2))
  exact ⟨h1.trans this.frame, this.static_lt, this.static, this.dict⟩

theorem getH_ok [DecidableEq K] [AddCommMonoid R] [Star R] {P} {h : Heap n R} (env : HEnv K n R) (copy : Bool) (cl : Closed P h) (o : Obj K) :
    Good P P h (getH env copy h o) := by
  have g := conjugate_ok env cl o
  exact g.then (transpose_ok copy (cl.good g) g.wf (fun _ h => h) (fun _ => g.dict.refs))

section Arith

variable [DecidableEq K] [CommRing R] [Fintype n] (env : HEnv K n R)

omit [Fintype n] in
theorem neg_ok {P} {h : Heap n R} (cl : Closed P h) (o : Obj K) : Good P P h (neg h o) := by
  obtain ⟨h1, -, -⟩ := mapDyn_ok (P := P) Mat.neg o.dynamic h cl
  have := construct_copy_ok (cl.frame h1.le) (get (mapDyn Mat.neg h o.dynamic).1 o.static).neg (mapDyn Mat.neg h o.dynamic).2
  exact ⟨h1.trans this.frame, this.static_lt, this.static, this.dict⟩

omit [DecidableEq K] [Fintype n] in
theorem clean_ok {P} {h : Heap n R} {p : Heap n R × Ref} (cl : Closed P h) (hf : Frame P h p.1) (hl : p.2.loc < p.1.length) (hP : P p.2.loc) :
    Frame P h (clean env p).1 ∧ (clean env p).2.loc < (clean env p).1.length ∧ P (clean env p).2.loc := by
  unfold clean
  split
  · exact ⟨hf.trans (alloc_frame P _ _), alloc_lt _ _, cl.frame hf.le _ (le_refl _)⟩
  · exact ⟨hf, hl, hP⟩

omit [Fintype n] in
theorem accumulate_ok {P Q} {h : Heap n R} (cl : Closed P h) {d : List (K × Ref)} (hd : Dict Q h d) (hPQ : ∀ l, P l → Q l) {k : K} {r : Ref}
    (hr : P r.loc) (hl : r.loc < h.length) (op : Mat n n R → Mat n n R → Mat n n R) (c : Mat n n R) :
    Frame P h (accumulate env op h d k r c).1 ∧ Dict Q (accumulate env op h d k r c).1 (accumulate env op h d k r c).2 ∧
      (∀ e ∈ (accumulate env op h d k r c).2, e ∈ d ∧ e.1 ≠ k ∨ e.1 = k ∧ P e.2.loc) ∧
      ∀ e ∈ d, e.1 ≠ k → e ∈ (accumulate env op h d k r c).2 := by
  obtain ⟨i1, i2, i3⟩ := iop_ok cl hr hl op c
  unfold accumulate
  simp only
  refine ⟨i1, ?_⟩
  split
  · exact ⟨hd.pop i1.le k, fun e he => Or.inl (pop_mem.1 he), fun e he hk => pop_mem.2 ⟨he, hk⟩⟩
  · refine ⟨hd.setKey i1.le i2 (hPQ _ i3), fun e he => ?_, fun e he hk => ?_⟩
    · rcases setKey_mem he with h | rfl
      · exact Or.inl h
      · exact Or.inr ⟨rfl, i3⟩
    · exact List.mem_map.2 ⟨e, he, by rw [if_neg hk]⟩

omit [Fintype n] in
/-- The loops over the drives of the other object.  `step` is `addStep` or `subStep`. -/
theorem merge_ok {P Q} (hPQ : ∀ l, P l → Q l) (step : Heap n R × List (K × Ref) → K × Ref → Heap n R × List (K × Ref))
    (op : Mat n n R → Mat n n R → Mat n n R) (share : Prop)
    (hsome : ∀ s e r, find s.2 e.1 = some r → step s e = accumulate env op s.1 s.2 e.1 r (get s.1 e.2))
    (hnone : ∀ s e, find s.2 e.1 = none → (share ∧ step s e = (s.1, s.2 ++ [e])) ∨
      ∃ c, step s e = ((alloc s.1 c).1, s.2 ++ [(e.1, (alloc s.1 c).2)]))
    (l : List (K × Ref)) : ∀ (h : Heap n R) (d : List (K × Ref)), Closed P h → Dict Q h d → (l.map Prod.fst).Nodup →
      (∀ e ∈ l, e.2.loc < h.length) → (∀ e ∈ d, e.1 ∈ l.map Prod.fst → P e.2.loc) →
      (share → ∀ e ∈ l, Q e.2.loc ∨ e.1 ∈ d.map Prod.fst) →
      Frame P h (l.foldl step (h, d)).1 ∧ Dict Q (l.foldl step (h, d)).1 (l.foldl step (h, d)).2 := by
  induction l with
  | nil => intro h d _ hd _ _ _ _; exact ⟨Frame.refl _ _, hd⟩
  | cons e l ih =>
    intro h d cl hd hn hl hP hS
    have hn' := List.nodup_cons.1 (by simpa using hn : (e.1 :: l.map Prod.fst).Nodup)
    rw [List.foldl_cons]
    have key : Frame P h (step (h, d) e).1 ∧ Dict Q (step (h, d) e).1 (step (h, d) e).2 ∧
        (∀ x ∈ (step (h, d) e).2, x ∈ d ∨ x.1 = e.1) ∧ ∀ x ∈ d, x.1 ≠ e.1 → x ∈ (step (h, d) e).2 := by
      rcases hfd : find d e.1 with _ | r
      · rcases hnone (h, d) e hfd with ⟨hs, h1⟩ | ⟨c, h1⟩
        · rw [h1]
          refine ⟨Frame.refl _ _, hd.snoc (le_refl _) (find_none hfd) (hl e (by simp)) ?_, ?_, ?_⟩
          · exact (hS hs e (by simp)).resolve_right (find_none hfd)
          · intro x hx
            rcases List.mem_append.1 hx with hx | hx
            · exact Or.inl hx
            · rw [List.mem_singleton.1 hx]; exact Or.inr rfl
          · intro x hx _; exact List.mem_append_left _ hx
        · rw [h1]
          have hf := alloc_frame P h c
          refine ⟨hf, hd.snoc hf.le (find_none hfd) (alloc_lt _ _) (hPQ _ (cl _ (le_refl _))), ?_, ?_⟩
          · intro x hx
            rcases List.mem_append.1 hx with hx | hx
            · exact Or.inl hx
            · rw [List.mem_singleton.1 hx]; exact Or.inr rfl
          · intro x hx _; exact List.mem_append_left _ hx
      · rw [hsome (h, d) e r hfd]
        have hm := find_some hfd
        obtain ⟨a1, a2, a3, a4⟩ := accumulate_ok env cl hd hPQ (k := e.1) (hP _ hm (by simp)) (hd.bound _ hm) op (get h e.2)
        refine ⟨a1, a2, fun x hx => ?_, a4⟩
        rcases a3 x hx with h | h
        · exact Or.inl h.1
        · exact Or.inr h.1
    obtain ⟨k1, k2, k3, k4⟩ := key
    obtain ⟨i1, i2⟩ := ih (step (h, d) e).1 (step (h, d) e).2 (cl.frame k1.le) k2 hn'.2
      (fun x hx => (hl x (by simp [hx])).trans_le k1.le) (fun x hx hxl => by
        rcases k3 x hx with h | h
        · exact hP x h (by rw [List.map_cons]; exact List.mem_cons_of_mem _ hxl)
        · exact absurd (h ▸ hxl) hn'.1) (fun hs x hx => by
        rcases hS hs x (by simp [hx]) with h | h
        · exact Or.inl h
        · right
          obtain ⟨y, hy, hyx⟩ := List.mem_map.1 h
          exact List.mem_map.2 ⟨y, k4 y hy (by rw [hyx]; rintro h'; exact hn'.1 (h' ▸ List.mem_map_of_mem hx)), hyx⟩)
    exact ⟨k1.trans i1, i2⟩

omit [Fintype n] in
theorem iaddHam_ok {P Q} (hPQ : ∀ l, P l → Q l) {h : Heap n R} (cl : Closed P h) {a b : Obj K} (wa : WF h a) (wb : WF h b)
    (hs : P a.static.loc) (hd : ∀ e ∈ a.dynamic, P e.2.loc) (hS : ∀ e ∈ b.dynamic, Q e.2.loc ∨ e.1 ∈ a.dynamic.map Prod.fst) :
    Good P Q h (iaddHam env h a b) := by
  obtain ⟨i1, i2, i3⟩ := iop_ok cl hs wa.static Mat.add (get h b.static)
  obtain ⟨c1, c2, c3⟩ := clean_ok env cl i1 i2 i3
  obtain ⟨m1, m2⟩ := merge_ok env hPQ (addStep env) Mat.add True
    (fun s e r hr => by simp only [addStep, hr]) (fun s e hr => Or.inl ⟨trivial, by simp only [addStep, hr]⟩) b.dynamic
    (clean env (iop Mat.add h a.static (get h b.static))).1 a.dynamic (cl.frame c1.le)
    ⟨fun e he => (wa.bound e he).trans_le c1.le, wa.nodup, fun e he => hPQ _ (hd e he)⟩ wb.nodup
    (fun e he => (wb.bound e he).trans_le c1.le) (fun e he _ => hd e he) (fun _ => hS)
  exact ⟨c1.trans m1, c2.trans_le m1.le, c3, m2⟩

omit [Fintype n] in
theorem addHam_ok {P Q} (hPQ : ∀ l, P l → Q l) {h : Heap n R} (cl : Closed P h) {a b : Obj K} (wa : WF h a) (wb : WF h b)
    (hS : ∀ e ∈ b.dynamic, Q e.2.loc ∨ e.1 ∈ a.dynamic.map Prod.fst) : Good P Q h (addHam env h a b) := by
  obtain ⟨g, gk⟩ := astype_ok cl wa
  exact g.then (iaddHam_ok env hPQ (cl.good g) g.wf (wb.frame g.frame) g.static g.dict.refs (by rw [gk]; exact hS))

omit [Fintype n] in
theorem subHam_ok {P} {h : Heap n R} (cl : Closed P h) {a b : Obj K} (wa : WF h a) (wb : WF h b) : Good P P h (subHam env h a b) := by
  obtain ⟨g, -⟩ := astype_ok cl wa
  have cl' := cl.good g
  obtain ⟨i1, i2, i3⟩ := iop_ok cl' g.static g.static_lt Mat.sub (get (astype true h a).1 b.static)
  obtain ⟨c1, c2, c3⟩ := clean_ok env cl' i1 i2 i3
  obtain ⟨m1, m2⟩ := merge_ok env (fun _ h => h) (subStep env) Mat.sub False
    (fun s e r hr => by simp only [subStep, hr]) (fun s e hr => Or.inr ⟨(get s.1 e.2).neg, by simp only [subStep, hr]⟩) b.dynamic
    (clean env (iop Mat.sub (astype true h a).1 (astype true h a).2.static (get (astype true h a).1 b.static))).1
    (astype true h a).2.dynamic (cl'.frame c1.le) (g.dict.frame c1) wb.nodup
    (fun e he => (wb.bound e he).trans_le (g.frame.trans c1).le) (fun e he _ => g.dict.refs e he) (fun h => h.elim)
  exact ⟨(g.frame.trans c1).trans m1, c2.trans_le m1.le, c3, m2⟩

omit [Fintype n] in
theorem isubHam_ok {P} {h : Heap n R} (cl : Closed P h) {a b : Obj K} (wa : WF h a) (hs : P a.static.loc)
    (hd : ∀ e ∈ a.dynamic, P e.2.loc) : Good P P h (isubHam env h a b) := by
  obtain ⟨i1, i2, i3⟩ := iop_ok cl hs wa.static Mat.sub (get h b.static)
  obtain ⟨c1, c2, c3⟩ := clean_ok env cl i1 i2 i3
  have loop : ∀ (l : List (K × Ref)) (h : Heap n R) (d : List (K × Ref)), Closed P h → Dict P h d →
      Frame P h (isubLoop h d l).1 ∧ Dict P (isubLoop h d l).1 (isubLoop h d l).2 := by
    intro l
    induction l with
    | nil => intro h d _ hd; exact ⟨Frame.refl _ _, hd⟩
    | cons e l ih =>
      intro h d cl hd
      rw [isubLoop]
      split
      · rename_i r hr
        have hm := find_some hr
        obtain ⟨j1, j2, j3⟩ := iop_ok cl (hd.refs _ hm) (hd.bound _ hm) Mat.sub (get h e.2)
        exact ⟨j1, hd.setKey j1.le j2 j3⟩
      · rename_i hr
        have hf := alloc_frame P h (get h e.2).neg
        obtain ⟨j1, j2⟩ := ih _ _ (cl.frame hf.le) (hd.snoc hf.le (find_none hr) (alloc_lt _ _) (cl _ (le_refl _)))
        exact ⟨hf.trans j1, j2⟩
  obtain ⟨m1, m2⟩ := loop b.dynamic _ a.dynamic (cl.frame c1.le) ⟨fun e he => (wa.bound e he).trans_le c1.le, wa.nodup, hd⟩
  exact ⟨c1.trans m1, c2.trans_le m1.le, c3, m2⟩

omit [DecidableEq K] [Fintype n] in
theorem rebindDyn_ok {P} (f : Mat n n R → Mat n n R) (d : List (K × Ref)) : ∀ h : Heap n R, Closed P h → (d.map Prod.fst).Nodup →
    Frame P h (rebindDyn env f h d).1 ∧ Dict P (rebindDyn env f h d).1 (rebindDyn env f h d).2 ∧
      ((rebindDyn env f h d).2.map Prod.fst).Sublist (d.map Prod.fst) := by
  induction d with
  | nil => intro h _ _; exact ⟨Frame.refl _ _, ⟨by simp [rebindDyn], by simp [rebindDyn], by simp [rebindDyn]⟩, by simp [rebindDyn]⟩
  | cons e d ih =>
    intro h cl hn
    have hn' := List.nodup_cons.1 (by simpa using hn : (e.1 :: d.map Prod.fst).Nodup)
    have hf := alloc_frame P h (f (get h e.2))
    obtain ⟨h1, h2, h3⟩ := ih (alloc h (f (get h e.2))).1 (cl.frame hf.le) hn'.2
    rw [rebindDyn]
    refine ⟨hf.trans h1, ?_⟩
    dsimp only
    split
    · exact ⟨h2, h3.trans (by simp)⟩
    · refine ⟨⟨?_, ?_, ?_⟩, by simpa using h3⟩
      · intro x hx
        rcases List.mem_cons.1 hx with rfl | hx
        · exact (alloc_lt _ _).trans_le h1.le
        · exact h2.bound x hx
      · rw [List.map_cons, List.nodup_cons]
        exact ⟨fun h => hn'.1 (h3.subset h), h2.nodup⟩
      · intro x hx
        rcases List.mem_cons.1 hx with rfl | hx
        · exact cl _ (le_refl _)
        · exact h2.refs x hx

omit [DecidableEq K] [Fintype n] in
theorem rebind_ok {P} {h : Heap n R} (cl : Closed P h) (f g : Mat n n R → Mat n n R) {o : Obj K} (wf : WF h o) :
    Good P P h (rebind env f g h o) := by
  obtain ⟨c1, c2, c3⟩ := clean_ok (P := P) env cl (alloc_frame P h (f (get h o.static))) (alloc_lt _ _) (cl _ (le_refl _))
  obtain ⟨m1, m2, -⟩ := rebindDyn_ok (P := P) env g o.dynamic _ (cl.frame c1.le) wf.nodup
  exact ⟨c1.trans m1, c2.trans_le m1.le, c3, m2⟩

omit [Fintype n] in
theorem rebind_astype_ok {P} {h : Heap n R} (cl : Closed P h) (f g : Mat n n R → Mat n n R) {o : Obj K} (wf : WF h o) :
    Good P P h (rebind env f g (astype true h o).1 (astype true h o).2) := by
  obtain ⟨g', -⟩ := astype_ok cl wf
  exact g'.then (rebind_ok env (cl.good g') f g g'.wf)

omit [DecidableEq K] [Fintype n] in
theorem imat_ok {P} {h : Heap n R} (cl : Closed P h) (op : Mat n n R → Mat n n R → Mat n n R) (c : Mat n n R) {o : Obj K} (wf : WF h o)
    (hs : P o.static.loc) {Q} (hd : ∀ e ∈ o.dynamic, Q e.2.loc) : Good P Q h (imat env op c h o) := by
  obtain ⟨i1, i2, i3⟩ := iop_ok cl hs wf.static op c
  obtain ⟨c1, c2, c3⟩ := clean_ok env cl i1 i2 i3
  exact ⟨c1, c2, c3, ⟨fun e he => (wf.bound e he).trans_le c1.le, wf.nodup, hd⟩⟩

omit [DecidableEq K] [Fintype n] in
theorem isubDense_ok {P} {h : Heap n R} (cl : Closed P h) (c : Mat n n R) {o : Obj K} (wf : WF h o)
    (hs : P o.static.loc) {Q} (hd : ∀ e ∈ o.dynamic, Q e.2.loc) : Good P Q h (isubDense c h o) := by
  obtain ⟨i1, i2, i3⟩ := iop_ok cl hs wf.static Mat.sub c
  exact ⟨i1, i2, i3, ⟨fun e he => (wf.bound e he).trans_le i1.le, wf.nodup, hd⟩⟩

omit [Fintype n] in
theorem matOp_ok {P} {h : Heap n R} (cl : Closed P h) (op : Mat n n R → Mat n n R → Mat n n R) (c : Mat n n R) {o : Obj K} (wf : WF h o) :
    Good P P h (matOp env op c h o) := by
  obtain ⟨g, -⟩ := astype_ok cl wf
  exact g.then (imat_ok env (cl.good g) op c g.wf g.static g.dict.refs)

omit [DecidableEq K] [Fintype n] in
theorem scaleDyn_ok {P} (x : R) (d : List (K × Ref)) : ∀ h : Heap n R, Dict P h d →
    Frame P h (scaleDyn env x h d).1 ∧ (scaleDyn env x h d).2.Sublist d := by
  induction d with
  | nil => intro h _; exact ⟨Frame.refl _ _, by simp [scaleDyn]⟩
  | cons e d ih =>
    intro h hd
    have hf : Frame P h (iscale x h e.2) := iscale_ok (hd.refs e (by simp)) x
    obtain ⟨h1, h2⟩ := ih (iscale x h e.2) ⟨fun y hy => (hd.bound y (by simp [hy])).trans_le hf.le,
      (List.nodup_cons.1 (by simpa using hd.nodup : (e.1 :: d.map Prod.fst).Nodup)).2, fun y hy => hd.refs y (by simp [hy])⟩
    rw [scaleDyn]
    refine ⟨hf.trans h1, ?_⟩
    dsimp only
    split
    · exact h2.trans (by simp)
    · simpa using h2

omit [DecidableEq K] [Fintype n] in
theorem imulScalar_ok {P} {h : Heap n R} (cl : Closed P h) (x : R) {o : Obj K} (wf : WF h o) (hs : P o.static.loc)
    (hd : ∀ e ∈ o.dynamic, P e.2.loc) : Good P P h (imulScalar env x h o) := by
  have hf : Frame P h (iscale x h o.static) := iscale_ok hs x
  obtain ⟨c1, c2, c3⟩ := clean_ok env cl (p := (iscale x h o.static, o.static)) hf (wf.static.trans_le hf.le) hs
  have hdict : Dict P (clean env (iscale x h o.static, o.static)).1 o.dynamic :=
    ⟨fun e he => (wf.bound e he).trans_le c1.le, wf.nodup, hd⟩
  obtain ⟨m1, m2⟩ := scaleDyn_ok env x o.dynamic _ hdict
  exact ⟨c1.trans m1, c2.trans_le m1.le, c3, ⟨fun e he => (hdict.bound e (m2.subset he)).trans_le m1.le,
    wf.nodup.sublist (m2.map _), fun e he => hd e (m2.subset he)⟩⟩

omit [Fintype n] in
theorem mulScalar_ok {P} {h : Heap n R} (cl : Closed P h) (x : R) {o : Obj K} (wf : WF h o) : Good P P h (mulScalar env x h o) := by
  obtain ⟨g, -⟩ := astype_ok cl wf
  exact g.then (imulScalar_ok env (cl.good g) x g.wf g.static g.dict.refs)

theorem imulBoth_ok {P} {h : Heap n R} (cl : Closed P h) (a b : Obj K) : Good P P h (imulBoth env h a b) := by
  have loop : ∀ (l : List (K × Mat n n R)) (h : Heap n R) (d : List (K × Ref)), Closed P h → Dict P h d →
      Frame P h (l.foldl (mulStep env) (h, d)).1 ∧ Dict P (l.foldl (mulStep env) (h, d)).1 (l.foldl (mulStep env) (h, d)).2 := by
    intro l
    induction l with
    | nil => intro h d _ hd; exact ⟨Frame.refl _ _, hd⟩
    | cons e l ih =>
      intro h d cl hd
      rw [List.foldl_cons]
      have key : Frame P h (mulStep env (h, d) e).1 ∧ Dict P (mulStep env (h, d) e).1 (mulStep env (h, d) e).2 := by
        unfold mulStep
        split
        · rename_i r hr
          have hm := find_some hr
          obtain ⟨a1, a2, -, -⟩ := accumulate_ok env cl hd (fun _ h => h) (k := e.1) (hd.refs _ hm) (hd.bound _ hm) Mat.add e.2
          exact ⟨a1, a2⟩
        · rename_i hr
          split
          · exact ⟨Frame.refl _ _, hd⟩
          · have hf := alloc_frame P h e.2
            exact ⟨hf, hd.snoc hf.le (find_none hr) (alloc_lt _ _) (cl _ (le_refl _))⟩
      obtain ⟨k1, k2⟩ := ih _ _ (cl.frame key.1.le) key.2
      exact ⟨key.1.trans k1, k2⟩
  have hf := alloc_frame P h ((get h a.static).prod (get h b.static))
  unfold imulBoth
  dsimp only
  obtain ⟨m1, m2⟩ := loop _ _ [] (cl.frame hf.le) ⟨by simp, by simp, by simp⟩
  exact ⟨hf.trans m1, (alloc_lt _ _).trans_le m1.le, cl _ (le_refl _), m2⟩

theorem mulHam_ok {P} {h : Heap n R} (cl : Closed P h) {a b : Obj K} (wa : WF h a) (wb : WF h b) : Good P P h (mulHam env h a b) := by
  unfold mulHam
  split
  · have g := astype_share_ok (Q := fun _ => True) cl wa (fun _ _ => trivial)
    exact g.then (imulBoth_ok env (cl.good g) _ b)
  · split
    · exact rebind_astype_ok env cl _ _ wa
    · split
      · exact rebind_astype_ok env cl _ _ wb
      · exact rebind_astype_ok env cl _ _ wa

theorem imulNew_ok {P} {h : Heap n R} (cl : Closed P h) {a b : Obj K} (wb : WF h b) : Good P P h (imulNew env h a b) := by
  have g1 := transpose_ok (Q := fun _ => True) false cl wb (fun _ _ => trivial) (fun _ _ _ => trivial)
  have g2 := rebind_ok env (cl.good g1) (fun M => M.star (get (transpose false h b).1 a.static).trans)
    (fun M => (get (transpose false h b).1 a.static).trans.prod M) g1.wf
  have g3 := transpose_ok (Q := P) false ((cl.good g1).good g2) g2.wf (fun _ h => h) (fun _ => g2.dict.refs)
  exact (g1.then g2).then g3

theorem imulHam_ok {P} {h : Heap n R} (cl : Closed P h) {a b : Obj K} (wa : WF h a) : Good P P h (imulHam env h a b) := by
  unfold imulHam
  split
  · exact imulBoth_ok env cl a b
  · exact rebind_ok env cl _ _ wa

theorem powObj_ok {P} {h : Heap n R} (cl : Closed P h) {o : Obj K} (wf : WF h o) (p : Nat) : Good P P h (powObj env h o p) := by
  induction p with
  | zero => exact mulHam_ok env cl wf wf
  | succ p ih => exact ih.then (mulHam_ok env (cl.good ih) ih.wf (wf.frame ih.frame))

end Arith

theorem allocAll_ok {P} (d : List (K × Mat n n R)) : ∀ h : Heap n R, Closed P h →
    Frame P h (allocAll h d).1 ∧ (allocAll h d).2.map Prod.fst = d.map Prod.fst ∧
      ∀ e ∈ (allocAll h d).2, e.2.loc < (allocAll h d).1.length ∧ P e.2.loc := by
  induction d with
  | nil => intro h _; exact ⟨Frame.refl _ _, rfl, by simp [allocAll]⟩
  | cons e d ih =>
    intro h cl
    have hf := alloc_frame P h e.2
    obtain ⟨h1, h2, h3⟩ := ih (alloc h e.2).1 (cl.frame hf.le)
    refine ⟨hf.trans h1, by simp [allocAll, h2], fun x hx => ?_⟩
    rcases List.mem_cons.1 hx with rfl | hx
    · exact ⟨(alloc_lt _ _).trans_le h1.le, cl _ (le_refl _)⟩
    · exact h3 x hx

end Proof.Heap
