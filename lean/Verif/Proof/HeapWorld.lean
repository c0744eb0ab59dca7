import Verif.Proof.Heap
import Verif.Spec.Sharing

namespace Proof.Heap
open Model.Ham (Mat)
open Model.Heap Spec.Sharing

variable {K n R : Type}

/-- All objects are inside the heap and all variables refer to objects. -/
structure WFW (w : World K n R) : Prop where
  objs : ∀ o ∈ w.objs, WF w.heap o
  vars : ∀ i ∈ w.vars, i < w.objs.length

/-- No two variables are one object and no two objects have a cell in common. -/
structure Sep (w : World K n R) : Prop where
  vars : w.vars.Nodup
  cells : ∀ (i j : Nat) (a b : Obj K), i ≠ j → w.objs[i]? = some a → w.objs[j]? = some b → ∀ l ∈ Spec.Sharing.cells a, l ∉ Spec.Sharing.cells b

/-- Kinds of statements; `A`: the statement keeps hamiltonians apart; `t`: its target. -/
inductive Kind (w w' : World K n R) (A : Prop) (t : Option Nat) : Prop
  | same : w' = w → Kind w w' A t
  | rename (v : Nat) : ¬A → w' = w.alias v → Kind w w' A t
  | emit (r : Heap n R × Obj K) : Good (w.heap.length ≤ ·) (fun l => A → w.heap.length ≤ l) w.heap r → w' = w.emit r → Kind w w' A t
  | change (v : Nat) (o : Obj K) (r : Heap n R × Obj K) : t = some v → w.obj v = some o →
      Good (fun l => w.heap.length ≤ l ∨ l ∈ Spec.Sharing.cells o)
        (fun l => A → w.heap.length ≤ l ∨ l ∈ Spec.Sharing.cells o) w.heap r → w' = w.change v r → Kind w w' A t
  | rebind (v : Nat) (r : Heap n R × Obj K) : t = some v → Good (w.heap.length ≤ ·) (w.heap.length ≤ ·) w.heap r →
      w' = ⟨r.1, w.objs ++ [r.2], w.vars.set v w.objs.length⟩ → Kind w w' A t

theorem obj_mem {w : World K n R} {v : Nat} {o : Obj K} (h : w.obj v = some o) : o ∈ w.objs := by
  simp only [World.obj, Option.bind_eq_some_iff] at h
  obtain ⟨i, -, hi⟩ := h
  exact List.mem_of_getElem? hi

theorem closed_le (h : Heap n R) : Closed (h.length ≤ ·) h := fun _ hl => hl

theorem closed_or (h : Heap n R) (Q : Nat → Prop) : Closed (fun l => h.length ≤ l ∨ Q l) h := fun _ hl => Or.inl hl

theorem static_cells (o : Obj K) : o.static.loc ∈ cells o := List.mem_cons_self

theorem dyn_cells {o : Obj K} {e : K × Ref} (h : e ∈ o.dynamic) : e.2.loc ∈ cells o :=
  List.mem_cons_of_mem _ (List.mem_map.2 ⟨e, h, rfl⟩)

theorem Good.weak {P : Nat → Prop} {h : Heap n R} {r : Heap n R × Obj K} {A : Prop} (g : Good P P h r) : Good P (fun l => A → P l) h r :=
  g.mono (fun _ h => h) (fun _ h _ => h)

section

variable {A : Prop} {t : Option Nat}

theorem kind_unary {w : World K n R} (wf : WFW w) (v : Nat) (f : Heap n R → Obj K → Heap n R × Obj K)
    (hf : ∀ o, WF w.heap o → Good (w.heap.length ≤ ·) (fun l => A → w.heap.length ≤ l) w.heap (f w.heap o)) :
    Kind w (w.unary v f) A t := by
  rcases hv : w.obj v with _ | o
  · exact Kind.same (by simp [World.unary, hv])
  · exact Kind.emit _ (hf o (wf.objs o (obj_mem hv))) (by simp [World.unary, hv])

theorem kind_binary {w : World K n R} (wf : WFW w) (v u : Nat) (f : Heap n R → Obj K → Obj K → Heap n R × Obj K)
    (hf : ∀ a b, w.obj v = some a → w.obj u = some b → WF w.heap a → WF w.heap b →
      Good (w.heap.length ≤ ·) (fun l => A → w.heap.length ≤ l) w.heap (f w.heap a b)) :
    Kind w (w.binary v u f) A t := by
  rcases hv : w.obj v with _ | a
  · exact Kind.same (by simp [World.binary, hv])
  · rcases hu : w.obj u with _ | b
    · exact Kind.same (by simp [World.binary, hv, hu])
    · exact Kind.emit _ (hf a b hv hu (wf.objs a (obj_mem hv)) (wf.objs b (obj_mem hu))) (by simp [World.binary, hv, hu])

theorem kind_inPlace {w : World K n R} (wf : WFW w) (v : Nat) (f : Heap n R → Obj K → Heap n R × Obj K)
    (hf : ∀ o, WF w.heap o → Good (fun l => w.heap.length ≤ l ∨ l ∈ Spec.Sharing.cells o)
        (fun l => w.heap.length ≤ l ∨ l ∈ Spec.Sharing.cells o) w.heap (f w.heap o)) :
    Kind w (w.inPlace v f) A (some v) := by
  rcases hv : w.obj v with _ | o
  · exact Kind.same (by simp [World.inPlace, hv])
  · exact Kind.change v o _ rfl hv (hf o (wf.objs o (obj_mem hv))).weak (by simp [World.inPlace, hv])

theorem kind_inPlace2 {w : World K n R} (wf : WFW w) (v u : Nat) (f : Heap n R → Obj K → Obj K → Heap n R × Obj K)
    (hf : ∀ a b, w.obj v = some a → w.obj u = some b → WF w.heap a → WF w.heap b →
      Good (fun l => w.heap.length ≤ l ∨ l ∈ Spec.Sharing.cells a)
        (fun l => A → w.heap.length ≤ l ∨ l ∈ Spec.Sharing.cells a) w.heap (f w.heap a b)) :
    Kind w (w.inPlace2 v u f) A (some v) := by
  rcases hv : w.obj v with _ | a
  · exact Kind.same (by simp [World.inPlace2, hv])
  · rcases hu : w.obj u with _ | b
    · exact Kind.same (by simp [World.inPlace2, hv, hu])
    · exact Kind.change v a _ rfl hv (hf a b hv hu (wf.objs a (obj_mem hv)) (wf.objs b (obj_mem hu))) (by simp [World.inPlace2, hv, hu])

end

section Step

variable [DecidableEq K] [CommRing R] [StarRing R] [Fintype n] (env : HEnv K n R)

theorem kind {w : World K n R} (wf : WFW w) (op : Op K n R) : Kind w (step env w op) (Apart w op) (target op) := by
  have cl := closed_le w.heap
  cases op with
  | new st d =>
    have h1 := (allocAll_ok (P := (w.heap.length ≤ ·)) d w.heap cl).1
    have g := construct_copy_ok (cl.frame h1.le) st (allocAll w.heap d).2
    exact Kind.emit _ (Good.weak ⟨h1.trans g.frame, g.static_lt, g.static, g.dict⟩) rfl
  | copy v => exact kind_unary wf v _ fun o wo => (construct_copy_ok cl _ _).weak
  | astype c v =>
    refine kind_unary wf v _ fun o wo => ?_
    cases c with
    | true => exact (astype_ok cl wo).1.weak
    | false => exact astype_share_ok cl wo (fun e _ h => by simp [Apart] at h)
  | transpose c v =>
    exact kind_unary wf v _ fun o wo => transpose_ok c cl wo (fun _ h _ => h) (fun hc e _ h => by simp [Apart, hc] at h)
  | conj v => exact kind_unary wf v _ fun o wo => (conjugate_ok env cl o).weak
  | adjoint c v => exact kind_unary wf v _ fun o wo => (getH_ok env c cl o).weak
  | neg v => exact kind_unary wf v _ fun o wo => (neg_ok cl o).weak
  | add v u =>
    refine kind_binary wf v u _ fun a b ha hb wa wb => addHam_ok env (fun _ h _ => h) cl wa wb fun e he => ?_
    by_cases hA : Apart w (.add v u)
    · exact Or.inr (hA a b ha hb e.1 (List.mem_map_of_mem he))
    · exact Or.inl fun h => absurd h hA
  | sub v u => exact kind_binary wf v u _ fun a b _ _ wa wb => (subHam_ok env cl wa wb).weak
  | mul v u => exact kind_binary wf v u _ fun a b _ _ wa wb => (mulHam_ok env cl wa wb).weak
  | pow v p =>
    match p with
    | 0 => exact Kind.same rfl
    | 1 => exact Kind.rename v (by simp [Apart]) rfl
    | p + 2 => exact kind_unary wf v (fun h o => powObj env h o p) fun o wo => (powObj_ok env cl wo p).weak
  | addMat v c => exact kind_unary wf v _ fun o wo => (matOp_ok env cl _ c wo).weak
  | subMat v c => exact kind_unary wf v _ fun o wo => (matOp_ok env cl _ c wo).weak
  | mulMat v c =>
    refine kind_unary wf v _ fun o wo => ?_
    split
    · exact (rebind_astype_ok env cl _ _ wo).weak
    · exact (rebind_astype_ok env cl _ _ wo).weak
  | rmulMat v c =>
    refine kind_unary wf v _ fun o wo => ?_
    split
    · exact (rebind_astype_ok env cl _ _ wo).weak
    · exact (rebind_astype_ok env cl _ _ wo).weak
  | mulScalar v x => exact kind_unary wf v _ fun o wo => (mulScalar_ok env cl x wo).weak
  | addZero v => exact Kind.rename v (by simp [Apart]) rfl
  | iadd v u =>
    refine kind_inPlace2 wf v u _ fun a b ha hb wa wb =>
      iaddHam_ok env (fun _ h _ => h) (closed_or _ _) wa wb (Or.inr (static_cells a)) (fun e he => Or.inr (dyn_cells he)) fun e he => ?_
    by_cases hA : Apart w (.iadd v u)
    · exact Or.inr (hA a b ha hb e.1 (List.mem_map_of_mem he))
    · exact Or.inl fun h => absurd h hA
  | isub v u =>
    exact kind_inPlace2 wf v u _ fun a b ha hb wa wb =>
      (isubHam_ok env (closed_or _ _) wa (Or.inr (static_cells a)) (fun e he => Or.inr (dyn_cells he))).weak
  | imul v u =>
    rcases hv : w.obj v with _ | a
    · exact Kind.same (by simp [step, hv])
    · rcases hu : w.obj u with _ | b
      · exact Kind.same (by simp [step, hv, hu])
      · by_cases hc : a.dynamic = [] ∧ b.dynamic ≠ []
        · exact Kind.rebind v _ rfl (imulNew_ok env cl (a := a) (wf.objs b (obj_mem hu))) (by simp [step, hv, hu, hc])
        · exact Kind.change v a _ rfl hv (imulHam_ok env (closed_or _ _) (b := b) (wf.objs a (obj_mem hv))).weak
            (by simp only [step, hv, hu, Option.elim_some, if_neg hc])
  | iaddMat v c =>
    exact kind_inPlace wf v _ fun o wo => imat_ok env (closed_or _ _) _ c wo (Or.inr (static_cells o)) (fun e he => Or.inr (dyn_cells he))
  | isubMat v c =>
    refine kind_inPlace wf v _ fun o wo => ?_
    split
    · exact imat_ok env (closed_or _ _) _ c wo (Or.inr (static_cells o)) (fun e he => Or.inr (dyn_cells he))
    · exact isubDense_ok (closed_or _ _) c wo (Or.inr (static_cells o)) (fun e he => Or.inr (dyn_cells he))
  | imulMat v c =>
    refine kind_inPlace wf v _ fun o wo => ?_
    split
    · exact rebind_ok env (closed_or _ _) _ _ wo
    · exact rebind_ok env (closed_or _ _) _ _ wo
  | imulScalar v x =>
    exact kind_inPlace wf v _ fun o wo => imulScalar_ok env (closed_or _ _) x wo (Or.inr (static_cells o)) (fun e he => Or.inr (dyn_cells he))

omit [DecidableEq K] [CommRing R] [StarRing R] [Fintype n] in
theorem kind_wf {w w' : World K n R} {A t} (wf : WFW w) (k : Kind w w' A t) : WFW w' := by
  cases k with
  | same h => exact h ▸ wf
  | rename v _ h =>
    subst h
    refine ⟨wf.objs, fun i hi => ?_⟩
    rcases List.mem_append.1 hi with hi | hi
    · exact wf.vars i hi
    · exact wf.vars i (List.mem_of_getElem? (by simpa using hi))
  | emit r g h =>
    subst h
    refine ⟨fun o ho => ?_, fun i hi => ?_⟩
    · rcases List.mem_append.1 ho with ho | ho
      · exact (wf.objs o ho).frame g.frame
      · rw [List.mem_singleton.1 ho]; exact g.wf
    · simp only [World.emit, List.length_append, List.length_singleton]
      rcases List.mem_append.1 hi with hi | hi
      · have := wf.vars i hi; omega
      · rw [List.mem_singleton.1 hi]; omega
  | change v o r _ _ g h =>
    subst h
    refine ⟨fun x hx => ?_, fun i hi => ?_⟩
    · rcases List.mem_or_eq_of_mem_set hx with hx | hx
      · exact (wf.objs x hx).frame g.frame
      · rw [hx]; exact g.wf
    · simp only [World.change, List.length_set]; exact wf.vars i hi
  | rebind v r _ g h =>
    subst h
    refine ⟨fun o ho => ?_, fun i hi => ?_⟩
    · rcases List.mem_append.1 ho with ho | ho
      · exact (wf.objs o ho).frame g.frame
      · rw [List.mem_singleton.1 ho]; exact g.wf
    · simp only [List.length_append, List.length_singleton]
      rcases List.mem_or_eq_of_mem_set hi with hi | hi
      · have := wf.vars i hi; omega
      · rw [hi]; omega

theorem runOps_wf (l : List (Op K n R)) : ∀ w, WFW w → WFW (runOps env w l) := by
  induction l with
  | nil => intro w h; exact h
  | cons op l ih => intro w h; exact ih _ (kind_wf h (kind env h op))

omit [DecidableEq K] [CommRing R] [StarRing R] [Fintype n] in
theorem start_wf : WFW (start : World K n R) := ⟨by simp [start], by simp [start]⟩

omit [DecidableEq K] [StarRing R] [Fintype n] in
theorem view_of {w w' : World K n R} {u : Nat} (hobj : w'.obj u = w.obj u)
    (hget : ∀ o, w.obj u = some o → ∀ r : Ref, r.loc ∈ cells o → get w'.heap r = get w.heap r) : w'.view u = w.view u := by
  unfold World.view
  rw [hobj]
  rcases hu : w.obj u with _ | o
  · rfl
  · simp only [Option.map_some, Option.some.injEq, Prod.mk.injEq]
    refine ⟨hget o hu _ (static_cells o), List.map_congr_left fun e he => ?_⟩
    rw [hget o hu _ (dyn_cells he)]

omit [DecidableEq K] [CommRing R] [StarRing R] [Fintype n] in
theorem obj_some_lt {w : World K n R} (wf : WFW w) {u : Nat} {o : Obj K} (h : w.obj u = some o) {l : Nat} (hl : l ∈ cells o) :
    l < w.heap.length := by
  have wo := wf.objs o (obj_mem h)
  rcases List.mem_cons.1 hl with rfl | hl
  · exact wo.static
  · obtain ⟨e, he, rfl⟩ := List.mem_map.1 hl
    exact wo.bound e he

omit [DecidableEq K] [CommRing R] [StarRing R] [Fintype n] in
theorem obj_append {w : World K n R} (wf : WFW w) {u : Nat} (hu : u < w.vars.length) (h : Heap n R) (os : List (Obj K)) (vs : List Nat) :
    (⟨h, w.objs ++ os, w.vars ++ vs⟩ : World K n R).obj u = w.obj u := by
  unfold World.obj
  have hi := wf.vars _ (List.getElem_mem hu)
  simp only [List.getElem?_append_left hu, List.getElem?_eq_getElem hu, Option.bind_some, List.getElem?_append_left hi]

omit [DecidableEq K] [StarRing R] [Fintype n] in
theorem kind_none_view {w w' : World K n R} {A} (wf : WFW w) (k : Kind w w' A none) {u : Nat} (hu : u < w.vars.length) :
    w'.view u = w.view u ∧ u < w'.vars.length := by
  cases k with
  | same h => subst h; exact ⟨rfl, hu⟩
  | rename v _ h =>
    subst h
    refine ⟨view_of ?_ (fun _ _ _ _ => rfl), by simp [World.alias]; omega⟩
    have := obj_append wf hu w.heap [] (w.vars[v]?.toList)
    rwa [List.append_nil] at this
  | emit r g h =>
    subst h
    refine ⟨view_of (obj_append wf hu _ _ _) fun o ho x hx => get_frame g.frame (obj_some_lt wf ho hx) ?_, by simp [World.emit]; omega⟩
    have := obj_some_lt wf ho hx
    omega
  | change v o r h => exact absurd h (by simp)
  | rebind v r h => exact absurd h (by simp)

omit [DecidableEq K] [StarRing R] [Fintype n] in
theorem kind_some_view {w w' : World K n R} {A} {v : Nat} (wf : WFW w) (k : Kind w w' A (some v)) {u : Nat} (hu : u < w.vars.length)
    (hs : ¬Shares w v u) : w'.view u = w.view u := by
  cases k with
  | same h => subst h; rfl
  | rename x _ h =>
    subst h
    refine view_of ?_ (fun _ _ _ _ => rfl)
    have := obj_append wf hu w.heap [] (w.vars[x]?.toList)
    rwa [List.append_nil] at this
  | emit r g h =>
    subst h
    refine view_of (obj_append wf hu _ _ _) fun o ho x hx => get_frame g.frame (obj_some_lt wf ho hx) ?_
    have := obj_some_lt wf ho hx
    omega
  | change x o r hx ho g h =>
    obtain rfl : v = x := by simpa using hx
    subst h
    simp only [Shares, not_or, not_exists, not_and] at hs
    refine view_of ?_ fun b hb y hy => get_frame g.frame (obj_some_lt wf hb hy) ?_
    · unfold World.obj World.change
      dsimp only
      rcases hvv : w.vars[v]? with _ | i
      · simp [World.obj, hvv] at ho
      · have hne : w.vars[u]? ≠ some i := fun h' => hs.1 (hvv.trans h'.symm)
        rcases huu : w.vars[u]? with _ | j
        · rfl
        · have : i ≠ j := by rintro rfl; exact hne huu
          simp only [Option.bind_some, List.getD_eq_getElem?_getD, hvv, Option.getD_some, List.getElem?_set_ne this]
    · rintro (h | h)
      · have := obj_some_lt wf hb hy; omega
      · exact hs.2 o b ho hb _ h hy
  | rebind x r hx g h =>
    obtain rfl : v = x := by simpa using hx
    subst h
    have hvu : v ≠ u := by rintro rfl; exact hs (Or.inl rfl)
    refine view_of ?_ fun b hb y hy => get_frame g.frame (obj_some_lt wf hb hy) ?_
    · have hi := wf.vars _ (List.getElem_mem hu)
      unfold World.obj
      simp only [List.getElem?_set_ne hvu, List.getElem?_eq_getElem hu, Option.bind_some, List.getElem?_append_left hi]
    · have := obj_some_lt wf hb hy; omega

omit [DecidableEq K] [CommRing R] [StarRing R] [Fintype n] in
theorem wf_cells_lt {h : Heap n R} {o : Obj K} (w : WF h o) {l : Nat} (hl : l ∈ cells o) : l < h.length := by
  rcases List.mem_cons.1 hl with rfl | hl
  · exact w.static
  · obtain ⟨e, he, rfl⟩ := List.mem_map.1 hl
    exact w.bound e he

omit [DecidableEq K] [CommRing R] [StarRing R] [Fintype n] in
theorem good_cells {P : Nat → Prop} {h : Heap n R} {r : Heap n R × Obj K} (g : Good P P h r) {l : Nat} (hl : l ∈ cells r.2) : P l := by
  rcases List.mem_cons.1 hl with rfl | hl
  · exact g.static
  · obtain ⟨e, he, rfl⟩ := List.mem_map.1 hl
    exact g.dict.refs e he

omit [DecidableEq K] [CommRing R] [StarRing R] [Fintype n] in
theorem sep_append {w : World K n R} (wf : WFW w) (s : Sep w) {r : Heap n R × Obj K}
    (g : Good (w.heap.length ≤ ·) (w.heap.length ≤ ·) w.heap r) (i j : Nat) (a b : Obj K) (hij : i ≠ j)
    (ha : (w.objs ++ [r.2])[i]? = some a) (hb : (w.objs ++ [r.2])[j]? = some b) : ∀ l ∈ cells a, l ∉ cells b := by
  have side : ∀ (i : Nat) (a : Obj K), (w.objs ++ [r.2])[i]? = some a → i < w.objs.length ∧ w.objs[i]? = some a ∨ i = w.objs.length ∧ a = r.2 := by
    intro i a h
    by_cases hi : i < w.objs.length
    · rw [List.getElem?_append_left hi] at h; exact Or.inl ⟨hi, h⟩
    · rw [List.getElem?_append_right (by omega)] at h
      have h' := List.getElem?_eq_some_iff.1 h
      obtain ⟨h1, h2⟩ := h'
      have : i - w.objs.length = 0 := by simpa using h1
      right
      refine ⟨by omega, ?_⟩
      simp only [this] at h2
      exact h2.symm
  intro l hla hlb
  rcases side i a ha with ⟨hi, ha'⟩ | ⟨hi, rfl⟩ <;> rcases side j b hb with ⟨hj, hb'⟩ | ⟨hj, rfl⟩
  · exact s.cells i j a b hij ha' hb' l hla hlb
  · have h1 := wf_cells_lt (wf.objs a (List.mem_of_getElem? ha')) hla
    have h2 := good_cells g hlb
    omega
  · have h1 := wf_cells_lt (wf.objs b (List.mem_of_getElem? hb')) hlb
    have h2 := good_cells g hla
    omega
  · omega

omit [DecidableEq K] [CommRing R] [StarRing R] [Fintype n] in
theorem kind_sep {w w' : World K n R} {A t} (hA : A) (wf : WFW w) (s : Sep w) (k : Kind w w' A t) : Sep w' := by
  cases k with
  | same h => exact h ▸ s
  | rename v h => exact absurd hA h
  | emit r g h =>
    subst h
    have g' : Good (w.heap.length ≤ ·) (w.heap.length ≤ ·) w.heap r := g.mono (fun _ h => h) (fun _ h => h hA)
    refine ⟨?_, sep_append wf s g'⟩
    simp only [World.emit]
    rw [List.nodup_append]
    refine ⟨s.vars, by simp, fun x hx y hy hxy => ?_⟩
    have := wf.vars x hx
    have : y = w.objs.length := by simpa using hy
    omega
  | change v o r _ ho g h =>
    subst h
    have g' : Good (fun l => w.heap.length ≤ l ∨ l ∈ Spec.Sharing.cells o) (fun l => w.heap.length ≤ l ∨ l ∈ Spec.Sharing.cells o) w.heap r :=
      g.mono (fun _ h => h) (fun _ h => h hA)
    refine ⟨s.vars, fun i j a b hij ha hb l hla hlb => ?_⟩
    simp only [World.change] at ha hb
    simp only [World.obj, Option.bind_eq_some_iff] at ho
    obtain ⟨i₀, hi₀, ho⟩ := ho
    simp only [List.getD_eq_getElem?_getD, hi₀, Option.getD_some] at ha hb
    have lt := (List.getElem?_eq_some_iff.1 ho).1
    by_cases h1 : i₀ = i
    · subst h1
      rw [List.getElem?_set_self lt] at ha
      rw [List.getElem?_set_ne hij] at hb
      obtain rfl : r.2 = a := by simpa using ha
      rcases good_cells g' hla with h | h
      · have := wf_cells_lt (wf.objs b (List.mem_of_getElem? hb)) hlb; omega
      · exact s.cells i₀ j o b hij ho hb l h hlb
    · rw [List.getElem?_set_ne h1] at ha
      by_cases h2 : i₀ = j
      · subst h2
        rw [List.getElem?_set_self lt] at hb
        obtain rfl : r.2 = b := by simpa using hb
        rcases good_cells g' hlb with h | h
        · have := wf_cells_lt (wf.objs a (List.mem_of_getElem? ha)) hla; omega
        · exact s.cells i i₀ a o hij ha ho l hla h
      · rw [List.getElem?_set_ne h2] at hb
        exact s.cells i j a b hij ha hb l hla hlb
  | rebind v r _ g h =>
    subst h
    refine ⟨?_, sep_append wf s g⟩
    refine List.Nodup.set s.vars fun hm => ?_
    exact absurd (wf.vars _ hm) (by omega)

theorem runOps_sep (l : List (Op K n R)) : ∀ w, WFW w → Sep w → ApartAll env w l → Sep (runOps env w l) := by
  induction l with
  | nil => intro w _ h _; exact h
  | cons op l ih => intro w wf h ha; exact ih _ (kind_wf wf (kind env wf op)) (kind_sep ha.1 wf h (kind env wf op)) ha.2

omit [DecidableEq K] [CommRing R] [StarRing R] [Fintype n] in
theorem start_sep : Sep (start : World K n R) := ⟨by simp [start], by simp [start]⟩

omit [DecidableEq K] [CommRing R] [StarRing R] [Fintype n] in
theorem sep_not_shares {w : World K n R} (s : Sep w) {v u : Nat} (hu : u < w.vars.length) (huv : u ≠ v) : ¬Shares w v u := by
  have hne : w.vars[v]? ≠ w.vars[u]? := by
    intro h
    rw [List.getElem?_eq_getElem hu] at h
    obtain ⟨hv, h⟩ := List.getElem?_eq_some_iff.1 h
    exact huv ((s.vars.getElem_inj_iff).1 h).symm
  rintro (h | ⟨a, b, ha, hb, l, hla, hlb⟩)
  · exact hne h
  · simp only [World.obj, Option.bind_eq_some_iff] at ha hb
    obtain ⟨i, hi, ha⟩ := ha
    obtain ⟨j, hj, hb⟩ := hb
    refine s.cells i j a b ?_ ha hb l hla hlb
    rintro rfl
    exact hne (hi.trans hj.symm)

end Step

end Proof.Heap
