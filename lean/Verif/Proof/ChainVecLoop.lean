import Verif.Model.ChainVec
import Verif.Proof.ChainCheck
import Mathlib.Algebra.BigOperators.Intervals
/-! What the loop of `_get_vec_dense` and `_get_vec_sparse` adds up. -/
namespace Proof.Chain
open Spec Model.Chain
open scoped BigOperators

variable {S : ℕ → Prop}

theorem applyOps_scale (fs : List BitOp) (t : ℕ) (a : Int) :
    applyOps fs (t, a) = ((applyOps fs (t, 1)).1, a * (applyOps fs (t, 1)).2) := by
  unfold applyOps
  induction fs generalizing t a with
  | nil => simp
  | cons f fs ih =>
    rw [List.foldl_cons, List.foldl_cons, step, ih, step, ih (f t).1 (1 * (f t).2)]
    simp [mul_assoc]

theorem pm_sq {a : Int} (h : a = 1 ∨ a = -1) : a * a = 1 := by rcases h with rfl | rfl <;> rfl

/-! ### adding at rows -/

theorem fancy_fold (v : ℕ → ℂ) (e : List (ℕ × ℂ)) (he : (e.map (·.1)).Nodup) (u : ℕ → ℂ) (t : ℕ) :
    e.foldl (fun u x => Function.update u x.1 (v x.1 + x.2)) u t
      = if t ∈ e.map (·.1) then v t + (e.map fun x => if x.1 = t then x.2 else 0).sum else u t := by
  induction e generalizing u with
  | nil => simp
  | cons x e ih =>
    rw [List.map_cons, List.nodup_cons] at he
    rw [List.foldl_cons, ih he.2, List.map_cons, List.map_cons, List.sum_cons]
    by_cases hx : x.1 = t
    · subst hx
      rw [if_neg he.1, if_pos (by simp), Function.update_self, if_pos rfl]
      have : (e.map fun y => if y.1 = x.1 then y.2 else 0).sum = 0 := by
        apply List.sum_eq_zero
        intro z hz
        rw [List.mem_map] at hz
        obtain ⟨y, hy, rfl⟩ := hz
        rw [if_neg]
        intro h0
        exact he.1 (h0 ▸ List.mem_map_of_mem hy)
      rw [this, add_zero]
    · rw [if_neg hx, zero_add, Function.update_of_ne (Ne.symm hx)]
      have : (t ∈ e.map (·.1)) ↔ t ∈ x.1 :: e.map (·.1) := by
        rw [List.mem_cons]
        exact ⟨Or.inr, fun h0 => h0.resolve_left (Ne.symm hx)⟩
      simp only [this]

theorem fancy_eq (v : ℕ → ℂ) (e : List (ℕ × ℂ)) (he : (e.map (·.1)).Nodup) : fancyAdd v e = sparseAdd v e := by
  funext t
  unfold fancyAdd sparseAdd
  rw [fancy_fold v e he]
  split
  · rfl
  · rename_i h
    have : (e.map fun y => if y.1 = t then y.2 else 0).sum = 0 := by
      apply List.sum_eq_zero
      intro z hz
      rw [List.mem_map] at hz
      obtain ⟨y, hy, rfl⟩ := hz
      rw [if_neg]
      intro h0
      exact h (h0 ▸ List.mem_map_of_mem hy)
    rw [this, add_zero]

/-- both ways of adding, for distinct rows -/
def AddsUp (add : (ℕ → ℂ) → List (ℕ × ℂ) → ℕ → ℂ) : Prop := ∀ v e, (e.map (·.1)).Nodup → add v e = sparseAdd v e

theorem dense_adds : AddsUp fancyAdd := fancy_eq
theorem sparse_adds : AddsUp sparseAdd := fun _ _ _ => rfl

/-! ### one section -/

/-- the operations of a section are undone, and have signs -/
structure Undone (S : ℕ → Prop) (g : Section) : Prop where
  closed : ∀ t, S t → S (applyOps g.apply (t, 1)).1
  sign : ∀ t, S t → (applyOps g.apply (t, 1)).2 = 1 ∨ (applyOps g.apply (t, 1)).2 = -1
  undo : ∀ t, S t → applyOps g.undo (applyOps g.apply (t, 1)) = (t, 1)
  q : g.q = 1 ∨ g.q = -1

theorem Undone.inj {g : Section} (h : Undone S g) {t u : ℕ} (ht : S t) (hu : S u)
    (e : (applyOps g.apply (t, 1)).1 = (applyOps g.apply (u, 1)).1) : t = u := by
  have h1 := congrArg Prod.fst (h.undo t ht)
  have h2 := congrArg Prod.fst (h.undo u hu)
  have hs : ∀ x : ℕ × Int, (applyOps g.undo x).1 = (applyOps g.undo (x.1, 1)).1 := fun x => by
    obtain ⟨a, b⟩ := x
    rw [applyOps_scale]
  rw [hs] at h1 h2
  rw [e] at h1
  exact h1.symm.trans h2

/-- columns the loop may start a round with -/
structure Cols (S : ℕ → Prop) (cs : List Column) : Prop where
  state : ∀ c ∈ cs, S c.x.1
  sign : ∀ c ∈ cs, c.x.2 = 1 ∨ c.x.2 = -1
  distinct : cs.Pairwise fun c d => c.neg = d.neg → c.x.1 ≠ d.x.1

/-- what a section adds for one column -/
noncomputable def part (row : ℕ → ℕ) (u : ℕ) (g : Section) (x : ℕ × Int) : ℂ :=
  if row (applyOps g.apply x).1 = u then g.q * (applyOps g.apply x).2 else 0

theorem sum_two (cs : List Column) (f : Column → ℂ) :
    ((cs.filter fun c => c.neg = false).map f).sum + ((cs.filter fun c => c.neg = true).map f).sum = (cs.map f).sum := by
  induction cs with
  | nil => simp
  | cons c cs ih =>
    cases hc : c.neg
    · simp only [List.filter_cons, hc, decide_true, if_true, List.map_cons, List.sum_cons, ← ih]
      simp [add_assoc]
    · simp only [List.filter_cons, hc, decide_true, if_true, List.map_cons, List.sum_cons, ← ih]
      simp; ring

theorem runSection_eq {add : (ℕ → ℂ) → List (ℕ × ℂ) → ℕ → ℂ} (ha : AddsUp add) {row : ℕ → ℕ} (hrow : ∀ t u, S t → S u → row t = row u → t = u)
    {g : Section} (hg : Undone S g) {cs : List Column} (hc : Cols S cs) (v : ℕ → ℂ) :
    runSection add row (cs, v) g = (cs, fun u => v u + (cs.map fun c => c.vc * part row u g c.x).sum) := by
  have himg : ∀ c ∈ cs, (applyOps g.apply c.x).1 = (applyOps g.apply (c.x.1, 1)).1 ∧
      (applyOps g.apply c.x).2 = c.x.2 * (applyOps g.apply (c.x.1, 1)).2 := fun c _ => by
    have := applyOps_scale g.apply c.x.1 c.x.2
    rw [show (c.x.1, c.x.2) = c.x from rfl] at this
    rw [this]; exact ⟨rfl, rfl⟩
  have hnd : ∀ b : Bool, ((((cs.map fun c => { c with x := applyOps g.apply c.x, vc := c.vc * g.q * (applyOps g.apply c.x).2 }).filter
      fun c => c.neg = b).map fun c => (row c.x.1, c.vc)).map (·.1)).Nodup := by
    intro b
    rw [List.map_map, List.filter_map, List.map_map, List.nodup_iff_pairwise_ne, List.pairwise_map]
    refine ((hc.distinct.and (List.pairwise_of_forall_mem_list (r := fun c d => c ∈ cs ∧ d ∈ cs) fun c hc d hd => ⟨hc, hd⟩)).filter _).imp_of_mem ?_
    intro c d h1 h2 h3
    rw [List.mem_filter] at h1 h2
    simp only [Function.comp_apply, decide_eq_true_eq] at h1 h2 ⊢
    intro e
    rw [(himg c h1.1).1, (himg d h2.1).1] at e
    exact h3.1 (h1.2.trans h2.2.symm) (hg.inj (hc.state c h1.1) (hc.state d h2.1)
      (hrow _ _ (hg.closed _ (hc.state c h1.1)) (hg.closed _ (hc.state d h2.1)) e))
  unfold runSection
  simp only
  rw [ha _ _ (hnd true), ha _ _ (hnd false)]
  refine Prod.ext ?_ ?_
  · simp only
    rw [List.map_map]
    conv_rhs => rw [← List.map_id cs]
    apply List.map_congr_left
    intro c hcm
    simp only [Function.comp_apply, id]
    obtain ⟨h1, h2⟩ := himg c hcm
    have hu : applyOps g.undo (applyOps g.apply c.x) = c.x := by
      have e : applyOps g.apply c.x = ((applyOps g.apply (c.x.1, 1)).1, c.x.2 * (applyOps g.apply (c.x.1, 1)).2) := Prod.ext h1 h2
      have hu := hg.undo c.x.1 (hc.state c hcm)
      rw [applyOps_scale, Prod.mk.injEq] at hu
      rw [e, applyOps_scale, hu.1]
      refine Prod.ext rfl ?_
      simp only
      rw [mul_assoc, hu.2, mul_one]
    have hq : (g.q : ℂ) * g.q = 1 := by exact_mod_cast pm_sq hg.q
    have hs : ((applyOps g.apply c.x).2 : ℂ) * (applyOps g.apply c.x).2 = 1 := by
      have : (applyOps g.apply c.x).2 = 1 ∨ (applyOps g.apply c.x).2 = -1 := by
        rw [h2]; exact pm_mul (hc.sign c hcm) (hg.sign _ (hc.state c hcm))
      exact_mod_cast pm_sq this
    rw [hu]
    have : c.vc * g.q * (applyOps g.apply c.x).2 * g.q * (applyOps g.apply c.x).2 = c.vc := by
      linear_combination c.vc * (applyOps g.apply c.x).2 * (applyOps g.apply c.x).2 * hq + c.vc * hs
    rw [this]
  · funext u
    unfold sparseAdd
    simp only
    rw [add_assoc, List.map_map, List.map_map, sum_two _ _, List.map_map]
    congr 2
    apply List.map_congr_left
    intro c _
    simp only [Function.comp_apply, part]
    split
    · ring
    · simp

theorem fold_sections {add : (ℕ → ℂ) → List (ℕ × ℂ) → ℕ → ℂ} (ha : AddsUp add) {row : ℕ → ℕ} (hrow : ∀ t u, S t → S u → row t = row u → t = u)
    {gs : List Section} (hg : ∀ g ∈ gs, Undone S g) {cs : List Column} (hc : Cols S cs) (v : ℕ → ℂ) :
    gs.foldl (runSection add row) (cs, v) = (cs, fun u => v u + (gs.map fun g => (cs.map fun c => c.vc * part row u g c.x).sum).sum) := by
  induction gs generalizing v with
  | nil => simp
  | cons g gs ih =>
    rw [List.foldl_cons, runSection_eq ha hrow (hg g (by simp)) hc, ih fun g' hg' => hg g' (List.mem_cons_of_mem _ hg')]
    refine Prod.ext rfl ?_
    funext u
    simp only [List.map_cons, List.sum_cons]
    ring

theorem sum_swap_list {α β : Type} (l : List α) (m : List β) (f : α → β → ℂ) :
    (l.map fun a => (m.map fun b => f a b).sum).sum = (m.map fun b => (l.map fun a => f a b).sum).sum := by
  induction l with
  | nil => simp
  | cons a l ih => simp only [List.map_cons, List.sum_cons, ih, List.sum_map_add]

/-! ### the loop -/

/-- the operation at the end of a round -/
structure Moves (S : ℕ → Prop) (sh : BitOp) : Prop where
  closed : ∀ t, S t → S (sh t).1
  sign : ∀ t, S t → (sh t).2 = 1 ∨ (sh t).2 = -1
  inj : ∀ t u, S t → S u → (sh t).1 = (sh u).1 → t = u

theorem Cols.move {sh : BitOp} (hsh : Moves S sh) {cs : List Column} (hc : Cols S cs) (f : Column → ℂ) :
    Cols S (cs.map fun c => { c with x := step sh c.x, vc := f c }) := by
  refine ⟨?_, ?_, ?_⟩
  · intro d hd
    rw [List.mem_map] at hd
    obtain ⟨c, hcm, rfl⟩ := hd
    exact hsh.closed _ (hc.state c hcm)
  · intro d hd
    rw [List.mem_map] at hd
    obtain ⟨c, hcm, rfl⟩ := hd
    exact pm_mul (hc.sign c hcm) (hsh.sign _ (hc.state c hcm))
  · rw [List.pairwise_map]
    refine hc.distinct.imp_of_mem ?_
    intro c d h1 h2 h3 h4 h5
    exact h3 h4 (hsh.inj _ _ (hc.state c h1) (hc.state d h2) h5)

theorem runRound_eq {add : (ℕ → ℂ) → List (ℕ × ℂ) → ℕ → ℂ} (ha : AddsUp add) {row : ℕ → ℕ} (hrow : ∀ t u, S t → S u → row t = row u → t = u)
    {gs : List Section} (hg : ∀ g ∈ gs, Undone S g) (sh : BitOp) (C : Bool → ℂ) {cs : List Column} (hc : Cols S cs) (v : ℕ → ℂ) :
    runRound add row gs sh C (cs, v) = (cs.map fun c => { c with x := step sh c.x, vc := c.v0 * (C c.neg / (c.norm : ℂ)) },
      fun u => v u + (cs.map fun c => c.v0 / c.norm * (C c.neg * (gs.map fun g => part row u g c.x).sum)).sum) := by
  have hc' : Cols S (cs.map fun c => { c with vc := c.v0 * (C c.neg / (c.norm : ℂ)) }) := by
    refine ⟨?_, ?_, ?_⟩
    · intro d hd
      rw [List.mem_map] at hd
      obtain ⟨c, hcm, rfl⟩ := hd
      exact hc.state c hcm
    · intro d hd
      rw [List.mem_map] at hd
      obtain ⟨c, hcm, rfl⟩ := hd
      exact hc.sign c hcm
    · rw [List.pairwise_map]; exact hc.distinct
  unfold runRound
  simp only
  rw [fold_sections ha hrow hg hc']
  refine Prod.ext ?_ ?_
  · simp only [List.map_map]; rfl
  · funext u
    simp only
    congr 1
    simp only [List.map_map]
    rw [sum_swap_list]
    congr 1
    apply List.map_congr_left
    intro c _
    simp only [Function.comp_apply]
    rw [List.sum_map_mul_left]
    ring

theorem runRounds_eq {add : (ℕ → ℂ) → List (ℕ × ℂ) → ℕ → ℂ} (ha : AddsUp add) {row : ℕ → ℕ} (hrow : ∀ t u, S t → S u → row t = row u → t = u)
    {gs : List Section} (hg : ∀ g ∈ gs, Undone S g) {sh : BitOp} (hsh : Moves S sh) (C : ℕ → Bool → ℂ) {cs : List Column} (hc : Cols S cs)
    (v : ℕ → ℂ) (n : ℕ) :
    ∃ f : Column → ℂ, Cols S (cs.map fun c => { c with x := (step sh)^[n] c.x, vc := f c }) ∧
      runRounds add row gs sh C n (cs, v) = (cs.map fun c => { c with x := (step sh)^[n] c.x, vc := f c },
      fun u => v u + (cs.map fun c => c.v0 / c.norm * ∑ r ∈ Finset.range n, C r c.neg * (gs.map fun g => part row u g ((step sh)^[r] c.x)).sum).sum) := by
  induction n with
  | zero =>
    refine ⟨fun c => c.vc, ?_, ?_⟩
    · simpa using hc
    · simp [runRounds]
  | succ n ih =>
    obtain ⟨f, h1, h2⟩ := ih
    refine ⟨fun c => c.v0 * (C n c.neg / (c.norm : ℂ)), ?_, ?_⟩
    · have := h1.move hsh fun c => c.v0 * (C n c.neg / (c.norm : ℂ))
      rw [List.map_map] at this
      simp only [Function.iterate_succ_apply']
      exact this
    · unfold runRounds at h2 ⊢
      rw [List.range_succ, List.foldl_append, h2, List.foldl_cons, List.foldl_nil, runRound_eq ha hrow hg sh _ h1]
      refine Prod.ext ?_ ?_
      · simp only [List.map_map, Function.iterate_succ_apply']; rfl
      · funext u
        simp only [List.map_map]
        rw [add_assoc, ← List.sum_map_add]
        congr 2
        apply List.map_congr_left
        intro c _
        simp only [Function.comp_apply]
        rw [Finset.sum_range_succ]
        ring

end Proof.Chain
