import Verif.Model.SemiMomentum
import Verif.Proof.Assembly
import Verif.Props.C16
import Mathlib.Algebra.BigOperators.Group.List.Basic
import Mathlib.Algebra.BigOperators.Group.Finset.Basic
import Mathlib.Algebra.BigOperators.Ring.Finset
/-! The lists of entries written by the operator functions of the semi-momentum blocks. -/
namespace Proof.Semi
open Model Model.Chain Proof.Assembly

/-- non-increasing, with at most two entries for a state -/
structure Twice {α : Type} (basis : List (ℕ × α)) : Prop where
  sorted : (basis.map (·.1)).Pairwise (· ≥ ·)
  two : ∀ i s, stateAt basis i = some s → stateAt basis (i + 2) ≠ some s

section
variable {α : Type} {basis : List (ℕ × α)}

theorem stateAt_map (i : ℕ) : stateAt basis i = (basis.map (·.1))[i]? := by
  unfold stateAt; rw [List.getElem?_map]

theorem stateAt_lt {i s : ℕ} (h : stateAt basis i = some s) : i < basis.length := by
  rw [stateAt_map] at h
  have := (List.getElem?_eq_some_iff.1 h).1
  simpa using this

theorem stateAt_ex {i : ℕ} (h : i < basis.length) : ∃ s, stateAt basis i = some s := by
  refine ⟨basis[i].1, ?_⟩
  unfold stateAt; rw [List.getElem?_eq_getElem h]; rfl

theorem stateAt_pair {i s : ℕ} (h : stateAt basis i = some s) : ∃ d, basis[i]? = some (s, d) := by
  unfold stateAt at h
  rw [Option.map_eq_some_iff] at h
  obtain ⟨⟨s', d⟩, e, rfl⟩ := h
  exact ⟨d, e⟩

theorem stateAt_of {i s : ℕ} {d : α} (h : basis[i]? = some (s, d)) : stateAt basis i = some s := by
  unfold stateAt; rw [h]; rfl

theorem Twice.le (h : Twice basis) {i j x y : ℕ} (hi : stateAt basis i = some x) (hj : stateAt basis j = some y) (hij : i ≤ j) : y ≤ x := by
  rcases Nat.lt_or_eq_of_le hij with hlt | rfl
  · rw [stateAt_map] at hi hj
    exact Props.nonincreasing_get h.sorted hi hj hlt
  · rw [hi, Option.some.injEq] at hj; exact hj.symm.le

/-- equal states are neighbours -/
theorem Twice.next (h : Twice basis) {i j s : ℕ} (hi : stateAt basis i = some s) (hj : stateAt basis j = some s) (hij : i < j) : j = i + 1 := by
  by_contra hne
  have hlt := stateAt_lt hj
  obtain ⟨t, ht⟩ := stateAt_ex (basis := basis) (i := i + 2) (by omega)
  have h1 := h.le hi ht (by omega)
  have h2 := h.le ht hj (by omega)
  have : t = s := by omega
  subst this
  exact h.two i t hi ht

/-- the rows of a state -/
theorem Twice.rows (h : Twice basis) {ss s : ℕ} (hs : stateAt basis ss = some s) (j : ℕ) :
    (∃ b, b < (rowsOf basis ss).2 ∧ j = (rowsOf basis ss).1 + b) ↔ stateAt basis j = some s := by
  unfold rowsOf
  have hl := stateAt_lt hs
  by_cases h1 : 0 < ss ∧ stateAt basis ss = stateAt basis (ss - 1)
  · rw [if_pos h1]
    rw [hs] at h1
    constructor
    · rintro ⟨b, hb, rfl⟩
      simp only at hb ⊢
      obtain rfl | rfl : b = 0 ∨ b = 1 := by omega
      · rw [Nat.add_zero]; exact h1.2.symm
      · rw [Nat.sub_add_cancel h1.1]; exact hs
    · intro hj
      rcases Nat.lt_trichotomy j ss with hlt | rfl | hgt
      · have := h.next hj hs hlt
        exact ⟨0, by simp, by simp only; omega⟩
      · exact ⟨1, by simp, by simp only; omega⟩
      · have := h.next h1.2.symm hj (by omega)
        omega
  · rw [if_neg h1]
    by_cases h2 : ss + 1 < basis.length ∧ stateAt basis ss = stateAt basis (ss + 1)
    · rw [if_pos h2]
      rw [hs] at h2
      constructor
      · rintro ⟨b, hb, rfl⟩
        simp only at hb ⊢
        obtain rfl | rfl : b = 0 ∨ b = 1 := by omega
        · exact hs
        · exact h2.2.symm
      · intro hj
        rcases Nat.lt_trichotomy j ss with hlt | rfl | hgt
        · have := h.next hj hs hlt
          refine absurd ⟨by omega, ?_⟩ h1
          rw [hs, show ss - 1 = j by omega, hj]
        · exact ⟨0, by simp, by simp⟩
        · have := h.next hs hj hgt
          exact ⟨1, by simp, by simp only; omega⟩
    · rw [if_neg h2]
      constructor
      · rintro ⟨b, hb, rfl⟩
        simp only at hb ⊢
        obtain rfl : b = 0 := by omega
        exact hs
      · intro hj
        rcases Nat.lt_trichotomy j ss with hlt | rfl | hgt
        · have := h.next hj hs hlt
          refine absurd ⟨by omega, ?_⟩ h1
          rw [hs, show ss - 1 = j by omega, hj]
        · exact ⟨0, by simp, by simp⟩
        · have := h.next hs hj hgt
          have hl := stateAt_lt hj
          refine absurd ⟨by omega, ?_⟩ h2
          rw [hs, ← this, hj]

/-- the columns of a state, from its first entry -/
theorem Twice.cols (h : Twice basis) {i s : ℕ} (hs : stateAt basis i = some s) (hf : ¬ (0 < i ∧ stateAt basis i = stateAt basis (i - 1))) (j : ℕ) :
    (∃ c, c < (if i + 1 < basis.length ∧ stateAt basis i = stateAt basis (i + 1) then 2 else 1) ∧ j = i + c) ↔ stateAt basis j = some s := by
  have := h.rows hs j
  unfold rowsOf at this
  rw [if_neg hf] at this
  rw [← this]
  split_ifs <;> rfl

end

/-! ### entries -/

variable {ref : ℕ → Ref} {factor : Ref → Int × ℕ → Int × ℕ → ℂ} {basis : List (ℕ × (Int × ℕ))} {op : ℕ → Option (ℕ × ℂ)}

/-- entries of a list of positions -/
theorem entries_coo (b : Ref) (val : ℕ → ℕ → ℂ) (ps : List (ℕ × ℕ)) (hnd : ps.Nodup)
    (hv : ∀ q ∈ ps, entryT_P factor basis op b q = some (q.1, q.2, val q.1 q.2)) :
    ∃ l, ps.mapM (entryT_P factor basis op b) = some l ∧ ∀ j i, coo l j i = if (j, i) ∈ ps then val j i else 0 := by
  induction ps with
  | nil => exact ⟨[], rfl, by simp [coo]⟩
  | cons q ps ih =>
    rw [List.nodup_cons] at hnd
    obtain ⟨l, hl, hc⟩ := ih hnd.2 fun q hq => hv q (List.mem_cons_of_mem _ hq)
    refine ⟨(q.1, q.2, val q.1 q.2) :: l, ?_, ?_⟩
    · rw [List.mapM_cons, hv q (List.mem_cons_self ..), hl]; rfl
    · intro j i
      have e := hc j i
      unfold coo at e ⊢
      rw [List.map_cons, List.sum_cons, e]
      simp only [List.mem_cons]
      by_cases hq : (j, i) = q
      · subst hq
        simp [hnd.1]
      · have : ¬ (q.1 = j ∧ q.2 = i) := fun ⟨h1, h2⟩ => hq (by rw [← h1, ← h2])
        rw [if_neg this, zero_add]
        simp [hq]

/-- what an entry should be -/
noncomputable def target (ref : ℕ → Ref) (factor : Ref → Int × ℕ → Int × ℕ → ℂ) (basis : List (ℕ × (Int × ℕ))) (op : ℕ → Option (ℕ × ℂ)) (j i : ℕ) : ℂ :=
  match basis[j]?, basis[i]? with
  | some (sj, dj), some (si, di) => match op si with
    | some (x, m) => if (ref x).r = sj then m * factor (ref x) di dj else 0
    | none => 0
  | _, _ => 0

theorem target_eq {i j si sj x : ℕ} {m : ℂ} {di dj : Int × ℕ} (hj : basis[j]? = some (sj, dj)) (hi : basis[i]? = some (si, di)) (hx : op si = some (x, m)) :
    target ref factor basis op j i = if (ref x).r = sj then m * factor (ref x) di dj else 0 := by
  unfold target; rw [hi, hj]; simp only [hx]

theorem pairs_nodup (a : ℕ) (i n o : ℕ) : ((List.range o).flatMap fun c => (List.range n).map fun b => (a + b, i + c)).Nodup := by
  rw [List.nodup_flatMap]
  refine ⟨?_, ?_⟩
  · intro c _
    refine List.Nodup.map ?_ List.nodup_range
    intro b b' hb
    simp only [Prod.mk.injEq] at hb; omega
  · refine List.nodup_range.imp ?_
    intro c c' hcc x h1 h2
    simp only [List.mem_map] at h1 h2
    obtain ⟨b, _, rfl⟩ := h1
    obtain ⟨b', _, e⟩ := h2
    simp only [Prod.mk.injEq] at e
    omega

theorem diag_nodup (i o : ℕ) : ((List.range o).map fun c => (i + c, i + c)).Nodup := by
  refine List.Nodup.map ?_ List.nodup_range
  intro b b' hb
  simp only [Prod.mk.injEq] at hb; omega

/-- one round -/
theorem round_coo (ht : Twice basis) (hop : ∀ i s, stateAt basis i = some s → ∃ x m, op s = some (x, m))
    (hdiag : ∀ (i j s : ℕ) (d d' : Int × ℕ) (x : ℕ) (m : ℂ), i ≠ j → basis[i]? = some (s, d) → basis[j]? = some (s, d') → op s = some (x, m) → (ref x).r = s →
      (ref x).g = 0 → (ref x).l = 0 → factor (ref x) d d' = 0)
    {i s : ℕ} (hi : stateAt basis i = some s) :
    ∃ l, roundT_P ref factor basis op i = some l ∧ ∀ j i', coo l j i'
      = if ¬ (0 < i ∧ stateAt basis i = stateAt basis (i - 1)) ∧ stateAt basis i' = some s then target ref factor basis op j i' else 0 := by
  obtain ⟨d, hd⟩ := stateAt_pair hi
  obtain ⟨x, m, hx⟩ := hop i s hi
  unfold roundT_P
  simp only [hd, hx]
  by_cases hf : 0 < i ∧ stateAt basis i = stateAt basis (i - 1)
  · rw [if_pos hf]
    exact ⟨[], rfl, fun j i' => by rw [if_neg (fun h => h.1 hf)]; simp [coo]⟩
  rw [if_neg hf]
  have hsome : ∀ q : ℕ × ℕ, (∃ t, stateAt basis q.1 = some t) → stateAt basis q.2 = some s →
      (∀ t, stateAt basis q.1 = some t → (ref x).r = t) →
      entryT_P factor basis op (ref x) q = some (q.1, q.2, target ref factor basis op q.1 q.2) := by
    rintro ⟨j, i'⟩ ⟨t, h1⟩ h2 h3
    obtain ⟨dj, hj⟩ := stateAt_pair h1
    obtain ⟨di, hi'⟩ := stateAt_pair h2
    unfold entryT_P
    simp only [hj, hi', hx, Option.map_some]
    rw [target_eq hj hi' hx, if_pos (h3 t h1)]
  -- the position of the row
  have hpos : (∃ ss, (if (ref x).r ≠ s then findZState (basis.map (·.1)) (ref x).r 0 ((basis.length : Int) - 1) else some (some i)) = some (some ss) ∧
        stateAt basis ss = some (ref x).r) ∨
      ((if (ref x).r ≠ s then findZState (basis.map (·.1)) (ref x).r 0 ((basis.length : Int) - 1) else some (some i)) = some none ∧
        ∀ j, stateAt basis j ≠ some (ref x).r) := by
    by_cases hr : (ref x).r = s
    · left
      exact ⟨i, by rw [if_neg (by simpa using hr)], by rw [hr]; exact hi⟩
    · rw [if_pos hr]
      have hlen : (basis.map (·.1)).length = basis.length := List.length_map _
      rcases Props.C16_one_dimensional_repeated (basis.map (·.1)) ht.sorted (ref x).r with ⟨ss, h1, h2⟩ | ⟨h1, h2⟩
      · left
        rw [hlen] at h1
        exact ⟨ss, h1, by rw [stateAt_map]; exact h2⟩
      · right
        rw [hlen] at h1
        refine ⟨h1, fun j hj => h2 ?_⟩
        rw [stateAt_map] at hj
        exact List.mem_of_getElem? hj
  have hzero : ∀ j i', stateAt basis i' = some s → stateAt basis j ≠ some (ref x).r → target ref factor basis op j i' = 0 := by
    intro j i' h1 h2
    obtain ⟨di, hi'⟩ := stateAt_pair h1
    cases hj : basis[j]? with
    | none => unfold target; rw [hj]
    | some q =>
      obtain ⟨sj, dj⟩ := q
      rw [target_eq hj hi' hx, if_neg]
      intro e
      exact h2 (by rw [stateAt_of hj, e])
  rcases hpos with ⟨ss, h1, h2⟩ | ⟨h1, h2⟩
  · simp only [h1]
    by_cases hdg : ss = i ∧ (ref x).g = 0 ∧ (ref x).l = 0
    · rw [if_pos hdg]
      have hr : (ref x).r = s := by
        rw [hdg.1, hi, Option.some.injEq] at h2; exact h2.symm
      obtain ⟨l, hl, hc⟩ := entries_coo (factor := factor) (basis := basis) (op := op) (ref x) (target ref factor basis op)
        _ (diag_nodup i (if i + 1 < basis.length ∧ stateAt basis i = stateAt basis (i + 1) then 2 else 1)) (by
          intro q hq
          rw [List.mem_map] at hq
          obtain ⟨c, hc, rfl⟩ := hq
          have h3 := (ht.cols hi hf (i + c)).1 ⟨c, by simpa using hc, rfl⟩
          exact hsome _ ⟨s, h3⟩ h3 (fun t ht' => by simp only at ht'; rw [h3, Option.some.injEq] at ht'; rw [← ht']; exact hr))
      refine ⟨l, hl, fun j i' => ?_⟩
      rw [hc]
      have hmem : (j, i') ∈ ((List.range (if i + 1 < basis.length ∧ stateAt basis i = stateAt basis (i + 1) then 2 else 1)).map fun c => (i + c, i + c))
          ↔ j = i' ∧ stateAt basis i' = some s := by
        rw [List.mem_map, ← ht.cols hi hf i']
        constructor
        · rintro ⟨c, hc, e⟩
          simp only [Prod.mk.injEq] at e
          exact ⟨e.1.symm.trans e.2, c, by simpa using hc, e.2.symm⟩
        · rintro ⟨rfl, c, hc, e⟩
          exact ⟨c, by simpa using hc, by rw [e]⟩
      by_cases hs' : stateAt basis i' = some s
      · rw [if_pos (c := ¬ (0 < i ∧ stateAt basis i = stateAt basis (i - 1)) ∧ stateAt basis i' = some s) ⟨hf, hs'⟩]
        by_cases hji : j = i'
        · rw [if_pos (hmem.2 ⟨hji, hs'⟩)]
        · rw [if_neg (fun h => hji (hmem.1 h).1)]
          symm
          by_cases hj : stateAt basis j = some (ref x).r
          · obtain ⟨di, hi'⟩ := stateAt_pair hs'
            obtain ⟨dj, hj'⟩ := stateAt_pair hj
            rw [target_eq hj' hi' hx, if_pos rfl]
            rw [hr] at hj'
            rw [hdiag i' j s di dj x m (Ne.symm hji) hi' hj' hx hr hdg.2.1 hdg.2.2, mul_zero]
          · exact hzero j i' hs' hj
      · rw [if_neg (fun h => hs' (hmem.1 h).2), if_neg (fun h => hs' h.2)]
    · rw [if_neg hdg]
      obtain ⟨l, hl, hc⟩ := entries_coo (factor := factor) (basis := basis) (op := op) (ref x) (target ref factor basis op)
        _ (pairs_nodup (rowsOf basis ss).1 i (rowsOf basis ss).2 (if i + 1 < basis.length ∧ stateAt basis i = stateAt basis (i + 1) then 2 else 1)) (by
          intro q hq
          rw [List.mem_flatMap] at hq
          obtain ⟨c, hc, hq⟩ := hq
          rw [List.mem_map] at hq
          obtain ⟨b, hb, rfl⟩ := hq
          have h3 := (ht.cols hi hf (i + c)).1 ⟨c, by simpa using hc, rfl⟩
          have h4 := (ht.rows h2 ((rowsOf basis ss).1 + b)).1 ⟨b, by simpa using hb, rfl⟩
          exact hsome _ ⟨_, h4⟩ h3 (fun t ht' => by simp only at ht'; rw [h4, Option.some.injEq] at ht'; exact ht'))
      refine ⟨l, hl, fun j i' => ?_⟩
      rw [hc]
      have hmem : (j, i') ∈ ((List.range (if i + 1 < basis.length ∧ stateAt basis i = stateAt basis (i + 1) then 2 else 1)).flatMap fun c =>
          (List.range (rowsOf basis ss).2).map fun b => ((rowsOf basis ss).1 + b, i + c))
          ↔ stateAt basis j = some (ref x).r ∧ stateAt basis i' = some s := by
        rw [List.mem_flatMap, ← ht.cols hi hf i', ← ht.rows h2 j]
        constructor
        · rintro ⟨c, hc, hq⟩
          rw [List.mem_map] at hq
          obtain ⟨b, hb, e⟩ := hq
          simp only [Prod.mk.injEq] at e
          exact ⟨⟨b, by simpa using hb, e.1.symm⟩, c, by simpa using hc, e.2.symm⟩
        · rintro ⟨⟨b, hb, e1⟩, c, hc, e2⟩
          exact ⟨c, by simpa using hc, List.mem_map.2 ⟨b, by simpa using hb, by rw [e1, e2]⟩⟩
      by_cases hs' : stateAt basis i' = some s
      · rw [if_pos (c := ¬ (0 < i ∧ stateAt basis i = stateAt basis (i - 1)) ∧ stateAt basis i' = some s) ⟨hf, hs'⟩]
        by_cases hj : stateAt basis j = some (ref x).r
        · rw [if_pos (hmem.2 ⟨hj, hs'⟩)]
        · rw [if_neg (fun h => hj (hmem.1 h).1)]
          exact (hzero j i' hs' hj).symm
      · rw [if_neg (fun h => hs' (hmem.1 h).2), if_neg (fun h => hs' h.2)]
  · simp only [h1]
    refine ⟨[], rfl, fun j i' => ?_⟩
    by_cases hs' : stateAt basis i' = some s
    · rw [if_pos ⟨hf, hs'⟩, hzero j i' hs' (h2 j)]; simp [coo]
    · rw [if_neg (fun h => hs' h.2)]; simp [coo]

theorem coo_flatten (ls : List (List Triplet)) (j i : ℕ) : coo ls.flatten j i = (ls.map fun l => coo l j i).sum := by
  induction ls with
  | nil => simp [coo]
  | cons l ls ih => rw [List.flatten_cons, coo_append, ih, List.map_cons, List.sum_cons]

/-- all rounds -/
theorem op_coo (k L T : ℕ) (hk : 2 * k * T % L ≠ 0) (ht : Twice basis) (hop : ∀ i s, stateAt basis i = some s → ∃ x m, op s = some (x, m))
    (hdiag : ∀ (i j s : ℕ) (d d' : Int × ℕ) (x : ℕ) (m : ℂ), i ≠ j → basis[i]? = some (s, d) → basis[j]? = some (s, d') → op s = some (x, m) → (ref x).r = s →
      (ref x).g = 0 → (ref x).l = 0 → factor (ref x) d d' = 0) :
    ∃ l, opT_P k L T ref factor basis op = some l ∧ ∀ j i, i < basis.length → coo l j i = target ref factor basis op j i := by
  classical
  have hround : ∀ i ∈ List.range basis.length, ∃ l, roundT_P ref factor basis op i = some l ∧ ∀ j i', coo l j i'
      = if ¬ (0 < i ∧ stateAt basis i = stateAt basis (i - 1)) ∧ stateAt basis i' = stateAt basis i then target ref factor basis op j i' else 0 := by
    intro i hi
    obtain ⟨s, hs⟩ := stateAt_ex (basis := basis) (i := i) (by simpa using hi)
    rw [hs]
    obtain ⟨l, h1, h2⟩ := round_coo (ref := ref) (factor := factor) ht hop hdiag hs
    rw [hs] at h2
    exact ⟨l, h1, h2⟩
  obtain ⟨ls, hls, hf⟩ := mapM_some (roundT_P ref factor basis op) (List.range basis.length) (by
    intro i hi
    obtain ⟨l, h1, _⟩ := hround i hi
    rw [h1]; rfl)
  refine ⟨_, by rw [opT_P, if_neg hk, hls]; rfl, ?_⟩
  intro j i hi
  rw [coo_filter, coo_flatten]
  have key : (ls.map fun l => coo l j i).sum = ∑ a ∈ Finset.range basis.length,
      if ¬ (0 < a ∧ stateAt basis a = stateAt basis (a - 1)) ∧ stateAt basis i = stateAt basis a then target ref factor basis op j i else 0 := by
    rw [Finset.sum_range, ← List.sum_ofFn]
    congr 1
    apply List.ext_getElem
    · rw [List.length_map, List.length_ofFn, ← hf.length_eq, List.length_range]
    · intro a h1 h2
      rw [List.getElem_map, List.getElem_ofFn]
      rw [List.length_map] at h1
      have ha : a < (List.range basis.length).length := by rw [hf.length_eq]; exact h1
      have e := List.forall₂_iff_get.1 hf
      have e2 := e.2 a ha h1
      simp only [List.get_eq_getElem, List.getElem_range] at e2
      obtain ⟨l, h3, h4⟩ := hround a (by simpa using ha)
      rw [h3, Option.some.injEq] at e2
      rw [← e2]
      exact h4 j i
  rw [key]
  obtain ⟨s, hs⟩ := stateAt_ex hi
  by_cases hfirst : 0 < i ∧ stateAt basis i = stateAt basis (i - 1)
  · rw [Finset.sum_eq_single (i - 1)]
    · rw [if_pos]
      refine ⟨?_, hfirst.2⟩
      rintro ⟨h1, h2⟩
      rw [← hfirst.2, hs] at h2
      have := ht.two (i - 1 - 1) s h2.symm
      rw [show i - 1 - 1 + 2 = i by omega] at this
      exact this hs
    · intro a _ hne
      rw [if_neg]
      rintro ⟨h1, h2⟩
      rw [hs] at h2
      rcases Nat.lt_trichotomy a i with hlt | rfl | hgt
      · have := ht.next h2.symm hs hlt; omega
      · exact h1 hfirst
      · have h3 := ht.next hs h2.symm hgt
        exact h1 ⟨by omega, by rw [← h2, h3, Nat.add_sub_cancel, hs]⟩
    · intro h; exact absurd (Finset.mem_range.2 (by omega)) h
  · rw [Finset.sum_eq_single i]
    · rw [if_pos ⟨hfirst, rfl⟩]
    · intro a _ hne
      rw [if_neg]
      rintro ⟨h1, h2⟩
      rw [hs] at h2
      rcases Nat.lt_trichotomy a i with hlt | rfl | hgt
      · have := ht.next h2.symm hs hlt
        exact hfirst ⟨by omega, by rw [this, Nat.add_sub_cancel, ← this, hs, h2]⟩
      · exact hne rfl
      · have h3 := ht.next hs h2.symm hgt
        exact h1 ⟨by omega, by rw [← h2, h3, Nat.add_sub_cancel, hs]⟩
    · intro h; exact absurd (Finset.mem_range.2 hi) h

/-- momenta 0 and π: one entry per state -/
theorem op_coo_real (k L T : ℕ) (hk : 2 * k * T % L = 0) (hsort : (basis.map (·.1)).Pairwise (· > ·))
    (hop : ∀ i s, stateAt basis i = some s → ∃ x m, op s = some (x, m)) :
    ∃ l, opT_P k L T ref factor basis op = some l ∧ ∀ j i, j < basis.length → i < basis.length → coo l j i = target ref factor basis op j i := by
  have hcol : ∀ i < basis.length, ∃ y, columnOf ref factor basis op i = some y ∧ ∀ j, j < basis.length →
      entry (columnOf ref factor basis op) j i = target ref factor basis op j i := by
    intro i hi
    obtain ⟨s, hs⟩ := stateAt_ex hi
    obtain ⟨d, hd⟩ := stateAt_pair hs
    obtain ⟨x, m, hx⟩ := hop i s hs
    have hlen : (basis.map (·.1)).length = basis.length := List.length_map _
    have huni : ∀ a b t, stateAt basis a = some t → stateAt basis b = some t → a = b := by
      intro a b t ha hb
      rw [stateAt_map] at ha hb
      obtain ⟨ha1, ha2⟩ := List.getElem?_eq_some_iff.1 ha
      obtain ⟨hb1, hb2⟩ := List.getElem?_eq_some_iff.1 hb
      have := List.pairwise_iff_getElem.1 hsort
      rcases Nat.lt_trichotomy a b with h | h | h
      · have := this a b ha1 hb1 h; omega
      · exact h
      · have := this b a hb1 ha1 h; omega
    have hpos : (∃ ss, (if (ref x).r ≠ s then findZState (basis.map (·.1)) (ref x).r 0 ((basis.length : Int) - 1) else some (some i)) = some (some ss) ∧
          stateAt basis ss = some (ref x).r) ∨
        ((if (ref x).r ≠ s then findZState (basis.map (·.1)) (ref x).r 0 ((basis.length : Int) - 1) else some (some i)) = some none ∧
          ∀ j, stateAt basis j ≠ some (ref x).r) := by
      by_cases hr : (ref x).r = s
      · left
        exact ⟨i, by rw [if_neg (by simpa using hr)], by rw [hr]; exact hs⟩
      · rw [if_pos hr]
        rcases Props.C16_one_dimensional (basis.map (·.1)) hsort (ref x).r with ⟨ss, h1, h2⟩ | ⟨h1, h2⟩
        · left
          rw [hlen] at h1
          exact ⟨ss, h1, by rw [stateAt_map]; exact h2⟩
        · right
          rw [hlen] at h1
          refine ⟨h1, fun j hj => h2 ?_⟩
          rw [stateAt_map] at hj
          exact List.mem_of_getElem? hj
    rcases hpos with ⟨ss, h1, h2⟩ | ⟨h1, h2⟩
    · obtain ⟨d', hd'⟩ := stateAt_pair h2
      have hc : columnOf ref factor basis op i = some (some (ss, m * factor (ref x) d d')) := by
        unfold columnOf
        simp only [hd, hx, h1, hd']
      refine ⟨_, hc, fun j hj => ?_⟩
      unfold entry
      rw [hc]
      simp only
      obtain ⟨sj, hsj⟩ := stateAt_ex hj
      obtain ⟨dj, hdj⟩ := stateAt_pair hsj
      rw [target_eq hdj hd hx]
      by_cases hss : ss = j
      · subst hss
        rw [hd', Option.some.injEq, Prod.mk.injEq] at hdj
        rw [if_pos rfl, if_pos hdj.1, hdj.2]
      · rw [if_neg hss, if_neg]
        intro e
        exact hss (huni ss j sj (by rw [h2, e]) hsj)
    · have hc : columnOf ref factor basis op i = some none := by
        unfold columnOf
        simp only [hd, hx, h1]
      refine ⟨_, hc, fun j hj => ?_⟩
      unfold entry
      rw [hc]
      simp only
      obtain ⟨sj, hsj⟩ := stateAt_ex hj
      obtain ⟨dj, hdj⟩ := stateAt_pair hsj
      rw [target_eq hdj hd hx, if_neg]
      intro e
      exact h2 j (by rw [hsj, e])
  obtain ⟨l, h1, h2⟩ := opTriplets_spec (columnOf ref factor basis op) basis.length (fun i hi => by
    obtain ⟨y, hy, _⟩ := hcol i hi
    rw [hy]; rfl)
  refine ⟨l, by rw [opT_P, if_pos hk]; exact h1, fun j i hj hi => ?_⟩
  rw [h2 j i hi]
  obtain ⟨y, _, h3⟩ := hcol i hi
  exact h3 j hj

/-- the matrix -/
theorem matrix_eq (k L T : ℕ) (terms : List (ℕ → Option (ℕ × ℂ)))
    (h : ∀ f ∈ terms, ∃ l, opT_P k L T ref factor basis f = some l ∧ ∀ j i, j < basis.length → i < basis.length → coo l j i = target ref factor basis f j i) :
    ∃ M, matrixT_P k L T ref factor basis terms = some M ∧ ∀ j i, j < basis.length → i < basis.length →
      M j i = (terms.map fun f => target ref factor basis f j i).sum := by
  obtain ⟨ls, hls, hf⟩ := mapM_some (opT_P k L T ref factor basis) terms (by
    intro f hf
    obtain ⟨l, hl, _⟩ := h f hf
    rw [hl]; rfl)
  refine ⟨makeMatrix ls, by rw [matrixT_P, hls]; rfl, ?_⟩
  intro j i hj hi
  rw [makeMatrix_eq]
  clear hls
  induction hf with
  | nil => rfl
  | cons h1 h2 ih =>
    rename_i c l cs ls
    rw [List.map_cons, List.sum_cons, List.map_cons, List.sum_cons, ih fun c hc => h c (by simp [hc])]
    obtain ⟨l', hl', he⟩ := h c (by simp)
    rw [hl', Option.some.injEq] at h1
    rw [← h1, he j i hj hi]

end Proof.Semi
