import Verif.Model.PartialTrace
import Verif.Spec.PartialTrace
import Mathlib.Data.List.Sort
import Mathlib.Data.List.Range
import Mathlib.Data.List.GetD
import Mathlib.Tactic.Ring
import Mathlib.Tactic.Linarith
import Mathlib.Data.Fintype.Card
import Mathlib.Data.Fintype.Pi
import Mathlib.Data.Fintype.BigOperators

namespace Proof.PartialTrace
open Model.PartialTrace Spec.PartialTrace

/-! ### Places -/

theorem foldl_digits (d : ℕ) (l : List ℕ) (c : ℕ) :
    l.foldl (fun acc x => acc * d + x) c = c * d ^ l.length + position d l := by
  unfold position
  induction l generalizing c with
  | nil => simp
  | cons a l ih =>
    rw [List.foldl_cons, ih, List.foldl_cons, ih (0 * d + a), List.length_cons, pow_succ]
    ring

theorem position_append (d : ℕ) (l m : List ℕ) : position d (l ++ m) = position d l * d ^ m.length + position d m := by
  conv_lhs => unfold position
  rw [List.foldl_append, foldl_digits]
  rfl

theorem position_cons (d a : ℕ) (l : List ℕ) : position d (a :: l) = a * d ^ l.length + position d l := by
  have := position_append d [a] l
  simpa [position] using this

theorem position_lt (d : ℕ) (l : List ℕ) (h : ∀ x ∈ l, x < d) : position d l < d ^ l.length := by
  induction l with
  | nil => simp [position]
  | cons a l ih =>
    rw [position_cons, List.length_cons, pow_succ]
    have := ih fun x hx => h x (List.mem_cons_of_mem _ hx)
    have ha := h a List.mem_cons_self
    calc a * d ^ l.length + position d l < a * d ^ l.length + d ^ l.length := by omega
      _ = (a + 1) * d ^ l.length := by ring
      _ ≤ d * d ^ l.length := Nat.mul_le_mul_right _ ha
      _ = d ^ l.length * d := by ring

theorem position_inj (d : ℕ) : ∀ l m : List ℕ, l.length = m.length → (∀ x ∈ l, x < d) → (∀ x ∈ m, x < d) →
    position d l = position d m → l = m
  | [], [], _, _, _, _ => rfl
  | [], _ :: _, h, _, _, _ => by simp at h
  | _ :: _, [], h, _, _, _ => by simp at h
  | a :: l, b :: m, h, hl, hm, he => by
    have hlen : l.length = m.length := by simpa using h
    rw [position_cons, position_cons, hlen] at he
    have h1 := position_lt d l fun x hx => hl x (List.mem_cons_of_mem _ hx)
    have h2 := position_lt d m fun x hx => hm x (List.mem_cons_of_mem _ hx)
    rw [hlen] at h1
    have hab : a = b := by
      have e1 : (a * d ^ m.length + position d l) / d ^ m.length = a := by
        rw [mul_comm, Nat.mul_add_div (by omega), Nat.div_eq_of_lt h1, add_zero]
      have e2 : (b * d ^ m.length + position d m) / d ^ m.length = b := by
        rw [mul_comm, Nat.mul_add_div (by omega), Nat.div_eq_of_lt h2, add_zero]
      rw [← e1, ← e2, he]
    subst hab
    rw [position_inj d l m hlen (fun x hx => hl x (List.mem_cons_of_mem _ hx)) (fun x hx => hm x (List.mem_cons_of_mem _ hx)) (by omega)]

/-- Digit by digit below a shape. -/
def Below : List ℕ → List ℕ → Prop := List.Forall₂ fun i d => i < d

theorem flat_lt : ∀ {ds is : List ℕ}, Below is ds → flat ds is < ds.prod
  | [], [], _ => by simp [flat]
  | d :: ds, i :: is, h => by
    obtain ⟨h1, h2⟩ := List.forall₂_cons.mp h
    have := flat_lt h2
    rw [flat, List.prod_cons]
    calc i * ds.prod + flat ds is < i * ds.prod + ds.prod := by omega
      _ = (i + 1) * ds.prod := by ring
      _ ≤ d * ds.prod := Nat.mul_le_mul_right _ h1

theorem unflat_add : ∀ (ds : List ℕ) (c m : ℕ), unflat ds (c * ds.prod + m) = unflat ds m
  | [], _, _ => rfl
  | d :: ds, c, m => by
    rcases Nat.eq_zero_or_pos ds.prod with h0 | h0
    · have : (d :: ds).prod = 0 := by rw [List.prod_cons, h0, mul_zero]
      rw [this, mul_zero, zero_add]
    have e : c * (d :: ds).prod + m = (c * d) * ds.prod + m := by rw [List.prod_cons]; ring
    rw [unflat, unflat, e, unflat_add ds, mul_comm (c * d), Nat.mul_add_div h0, mul_comm c, Nat.mul_add_mod]

theorem unflat_flat : ∀ {ds is : List ℕ}, Below is ds → unflat ds (flat ds is) = is
  | [], [], _ => rfl
  | d :: ds, i :: is, h => by
    obtain ⟨h1, h2⟩ := List.forall₂_cons.mp h
    have hl := flat_lt h2
    rw [flat, unflat, unflat_add, unflat_flat h2, mul_comm, Nat.mul_add_div (by omega), Nat.div_eq_of_lt hl, add_zero, Nat.mod_eq_of_lt h1]

/-- Digits in groups. -/
theorem flat_groups (d : ℕ) (W : List (List ℕ)) :
    flat (W.map fun w => d ^ w.length) (W.map (position d)) = position d W.flatten := by
  induction W with
  | nil => simp [flat, position]
  | cons w W ih =>
    rw [List.map_cons, List.map_cons, flat, ih, List.flatten_cons, position_append]
    congr 2
    clear ih
    induction W with
    | nil => simp
    | cons w W ih => rw [List.map_cons, List.prod_cons, List.flatten_cons, List.length_append, pow_add, ih]

theorem below_groups (d : ℕ) (W : List (List ℕ)) (h : ∀ w ∈ W, ∀ x ∈ w, x < d) :
    Below (W.map (position d)) (W.map fun w => d ^ w.length) := by
  unfold Below
  rw [List.forall₂_map_left_iff, List.forall₂_map_right_iff, List.forall₂_same]
  exact fun w hw => position_lt d w (h w hw)

/-! ### Groups of consecutive sites -/

theorem foldl_erase (p r : List ℕ) : p.foldl List.erase (p ++ r) = r := by
  induction p with
  | nil => rfl
  | cons a p ih => rw [List.cons_append, List.foldl_cons, List.erase_cons_head, ih]

theorem countUp_prefix (a : ℕ) (l : List ℕ) : ∃ r, l = countUp a l ++ r := by
  induction l generalizing a with
  | nil => exact ⟨[], rfl⟩
  | cons b l ih =>
    unfold countUp
    split
    · obtain ⟨r, hr⟩ := ih b
      exact ⟨r, by rw [List.cons_append, ← hr]⟩
    · exact ⟨b :: l, rfl⟩

theorem countUp_range (a : ℕ) (l : List ℕ) : a :: countUp a l = List.range' a ((countUp a l).length + 1) := by
  induction l generalizing a with
  | nil => simp [countUp]
  | cons b l ih =>
    unfold countUp
    split
    · rename_i h
      subst h
      rw [List.length_cons, List.range'_succ, ← ih]
    · simp

theorem groups_flatten (fuel : ℕ) (T : List ℕ) (h : T.length ≤ fuel) : (groups fuel T).flatten = T := by
  induction fuel generalizing T with
  | zero =>
    have : T = [] := List.eq_nil_of_length_eq_zero (by omega)
    subst this; rfl
  | succ fuel ih =>
    cases T with
    | nil => rfl
    | cons a l =>
      obtain ⟨r, hr⟩ := countUp_prefix a l
      have he : (a :: countUp a l).foldl List.erase (a :: l) = r := by
        have := foldl_erase (a :: countUp a l) r
        rwa [List.cons_append, ← hr] at this
      unfold groups
      dsimp only
      rw [he, List.flatten_cons, ih r]
      · rw [List.cons_append, ← hr]
      · have := congrArg List.length hr
        rw [List.length_append] at this
        rw [List.length_cons] at h
        omega

theorem groups_range (fuel : ℕ) (T : List ℕ) : ∀ g ∈ groups fuel T, ∃ n, g = List.range' (g.headD 0) (n + 1) := by
  induction fuel generalizing T with
  | zero => simp [groups]
  | succ fuel ih =>
    cases T with
    | nil => simp [groups]
    | cons a l =>
      intro g hg
      unfold groups at hg
      rcases List.mem_cons.mp hg with rfl | hg
      · exact ⟨_, countUp_range a l⟩
      · exact ih _ g hg

/-- The sorted groups of `T`. -/
abbrev sorted (T : List ℕ) : List (List ℕ) := (groups T.length T).insertionSort fun x y => x.headD 0 ≤ y.headD 0

theorem sorted_perm (T : List ℕ) : (sorted T).Perm (groups T.length T) := List.perm_insertionSort _ _

theorem sorted_flatten (T : List ℕ) (n : ℕ) (hT : T.Perm (List.range n)) : (sorted T).flatten = List.range n := by
  have hperm : (sorted T).flatten.Perm (List.range n) := by
    refine ((sorted_perm T).flatten).trans ?_
    rw [groups_flatten _ _ le_rfl]
    exact hT
  have hnd : (sorted T).flatten.Nodup := hperm.nodup_iff.mpr List.nodup_range
  have hs : (sorted T).Pairwise fun x y => x.headD 0 ≤ y.headD 0 := by
    have : Std.Total (fun x y : List ℕ => x.headD 0 ≤ y.headD 0) := ⟨fun x y => le_total _ _⟩
    have : IsTrans (List ℕ) (fun x y : List ℕ => x.headD 0 ≤ y.headD 0) := ⟨fun x y z => le_trans⟩
    exact List.pairwise_insertionSort _ _
  have hg : ∀ g ∈ sorted T, ∃ m, g = List.range' (g.headD 0) (m + 1) := fun g hg =>
    groups_range _ _ g ((sorted_perm T).mem_iff.mp hg)
  have hlt : (sorted T).flatten.Pairwise (· < ·) := by
    rw [List.pairwise_flatten]
    constructor
    · intro g h
      obtain ⟨m, hm⟩ := hg g h
      rw [hm]
      exact List.pairwise_lt_range'
    · rw [List.nodup_iff_pairwise_ne, List.pairwise_flatten] at hnd
      have h2 := hnd.2
      refine List.Pairwise.imp_of_mem ?_ (hs.and h2)
      rintro g g' hm hm' ⟨hle, hne⟩ x hx y hy
      obtain ⟨m, e⟩ := hg g hm
      obtain ⟨m', e'⟩ := hg g' hm'
      generalize g.headD 0 = p at e hle
      generalize g'.headD 0 = q at e' hle
      subst e e'
      rw [List.mem_range'_1] at hx hy
      have hq : ¬ (p ≤ q ∧ q < p + (m + 1)) := by
        intro hc
        exact hne q (by rw [List.mem_range'_1]; exact hc) q (by rw [List.mem_range'_1]; omega) rfl
      omega
  exact hperm.eq_of_pairwise (fun a b _ _ h1 h2 => absurd h1 (by omega)) hlt List.pairwise_lt_range

theorem sorted_nodup (T : List ℕ) (n : ℕ) (hT : T.Perm (List.range n)) : (sorted T).Nodup := by
  have h := sorted_flatten T n hT
  have hnd : (sorted T).flatten.Nodup := by rw [h]; exact List.nodup_range
  rw [List.nodup_iff_pairwise_ne, List.pairwise_flatten] at hnd
  refine List.Pairwise.imp_of_mem ?_ hnd.2
  intro g g' hm _ hne hgg
  subst hgg
  obtain ⟨m, e⟩ := groups_range _ _ g ((sorted_perm T).mem_iff.mp hm)
  generalize g.headD 0 = p at e
  have : p ∈ g := by rw [e, List.mem_range'_1]; omega
  exact hne p this p this rfl

/-! ### The shuffled array -/

section
variable {α : Type} {d n : ℕ} {T : List ℕ} (hT : T.Perm (List.range n)) (s : ℕ → ℕ) (hs : ∀ i < n, s i < d)
include hT

theorem reduce_shape : ((reduce T d).1.map fun t => (reduce T d).2.getD t 0) = (groups T.length T).map fun g => d ^ g.length := by
  unfold reduce
  simp only [List.map_map]
  refine List.map_congr_left fun g hg => ?_
  have hm : g ∈ sorted T := (sorted_perm T).mem_iff.mpr hg
  have hlt : (sorted T).idxOf g < (sorted T).length := List.idxOf_lt_length_of_mem hm
  simp only [Function.comp_apply]
  rw [List.getD_eq_getElem _ _ (by rw [List.length_map]; exact hlt), List.getElem_map]
  congr 2
  exact List.getElem_idxOf hlt

include hs

theorem digits_below : ∀ w ∈ (groups T.length T).map (List.map s), ∀ x ∈ w, x < d := by
  intro w hw x hx
  obtain ⟨g, hg, rfl⟩ := List.mem_map.mp hw
  obtain ⟨i, hi, rfl⟩ := List.mem_map.mp hx
  apply hs
  have : i ∈ (groups T.length T).flatten := List.mem_flatten.mpr ⟨g, hg, hi⟩
  rw [groups_flatten _ _ le_rfl, hT.mem_iff, List.mem_range] at this
  exact this

/-- The indices of a configuration along the axes of the groups, in the order of `T`. -/
theorem unflat_groups : unflat ((groups T.length T).map fun g => d ^ g.length) (position d (T.map s)) =
    (groups T.length T).map fun g => position d (g.map s) := by
  have h1 := flat_groups d ((groups T.length T).map (List.map s))
  rw [← List.map_flatten, groups_flatten _ _ le_rfl, List.map_map, List.map_map] at h1
  have e1 : (fun w : List ℕ => d ^ w.length) ∘ List.map s = fun g => d ^ g.length := by funext g; simp
  rw [e1] at h1
  rw [← h1, unflat_flat]
  · rfl
  · have := below_groups d _ (digits_below hT s hs)
    rwa [List.map_map, List.map_map, e1] at this

omit hs in
theorem flat_sorted : flat (reduce T d).2 ((sorted T).map fun g => position d (g.map s)) = position d ((List.range n).map s) := by
  have h1 := flat_groups d ((sorted T).map (List.map s))
  rw [← List.map_flatten, sorted_flatten T n hT, List.map_map, List.map_map] at h1
  have e1 : (fun w : List ℕ => d ^ w.length) ∘ List.map s = fun g => d ^ g.length := by funext g; simp
  rw [e1] at h1
  exact h1

theorem below_sorted : Below ((sorted T).map fun g => position d (g.map s)) (reduce T d).2 := by
  have := below_groups d ((sorted T).map (List.map s)) (by
    intro w hw
    obtain ⟨g, hg, rfl⟩ := List.mem_map.mp hw
    exact digits_below hT s hs _ (List.mem_map.mpr ⟨g, (sorted_perm T).mem_iff.mp hg, rfl⟩))
  have e1 : (fun w : List ℕ => d ^ w.length) ∘ List.map s = fun g => d ^ g.length := by funext g; simp
  rwa [List.map_map, List.map_map, e1] at this

theorem transpose_config (A : ℕ → α) : transpose (reduce T d).2 (reduce T d).1 A (position d (T.map s)) = A (position d ((List.range n).map s)) := by
  unfold transpose
  simp only [reduce_shape hT, unflat_groups hT s hs]
  congr 1
  rw [← flat_sorted (d := d) hT s]
  congr 1
  have hlen : (reduce T d).2.length = (sorted T).length := by simp [reduce]
  rw [hlen]
  apply List.ext_getElem
  · simp
  intro t h1 h2
  simp only [List.length_map, List.length_range] at h1 h2
  simp only [List.getElem_map, List.getElem_range]
  -- the place of the axis `t` in the transposed array
  have hmem : (sorted T)[t] ∈ groups T.length T := (sorted_perm T).mem_iff.mp (List.getElem_mem h1)
  have ht : t ∈ (reduce T d).1 := by
    unfold reduce
    refine List.mem_map.mpr ⟨(sorted T)[t], hmem, ?_⟩
    exact (sorted_nodup T n hT).idxOf_getElem t h1
  have hk := List.idxOf_lt_length_of_mem ht
  have he := List.getElem_idxOf hk
  generalize (reduce T d).1.idxOf t = k at hk he
  have hk' : k < (groups T.length T).length := by simpa [reduce] using hk
  rw [List.getD_eq_getElem _ _ (by simpa using hk'), List.getElem_map]
  congr 2
  have he' : (sorted T).idxOf (groups T.length T)[k] = t := by
    have : (reduce T d).1[k] = (sorted T).idxOf (groups T.length T)[k] := by simp [reduce, sorted]
    rw [← this, he]
  have hm : (groups T.length T)[k] ∈ sorted T := (sorted_perm T).mem_iff.mpr (List.getElem_mem hk')
  subst he'
  exact (List.getElem_idxOf (List.idxOf_lt_length_of_mem hm)).symm

theorem reduce_getD {β : Type} (f : List ℕ → β) (z : β) :
    ((reduce T d).1.map fun t => ((sorted T).map f).getD t z) = (groups T.length T).map f := by
  unfold reduce
  simp only [List.map_map]
  refine List.map_congr_left fun g hg => ?_
  have hm : g ∈ sorted T := (sorted_perm T).mem_iff.mpr hg
  have hlt : (sorted T).idxOf g < (sorted T).length := List.idxOf_lt_length_of_mem hm
  simp only [Function.comp_apply]
  rw [List.getD_eq_getElem _ _ (by rw [List.length_map]; exact hlt), List.getElem_map]
  congr 1
  exact List.getElem_idxOf hlt

omit hT hs in
theorem flat_strides : ∀ ds is : List ℕ, is.length = ds.length →
    flat ds is = ((List.range ds.length).map fun k => is.getD k 0 * (strides ds).getD k 0).sum
  | [], [], _ => by simp [flat]
  | [], _ :: _, h => by simp at h
  | _ :: _, [], h => by simp at h
  | d :: ds, i :: is, h => by
    have h' : is.length = ds.length := by simpa using h
    rw [flat, flat_strides ds is h', List.length_cons, List.range_succ_eq_map, List.map_cons, List.sum_cons, List.map_map]
    simp [strides, Function.comp_def]

omit hT hs in
theorem strides_length (ds : List ℕ) : (strides ds).length = ds.length := by
  induction ds with
  | nil => rfl
  | cons d ds ih => rw [strides, List.length_cons, List.length_cons, ih]

omit hT hs in
theorem unflat_length (ds : List ℕ) (m : ℕ) : (unflat ds m).length = ds.length := by
  induction ds with
  | nil => rfl
  | cons d ds ih => rw [unflat, List.length_cons, List.length_cons, ih]

omit hT hs in
theorem unflat_getD : ∀ (ds : List ℕ) (m t : ℕ), t < ds.length → (unflat ds m).getD t 0 = m / (strides ds).getD t 0 % ds.getD t 0
  | d :: ds, m, 0, _ => by simp [unflat, strides]
  | d :: ds, m, t + 1, h => by
    have := unflat_getD ds m t (by simpa using h)
    simpa [unflat, strides] using this

omit hT hs in
theorem foldl_add (f : ℕ → ℕ) (l : List ℕ) (c : ℕ) : l.foldl (fun j k => j + f k) c = c + (l.map f).sum := by
  induction l generalizing c with
  | nil => simp
  | cons a l ih => rw [List.foldl_cons, ih, List.map_cons, List.sum_cons]; omega

omit hT hs in
/-- The place the loop computes. -/
theorem target_flat (R T : List ℕ) (i : ℕ) (h : ∀ t ∈ T, t < R.length) :
    target R T i = flat (T.map fun t => R.getD t 0) (T.map fun t => (unflat R i).getD t 0) := by
  unfold target
  dsimp only
  rw [foldl_add, zero_add, flat_strides _ _ (by simp), List.length_map]
  congr 1
  refine List.map_congr_left fun k hk => ?_
  rw [List.mem_range] at hk
  congr 1
  rw [List.getD_eq_getElem _ _ (by simpa using hk), List.getD_eq_getElem _ _ (by simpa using hk), List.getD_eq_getElem _ _ (by simpa using hk),
    List.getElem_map, List.getElem_map, List.getElem_map, unflat_getD _ _ _ (h _ (List.getElem_mem hk))]

theorem target_config : target (reduce T d).2 (reduce T d).1 (position d ((List.range n).map s)) = position d (T.map s) := by
  rw [target_flat, reduce_shape hT, ← flat_sorted (d := d) hT s, unflat_flat (below_sorted hT s hs), reduce_getD hT s hs]
  · have h1 := flat_groups d ((groups T.length T).map (List.map s))
    rw [← List.map_flatten, groups_flatten _ _ le_rfl, List.map_map, List.map_map] at h1
    have e1 : (fun w : List ℕ => d ^ w.length) ∘ List.map s = fun g => d ^ g.length := by funext g; simp
    rw [e1] at h1
    exact h1
  · intro t ht
    unfold reduce at ht ⊢
    obtain ⟨g, hg, rfl⟩ := List.mem_map.mp ht
    have hm : g ∈ sorted T := (sorted_perm T).mem_iff.mpr hg
    rw [List.length_map]
    exact List.idxOf_lt_length_of_mem hm

omit hT hs in
theorem updates_other {β : Type} (f : ℕ → ℕ) (A : ℕ → β) (l : List ℕ) (z : ℕ → β) (m : ℕ) (h : ∀ i ∈ l, f i ≠ m) :
    l.foldl (fun AT i => Function.update AT (f i) (A i)) z m = z m := by
  induction l generalizing z with
  | nil => rfl
  | cons a l ih =>
    rw [List.foldl_cons, ih _ fun i hi => h i (List.mem_cons_of_mem _ hi), Function.update_of_ne]
    exact (h a List.mem_cons_self).symm

omit hT hs in
theorem updates {β : Type} (f : ℕ → ℕ) (A : ℕ → β) (l : List ℕ) (z : ℕ → β) (i : ℕ) (hi : i ∈ l) (h : ∀ j ∈ l, f j = f i → j = i) :
    l.foldl (fun AT i => Function.update AT (f i) (A i)) z (f i) = A i := by
  induction l generalizing z with
  | nil => simp at hi
  | cons a l ih =>
    rw [List.foldl_cons]
    by_cases hl : i ∈ l
    · exact ih _ hl fun j hj => h j (List.mem_cons_of_mem _ hj)
    · have ha : i = a := by rcases List.mem_cons.mp hi with h | h; exacts [h, absurd h hl]
      subst ha
      rw [updates_other, Function.update_self]
      intro j hj he
      exact hl (h j (List.mem_cons_of_mem _ hj) he ▸ hj)

omit hT hs in
/-- Every place below `d ^ n` is the place of digits. -/
theorem exists_digits (d n i : ℕ) (hi : i < d ^ n) : ∃ s : ℕ → ℕ, (∀ k < n, s k < d) ∧ position d ((List.range n).map s) = i := by
  induction n generalizing i with
  | zero =>
    refine ⟨fun _ => 0, by simp, ?_⟩
    have : i = 0 := by simpa using hi
    simp [position, this]
  | succ n ih =>
    have hd : 0 < d := by
      rcases Nat.eq_zero_or_pos d with rfl | h
      · simp at hi
      · exact h
    obtain ⟨s, h1, h2⟩ := ih (i / d) (by rw [Nat.div_lt_iff_lt_mul hd, ← pow_succ]; exact hi)
    refine ⟨fun k => if k < n then s k else i % d, ?_, ?_⟩
    · intro k hk
      dsimp only
      split
      · rename_i h; exact h1 k h
      · exact Nat.mod_lt _ hd
    · rw [List.range_succ, List.map_append, position_append]
      have : (List.range n).map (fun k => if k < n then s k else i % d) = (List.range n).map s :=
        List.map_congr_left fun k hk => by rw [if_pos (List.mem_range.mp hk)]
      rw [this, h2]
      simp [position]
      exact Nat.div_add_mod' i d

theorem core_config [Zero α] (A : ℕ → α) :
    core (reduce T d).2 (reduce T d).1 (d ^ n) A (position d (T.map s)) = A (position d ((List.range n).map s)) := by
  rw [← target_config hT s hs]
  unfold core
  have hlt : position d ((List.range n).map s) < d ^ n := by
    have := position_lt d ((List.range n).map s) (by
      intro x hx
      obtain ⟨i, hi, rfl⟩ := List.mem_map.mp hx
      exact hs i (List.mem_range.mp hi))
    simpa using this
  apply updates
  · exact List.mem_range.mpr hlt
  · intro j hj he
    obtain ⟨r, hr, rfl⟩ := exists_digits d n j (List.mem_range.mp hj)
    rw [target_config hT s hs, target_config hT r hr] at he
    have := position_inj d _ _ (by simp) (by
      intro x hx
      obtain ⟨i, hi, rfl⟩ := List.mem_map.mp hx
      exact hr i (List.mem_range.mp (hT.mem_iff.mp hi))) (by
      intro x hx
      obtain ⟨i, hi, rfl⟩ := List.mem_map.mp hx
      exact hs i (List.mem_range.mp (hT.mem_iff.mp hi))) he
    congr 1
    refine List.map_congr_left fun i hi => ?_
    rw [List.map_inj_left] at this
    exact this i (hT.mem_iff.mpr hi)

omit hs in
theorem groups_le (hn : n ≤ 64) : (reduce T d).1.length ≤ 64 := by
  have h : ∀ fuel (T : List ℕ), (groups fuel T).length ≤ fuel := by
    intro fuel
    induction fuel with
    | zero => intro T; simp [groups]
    | succ fuel ih =>
      intro T
      cases T with
      | nil => simp [groups]
      | cons a l => unfold groups; dsimp only; rw [List.length_cons]; have := ih ((a :: countUp a l).foldl List.erase (a :: l)); omega
  have h1 := h T.length T
  have h2 := hT.length_eq
  simp only [reduce, List.length_map]
  rw [List.length_range] at h2
  omega

omit hs in
theorem reduce_prod : (reduce T d).2.prod = d ^ n := by
  have h : ∀ G : List (List ℕ), (G.map fun g => d ^ g.length).prod = d ^ G.flatten.length := by
    intro G
    induction G with
    | nil => simp
    | cons g G ih => rw [List.map_cons, List.prod_cons, ih, List.flatten_cons, List.length_append, pow_add]
  have := h (sorted T)
  rw [sorted_flatten T n hT, List.length_range] at this
  exact this

omit hs in
/-- `_shuffle_sites`: the entry of a configuration goes to the place of the reordered configuration. -/
theorem shuffle_config [Zero α] (hn : n ≤ 64) (A : ℕ → α) :
    ∃ B, shuffle d T (d ^ n) A = some B ∧ ∀ s : ℕ → ℕ, (∀ i < n, s i < d) → B (position d (T.map s)) = A (position d ((List.range n).map s)) := by
  unfold shuffle
  dsimp only
  by_cases h1 : (reduce T d).1.length > 1
  · rw [if_pos h1]
    by_cases h2 : (reduce T d).1.length < 32
    · rw [if_pos h2, if_pos (reduce_prod hT)]
      exact ⟨_, rfl, fun s hs => transpose_config hT s hs A⟩
    · rw [if_neg h2, if_neg (by have := groups_le (d := d) hT hn; omega)]
      exact ⟨_, rfl, fun s hs => core_config hT s hs A⟩
  · rw [if_neg h1]
    refine ⟨A, rfl, fun s hs => ?_⟩
    -- at most one group: the sites already are in order
    have hl : (groups T.length T).length ≤ 1 := by simpa [reduce] using h1
    have : sorted T = groups T.length T := by
      unfold sorted
      rcases hg : groups T.length T with _ | ⟨g, _ | ⟨g', G⟩⟩
      · rfl
      · rfl
      · rw [hg] at hl; simp at hl
    have h3 := sorted_flatten T n hT
    rw [this, groups_flatten _ _ le_rfl] at h3
    rw [h3]

end

/-! ### Configurations -/

theorem row_lt {n d : ℕ} (s : Config n d) : row s < d ^ n := by
  have := position_lt d (List.ofFn fun i => (s i : ℕ)) (by
    intro x hx
    obtain ⟨i, rfl⟩ := (List.mem_ofFn' _ _).mp hx
    exact (s i).2)
  rwa [List.length_ofFn] at this

theorem row_injective {n d : ℕ} : Function.Injective (row (n := n) (d := d)) := by
  intro s t h
  have := position_inj d _ _ (by simp) (by
    intro x hx
    obtain ⟨i, rfl⟩ := (List.mem_ofFn' _ _).mp hx
    exact (s i).2) (by
    intro x hx
    obtain ⟨i, rfl⟩ := (List.mem_ofFn' _ _).mp hx
    exact (t i).2) h
  have := List.ofFn_injective this
  funext i
  exact Fin.ext (congrFun this i)

theorem row_range {n d : ℕ} (s : Config n d) : row s = position d ((List.range n).map fun i => if h : i < n then (s ⟨i, h⟩ : ℕ) else 0) := by
  unfold row
  congr 1
  apply List.ext_getElem
  · simp
  · intro i h1 h2
    have hi : i < n := by simpa using h1
    simp [hi]

theorem row_surjective {n d : ℕ} (i : ℕ) (hi : i < d ^ n) : ∃ s : Config n d, row s = i := by
  obtain ⟨s, h1, h2⟩ := exists_digits d n i hi
  refine ⟨fun k => ⟨s k, h1 k k.2⟩, ?_⟩
  rw [row_range, ← h2]
  congr 1
  refine List.map_congr_left fun k hk => ?_
  rw [dif_pos (List.mem_range.mp hk)]

theorem sum_rows {M : Type} [AddCommMonoid M] (n d : ℕ) (f : ℕ → M) : ∑ i ∈ Finset.range (d ^ n), f i = ∑ s : Config n d, f (row s) := by
  refine (Finset.sum_bij (fun s _ => row s) ?_ ?_ ?_ ?_).symm
  · exact fun s _ => Finset.mem_range.mpr (row_lt s)
  · exact fun s _ t _ h => row_injective h
  · intro i hi
    obtain ⟨s, hs⟩ := row_surjective i (Finset.mem_range.mp hi)
    exact ⟨s, Finset.mem_univ _, hs⟩
  · exact fun _ _ => rfl

section
variable {L d : ℕ} {A B : List (Fin L)} (h : (A ++ B).Perm (List.finRange L))
include h

/-- The two subsystems together are all sites. -/
theorem sites_bijective : Function.Bijective (Sum.elim A.get B.get) := by
  have hn : (A ++ B).Nodup := h.nodup_iff.mpr (List.nodup_finRange L)
  obtain ⟨hA, hB, hdis⟩ := List.nodup_append.mp hn
  constructor
  · rintro (p | p) (q | q) hpq
    · exact congrArg _ (List.nodup_iff_injective_get.mp hA hpq)
    · exact absurd hpq (hdis _ (List.get_mem _ _) _ (List.get_mem _ _))
    · exact absurd hpq.symm (hdis _ (List.get_mem _ _) _ (List.get_mem _ _))
    · exact congrArg _ (List.nodup_iff_injective_get.mp hB hpq)
  · intro i
    have hi : i ∈ A ++ B := h.mem_iff.mpr (List.mem_finRange i)
    rcases List.mem_append.mp hi with hi | hi
    · obtain ⟨p, hp⟩ := List.get_of_mem hi
      exact ⟨Sum.inl p, hp⟩
    · obtain ⟨p, hp⟩ := List.get_of_mem hi
      exact ⟨Sum.inr p, hp⟩

/-- A configuration is a configuration of the one and one of the other subsystem. -/
noncomputable def split : Config L d ≃ Config A.length d × Config B.length d :=
  (Equiv.arrowCongr (Equiv.ofBijective _ (sites_bijective h)).symm (Equiv.refl _)).trans (Equiv.sumArrowEquivProdArrow _ _ _)

theorem split_apply (s : Config L d) : split h s = (s ∘ A.get, s ∘ B.get) := rfl

theorem join_left (a : Config A.length d) (b : Config B.length d) (p : Fin A.length) : (split h).symm (a, b) (A.get p) = a p := by
  have := congrArg Prod.fst ((split h).apply_symm_apply (a, b))
  rw [split_apply] at this
  exact congrFun this p

theorem join_right (a : Config A.length d) (b : Config B.length d) (p : Fin B.length) : (split h).symm (a, b) (B.get p) = b p := by
  have := congrArg Prod.snd ((split h).apply_symm_apply (a, b))
  rw [split_apply] at this
  exact congrFun this p

theorem mem_or (i : Fin L) : i ∈ A ∧ i ∉ B ∨ i ∉ A ∧ i ∈ B := by
  have hn : (A ++ B).Nodup := h.nodup_iff.mpr (List.nodup_finRange L)
  obtain ⟨-, -, hdis⟩ := List.nodup_append.mp hn
  have hi : i ∈ A ++ B := h.mem_iff.mpr (List.mem_finRange i)
  rcases List.mem_append.mp hi with hi | hi
  · exact Or.inl ⟨hi, fun hb => hdis i hi i hb rfl⟩
  · exact Or.inr ⟨fun ha => hdis i ha i hi rfl, hi⟩

theorem partialTrace_left (rho : Config L d → Config L d → ℂ) (a a' : Config A.length d) :
    partialTrace rho A a a' = ∑ b : Config B.length d, rho ((split h).symm (a, b)) ((split h).symm (a', b)) := by
  unfold partialTrace
  rw [← Equiv.sum_comp (split h).symm, Fintype.sum_prod_type, Finset.sum_eq_single a]
  · refine Finset.sum_congr rfl fun b _ => ?_
    rw [← Equiv.sum_comp (split h).symm, Finset.sum_eq_single (a', b)]
    · rw [if_pos]
      refine ⟨fun p => join_left h a b p, fun p => join_left h a' b p, fun i hi => ?_⟩
      rcases mem_or h i with hm | hm
      · exact absurd hm.1 hi
      · obtain ⟨p, rfl⟩ := List.get_of_mem hm.2
        rw [join_right, join_right]
    · rintro ⟨a₁, b₁⟩ _ hne
      rw [if_neg]
      rintro ⟨-, h2, h3⟩
      apply hne
      refine Prod.ext (funext fun p => ?_) (funext fun p => ?_)
      · show a₁ p = a' p
        rw [← h2 p, join_left]
      · have hB : B.get p ∉ A := by
          rcases mem_or h (B.get p) with hm | hm
          · exact absurd (List.get_mem _ _) hm.2
          · exact hm.1
        have := h3 _ hB
        rw [join_right, join_right] at this
        exact this.symm
    · simp
  · intro a₁ _ hne
    refine Finset.sum_eq_zero fun b _ => Finset.sum_eq_zero fun t _ => ?_
    rw [if_neg]
    rintro ⟨h1, -, -⟩
    apply hne
    funext p
    rw [← h1 p, join_left]
  · simp

theorem partialTrace_right (rho : Config L d → Config L d → ℂ) (b b' : Config B.length d) :
    partialTrace rho B b b' = ∑ a : Config A.length d, rho ((split h).symm (a, b)) ((split h).symm (a, b')) := by
  have h' : (B ++ A).Perm (List.finRange L) := List.perm_append_comm.trans h
  rw [partialTrace_left h']
  refine Finset.sum_congr rfl fun a _ => ?_
  have (a : Config A.length d) (b : Config B.length d) : (split h').symm (b, a) = (split h).symm (a, b) := by
    rw [Equiv.symm_apply_eq, split_apply]
    refine Prod.ext (funext fun p => ?_) (funext fun p => ?_)
    · exact (join_right h a b p).symm
    · exact (join_left h a b p).symm
  rw [this, this]

theorem sites_perm : (A.map Fin.val ++ B.map Fin.val).Perm (List.range L) := by
  have := h.map Fin.val
  rwa [List.map_append, List.map_coe_finRange_eq_range] at this

theorem length_add : A.length + B.length = L := by
  have := h.length_eq
  simpa using this

theorem row_split (s : Config L d) :
    position d ((A.map Fin.val ++ B.map Fin.val).map fun i => if hi : i < L then (s ⟨i, hi⟩ : ℕ) else 0) =
      row (s ∘ A.get) * d ^ B.length + row (s ∘ B.get) := by
  rw [List.map_append, position_append]
  have (S : List (Fin L)) : (S.map Fin.val).map (fun i => if hi : i < L then (s ⟨i, hi⟩ : ℕ) else 0) = List.ofFn fun i => ((s ∘ S.get) i : ℕ) := by
    apply List.ext_getElem
    · simp
    · intro i h1 h2
      simp
  rw [this, this, List.length_ofFn]
  rfl

/-- The reshaped state. -/
theorem reshapePure_config {α : Type} [Zero α] (hL : L ≤ 64) (psi : ℕ → α) :
    ∃ v, reshapePure d (A.map Fin.val) (B.map Fin.val) (d ^ L) psi = some v ∧
      ∀ s : Config L d, v (row (s ∘ A.get)) (row (s ∘ B.get)) = psi (row s) := by
  obtain ⟨w, hw, he⟩ := shuffle_config (d := d) (sites_perm h) hL psi
  refine ⟨fun i j => w (i * d ^ B.length + j), ?_, fun s => ?_⟩
  · unfold reshapePure
    rw [hw, Option.bind_some, List.length_map, List.length_map, ← pow_add, length_add h, if_pos rfl]
  · have := he (fun i => if hi : i < L then (s ⟨i, hi⟩ : ℕ) else 0) (by
      intro i hi
      rw [dif_pos hi]
      exact (s ⟨i, hi⟩).2)
    rw [row_split h, ← row_range] at this
    exact this

/-- The reshaped density matrix. -/
theorem reshapeMixed_config {α : Type} [Zero α] (hL : 2 * L ≤ 64) (rho : ℕ → ℕ → α) :
    ∃ v, reshapeMixed d L (A.map Fin.val) (B.map Fin.val) (d ^ L) rho = some v ∧
      ∀ s t : Config L d, v (row (s ∘ A.get)) (row (s ∘ B.get)) (row (t ∘ A.get)) (row (t ∘ B.get)) = rho (row s) (row t) := by
  have hp : ((A.map Fin.val ++ B.map Fin.val) ++ (A.map Fin.val ++ B.map Fin.val).map fun i => L + i).Perm (List.range (2 * L)) := by
    rw [two_mul, List.range_add]
    exact (sites_perm h).append ((sites_perm h).map _)
  obtain ⟨w, hw, he⟩ := shuffle_config (d := d) hp hL fun m => rho (m / d ^ L) (m % d ^ L)
  refine ⟨fun i j k l => w (((i * d ^ B.length + j) * d ^ A.length + k) * d ^ B.length + l), ?_, fun s t => ?_⟩
  · unfold reshapeMixed
    rw [two_mul, pow_add] at hw
    rw [hw, Option.bind_some, List.length_map, List.length_map, ← pow_add, length_add h, if_pos rfl]
  · let c : ℕ → ℕ := fun i => if hi : i < L then (s ⟨i, hi⟩ : ℕ) else if hj : i - L < L then (t ⟨i - L, hj⟩ : ℕ) else 0
    have hc := he c (by
      intro i hi
      simp only [c]
      split
      · exact Fin.is_lt _
      · rw [dif_pos (by omega)]; exact Fin.is_lt _)
    have e1 : ∀ S : List ℕ, (∀ i ∈ S, i < L) → S.map c = S.map fun i => if hi : i < L then (s ⟨i, hi⟩ : ℕ) else 0 := by
      intro S hS
      refine List.map_congr_left fun i hi => ?_
      simp only [c]
      rw [dif_pos (hS i hi), dif_pos (hS i hi)]
    have e2 : ∀ S : List ℕ, (∀ i ∈ S, i < L) → (S.map fun i => L + i).map c = S.map fun i => if hi : i < L then (t ⟨i, hi⟩ : ℕ) else 0 := by
      intro S hS
      rw [List.map_map]
      refine List.map_congr_left fun i hi => ?_
      simp only [c, Function.comp_apply]
      have h3 : L + i - L = i := by omega
      rw [dif_neg (by omega)]
      simp only [h3]
    have hS : ∀ i ∈ A.map Fin.val ++ B.map Fin.val, i < L := fun i hi => List.mem_range.mp ((sites_perm h).mem_iff.mp hi)
    have hR : ∀ i ∈ List.range L, i < L := fun i hi => List.mem_range.mp hi
    have hlen : (List.map (fun i => if hi : i < L then (t ⟨i, hi⟩ : ℕ) else 0) (A.map Fin.val ++ B.map Fin.val)).length = A.length + B.length := by simp
    have hlen' : (List.map (fun i => if hi : i < L then (t ⟨i, hi⟩ : ℕ) else 0) (List.range L)).length = L := by simp
    have hsplit : position d (List.map c (List.range (2 * L))) = row s * d ^ L + row t := by
      rw [two_mul, List.range_add, List.map_append, e1 _ hR, e2 _ hR, position_append, hlen', ← row_range, ← row_range]
    rw [List.map_append, e1 _ hS, e2 _ hS, position_append, hlen, row_split h, row_split h, hsplit] at hc
    have hlt := row_lt t
    have hd : (row s * d ^ L + row t) / d ^ L = row s := by
      rw [mul_comm, Nat.mul_add_div (by omega), Nat.div_eq_of_lt hlt, add_zero]
    have hm : (row s * d ^ L + row t) % d ^ L = row t := by
      rw [mul_comm, Nat.mul_add_mod, Nat.mod_eq_of_lt hlt]
    simp only [hd, hm] at hc
    rw [← hc]
    congr 1
    rw [pow_add]
    ring

omit h in
/-- The digit of a site. -/
theorem digit (d n : ℕ) (s : ℕ → ℕ) (hs : ∀ i < n, s i < d) (i : ℕ) (hi : i < n) :
    position d ((List.range n).map s) / d ^ (n - i - 1) % d = s i := by
  have e : n = i + (1 + (n - i - 1)) := by omega
  generalize n - i - 1 = m at e
  subst e
  rw [List.range_add, List.range_add, List.map_append, List.map_append, List.map_append, position_append, position_append]
  simp only [List.range_one, List.map_cons, List.map_nil, List.length_append, List.length_map, List.length_range, List.length_cons,
    List.length_nil, zero_add]
  have h1 : position d (((List.range m).map fun x => 1 + x).map (fun x => i + x) |>.map s) < d ^ m := by
    have := position_lt d (((List.range m).map fun x => 1 + x).map (fun x => i + x) |>.map s) (by
      intro x hx
      simp only [List.map_map, List.mem_map, List.mem_range, Function.comp_apply] at hx
      obtain ⟨k, hk, rfl⟩ := hx
      exact hs _ (by omega))
    simpa using this
  generalize position d (((List.range m).map fun x => 1 + x).map (fun x => i + x) |>.map s) = q at h1
  have h2 : position d [s (i + 0)] = s i := by simp [position]
  rw [h2]
  generalize position d (List.map s (List.range i)) = r
  have : r * d ^ (1 + m) + (s i * d ^ m + q) = d ^ m * (r * d + s i) + q := by rw [pow_add, pow_one]; ring
  rw [this, Nat.mul_add_div (by omega), Nat.div_eq_of_lt h1, add_zero, mul_comm r, Nat.mul_add_mod, Nat.mod_eq_of_lt (hs i hi)]

omit h in
theorem sum_digits (d : ℕ) (f : ℕ → ℕ) (T : List ℕ) (k n c : ℕ) (hn : k + T.length = n) :
    (T.zipIdx k).foldl (fun acc p => acc + f p.1 * d ^ (n - p.2 - 1)) c = c + position d (T.map f) := by
  induction T generalizing k c with
  | nil => simp [position]
  | cons a T ih =>
    rw [List.zipIdx_cons, List.foldl_cons, ih _ _ (by rw [List.length_cons] at hn; omega), List.map_cons, position_cons, List.length_map]
    have : n - k - 1 = T.length := by rw [List.length_cons] at hn; omega
    dsimp only
    rw [this]
    omega

omit h in
theorem sparseIndex_config {T : List ℕ} {n : ℕ} (hT : T.Perm (List.range n)) (d : ℕ) (s : ℕ → ℕ) (hs : ∀ i < n, s i < d) :
    sparseIndex d n T (position d ((List.range n).map s)) = position d (T.map s) := by
  unfold sparseIndex
  by_cases he : T = List.range n
  · rw [if_neg (by simpa using he), he]
  · rw [if_pos he, sum_digits d (fun i => position d ((List.range n).map s) / d ^ (n - i - 1) % d) T 0 n 0 (by
      have := hT.length_eq
      simpa using this), zero_add]
    congr 1
    refine List.map_congr_left fun i hi => ?_
    exact digit d n s hs i (List.mem_range.mp (hT.mem_iff.mp hi))

end
end Proof.PartialTrace
