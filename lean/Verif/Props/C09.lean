import Verif.Proof.Blocks
import Verif.Props.C08
/-!
C09  Symmetry blocks partition the Hilbert space.

`Spec.withQ ys qs` are the symmetries `ys` with quantum numbers `qs`; the possible quantum numbers of
a symmetry of period `p` are `0..p-1`, so `Spec.exponents ys` also lists all choices of quantum
numbers.  `Spec.kept (Model.checkKeep …) states` are the members of the reduced basis.
-/
namespace Props
open Model Spec Proof.Symmetry

/-- is `s` a member of the reduced basis? -/
def Member (ys : List Generator) (s : Nat) : Prop := ∃ n, checkKeep ys s = some n ∧ 0 < n

open Classical in
theorem kept_length (ys : List Generator) (states : List Nat) :
    (kept (checkKeep ys) states).length = (states.map fun s => if Member ys s then 1 else 0).sum := by
  induction states with
  | nil => rfl
  | cons a l ih =>
    unfold kept at ih ⊢
    rw [List.map_cons, List.sum_cons, ← ih, List.filterMap_cons]
    cases hc : checkKeep ys a with
    | none => simp [Member, hc]
    | some v =>
      by_cases hv : 0 < v
      · simp [Member, hc, hv]; omega
      · simp [Member, hc, hv]

open Classical in
theorem multiplicity (S : Nat → Prop) (ys : List Generator) (h : Acts S ys) (hlen : ys.length ≤ 32)
    (s : Nat) (hs : S s) (hmax : ∀ t, Related ys s t → t ≤ s) :
    ((exponents ys).map fun qs => if Member (withQ ys qs) s then 1 else 0).sum * hits ys s s = total ys := by
  have hql : ∀ qs ∈ exponents ys, qs.length = ys.length := fun qs hq =>
    (inRange_length ((mem_exponents _ _).1 hq)).symm
  have hrel : ∀ qs ∈ exponents ys, ∀ t, Related (withQ ys qs) s t → Related ys s t := by
    intro qs hq t ht
    obtain ⟨cs, hc, e⟩ := (related_iff (acts_withQ h qs) s t hs).1 ht
    rw [word_withQ _ _ _ (hql qs hq)] at e
    have hc' := (mem_exponents _ _).2 hc
    rw [exponents_withQ _ _ (hql qs hq)] at hc'
    exact (related_iff h s t hs).2 ⟨cs, (mem_exponents _ _).1 hc', e⟩
  have hwl : ∀ qs, (withQ ys qs).length ≤ 32 := by
    intro qs; unfold withQ; rw [List.length_zipWith]; omega
  have key : ∀ qs ∈ exponents ys,
      ((if Member (withQ ys qs) s then 1 else 0 : Nat) * hits ys s s : ℂ) = projection (withQ ys qs) s s := by
    intro qs hq
    have hst : (stab (withQ ys qs) s).length = hits ys s s := by
      unfold stab hits
      rw [exponents_withQ _ _ (hql qs hq)]
      simp only [word_withQ _ _ _ (hql qs hq)]
    rcases projection_cases (acts_withQ h qs) s hs with ⟨_, h3, h4⟩ | h0
    · have : Member (withQ ys qs) s := (C08_kept_iff S _ (acts_withQ h qs) (hwl qs) s hs).2
        ⟨fun t ht => hmax t (hrel qs hq t ht), s, by
          rw [h3]; exact_mod_cast Nat.pos_iff_ne_zero.1 h4⟩
      rw [if_pos this, h3, hst]; simp
    · have : ¬ Member (withQ ys qs) s := by
        intro hm
        obtain ⟨_, t, ht⟩ := (C08_kept_iff S _ (acts_withQ h qs) (hwl qs) s hs).1 hm
        exact ht (h0 t)
      rw [if_neg this, h0]; simp
  have hsum : ((exponents ys).map fun qs => projection (withQ ys qs) s s).sum = (total ys : ℂ) := by
    have e1 : ((exponents ys).map fun qs => projection (withQ ys qs) s s)
        = (exponents ys).map fun qs => ((exponents ys).map fun cs =>
          (if (word ys cs (s, 1)).1 = s then ((word ys cs (s, 1)).2 : ℂ) else 0)
            * (starRingEnd ℂ) (character (withQ ys qs) cs)).sum := by
      apply List.map_congr_left
      intro qs hq
      unfold projection
      rw [exponents_withQ _ _ (hql qs hq)]
      congr 1
      apply List.map_congr_left
      intro cs _
      rw [word_withQ _ _ _ (hql qs hq)]
      split
      · ring
      · simp
    rw [e1]
    have hnd := exponents_nodup ys
    rw [← List.sum_toFinset _ hnd]
    simp only [← List.sum_toFinset _ hnd]
    rw [Finset.sum_comm]
    have e2 : ∀ cs ∈ (exponents ys).toFinset, ∑ qs ∈ (exponents ys).toFinset,
        (if (word ys cs (s, 1)).1 = s then ((word ys cs (s, 1)).2 : ℂ) else 0)
            * (starRingEnd ℂ) (character (withQ ys qs) cs)
        = if cs = ys.map (fun _ => 0) then (total ys : ℂ) else 0 := by
      intro cs hcs
      rw [List.mem_toFinset] at hcs
      rw [← Finset.mul_sum, List.sum_toFinset _ hnd,
        character_ortho ys h.per_pos cs ((mem_exponents _ _).1 hcs)]
      by_cases h0 : cs = ys.map (fun _ => 0)
      · rw [h0, word_zero]; simp
      · rw [if_neg h0, mul_zero]
    rw [Finset.sum_congr rfl e2, Finset.sum_ite_eq', if_pos]
    rw [List.mem_toFinset, mem_exponents]
    exact zero_inRange h (fun _ h => h)
  have : ((((exponents ys).map fun qs => if Member (withQ ys qs) s then 1 else 0).sum * hits ys s s : Nat) : ℂ)
      = (total ys : ℂ) := by
    rw [← hsum]
    push_cast
    rw [List.map_map, ← List.sum_map_mul_right]
    congr 1
    apply List.map_congr_left
    intro qs hq
    rw [← key qs hq]
    rfl
  exact_mod_cast this

/-- The dimensions of the reduced bases, summed over all quantum numbers, give the dimension of the
unreduced basis. -/
theorem C09_blocks_partition (states : List Nat) (hnd : states.Nodup) (ys : List Generator)
    (h : Acts (· ∈ states) ys) (hlen : ys.length ≤ 32) :
    ((exponents ys).map fun qs => (kept (checkKeep (withQ ys qs)) states).length).sum = states.length := by
  classical
  simp only [kept_length]
  have hne := exponents_nodup ys
  rw [← List.sum_toFinset _ hne]
  simp only [← List.sum_toFinset _ hnd]
  rw [Finset.sum_comm]
  have hql : ∀ qs ∈ exponents ys, qs.length = ys.length := fun qs hq =>
    (inRange_length ((mem_exponents _ _).1 hq)).symm
  have e1 : ∀ s ∈ states.toFinset, (∑ qs ∈ (exponents ys).toFinset, if Member (withQ ys qs) s then 1 else 0)
      = ∑ t ∈ states.toFinset, if (∀ t, Related ys s t → t ≤ s) ∧ Related ys s t then 1 else 0 := by
    intro s hs
    rw [List.mem_toFinset] at hs
    by_cases hmax : ∀ t, Related ys s t → t ≤ s
    · have h1 := multiplicity _ ys h hlen s hs hmax
      have h2 := orbit_stabiliser states hnd h s hs
      rw [List.sum_toFinset _ hne]
      have hpos : 0 < hits ys s s := by
        unfold hits
        apply List.length_pos_of_mem (a := ys.map fun _ => 0)
        rw [List.mem_filter, mem_exponents]
        exact ⟨zero_inRange h (fun _ h => h), by rw [word_zero]; simp⟩
      rw [List.sum_toFinset _ hnd]
      have h3 : (states.map fun t => if Related ys s t then 1 else 0).sum
          = (states.filter (fun t => decide (Related ys s t))).length := by
        generalize states = l
        induction l with
        | nil => rfl
        | cons a l ih =>
          rw [List.map_cons, List.sum_cons, ih, List.filter_cons]
          by_cases h2 : Related ys s a <;> simp [h2, Nat.add_comm]
      have h3' : (states.map fun t => if (∀ t, Related ys s t → t ≤ s) ∧ Related ys s t then 1 else 0).sum
          = (states.filter (fun t => decide (Related ys s t))).length := by
        rw [← h3]; congr 1; apply List.map_congr_left; intro t _
        exact if_congr (and_iff_right hmax) rfl rfl
      apply Nat.eq_of_mul_eq_mul_right hpos
      rw [h1, ← h2, Nat.mul_comm]
      congr 1
      exact h3'.symm
    · rw [Finset.sum_eq_zero, Finset.sum_eq_zero]
      · intro t _; rw [if_neg]; rintro ⟨h1, _⟩; exact hmax h1
      · intro qs hq
        rw [List.mem_toFinset] at hq
        rw [if_neg]
        intro hm
        apply hmax
        have hwl : (withQ ys qs).length ≤ 32 := by unfold withQ; rw [List.length_zipWith]; omega
        intro t ht
        apply ((C08_kept_iff _ _ (acts_withQ h qs) hwl s hs).1 hm).1
        obtain ⟨cs, hc, e⟩ := (related_iff h s t hs).1 ht
        refine (related_iff (acts_withQ h qs) s t hs).2 ⟨cs, ?_, by rw [word_withQ _ _ _ (hql qs hq)]; exact e⟩
        rw [← mem_exponents, exponents_withQ _ _ (hql qs hq), mem_exponents]
        exact hc
  rw [Finset.sum_congr rfl e1, Finset.sum_comm]
  have e2 : ∀ t ∈ states.toFinset, (∑ s ∈ states.toFinset,
      if (∀ t, Related ys s t → t ≤ s) ∧ Related ys s t then 1 else 0) = 1 := by
    intro t ht
    rw [List.mem_toFinset] at ht
    obtain ⟨b, _, b2, b3, _⟩ := C07_representative _ ys h hlen t ht
    have hb := related_closed h ht b2
    rw [Finset.sum_eq_single b.r]
    · rw [if_pos]
      exact ⟨fun u hu => b3 u (b2.trans hu), related_symm h ht b2⟩
    · intro s hs hsb
      rw [List.mem_toFinset] at hs
      rw [if_neg]
      rintro ⟨h1, h2⟩
      apply hsb
      exact Nat.le_antisymm (b3 s (related_symm h hs h2)) (h1 _ (h2.trans b2))
    · intro hnb; exact absurd (List.mem_toFinset.2 hb) hnb
  rw [Finset.sum_congr rfl e2, Finset.sum_const, smul_eq_mul, mul_one, List.toFinset_card_of_nodup hnd]

/-- The same for the bases the library builds from the configurations `0..MAX-1`: `basis qs` is
whatever the construction with quantum numbers `qs` returns, on any number of threads. -/
theorem C09_built (w : Nat) (sort : List (Nat × Int) → List (Nat × Int)) (hs : SortsDescending sort)
    (ys : List Generator) (hlen : ys.length ≤ 32) (MAX mem T : Nat) (hM : MAX ≤ 2 ^ w)
    (h : Acts (· < MAX) ys) (writes : List Nat → List (Nat × (Nat × Int)))
    (hw : ∀ qs ∈ exponents ys, Interleaving w (checkKeep (withQ ys qs)) MAX T (writes qs))
    (basis : List Nat → List (Nat × Int))
    (hb : ∀ qs ∈ exponents ys,
      makeBasis w sort (checkKeep (withQ ys qs)) ys.length MAX mem T (writes qs) = .ok (basis qs)) :
    ((exponents ys).map fun qs => (basis qs).length).sum = MAX := by
  have h' : Acts (· ∈ List.range MAX) ys := by simpa using h
  have := C09_blocks_partition (List.range MAX) List.nodup_range ys h' hlen
  rw [List.length_range] at this
  rw [← this]
  congr 1
  apply List.map_congr_left
  intro qs hq
  rw [C14_unrestricted w sort hs _ _ MAX mem T hM (writes qs) (hw qs hq) _ (hb qs hq), List.length_reverse]

/-- the hypotheses are met by the rotation and inversion of three sites -/
example : ((exponents exampleSymmetries).map fun qs =>
    (kept (checkKeep (withQ exampleSymmetries qs)) (List.range 8)).length).sum = 8 :=
  C09_blocks_partition (List.range 8) List.nodup_range exampleSymmetries
    (by simpa using exampleSymmetries_act) (by decide)

end Props
