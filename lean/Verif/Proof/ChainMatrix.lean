import Verif.Props.C13
import Verif.Spec.Chain
/-! Matrices assembled from columns that find representatives, sign and phase in any way: the argument of C13
without reference to how they are found, and with the norms known up to a common factor. -/
namespace Proof.Chain
open Model Spec Proof.Symmetry Proof.Assembly Props
open scoped BigOperators

section
variable {α : Type} {conf : Finset ℕ} {ys : List Generator} {S : ℕ → Prop} {l : List (ℕ × α)}

/-- what a column has to deliver -/
def ColumnSpec (conf : Finset ℕ) (ys : List Generator) (l : List (ℕ × α)) (weight : α → ℝ)
    (col : (ℕ → Option (ℕ × ℂ)) → ℕ → Option (Option (ℕ × ℂ))) : Prop :=
  ∀ (f : ℕ → Option (ℕ × ℂ)) (i s : ℕ) (d : α) (r : ℕ) (m : ℂ), l[i]? = some (s, d) → f s = some (r, m) → r ∈ conf →
    ∃ g ∈ exponents ys, (∀ t, Related ys r t → t ≤ (word ys g (r, 1)).1) ∧
      ((∃ j d', l[j]? = some ((word ys g (r, 1)).1, d') ∧
          col f i = some (some (j, m * ((Real.sqrt (weight d' / weight d) : ℝ) * chi ys r g)))) ∨
        ((word ys g (r, 1)).1 ∉ l.map (·.1) ∧ col f i = some none))

/-- the basis states with the number of symmetries that leave them alone -/
noncomputable def counted (ys : List Generator) (l : List (ℕ × α)) : List (ℕ × Int) := l.map fun x => (x.1, ((stab ys x.1).length : Int))

theorem counted_states : (counted ys l).map (·.1) = l.map (·.1) := by simp [counted]

theorem counted_reduced (h : Acts (· ∈ conf) ys) (hS : ∀ s, S s → s ∈ conf) (hsort : (l.map (·.1)).Pairwise (· > ·))
    (hmem : ∀ s, (∃ d, (s, d) ∈ l) ↔ S s ∧ IsRepresentative ys s) : ReducedBasis S ys (counted ys l) where
  sorted := by rw [counted_states]; exact hsort
  mem := by
    intro s n
    unfold counted
    rw [List.mem_map]
    constructor
    · rintro ⟨⟨s', d⟩, hm, e⟩
      simp only [Prod.mk.injEq] at e
      obtain ⟨rfl, rfl⟩ := e
      obtain ⟨h1, h2, t, h3⟩ := (hmem s').1 ⟨d, hm⟩
      refine ⟨h1, h2, ⟨t, h3⟩, ?_⟩
      rcases projection_cases h s' (hS _ h1) with ⟨_, h5, _⟩ | h0
      · rw [h5]; simp
      · exact absurd (h0 t) h3
    · rintro ⟨h1, h2, ⟨t, h3⟩, h4⟩
      obtain ⟨d, hd⟩ := (hmem s).2 ⟨h1, h2, t, h3⟩
      refine ⟨(s, d), hd, ?_⟩
      rcases projection_cases h s (hS _ h1) with ⟨_, h5, _⟩ | h0
      · rw [h4] at h5
        have : n = ((stab ys s).length : Int) := by exact_mod_cast h5
        rw [this]
      · exact absurd (h0 t) h3

theorem counted_get {i s : ℕ} {d : α} (hi : l[i]? = some (s, d)) : (counted ys l)[i]? = some (s, ((stab ys s).length : Int)) := by
  simp [counted, hi]

theorem entry_of_column (h : Acts (· ∈ conf) ys) (hS : ∀ s, S s → s ∈ conf) (hcl : ∀ y ∈ ys, ∀ s, S s → S (y.img s))
    (hsort : (l.map (·.1)).Pairwise (· > ·)) (hmem : ∀ s, (∃ d, (s, d) ∈ l) ↔ S s ∧ IsRepresentative ys s)
    (weight : α → ℝ) (κ : ℝ) (hκ : 0 < κ) (hw : ∀ s d, (s, d) ∈ l → projection ys s s = (weight d * κ : ℝ))
    (col : (ℕ → Option (ℕ × ℂ)) → ℕ → Option (Option (ℕ × ℂ))) (hcol : ColumnSpec conf ys l weight col)
    (f : ℕ → Option (ℕ × ℂ)) (i j s sj : ℕ) (d dj : α) (hi : l[i]? = some (s, d)) (hj : l[j]? = some (sj, dj))
    (r : ℕ) (m : ℂ) (hf : f s = some (r, m)) (hr : r ∈ conf) :
    (col f i).isSome ∧
    entry (col f) j i = m * ((∑ t ∈ conf, (starRingEnd ℂ) (symState conf ys sj t) * projection ys r t)
          / (Real.sqrt ((exponents ys).length * (((stab ys s).length : Int) : ℝ)) : ℝ)) := by
  have hl := counted_reduced h hS hsort hmem
  have hi' := counted_get (ys := ys) hi
  have hj' := counted_get (ys := ys) hj
  have hmi := List.mem_of_getElem? hi'
  have hmj := List.mem_of_getElem? hj'
  have hs := (hl.mem _ _).1 hmi
  have hsj := (hl.mem _ _).1 hmj
  have hpi : (0 : ℝ) < ((stab ys s).length : Int) := by exact_mod_cast reduced_pos h hS hl hmi
  have hpj : (0 : ℝ) < ((stab ys sj).length : Int) := by exact_mod_cast reduced_pos h hS hl hmj
  have hG : (0 : ℝ) < (exponents ys).length := by exact_mod_cast exponents_pos h
  have hinj : ∀ (a b : ℕ) (x y : ℕ × α), l[a]? = some x → l[b]? = some y → x.1 = y.1 → a = b := by
    intro a b x y ha hb he
    by_contra hne
    have h1 : (l.map (·.1))[a]? = some x.1 := by simp [ha]
    have h2 : (l.map (·.1))[b]? = some y.1 := by simp [hb]
    rcases Nat.lt_or_gt_of_ne hne with hlt | hlt
    · have := decreasing_get hsort h1 h2 hlt; omega
    · have := decreasing_get hsort h2 h1 hlt; omega
  have hwt : ∀ s d, (s, d) ∈ l → (((stab ys s).length : Int) : ℝ) = weight d * κ := by
    intro s d hm
    have h1 := (hl.mem s ((stab ys s).length : Int)).1 (by unfold counted; exact List.mem_map.2 ⟨(s, d), hm, rfl⟩)
    have h2 := hw s d hm
    rw [h1.2.2.2] at h2
    exact_mod_cast h2
  rw [overlap h hS hl hmj r hr]
  obtain ⟨g, hg, hmax, hc⟩ := hcol f i s d r m hi hf hr
  have hrel : Related ys r (word ys g (r, 1)).1 := (related_iff h r _ hr).2 ⟨g, (mem_exponents _ _).1 hg, rfl⟩
  have hbconf : (word ys g (r, 1)).1 ∈ conf := related_closed h hr hrel
  have hbmax : ∀ t, Related ys (word ys g (r, 1)).1 t → t ≤ (word ys g (r, 1)).1 := fun t ht => hmax t (hrel.trans ht)
  rw [projection_shift h r sj hr g ((mem_exponents _ _).1 hg)]
  generalize hx : (word ys g (r, 1)).1 = x at *
  rcases hc with ⟨k, dk, hk, hck⟩ | ⟨hA, hck⟩
  · refine ⟨by rw [hck]; rfl, ?_⟩
    unfold entry
    rw [hck]
    simp only
    by_cases hkj : k = j
    · subst hkj
      rw [hk] at hj
      obtain ⟨e, rfl⟩ : x = sj ∧ dk = dj := by simpa using hj
      subst e
      rw [if_pos rfl, hsj.2.2.2]
      have hq : weight dk / weight d = (((stab ys x).length : Int) : ℝ) / (((stab ys s).length : Int) : ℝ) := by
        rw [hwt x dk (List.mem_of_getElem? hk), hwt s d (List.mem_of_getElem? hi)]
        field_simp
      have h2 : ((exponents ys).length : ℂ) * (((stab ys x).length : Int) : ℂ)
            / (Real.sqrt ((exponents ys).length * (((stab ys x).length : Int) : ℝ)) : ℝ)
            / (Real.sqrt ((exponents ys).length * (((stab ys s).length : Int) : ℝ)) : ℝ)
          = (Real.sqrt (weight dk / weight d) : ℝ) := by
        rw [hq]
        exact_mod_cast sqrt_ratio _ _ _ hG hpj hpi
      rw [← h2]
      ring
    · rw [if_neg hkj, projection_unrelated h x sj hbconf
        (max_unrelated h hbconf hbmax hsj.2.1 fun e => hkj (hinj k j _ _ hk hj e))]
      simp
  · refine ⟨by rw [hck]; rfl, ?_⟩
    unfold entry
    rw [hck]
    simp only
    have h0 : projection ys x sj = 0 := by
      by_contra hne
      have hrel' : Related ys x sj := by
        by_contra hn
        exact hne (projection_unrelated h x sj hbconf hn)
      have hSb : S x := sector_closed hcl hsj.1 (related_symm h hbconf hrel')
      apply hA
      obtain ⟨d', hd'⟩ := (hmem x).2 ⟨hSb, hbmax, sj, hne⟩
      exact List.mem_map.2 ⟨_, hd', rfl⟩
    rw [h0]; simp

/-- The assembled matrix is the restriction of the operator. -/
theorem restriction_of_columns (h : Acts (· ∈ conf) ys) (hS : ∀ s, S s → s ∈ conf) (hcl : ∀ y ∈ ys, ∀ s, S s → S (y.img s))
    (hsort : (l.map (·.1)).Pairwise (· > ·)) (hmem : ∀ s, (∃ d, (s, d) ∈ l) ↔ S s ∧ IsRepresentative ys s)
    (weight : α → ℝ) (κ : ℝ) (hκ : 0 < κ) (hw : ∀ s d, (s, d) ∈ l → projection ys s s = (weight d * κ : ℝ))
    (col : (ℕ → Option (ℕ × ℂ)) → ℕ → Option (Option (ℕ × ℂ))) (hcol : ColumnSpec conf ys l weight col)
    (terms : List (ℕ → Option (ℕ × ℂ))) (hterms : ∀ f ∈ terms, ∀ s ∈ conf, ∃ r ∈ conf, ∃ m, f s = some (r, m))
    (hinv : InvariantUnder (· ∈ conf) ys (operatorOf terms)) :
    ∃ M, matrixOfColumns (terms.map col) l.length = some M ∧
      ∀ i j : Fin l.length, M j i = ∑ t ∈ conf, ∑ u ∈ conf,
        (starRingEnd ℂ) (symState conf ys l[j].1 t) * operatorOf terms t u * symState conf ys l[i].1 u := by
  have hl := counted_reduced h hS hsort hmem
  have key := fun f i j s sj d dj hi hj r m hf hr =>
    entry_of_column h hS hcl hsort hmem weight κ hκ hw col hcol f i j s sj d dj hi hj r m hf hr
  obtain ⟨M, hM, hent⟩ := matrixOfColumns_spec (terms.map col) l.length (by
    intro c hc i hi
    rw [List.mem_map] at hc
    obtain ⟨f, hf, rfl⟩ := hc
    have hi' : l[i]? = some (l[i].1, l[i].2) := List.getElem?_eq_getElem hi
    have hm := List.mem_of_getElem? hi'
    obtain ⟨r, hr, m, hfm⟩ := hterms f hf l[i].1 (hS _ ((hmem _).1 ⟨_, hm⟩).1)
    exact (key f i i _ _ _ _ hi' hi' r m hfm hr).1)
  refine ⟨M, hM, fun i j => ?_⟩
  rw [hent j i i.2, List.map_map]
  have hi' : l[i.1]? = some (l[i].1, l[i].2) := List.getElem?_eq_getElem i.2
  have hj' : l[j.1]? = some (l[j].1, l[j].2) := List.getElem?_eq_getElem j.2
  have hmi := (hl.mem _ _).1 (List.mem_of_getElem? (counted_get (ys := ys) hi'))
  have hsi := hS _ hmi.1
  generalize l[i].1 = s at *
  generalize l[j].1 = sj at *
  generalize l[i].2 = di at *
  generalize l[j].2 = dj at *
  have e1 : ∀ t ∈ conf, ∑ u ∈ conf, (starRingEnd ℂ) (symState conf ys sj t) * operatorOf terms t u * symState conf ys s u
      = ∑ v ∈ conf, operatorOf terms v s * ((starRingEnd ℂ) (symState conf ys sj t) * projection ys v t
          / (Real.sqrt ((exponents ys).length * (((stab ys s).length : Int) : ℝ)) : ℝ)) := by
    intro t ht
    have := projection_operator h _ hinv s t hsi ht
    unfold symState
    rw [norm_projection h s hsi _ hmi.2.2.2]
    rw [show (∑ u ∈ conf, (starRingEnd ℂ) (projection ys sj t / (Real.sqrt (∑ u ∈ conf, ‖projection ys sj u‖ ^ 2) : ℝ)) * operatorOf terms t u *
        (projection ys s u / (Real.sqrt ((exponents ys).length * (((stab ys s).length : Int) : ℝ)) : ℝ)))
        = (starRingEnd ℂ) (projection ys sj t / (Real.sqrt (∑ u ∈ conf, ‖projection ys sj u‖ ^ 2) : ℝ))
          / (Real.sqrt ((exponents ys).length * (((stab ys s).length : Int) : ℝ)) : ℝ) * ∑ u ∈ conf, operatorOf terms t u * projection ys s u by
        rw [Finset.mul_sum]; apply Finset.sum_congr rfl; intro u _; ring,
      this, Finset.mul_sum]
    apply Finset.sum_congr rfl; intro u _; ring
  rw [Finset.sum_congr rfl e1, Finset.sum_comm]
  simp only [← Finset.mul_sum, ← Finset.sum_div]
  clear e1 hinv hM hent
  induction terms with
  | nil => simp [operatorOf]
  | cons f fs ih =>
    obtain ⟨r, hr, m, hfm⟩ := hterms f (by simp) s hsi
    rw [List.map_cons, List.sum_cons, ih fun g hg => hterms g (by simp [hg]), Function.comp_apply,
      (key f i j _ _ _ _ hi' hj' r m hfm hr).2]
    have : ∀ v, operatorOf (f :: fs) v s = (if r = v then m else 0) + operatorOf fs v s := by
      intro v; simp [operatorOf, hfm]
    simp only [this, add_mul, Finset.sum_add_distrib, ite_mul, zero_mul]
    rw [Finset.sum_ite_eq, if_pos hr]

end
end Proof.Chain
