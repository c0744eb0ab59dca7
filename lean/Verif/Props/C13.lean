import Verif.Proof.Reduced
import Verif.Proof.Assembly
import Verif.Props.C08
import Verif.Props.C16
import Verif.Props.C10
import Verif.Props.C11
import Mathlib.Algebra.BigOperators.Field
/-!
C13  Operators in a symmetry-reduced basis are the restriction of the full operator.
C44  Matrix-free application agrees with the assembled matrix.

`Model.matrixOfColumns` is the matrix the library assembles from a list of operator strings;
`Spec.operatorOf terms t s` is `⟨t|O|s⟩` on the full configuration space and `Spec.symState conf ys s`
the normalised projection of configuration `s`.  `terms` are the actions of the strings on a single
configuration (C10, C11, C12 say what these are).
-/
namespace Props
open Model Spec Proof.Symmetry Proof.Assembly
open scoped BigOperators

/-- A symmetry-reduced basis of the configurations in `S`, as C08 describes it: decreasing, the orbit
maxima with non-zero projection, with their norms. -/
structure ReducedBasis (S : Nat → Prop) (ys : List Generator) (l : List (Nat × Int)) : Prop where
  sorted : (l.map (·.1)).Pairwise (· > ·)
  mem : ∀ s n, (s, n) ∈ l ↔ S s ∧ (∀ t, Related ys s t → t ≤ s) ∧ (∃ t, projection ys s t ≠ 0) ∧
    projection ys s s = n

/-- What the search for a target configuration has to deliver: representative, sign and exponents,
and its position or -1. -/
def SymLookup (conf : Finset Nat) (ys : List Generator) (A : List Nat)
    (lookup : Nat → Option (Int × Best)) : Prop :=
  ∀ r ∈ conf, ∃ j b, lookup r = some (j, b) ∧ refState ys r (ys.map fun _ => 0) 1 = some b ∧
    LookupSpec A b.r (some j)

section
variable {conf : Finset Nat} {ys : List Generator} {S : Nat → Prop} {l : List (Nat × Int)}

theorem reduced_pos (h : Acts (· ∈ conf) ys) (hS : ∀ s, S s → s ∈ conf) (hl : ReducedBasis S ys l)
    {s : Nat} {n : Int} (hm : (s, n) ∈ l) : 0 < n := by
  obtain ⟨h1, _, ⟨t, ht⟩, h4⟩ := (hl.mem s n).1 hm
  rcases projection_cases h s (hS s h1) with ⟨_, h5, h6⟩ | h0
  · rw [h4] at h5
    have : n = ((stab ys s).length : Int) := by exact_mod_cast h5
    omega
  · exact absurd (h0 t) ht

/-- overlap of a normalised basis state with the projection of any configuration -/
theorem overlap (h : Acts (· ∈ conf) ys) (hS : ∀ s, S s → s ∈ conf) (hl : ReducedBasis S ys l)
    {s : Nat} {n : Int} (hm : (s, n) ∈ l) (r : Nat) (hr : r ∈ conf) :
    ∑ t ∈ conf, (starRingEnd ℂ) (symState conf ys s t) * projection ys r t
      = (exponents ys).length * projection ys r s / (Real.sqrt ((exponents ys).length * (n : ℝ)) : ℝ) := by
  have hs := (hl.mem s n).1 hm
  rw [← inner_projection h s r (hS s hs.1) hr, Finset.sum_div]
  apply Finset.sum_congr rfl
  intro t _
  unfold symState
  rw [norm_projection h s (hS s hs.1) n hs.2.2.2, map_div₀, Complex.conj_ofReal]
  ring

theorem max_unrelated (h : Acts (· ∈ conf) ys) {a b : Nat} (ha : a ∈ conf)
    (hma : ∀ t, Related ys a t → t ≤ a) (hmb : ∀ t, Related ys b t → t ≤ b) (hne : a ≠ b) :
    ¬ Related ys a b := by
  intro hr
  have h1 := hma b hr
  have h2 := hmb a (related_symm h ha hr)
  omega

theorem sector_closed (hcl : ∀ y ∈ ys, ∀ s, S s → S (y.img s)) {a b : Nat} (ha : S a)
    (hr : Related ys a b) : S b := by
  induction hr with
  | refl => exact ha
  | tail _ hst ih => obtain ⟨y, hy, rfl⟩ := hst; exact hcl y hy _ ih

theorem sqrt_ratio (G nj ni : ℝ) (hG : 0 < G) (hj : 0 < nj) (hi : 0 < ni) :
    G * nj / Real.sqrt (G * nj) / Real.sqrt (G * ni) = Real.sqrt (nj / ni) := by
  rw [Real.div_sqrt, ← Real.sqrt_div (by positivity)]
  congr 1
  field_simp

/-- entry of one term -/
theorem entry_eq (h : Acts (· ∈ conf) ys) (hlen : ys.length ≤ 32) (hS : ∀ s, S s → s ∈ conf)
    (hcl : ∀ y ∈ ys, ∀ s, S s → S (y.img s)) (hl : ReducedBasis S ys l)
    (lookup : Nat → Option (Int × Best)) (hlook : SymLookup conf ys (l.map (·.1)) lookup)
    (op : Nat → Option (Nat × ℂ)) (i j s sj : Nat) (ni nj : Int) (hi : l[i]? = some (s, ni))
    (hj : l[j]? = some (sj, nj)) (r : Nat) (m : ℂ) (hop : op s = some (r, m)) (hr : r ∈ conf) :
    (columnSym ys lookup l op i).isSome ∧
    entry (columnSym ys lookup l op) j i
      = m * ((∑ t ∈ conf, (starRingEnd ℂ) (symState conf ys sj t) * projection ys r t)
          / (Real.sqrt ((exponents ys).length * (ni : ℝ)) : ℝ)) := by
  have hmi : (s, ni) ∈ l := List.mem_of_getElem? hi
  have hmj : (sj, nj) ∈ l := List.mem_of_getElem? hj
  have hs := (hl.mem s ni).1 hmi
  have hsj := (hl.mem sj nj).1 hmj
  have hpi : (0 : ℝ) < ni := by exact_mod_cast reduced_pos h hS hl hmi
  have hpj : (0 : ℝ) < nj := by exact_mod_cast reduced_pos h hS hl hmj
  have hG : (0 : ℝ) < (exponents ys).length := by exact_mod_cast exponents_pos h
  have hinj : ∀ (a b : Nat) (x y : Nat × Int), l[a]? = some x → l[b]? = some y → x.1 = y.1 → a = b := by
    intro a b x y ha hb he
    by_contra hne
    have h1 : (l.map (·.1))[a]? = some x.1 := by simp [ha]
    have h2 : (l.map (·.1))[b]? = some y.1 := by simp [hb]
    rcases Nat.lt_or_gt_of_ne hne with hlt | hlt
    · have := decreasing_get hl.sorted h1 h2 hlt; omega
    · have := decreasing_get hl.sorted h2 h1 hlt; omega
  rw [overlap h hS hl hmj r hr]
  unfold entry columnSym
  simp only [hi, hop]
  by_cases hrs : r = s
  · subst hrs
    simp only [ne_eq, not_true_eq_false, if_false, Option.isSome_some, true_and]
    by_cases hij : i = j
    · subst hij
      rw [hi] at hj
      obtain ⟨rfl, rfl⟩ : r = sj ∧ ni = nj := by simpa using hj
      rw [if_pos rfl, hs.2.2.2]
      have := sqrt_ratio _ _ _ hG hpi hpi
      rw [div_self (ne_of_gt hpi), Real.sqrt_one] at this
      have h2 : ((exponents ys).length : ℂ) * (ni : ℂ) / (Real.sqrt ((exponents ys).length * (ni : ℝ)) : ℝ)
          / (Real.sqrt ((exponents ys).length * (ni : ℝ)) : ℝ) = 1 := by exact_mod_cast this
      rw [h2, mul_one]
    · rw [if_neg hij, projection_unrelated h r sj (hS r hs.1)
        (max_unrelated h (hS r hs.1) hs.2.1 hsj.2.1 fun e => hij (hinj i j _ _ hi hj e))]
      simp
  · simp only [ne_eq, hrs, not_false_eq_true, if_true]
    obtain ⟨k, b, e1, e2, e3⟩ := hlook r hr
    obtain ⟨b', f1, f2, f3, f4, f5⟩ := C07_representative _ ys h hlen r hr
    rw [e2, Option.some.injEq] at f1
    subst f1
    have hbmax : ∀ t, Related ys b.r t → t ≤ b.r := fun t ht => f3 t (f2.trans ht)
    have hbconf : b.r ∈ conf := related_closed h hr f2
    have hshift := projection_shift h r sj hr b.g ((mem_exponents _ _).1 f4)
    rw [f5] at hshift
    have hchi : chi ys r b.g = (b.phase : ℂ) * Complex.exp (-(Complex.I * phaseAngle ys b.g)) := by
      unfold chi character
      rw [f5, phaseAngle_eq, ← Complex.exp_conj, mul_comm]
      simp
    rw [hshift, hchi, e1]
    rcases e3 with ⟨k', hk, hA⟩ | ⟨hk, hA⟩
    · rw [Option.some.injEq] at hk
      subst hk
      rw [List.getElem?_map, Option.map_eq_some_iff] at hA
      obtain ⟨⟨sk, nk⟩, hk1, hk2⟩ := hA
      simp only at hk2
      subst hk2
      simp only [ge_iff_le, Int.natCast_nonneg, if_true, Int.toNat_natCast, hk1, Option.isSome_some, true_and]
      by_cases hkj : k' = j
      · subst hkj
        rw [hk1] at hj
        obtain ⟨e, rfl⟩ : b.r = sj ∧ nk = nj := by simpa using hj
        rw [if_pos rfl, ← e]
        have hpr : projection ys b.r b.r = nk := by rw [e]; exact hsj.2.2.2
        rw [hpr]
        have h2 : ((exponents ys).length : ℂ) * (nk : ℂ) / (Real.sqrt ((exponents ys).length * (nk : ℝ)) : ℝ)
          / (Real.sqrt ((exponents ys).length * (ni : ℝ)) : ℝ) = (Real.sqrt ((nk : ℝ) / (ni : ℝ)) : ℝ) := by
          exact_mod_cast sqrt_ratio _ _ _ hG hpj hpi
        unfold scaleMatrixEle
        rw [← h2]
        ring
      · rw [if_neg hkj, projection_unrelated h b.r sj hbconf
          (max_unrelated h hbconf hbmax hsj.2.1 fun e => hkj (hinj k' j _ _ hk1 hj e))]
        simp
    · rw [Option.some.injEq] at hk
      subst hk
      simp only [ge_iff_le, show ¬ ((0 : Int) ≤ -1) by decide, if_false, Option.isSome_some, true_and]
      have h0 : projection ys b.r sj = 0 := by
        by_contra hne
        have hrel : Related ys b.r sj := by
          by_contra hn
          exact hne (projection_unrelated h b.r sj hbconf hn)
        have hSb : S b.r := by
          have hback := related_symm h hbconf hrel
          exact sector_closed hcl hsj.1 hback
        rcases projection_cases h b.r hbconf with ⟨_, h5, h6⟩ | h0
        · apply hA
          rw [List.mem_map]
          refine ⟨(b.r, ((stab ys b.r).length : Int)), (hl.mem _ _).2 ⟨hSb, hbmax, ⟨sj, hne⟩, ?_⟩, rfl⟩
          rw [h5]; simp
        · exact hne (h0 sj)
      rw [h0]; simp

end

/-- **C13.**  Symmetries `ys` acting on the configurations `conf`, a sector `S` they preserve, the
reduced basis `l` of the sector, and operator terms whose sum commutes with the symmetries: assembly
succeeds, and every entry of the assembled matrix is the matrix element of the full operator between
the normalised projected states. -/
theorem C13_restriction (conf : Finset Nat) (ys : List Generator) (h : Acts (· ∈ conf) ys)
    (hlen : ys.length ≤ 32) (S : Nat → Prop) (hS : ∀ s, S s → s ∈ conf)
    (hcl : ∀ y ∈ ys, ∀ s, S s → S (y.img s)) (l : List (Nat × Int)) (hl : ReducedBasis S ys l)
    (lookup : Nat → Option (Int × Best)) (hlook : SymLookup conf ys (l.map (·.1)) lookup)
    (terms : List (Nat → Option (Nat × ℂ)))
    (hterms : ∀ f ∈ terms, ∀ s ∈ conf, ∃ r ∈ conf, ∃ m, f s = some (r, m))
    (hinv : InvariantUnder (· ∈ conf) ys (operatorOf terms)) :
    ∃ M, matrixOfColumns (terms.map (columnSym ys lookup l)) l.length = some M ∧
      ∀ i j : Fin l.length, M j i = ∑ t ∈ conf, ∑ u ∈ conf,
        (starRingEnd ℂ) (symState conf ys l[j].1 t) * operatorOf terms t u * symState conf ys l[i].1 u := by
  obtain ⟨M, hM, hent⟩ := matrixOfColumns_spec (terms.map (columnSym ys lookup l)) l.length (by
    intro c hc i hi
    rw [List.mem_map] at hc
    obtain ⟨f, hf, rfl⟩ := hc
    have hi' : l[i]? = some (l[i].1, l[i].2) := List.getElem?_eq_getElem hi
    have hm := List.mem_of_getElem? hi'
    obtain ⟨r, hr, m, hfm⟩ := hterms f hf l[i].1 (hS _ ((hl.mem _ _).1 hm).1)
    exact (entry_eq h hlen hS hcl hl lookup hlook f i i _ _ _ _ hi' hi' r m hfm hr).1)
  refine ⟨M, hM, fun i j => ?_⟩
  rw [hent j i i.2, List.map_map]
  have hi' : l[i.1]? = some (l[i].1, l[i].2) := List.getElem?_eq_getElem i.2
  have hj' : l[j.1]? = some (l[j].1, l[j].2) := List.getElem?_eq_getElem j.2
  have hmi := (hl.mem _ _).1 (List.mem_of_getElem? hi')
  have hsi := hS _ hmi.1
  generalize l[i].1 = s at *
  generalize l[j].1 = sj at *
  generalize l[i].2 = ni at *
  generalize l[j].2 = nj at *
  -- right-hand side
  have e1 : ∀ t ∈ conf, ∑ u ∈ conf, (starRingEnd ℂ) (symState conf ys sj t) * operatorOf terms t u * symState conf ys s u
      = ∑ v ∈ conf, operatorOf terms v s * ((starRingEnd ℂ) (symState conf ys sj t) * projection ys v t
          / (Real.sqrt ((exponents ys).length * (ni : ℝ)) : ℝ)) := by
    intro t ht
    have := projection_operator h _ hinv s t hsi ht
    unfold symState
    rw [norm_projection h s hsi ni hmi.2.2.2]
    rw [show (∑ u ∈ conf, (starRingEnd ℂ) (projection ys sj t / (Real.sqrt (∑ u ∈ conf, ‖projection ys sj u‖ ^ 2) : ℝ)) * operatorOf terms t u *
        (projection ys s u / (Real.sqrt ((exponents ys).length * (ni : ℝ)) : ℝ)))
        = (starRingEnd ℂ) (projection ys sj t / (Real.sqrt (∑ u ∈ conf, ‖projection ys sj u‖ ^ 2) : ℝ))
          / (Real.sqrt ((exponents ys).length * (ni : ℝ)) : ℝ) * ∑ u ∈ conf, operatorOf terms t u * projection ys s u by
        rw [Finset.mul_sum]; apply Finset.sum_congr rfl; intro u _; ring,
      this, Finset.mul_sum]
    apply Finset.sum_congr rfl; intro u _; ring
  rw [Finset.sum_congr rfl e1, Finset.sum_comm]
  simp only [← Finset.mul_sum, ← Finset.sum_div]
  clear e1 hinv hM hent
  induction terms with
  | nil => simp [operatorOf]
  | cons f fs ih =>
    obtain ⟨r, hr, m, hfm⟩ := hterms f (by simp) s hsi
    rw [List.map_cons, List.sum_cons, ih fun g hg => hterms g (by simp [hg]), Function.comp_apply,
      (entry_eq h hlen hS hcl hl lookup hlook f i j _ _ _ _ hi' hj' r m hfm hr).2]
    have : ∀ v, operatorOf (f :: fs) v s = (if r = v then m else 0) + operatorOf fs v s := by
      intro v; simp [operatorOf, hfm]
    simp only [this, add_mul, Finset.sum_add_distrib, ite_mul, zero_mul]
    rw [Finset.sum_ite_eq, if_pos hr]

/-- The basis states are orthonormal, so that entry `(j,i)` being `⟨ψ_j|O|ψ_i⟩` means that the matrix
represents the operator. -/
theorem C13_orthonormal (conf : Finset Nat) (ys : List Generator) (h : Acts (· ∈ conf) ys)
    (S : Nat → Prop) (hS : ∀ s, S s → s ∈ conf) (l : List (Nat × Int)) (hl : ReducedBasis S ys l)
    (i j : Fin l.length) :
    ∑ t ∈ conf, (starRingEnd ℂ) (symState conf ys l[j].1 t) * symState conf ys l[i].1 t
      = if i = j then 1 else 0 := by
  have hi' : l[i.1]? = some (l[i].1, l[i].2) := List.getElem?_eq_getElem i.2
  have hj' : l[j.1]? = some (l[j].1, l[j].2) := List.getElem?_eq_getElem j.2
  have hmi := List.mem_of_getElem? hi'
  have hmj := List.mem_of_getElem? hj'
  have hs := (hl.mem _ _).1 hmi
  have hsj := (hl.mem _ _).1 hmj
  have hov := overlap h hS hl hmj _ (hS _ hs.1)
  have hG : (0 : ℝ) < (exponents ys).length := by exact_mod_cast exponents_pos h
  have hpi : (0 : ℝ) < l[i].2 := by exact_mod_cast reduced_pos h hS hl hmi
  have e : ∑ t ∈ conf, (starRingEnd ℂ) (symState conf ys l[j].1 t) * symState conf ys l[i].1 t
      = (∑ t ∈ conf, (starRingEnd ℂ) (symState conf ys l[j].1 t) * projection ys l[i].1 t)
        / (Real.sqrt ((exponents ys).length * (l[i].2 : ℝ)) : ℝ) := by
    rw [Finset.sum_div]
    apply Finset.sum_congr rfl
    intro t _
    conv_lhs => rw [show symState conf ys l[i].1 t = projection ys l[i].1 t
      / (Real.sqrt ((exponents ys).length * (l[i].2 : ℝ)) : ℝ) by
        unfold symState; rw [norm_projection h _ (hS _ hs.1) _ hs.2.2.2]]
    ring
  rw [e, hov]
  by_cases hij : i = j
  · subst hij
    rw [if_pos rfl, hs.2.2.2]
    have := sqrt_ratio _ _ _ hG hpi hpi
    rw [div_self (ne_of_gt hpi), Real.sqrt_one] at this
    exact_mod_cast this
  · rw [if_neg hij, projection_unrelated h _ _ (hS _ hs.1)]
    · simp
    · refine max_unrelated h (hS _ hs.1) hs.2.1 hsj.2.1 fun he => hij ?_
      have h1 : (l.map (·.1))[i.1]? = some l[i].1 := by simp
      have h2 : (l.map (·.1))[j.1]? = some l[j].1 := by simp
      apply Fin.ext
      by_contra hne
      rcases Nat.lt_or_gt_of_ne hne with hlt | hlt
      · have := decreasing_get hl.sorted h1 h2 hlt; omega
      · have := decreasing_get hl.sorted h2 h1 hlt; omega

/-! The hypotheses on basis and lookup are met by what the library constructs. -/

/-- Every basis the construction returns (C08, C14) is a `ReducedBasis`. -/
theorem C13_constructed_basis (w : Nat) (sort : List (Nat × Int) → List (Nat × Int)) (hs : SortsDescending sort)
    (ys : List Generator) (hlen : ys.length ≤ 32) (MAX mem T : Nat) (hM : MAX ≤ 2 ^ w)
    (h : Acts (· < MAX) ys) (writes : List (Nat × (Nat × Int)))
    (hw : Interleaving w (checkKeep ys) MAX T writes) (l : List (Nat × Int))
    (hl : makeBasis w sort (checkKeep ys) ys.length MAX mem T writes = .ok l) :
    ReducedBasis (· < MAX) ys l where
  sorted := by
    rw [C14_unrestricted w sort hs _ _ MAX mem T hM writes hw l hl, List.map_reverse, List.pairwise_reverse]
    unfold kept
    have : (List.range MAX).Pairwise (· < ·) := List.pairwise_lt_range
    generalize List.range MAX = r at *
    clear hl
    induction r with
    | nil => simp
    | cons a r ih =>
      rw [List.pairwise_cons] at this
      rw [List.filterMap_cons]
      split
      · exact ih this.2
      · rename_i b hb
        rw [List.map_cons, List.pairwise_cons]
        refine ⟨?_, ih this.2⟩
        have hfst : ∀ (a : Nat) (b : Nat × Int), ((checkKeep ys a).bind fun v => if v > 0 then some (a, v) else none) = some b → b.1 = a := by
          intro a b hb
          cases hc : checkKeep ys a with
          | none => rw [hc] at hb; simp at hb
          | some v =>
            rw [hc, Option.bind_some] at hb
            split at hb
            · simp only [Option.some.injEq] at hb; rw [← hb]
            · simp at hb
        intro x hx
        rw [List.mem_map] at hx
        obtain ⟨c, hc, rfl⟩ := hx
        rw [List.mem_filterMap] at hc
        obtain ⟨d, hd, he⟩ := hc
        have h1 := hfst _ _ hb
        have h2 := hfst _ _ he
        have h3 := this.1 d hd
        omega
  mem := fun s n => C08_basis w sort hs ys hlen MAX mem T hM h writes hw l hl s n

/-- The search without prefix blocks. -/
theorem C13_lookup (conf : Finset Nat) (ys : List Generator) (h : Acts (· ∈ conf) ys)
    (hlen : ys.length ≤ 32) (A : List Nat) (hA : A.Pairwise (· > ·)) :
    SymLookup conf ys A (getIndexSym ys A) := by
  intro r hr
  obtain ⟨b, hb, _⟩ := C07_representative _ ys h hlen r hr
  have := C16_search A hA b.r
  cases hj : repPosition A b.r with
  | none => rw [hj] at this; rcases this with ⟨_, e, _⟩ | ⟨e, _⟩ <;> simp at e
  | some j =>
    rw [hj] at this
    exact ⟨j, b, by rw [getIndexSym, hb, Option.bind_some, hj]; rfl, hb, this⟩

/-- The search with prefix blocks of `Np` sites. -/
theorem C13_lookup_blocks (sps N Np : Nat) (hsps : 0 < sps) (hNp : Np ≤ N) (hbound : sps ^ Np ≤ 2 ^ 63)
    (conf : Finset Nat) (hconf : ∀ s ∈ conf, s < sps ^ N) (ys : List Generator) (h : Acts (· ∈ conf) ys)
    (hlen : ys.length ≤ 32) (A : List Nat) (hne : A ≠ []) (hA : A.Pairwise (· > ·))
    (hAc : ∀ s ∈ A, s ∈ conf) :
    ∃ blocks, makeBlocks (prefixOf sps N Np) (sps ^ Np) A = some blocks ∧
      SymLookup conf ys A (getIndexSymBlocks ys (prefixOf sps N Np) blocks A) := by
  obtain ⟨a0, ha0⟩ := List.exists_mem_of_ne_nil _ hne
  obtain ⟨blocks, hb0, _⟩ := C16_search_blocks sps N Np hsps hNp hbound A hne hA
    (fun s hs => hconf s (hAc s hs)) a0 (hconf a0 (hAc a0 ha0))
  refine ⟨blocks, hb0, fun r hr => ?_⟩
  obtain ⟨b, hb, f2, _⟩ := C07_representative _ ys h hlen r hr
  have hbc : b.r ∈ conf := related_closed h hr f2
  obtain ⟨blocks', hb1, this⟩ := C16_search_blocks sps N Np hsps hNp hbound A hne hA
    (fun s hs => hconf s (hAc s hs)) b.r (hconf _ hbc)
  rw [hb0, Option.some.injEq] at hb1
  subst hb1
  cases hj : repPositionBlocks blocks A (prefixOf sps N Np b.r) b.r with
  | none => rw [hj] at this; rcases this with ⟨_, e, _⟩ | ⟨e, _⟩ <;> simp at e
  | some j =>
    rw [hj] at this
    exact ⟨j, b, by rw [getIndexSymBlocks, hb, Option.bind_some, hj]; rfl, hb, this⟩

/-! Bases without symmetries. -/

/-- What the search has to deliver without symmetries. -/
def PlainLookup (conf : Nat → Prop) (A : List Nat) (lookup : Nat → Option Int) : Prop :=
  ∀ r, conf r → LookupSpec A r (lookup r)

/-- Without symmetries the matrix entries are those of the operator between configurations. -/
theorem C13_no_symmetry (conf : Nat → Prop) (A : List Nat) (hA : A.Pairwise (· > ·))
    (hAc : ∀ s ∈ A, conf s) (lookup : Nat → Option Int) (hlook : PlainLookup conf A lookup)
    (terms : List (Nat → Option (Nat × ℂ)))
    (hterms : ∀ f ∈ terms, ∀ s, conf s → ∃ r, conf r ∧ ∃ m, f s = some (r, m)) :
    ∃ M, matrixOfColumns (terms.map (columnPlain lookup A)) A.length = some M ∧
      ∀ i j : Fin A.length, M j i = operatorOf terms A[j] A[i] := by
  have hinj : ∀ (a b : Nat) (x : Nat), A[a]? = some x → A[b]? = some x → a = b := by
    intro a b x ha hb
    by_contra hne
    rcases Nat.lt_or_gt_of_ne hne with hlt | hlt
    · have := decreasing_get hA ha hb hlt; omega
    · have := decreasing_get hA hb ha hlt; omega
  have key : ∀ f ∈ terms, ∀ i (hi : i < A.length), (columnPlain lookup A f i).isSome ∧
      ∀ j (hj : j < A.length), entry (columnPlain lookup A f) j i = match f A[i] with
        | some (r, m) => if r = A[j] then m else 0
        | none => 0 := by
    intro f hf i hi
    have hi' : A[i]? = some A[i] := List.getElem?_eq_getElem hi
    obtain ⟨r, hr, m, hfm⟩ := hterms f hf A[i] (hAc _ (List.getElem_mem hi))
    have main : ∃ x, columnPlain lookup A f i = some x ∧ ∀ j (hj : j < A.length),
        (match (some x : Option (Option (Nat × ℂ))) with
          | some (some (j', m)) => if j' = j then m else 0
          | _ => 0) = if r = A[j] then m else 0 := by
      unfold columnPlain
      rw [hi']
      simp only [hfm]
      by_cases hrs : r = A[i]
      · rw [if_neg (by simpa using hrs)]
        refine ⟨_, rfl, fun j hj => ?_⟩
        simp only
        have : i = j ↔ r = A[j] := by
          rw [hrs]
          constructor
          · intro e; subst e; rfl
          · intro e; exact hinj i j A[i] hi' (by rw [List.getElem?_eq_getElem hj, ← e])
        by_cases hij : i = j
        · rw [if_pos hij, if_pos (this.1 hij)]
        · rw [if_neg hij, if_neg fun e => hij (this.2 e)]
      · rw [if_pos (by simpa using hrs)]
        rcases hlook r hr with ⟨k, hk, hk2⟩ | ⟨hk, hk2⟩
        · rw [hk]
          simp only [ge_iff_le, Int.natCast_nonneg, if_true, Int.toNat_natCast]
          refine ⟨_, rfl, fun j hj => ?_⟩
          simp only
          have : k = j ↔ r = A[j] := by
            constructor
            · intro e
              subst e
              rw [List.getElem?_eq_getElem hj, Option.some.injEq] at hk2
              exact hk2.symm
            · intro e; exact hinj k j r hk2 (by rw [List.getElem?_eq_getElem hj, ← e])
          by_cases hij : k = j
          · rw [if_pos hij, if_pos (this.1 hij)]
          · rw [if_neg hij, if_neg fun e => hij (this.2 e)]
        · rw [hk]
          simp only [ge_iff_le, show ¬ ((0 : Int) ≤ -1) by decide, if_false]
          refine ⟨_, rfl, fun j hj => ?_⟩
          simp only
          rw [if_neg]
          intro e
          exact hk2 (e ▸ List.getElem_mem hj)
    obtain ⟨x, hx, he⟩ := main
    refine ⟨by rw [hx]; rfl, fun j hj => ?_⟩
    unfold entry
    rw [hx, hfm]
    exact he j hj
  obtain ⟨M, hM, hent⟩ := matrixOfColumns_spec (terms.map (columnPlain lookup A)) A.length (by
    intro c hc i hi
    rw [List.mem_map] at hc
    obtain ⟨f, hf, rfl⟩ := hc
    exact (key f hf i hi).1)
  refine ⟨M, hM, fun i j => ?_⟩
  rw [hent j i i.2, List.map_map, operatorOf]
  congr 1
  apply List.map_congr_left
  intro f hf
  exact (key f hf i i.2).2 j j.2

/-- The three searches used without symmetries: binary search, prefix blocks, and the formula for
the full basis (all configurations, decreasing). -/
theorem C13_lookup_plain (A : List Nat) (hA : A.Pairwise (· > ·)) :
    PlainLookup (fun _ => True) A (getIndexPlain A) := fun r _ => C16_search A hA r

theorem C13_lookup_plain_blocks (sps N Np : Nat) (hsps : 0 < sps) (hNp : Np ≤ N)
    (hbound : sps ^ Np ≤ 2 ^ 63) (A : List Nat) (hne : A ≠ []) (hA : A.Pairwise (· > ·))
    (hAc : ∀ s ∈ A, s < sps ^ N) :
    ∃ blocks, makeBlocks (prefixOf sps N Np) (sps ^ Np) A = some blocks ∧
      PlainLookup (· < sps ^ N) A (getIndexPlainBlocks (prefixOf sps N Np) blocks A) := by
  obtain ⟨a0, ha0⟩ := List.exists_mem_of_ne_nil _ hne
  obtain ⟨blocks, hb0, _⟩ := C16_search_blocks sps N Np hsps hNp hbound A hne hA hAc a0 (hAc a0 ha0)
  refine ⟨blocks, hb0, fun r hr => ?_⟩
  obtain ⟨blocks', hb1, this⟩ := C16_search_blocks sps N Np hsps hNp hbound A hne hA hAc r hr
  rw [hb0, Option.some.injEq] at hb1
  subst hb1
  exact this

theorem C13_lookup_full (Ns : Nat) :
    PlainLookup (· < Ns) (List.range Ns).reverse (getIndexFull Ns) := by
  intro r hr
  left
  refine ⟨Ns - r - 1, ?_, ?_⟩
  · unfold getIndexFull; congr 1; omega
  · have hlt : Ns - r - 1 < (List.range Ns).reverse.length := by simp; omega
    rw [List.getElem?_eq_getElem hlt, List.getElem_reverse]
    simp
    omega

/-! The terms are operator strings. -/

theorem conf_inj {b N : Nat} [NeZero b] {s t : Nat} (hs : s < b ^ N) (ht : t < b ^ N)
    (h : conf b N s = conf b N t) : s = t := by
  refine Proof.Digits.digit_ext b N s t hs ht fun i hi => ?_
  have := congrFun h ⟨N - 1 - i, by omega⟩
  simp only [conf, Fin.mk.injEq, occ] at this
  rwa [show N - 1 - (N - 1 - i) = i by omega] at this

/-- When every term is, column by column, the matrix of an operator (which is what C10, C11, C12 say
of the routines acting on single configurations), the operator of C13 is the sum of these matrices. -/
theorem C13_terms {b N : Nat} [NeZero b] (ops : List (Matrix (Conf b N) (Conf b N) ℂ × (Nat → Option (Nat × ℂ))))
    (hops : ∀ p ∈ ops, ∀ s < b ^ N, IsColumn p.1 s (p.2 s)) :
    (∀ f ∈ ops.map (·.2), ∀ s ∈ Finset.range (b ^ N), ∃ r ∈ Finset.range (b ^ N), ∃ m, f s = some (r, m)) ∧
    ∀ t < b ^ N, ∀ s < b ^ N,
      operatorOf (ops.map (·.2)) t s = (ops.map (·.1)).sum (conf b N t) (conf b N s) := by
  constructor
  · intro f hf s hs
    rw [List.mem_map] at hf
    obtain ⟨p, hp, rfl⟩ := hf
    obtain ⟨r, m, h1, h2, _⟩ := hops p hp s (by simpa using hs)
    exact ⟨r, by simpa using h2, m, h1⟩
  · intro t ht s hs
    induction ops with
    | nil => simp [operatorOf]
    | cons p ops ih =>
      have ih := ih fun q hq => hops q (by simp [hq])
      obtain ⟨r, m, h1, h2, h3⟩ := hops p (by simp) s hs
      simp only [operatorOf, List.map_cons, List.sum_cons, Matrix.add_apply] at ih ⊢
      rw [ih, h1, h3]
      congr 1
      by_cases hrt : r = t
      · subst hrt; simp
      · simp only [if_neg hrt]
        rw [if_neg fun e => hrt (conf_inj ht h2 e).symm]

/-- Spin-1/2 and hard-core boson strings: sums of strings acting through `hcbOp`. -/
theorem C13_spin_strings (w N : Nat) (hN : N ≤ w) (strs : List (ℂ × List (Char × Fin N)))
    (hstr : ∀ q ∈ strs, ∀ p ∈ q.2, p.1 ∈ ['I', 'x', 'y', 'z', '+', '-', 'n']) (t s : Nat) (ht : t < 2 ^ N)
    (hs : s < 2 ^ N) :
    operatorOf (strs.map fun q s => hcbOp w N (sites q.2) s q.1) t s
      = (strs.map fun q => q.1 • stringOp (b := 2) (fun o i => onSite (spinHalf o) i) q.2).sum
          (conf 2 N t) (conf 2 N s) := by
  have := (C13_terms (b := 2) (strs.map fun q => (q.1 • stringOp (b := 2) (fun o i => onSite (spinHalf o) i) q.2,
    fun s => hcbOp w N (sites q.2) s q.1)) (by
      intro p hp s hs
      rw [List.mem_map] at hp
      obtain ⟨q, hq, rfl⟩ := hp
      exact C10_general w N hN q.2 (hstr q hq) s hs q.1)).2 t ht s hs
  rw [List.map_map, List.map_map] at this
  exact this

/-- Spinless fermions, up to 256 sites (see C11). -/
theorem C13_fermion_strings (B N : Nat) (hw : N ≤ 8 * B) (hN : N ≤ 256) (strs : List (ℂ × List (Char × Fin N)))
    (hstr : ∀ q ∈ strs, ∀ p ∈ q.2, p.1 ∈ ['I', 'z', '+', '-', 'n']) (t s : Nat) (ht : t < 2 ^ N)
    (hs : s < 2 ^ N) :
    operatorOf (strs.map fun q s => fermionOp (8 * B) N (sites q.2) s q.1) t s
      = (strs.map fun q => q.1 • stringOp (b := 2) fermion q.2).sum (conf 2 N t) (conf 2 N s) := by
  have := (C13_terms (b := 2) (strs.map fun q => (q.1 • stringOp (b := 2) fermion q.2,
    fun s => fermionOp (8 * B) N (sites q.2) s q.1)) (by
      intro p hp s hs
      rw [List.mem_map] at hp
      obtain ⟨q, hq, rfl⟩ := hp
      exact C11_strings_partial B N hw hN q.2 (hstr q hq) s hs q.1)).2 t ht s hs
  rw [List.map_map, List.map_map] at this
  exact this

/-! A case that meets the hypotheses of C13: two fermionic sites, odd under exchange, with the
hopping `c₀†c₁ + c₁†c₀` as two terms. -/

def hopTerm (a b : Nat) : Nat → Option (Nat × ℂ) := fun s => if s = a then some (b, 1) else some (s, 0)

theorem exampleSigned_conf : Acts (· ∈ Finset.range 4) exampleSigned := by
  simpa [Finset.mem_range] using exampleSigned_acts

theorem exampleSigned_basis : ReducedBasis (· ∈ Finset.range 4) exampleSigned [(3, 2), (2, 1)] where
  sorted := by decide
  mem := by
    have hr : ∀ s t, s < 4 → (Related exampleSigned s t ↔ t = s ∨ t = s / 2 + s % 2 * 2) := by
      intro s t hs
      rw [related_iff exampleSigned_acts s t hs]
      constructor
      · rintro ⟨cs, hc, rfl⟩
        rw [← mem_exponents] at hc
        have : cs = [0] ∨ cs = [1] := by simpa [exponents, exampleSigned, List.range_succ] using hc
        rcases this with rfl | rfl
        · left; rfl
        · right; rfl
      · rintro (rfl | rfl)
        · exact ⟨[0], (mem_exponents _ _).1 (by decide), rfl⟩
        · exact ⟨[1], (mem_exponents _ _).1 (by decide), rfl⟩
    intro s n
    simp only [projection_exampleSigned, Finset.mem_range]
    constructor
    · intro hm
      simp only [List.mem_cons, Prod.mk.injEq, List.not_mem_nil, or_false] at hm
      rcases hm with ⟨rfl, rfl⟩ | ⟨rfl, rfl⟩
      · refine ⟨by decide, fun t ht => ?_, ⟨3, by norm_num⟩, by norm_num⟩
        have := (hr 3 t (by decide)).1 ht; omega
      · refine ⟨by decide, fun t ht => ?_, ⟨2, by norm_num⟩, by norm_num⟩
        have := (hr 2 t (by decide)).1 ht; omega
    · rintro ⟨h1, h2, ⟨t, ht⟩, h4⟩
      have h2 := h2 _ ((hr s _ h1).2 (.inr rfl))
      have : s = 0 ∨ s = 1 ∨ s = 2 ∨ s = 3 := by omega
      rcases this with rfl | rfl | rfl | rfl
      · exfalso; apply ht; cases t <;> simp
      · omega
      · norm_num at h4; rw [show n = 1 by exact_mod_cast h4.symm]; simp
      · norm_num at h4; rw [show n = 2 by exact_mod_cast h4.symm]; simp

theorem hop_invariant : InvariantUnder (· ∈ Finset.range 4) exampleSigned (operatorOf [hopTerm 1 2, hopTerm 2 1]) := by
  intro y hy s t hs ht
  simp only [exampleSigned, List.mem_singleton] at hy
  subst hy
  simp only [Finset.mem_range] at hs ht
  have h1 : s = 0 ∨ s = 1 ∨ s = 2 ∨ s = 3 := by omega
  have h2 : t = 0 ∨ t = 1 ∨ t = 2 ∨ t = 3 := by omega
  rcases h1 with rfl | rfl | rfl | rfl <;> rcases h2 with rfl | rfl | rfl | rfl <;>
    simp [operatorOf, hopTerm]

example := C13_restriction (Finset.range 4) exampleSigned exampleSigned_conf (by decide) (· ∈ Finset.range 4)
  (fun _ h => h) (fun y hy s hs => exampleSigned_conf.closed y hy s hs) _ exampleSigned_basis _
  (C13_lookup _ _ exampleSigned_conf (by decide) _ (by decide)) [hopTerm 1 2, hopTerm 2 1]
  (by
    intro f hf s hs
    simp only [List.mem_cons, List.not_mem_nil, or_false] at hf
    rcases hf with rfl | rfl
    · by_cases h : s = 1
      · exact ⟨2, by decide, 1, by simp [hopTerm, h]⟩
      · exact ⟨s, hs, 0, by simp [hopTerm, h]⟩
    · by_cases h : s = 2
      · exact ⟨1, by decide, 1, by simp [hopTerm, h]⟩
      · exact ⟨s, hs, 0, by simp [hopTerm, h]⟩) hop_invariant

/-! Matrix-free application. -/

/-- **C44.**  For every order in which the parallel loop processes the columns, `v_out` is increased
by `M v`, `Mᵀ v`, `conj(M) v` or `M† v` (according to `transposed`, `conjugated`), `M` being the matrix
assembled for the same operator string. -/
theorem C44_matrix_free (column : Nat → Option (Option (Nat × ℂ))) (Ns : Nat)
    (hcol : ∀ i < Ns, ∃ x, column i = some x ∧ ∀ j m, x = some (j, m) → j < Ns)
    (order : List Nat) (horder : order.Perm (List.range Ns)) (tr cj : Bool) (v out : Nat → ℂ) :
    ∃ M out', matrixOfColumns [column] Ns = some M ∧
      inplaceLoop column tr cj v order out = some out' ∧
      ∀ k < Ns, out' k = out k + ∑ i ∈ Finset.range Ns,
        (if cj then (starRingEnd ℂ) (if tr then M i k else M k i) else (if tr then M i k else M k i)) * v i := by
  obtain ⟨M, hM, hent⟩ := matrixOfColumns_spec [column] Ns (by
    intro c hc i hi
    rw [List.mem_singleton] at hc
    subst hc
    obtain ⟨x, hx, _⟩ := hcol i hi
    rw [hx]; rfl)
  obtain ⟨out', ho, he⟩ := inplaceLoop_spec column tr cj v order out (by
    intro i hi
    have hi : i < Ns := by simpa using horder.mem_iff.1 hi
    obtain ⟨x, hx, _⟩ := hcol i hi
    rw [hx]; rfl)
  refine ⟨M, out', hM, ho, fun k hk => ?_⟩
  rw [he k]
  congr 1
  have hM' : ∀ j i, i < Ns → M j i = entry column j i := by
    intro j i hi; rw [hent j i hi]; simp
  rw [(horder.map _).sum_eq, ← List.sum_toFinset _ List.nodup_range, List.toFinset_range]
  cases tr with
  | false =>
    apply Finset.sum_congr rfl
    intro i hi
    have hi : i < Ns := by simpa using hi
    obtain ⟨x, hx, _⟩ := hcol i hi
    simp only [Bool.false_eq_true, if_false, hM' k i hi, entry, hx]
    cases x with
    | none => cases cj <;> simp
    | some p =>
      obtain ⟨j, m⟩ := p
      simp only
      by_cases hjk : j = k
      · subst hjk; cases cj <;> simp [mul_comm]
      · cases cj <;> simp [hjk, Ne.symm hjk]
  | true =>
    rw [Finset.sum_eq_single k]
    · obtain ⟨x, hx, hlt⟩ := hcol k hk
      simp only [if_true, hx]
      cases x with
      | none =>
        symm
        apply Finset.sum_eq_zero
        intro i _
        rw [hM' i k hk, entry, hx]; cases cj <;> simp
      | some p =>
        obtain ⟨j, m⟩ := p
        simp only
        rw [Finset.sum_eq_single j]
        · rw [hM' j k hk, entry, hx]; cases cj <;> simp [mul_comm]
        · intro i _ hij
          rw [hM' i k hk, entry, hx]; cases cj <;> simp [Ne.symm hij]
        · intro hn
          exact absurd (Finset.mem_range.2 (hlt j m rfl)) hn
    · intro i hi hik
      obtain ⟨x, hx, _⟩ := hcol i (by simpa using hi)
      rw [hx]
      cases x with
      | none => rfl
      | some p => simp [Ne.symm hik]
    · intro hn; exact absurd (Finset.mem_range.2 hk) hn

/-- The hypotheses hold for the columns of the hopping term above, processed in reverse. -/
example := C44_matrix_free (columnPlain (getIndexPlain [3, 2, 1, 0]) [3, 2, 1, 0] (hopTerm 1 2)) 4
  (by
    intro i hi
    have : i = 0 ∨ i = 1 ∨ i = 2 ∨ i = 3 := by omega
    have hl : getIndexPlain [3, 2, 1, 0] 2 = some 1 := by decide +kernel
    rcases this with rfl | rfl | rfl | rfl
    · exact ⟨some (0, 0), by simp [columnPlain, hopTerm], by simp⟩
    · exact ⟨some (1, 0), by simp [columnPlain, hopTerm], by simp⟩
    · exact ⟨some (1, 1), by simp [columnPlain, hopTerm, hl], by simp⟩
    · exact ⟨some (3, 0), by simp [columnPlain, hopTerm], by simp⟩) [3, 2, 1, 0] (by decide) true true

end Props
