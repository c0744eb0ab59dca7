import Verif.Model.PhotonChecks
import Verif.Spec.PhotonList
import Verif.Props.C26
import Verif.Props.C43
import Verif.Proof.Assembly
import Mathlib.Algebra.Star.BigOperators

/-!
C90: the checks of operator lists in photon bases with a conserved total number.

`photonHerm`, `photonPcon`: `check_hermitian`, `check_pcon` raise nothing.  `Spec.PhotonList.operator`: the operator a list stands for.
The check for Hermiticity is sound for lists without repeated terms (`C90_herm_partial`).  The check for the total number examines nothing: it
accepts every list (`C90_fails_check`), and the matrices of the operators it lets pass are wrong (`C90_fails_matrix`).
-/

namespace Props
open Model.OpStr Model.PhotonChecks Spec Spec.PhotonList Proof.OpStr Proof.Lattice
open scoped Kronecker

section Oscillator
open Proof.Tensor
open Spec.Oscillator (string element symbol)

/-- The operators are adjoint to each other. -/
def AdjointLevels (X Y : Spec.Oscillator.Vec →ₗ[ℂ] Spec.Oscillator.Vec) : Prop := ∀ m c, element X m c = star (element Y c m)

theorem apply_element (X : Spec.Oscillator.Vec →ₗ[ℂ] Spec.Oscillator.Vec) (f : Spec.Oscillator.Vec) (m : ℕ) (S : Finset ℕ) (hS : f.support ⊆ S) :
    X f m = ∑ k ∈ S, f k * element X m k := by
  have h : f = ∑ k ∈ S, Finsupp.single k (f k) := by
    conv_lhs => rw [← Finsupp.sum_single f]
    exact Finsupp.sum_of_support_subset f hS _ (by simp)
  conv_lhs => rw [h]
  rw [map_sum, Finsupp.finsetSum_apply]
  refine Finset.sum_congr rfl fun k _ => ?_
  have : Finsupp.single k (f k) = f k • Finsupp.single k (1 : ℂ) := by rw [Finsupp.smul_single, smul_eq_mul, mul_one]
  rw [this, map_smul, Finsupp.smul_apply, smul_eq_mul]
  rfl

theorem adjoint_comp {X X' Y Y' : Spec.Oscillator.Vec →ₗ[ℂ] Spec.Oscillator.Vec} (h1 : AdjointLevels X X') (h2 : AdjointLevels Y Y') :
    AdjointLevels (X ∘ₗ Y) (Y' ∘ₗ X') := by
  intro m c
  have e1 := apply_element X (Y (Finsupp.single c 1)) m
    ((Y (Finsupp.single c 1)).support ∪ (X' (Finsupp.single m 1)).support) Finset.subset_union_left
  have e2 := apply_element Y' (X' (Finsupp.single m 1)) c
    ((Y (Finsupp.single c 1)).support ∪ (X' (Finsupp.single m 1)).support) Finset.subset_union_right
  have f1 : element (X ∘ₗ Y) m c = X (Y (Finsupp.single c 1)) m := rfl
  have f2 : element (Y' ∘ₗ X') c m = Y' (X' (Finsupp.single m 1)) c := rfl
  rw [f1, f2, e1, e2, star_sum]
  refine Finset.sum_congr rfl fun k _ => ?_
  rw [star_mul', h1 m k]
  have : (Y (Finsupp.single c 1)) k = star (element Y' c k) := h2 k c
  rw [this]
  have : (X' (Finsupp.single m 1)) k = element X' k m := rfl
  rw [this, mul_comm]

theorem symbol_adjoint (o : Char) (ho : o ≠ '%') : (symbol o = none ∧ symbol (hcChar o) = none) ∨
    ∃ X Y, symbol o = some X ∧ symbol (hcChar o) = some Y ∧ AdjointLevels Y X := by
  rw [hcChar_eq ho]
  by_cases h1 : o = '+'
  · subst h1
    refine Or.inr ⟨_, _, rfl, rfl, fun m c => ?_⟩
    unfold element
    rw [raise_single, lower_single, Finsupp.single_apply, Finsupp.single_apply]
    by_cases hc : c = 0
    · subst hc; simp
    · by_cases hm : c - 1 = m
      · have hmc : m + 1 = c := by omega
        rw [if_pos hm, if_pos hmc]
        subst hmc
        simp
      · rw [if_neg hm, if_neg (by omega)]
        simp
  by_cases h2 : o = '-'
  · subst h2
    refine Or.inr ⟨_, _, rfl, rfl, fun m c => ?_⟩
    unfold element
    rw [raise_single, lower_single, Finsupp.single_apply, Finsupp.single_apply]
    by_cases hm : m = 0
    · subst hm; simp
    · by_cases hc : m - 1 = c
      · have hmc : c + 1 = m := by omega
        rw [if_pos hc, if_pos hmc]
        subst hmc
        simp
      · rw [if_neg hc, if_neg (by omega)]
        simp
  rw [if_neg h1, if_neg h2]
  by_cases h3 : o = 'n'
  · subst h3
    refine Or.inr ⟨_, _, rfl, rfl, fun m c => ?_⟩
    unfold element
    rw [number_single, number_single, Finsupp.single_apply, Finsupp.single_apply]
    by_cases hm : c = m
    · subst hm; simp
    · rw [if_neg hm, if_neg (Ne.symm hm)]
      simp
  by_cases h4 : o = 'I'
  · subst h4
    refine Or.inr ⟨_, _, rfl, rfl, fun m c => ?_⟩
    unfold element
    rw [LinearMap.id_apply, LinearMap.id_apply, Finsupp.single_apply, Finsupp.single_apply]
    by_cases hm : c = m
    · subst hm; simp
    · rw [if_neg hm, if_neg (Ne.symm hm)]
      simp
  have : symbol o = none := by
    unfold symbol
    split <;> simp_all
  exact Or.inl ⟨this, this⟩

theorem string_append (l : List Char) (o : Char) : string (l ++ [o]) = (string l).bind fun X => (symbol o).map fun Y => X ∘ₗ Y := by
  induction l with
  | nil =>
    simp only [List.nil_append, string, Option.bind_some, Option.map_some]
    cases symbol o <;> rfl
  | cons a l ih =>
    simp only [List.cons_append, string, ih]
    cases symbol a <;> cases string l <;> cases symbol o <;> simp [LinearMap.comp_assoc]

theorem string_adjoint (s : List Char) (hs : '%' ∉ s) : (string s = none ∧ string ((s.map hcChar).reverse) = none) ∨
    ∃ X Y, string s = some X ∧ string ((s.map hcChar).reverse) = some Y ∧ AdjointLevels Y X := by
  induction s with
  | nil =>
    refine Or.inr ⟨_, _, rfl, rfl, fun m c => ?_⟩
    unfold element
    rw [LinearMap.id_apply, LinearMap.id_apply, Finsupp.single_apply, Finsupp.single_apply]
    by_cases hm : c = m
    · subst hm; simp
    · rw [if_neg hm, if_neg (Ne.symm hm)]
      simp
  | cons o s ih =>
    simp only [List.mem_cons, not_or] at hs
    rw [List.map_cons, List.reverse_cons, string_append]
    simp only [string]
    rcases ih hs.2 with ⟨h1, h2⟩ | ⟨X, Y, h1, h2, h3⟩
    · rw [h1, h2]
      left
      cases symbol o <;> simp
    · rw [h1, h2]
      rcases symbol_adjoint o (Ne.symm hs.1) with ⟨g1, g2⟩ | ⟨X', Y', g1, g2, g3⟩
      · rw [g1, g2]
        exact Or.inl ⟨rfl, rfl⟩
      · rw [g1, g2]
        exact Or.inr ⟨_, _, rfl, rfl, adjoint_comp h3 g3⟩

/-- The matrix of a photon string on the levels `0 … Np`, as given by `ho_basis.Op` (C31). -/
noncomputable def photonMatrix (Np : ℕ) (s : List Char) : Matrix (Fin (Np + 1)) (Fin (Np + 1)) ℂ :=
  Matrix.of fun m c => (string s).elim 0 fun X => element X m c

/-- Conjugate photon strings have adjoint matrices. -/
theorem oscillator_adjoint (Np : ℕ) (s : List Char) (hs : '%' ∉ s) : photonMatrix Np ((s.map hcChar).reverse) = (photonMatrix Np s).conjTranspose := by
  ext m c
  rw [Matrix.conjTranspose_apply]
  unfold photonMatrix
  simp only [Matrix.of_apply]
  rcases string_adjoint s hs with ⟨h1, h2⟩ | ⟨X, Y, h1, h2, h3⟩
  · rw [h1, h2]; simp
  · rw [h1, h2]; exact h3 m c

end Oscillator

variable {n : Type}

/-- The operator of a sorted or conjugated term. -/
noncomputable def photonVal (b N : Nat) (u : Char → Nat → Nat → ℂ) (Q : List Char → Matrix n n ℂ) (op : Op) :
    Matrix (Conf b N × n) (Conf b N × n) ℂ :=
  op.J • (opWord (siteOp b N u) (splitBar op.str).1 (op.indx.take (splitBar op.str).1.length) ⊗ₖ Q (splitBar op.str).2)

theorem sortSite_word {b N : Nat} {u : Char → Nat → Nat → ℂ} {op o : Op} (h : sortSite op = some o) :
    opWord (siteOp b N u) o.str o.indx = opWord (siteOp b N u) op.str op.indx := by
  have h2 : sortSite { op with J := 1 } = some { o with J := 1 } := by
    obtain ⟨a1, a2, rfl⟩ := sortSite_some h
    simp [sortSite, a1, a2]
  have := ((C25_sort_sites b N u _).2 _ h2).1
  simpa [term] using this

theorem sortSite_nobar {op o : Op} (h : sortSite op = some o) : '|' ∉ o.str := by
  obtain ⟨p1, p2, p3⟩ := sortSite_perm h
  intro hc
  exact (sortSite_some h).1 (((perm_parts p1 p2 p3).1.mem_iff).1 hc)

theorem photonVal_join {b N : Nat} {u : Char → Nat → Nat → ℂ} {Q : List Char → Matrix n n ℂ} {a c : Op} {J : ℂ} (ha : '|' ∉ a.str)
    (hl : a.str.length = a.indx.length) :
    photonVal b N u Q (join a c J) = J • (opWord (siteOp b N u) a.str a.indx ⊗ₖ Q c.str) := by
  unfold photonVal join
  simp only [splitBar_join a.str c.str ha, hl, List.take_left']

theorem photonSort_val {b N : Nat} {u : Char → Nat → Nat → ℂ} {Q : List Char → Matrix n n ℂ} {left : Basis} (hl : left.sort = sortSite)
    {Np : Nat} {op r : Op} (h : photonSort left Np op = some r) : photonVal b N u Q r = photonVal b N u Q op := by
  unfold photonSort at h
  split at h
  · cases h
  · split at h
    · cases h
    · rw [hl] at h
      obtain ⟨a, ha, h⟩ := Option.bind_eq_some_iff.1 h
      obtain ⟨c, hc, rfl⟩ := Option.map_eq_some_iff.1 h
      obtain rfl := Option.some.inj hc
      rw [photonVal_join (sortSite_nobar ha) (sortSite_lengths ha), sortSite_word ha]
      rfl

theorem photonSort_letters {left : Basis} (hl : left.sort = sortSite) {Np : Nat} {op r : Op} (h : photonSort left Np op = some r)
    (hP : ∀ c ∈ op.str, c ≠ '%') : ∀ c ∈ r.str, c ≠ '%' := by
  unfold photonSort at h
  split at h
  · cases h
  · split at h
    · cases h
    · rw [hl] at h
      obtain ⟨a, ha, h⟩ := Option.bind_eq_some_iff.1 h
      obtain ⟨c, hc, rfl⟩ := Option.map_eq_some_iff.1 h
      obtain rfl := Option.some.inj hc
      intro x hx
      simp only [join, List.mem_append, List.mem_cons] at hx
      rcases hx with hx | rfl | hx
      · obtain ⟨p1, p2, p3⟩ := sortSite_perm ha
        exact hP x ((splitBar_mem op.str).1 x (((perm_parts p1 p2 p3).1.mem_iff).1 hx))
      · decide
      · exact hP x ((splitBar_mem op.str).2 x hx)

theorem photonHc_val {b N : Nat} {u : Char → Nat → Nat → ℂ} (hu : AdjointPairs b u) {Q : List Char → Matrix n n ℂ}
    (hQ : ∀ s, '%' ∉ s → Q ((s.map hcChar).reverse) = (Q s).conjTranspose) {left : Basis} (hl : left.hc = hcSite) {Np : Nat} {op r : Op}
    (h : (photonBasis left Np).hc op = some r) (hP : ∀ c ∈ op.str, c ≠ '%') : photonVal b N u Q r = star (photonVal b N u Q op) := by
  simp only [photonBasis, tensorBasis] at h
  split at h
  · rw [hl] at h
    obtain ⟨a, ha, h⟩ := Option.bind_eq_some_iff.1 h
    obtain ⟨c, hc, rfl⟩ := Option.map_eq_some_iff.1 h
    obtain rfl := Option.some.inj hc
    have hno : ∀ s : List Char, (∀ c ∈ s, c ∈ op.str) → '%' ∉ s := fun s hs hm => hP _ (hs _ hm) rfl
    have e1 := hcSite_val (fun o q _ _ hij => siteOp_commute _ o q hij) (siteOp_adj (N := N) hu) (hno _ (splitBar_mem op.str).1) ha
    have e2 := hQ _ (hno _ (splitBar_mem op.str).2)
    have e3 : a.J • opWord (siteOp b N u) a.str a.indx =
      (op.J • opWord (siteOp b N u) (splitBar op.str).1 (op.indx.take (splitBar op.str).1.length)).conjTranspose := e1
    rw [photonVal_join (sortSite_nobar ha) (sortSite_lengths ha)]
    simp only [reversed, rightPart, star_one, mul_one]
    rw [e2, ← Matrix.smul_kronecker, e3, ← Matrix.conjTranspose_kronecker, Matrix.smul_kronecker]
    rfl
  · cases h

theorem extend_written {o p : List Char} (ho : '|' ∉ o) {i j : List Nat} (h : extend (o ++ '|' :: p) i = some j) :
    o.length = i.length ∧ ∃ k, j = i ++ k := by
  unfold extend at h
  split at h
  · cases h
  · split at h
    · cases h
    · rename_i h1
      rw [splitBar_join o p ho] at h1
      exact ⟨by simpa using h1, _, (Option.some.inj h).symm⟩

theorem photonVal_written {b N : Nat} {u : Char → Nat → Nat → ℂ} {Q : List Char → Matrix n n ℂ} {o p : List Char} (ho : '|' ∉ o)
    {i j : List Nat} (h : extend (o ++ '|' :: p) i = some j) (J : ℂ) :
    photonVal b N u Q ⟨o ++ '|' :: p, j, J⟩ = J • (opWord (siteOp b N u) o i ⊗ₖ Q p) := by
  obtain ⟨hl, k, rfl⟩ := extend_written ho h
  unfold photonVal
  simp only [splitBar_join o p ho, hl, List.take_left']

theorem bonds_sum {M : Type} [AddCommMonoid M] {str : List Char} {bs r : List (ℂ × List Nat)} (h : extendBonds str bs = some r)
    (f g : ℂ × List Nat → M) (hfg : ∀ b j, extend str b.2 = some j → f (b.1, j) = g b) : (r.map f).sum = (bs.map g).sum := by
  refine forall₂_sum (R := fun a b => (extend str a.2).map (fun i => (a.1, i)) = some b) (fun a c hac => ?_) (mapM_forall₂ h)
  obtain ⟨i, hi, rfl⟩ := Option.map_eq_some_iff.1 hac
  exact hfg a i hi

/-- The extended static list stands for the operator of the written list. -/
theorem extendStatic_sum {b N : Nat} {u : Char → Nat → Nat → ℂ} {Q : List Char → Matrix n n ℂ} {l : List Entry} (hb : ∀ e ∈ l, '|' ∉ e.1.1)
    {s : OpList} (h : extendStatic (written l) = some s) :
    ((flatten s).map (photonVal b N u Q)).sum = operator (fun o i => opWord (siteOp b N u) o i) Q l := by
  have e0 : ∀ s : OpList, ((flatten s).map (photonVal b N u Q)).sum =
      (s.map fun e => (e.2.map fun c => photonVal b N u Q ⟨e.1, c.2, c.1⟩).sum).sum := by
    intro s
    induction s with
    | nil => rfl
    | cons e s ih =>
      simp only [flatten, List.flatMap_cons, List.map_append, List.sum_append, List.map_cons, List.sum_cons, List.map_map] at ih ⊢
      rw [ih]
      rfl
  rw [e0]
  unfold operator
  unfold extendStatic written at h
  have hf := mapM_forall₂ h
  rw [List.forall₂_map_left_iff] at hf
  have hf' : List.Forall₂ (fun a c => a ∈ l ∧ (extendBonds (a.1.1 ++ '|' :: a.1.2) a.2).map (fun bb => (a.1.1 ++ '|' :: a.1.2, bb)) = some c) l s := by
    rw [List.forall₂_and_left]
    exact ⟨fun a ha => ha, hf⟩
  refine forall₂_sum (fun a c hac => ?_) hf'
  obtain ⟨r, hr, rfl⟩ := Option.map_eq_some_iff.1 hac.2
  exact bonds_sum hr _ _ fun bd j hj => photonVal_written (hb a hac.1) hj bd.1

/-- The same for the dynamic list. -/
theorem extendDynamic_sum {b N : Nat} {u : Char → Nat → Nat → ℂ} {Q : List Char → Matrix n n ℂ} {F : Type} (x : F → ℂ) {l : List (Entry × F)}
    (hb : ∀ e ∈ l, '|' ∉ e.1.1.1) {d : List (List Char × List (ℂ × List Nat) × F)} (h : extendDynamic (writtenD l) = some d) :
    ((flattenD d).map fun p => x p.2 • photonVal b N u Q p.1).sum = driven (fun o i => opWord (siteOp b N u) o i) Q x l := by
  have e0 : ∀ d : List (List Char × List (ℂ × List Nat) × F), ((flattenD d).map fun p => x p.2 • photonVal b N u Q p.1).sum =
      (d.map fun e => x e.2.2 • (e.2.1.map fun c => photonVal b N u Q ⟨e.1, c.2, c.1⟩).sum).sum := by
    intro d
    induction d with
    | nil => rfl
    | cons e s ih =>
      simp only [flattenD, List.flatMap_cons, List.map_append, List.sum_append, List.map_cons, List.sum_cons, List.map_map] at ih ⊢
      rw [ih, List.smul_sum, List.map_map]
      rfl
  rw [e0]
  unfold driven
  unfold extendDynamic writtenD at h
  have hf := mapM_forall₂ h
  rw [List.forall₂_map_left_iff] at hf
  have hf' : List.Forall₂ (fun a c => a ∈ l ∧
      (extendBonds (a.1.1.1 ++ '|' :: a.1.1.2) a.1.2).map (fun bb => (a.1.1.1 ++ '|' :: a.1.1.2, bb, a.2)) = some c) l d := by
    rw [List.forall₂_and_left]
    exact ⟨fun a ha => ha, hf⟩
  refine forall₂_sum (fun a c hac => ?_) hf'
  obtain ⟨r, hr, rfl⟩ := Option.map_eq_some_iff.1 hac.2
  unfold operator
  rw [List.map_cons, List.map_nil, List.sum_cons, List.sum_nil, add_zero]
  exact congrArg _ (bonds_sum hr _ _ fun bd j hj => photonVal_written (hb a hac.1) hj bd.1)

theorem letters_extend {l : List Entry} (hl : ∀ e ∈ l, '%' ∉ e.1.1 ∧ '%' ∉ e.1.2) {s : OpList} (h : extendStatic (written l) = some s) :
    ∀ e ∈ s, ∀ c ∈ e.1, c ≠ '%' := by
  intro e he c hc
  obtain ⟨a, ha, h'⟩ := forall₂_mem (mapM_forall₂ h) he
  obtain ⟨r, hr, rfl⟩ := Option.map_eq_some_iff.1 h'
  obtain ⟨a, ha', rfl⟩ := List.mem_map.1 ha
  simp only [List.mem_append, List.mem_cons] at hc
  rcases hc with hc | rfl | hc
  · rintro rfl; exact (hl a ha').1 hc
  · decide
  · rintro rfl; exact (hl a ha').2 hc

theorem letters_extendD {F : Type} {l : List (Entry × F)} (hl : ∀ e ∈ l, '%' ∉ e.1.1.1 ∧ '%' ∉ e.1.1.2)
    {s : List (List Char × List (ℂ × List Nat) × F)} (h : extendDynamic (writtenD l) = some s) : ∀ e ∈ s, ∀ c ∈ e.1, c ≠ '%' := by
  intro e he c hc
  obtain ⟨a, ha, h'⟩ := forall₂_mem (mapM_forall₂ h) he
  obtain ⟨r, hr, rfl⟩ := Option.map_eq_some_iff.1 h'
  obtain ⟨a, ha', rfl⟩ := List.mem_map.1 ha
  simp only [List.mem_append, List.mem_cons] at hc
  rcases hc with hc | rfl | hc
  · rintro rfl; exact (hl a ha').1 hc
  · decide
  · rintro rfl; exact (hl a ha').2 hc

/-- Spins and bosons coupled to photons: a list accepted by `check_hermitian`, without repeated terms (after sorting), stands for a Hermitian
operator (the dynamic list at the time of the check).  `Q` gives the operators of the photon strings; conjugate strings have adjoint
operators (`oscillator_adjoint`).
Missing: lists with repeated terms, and the check for conservation, which accepts every list (`C90_fails_check`). -/
theorem C90_herm_partial {F : Type} (b N : Nat) (u : Char → Nat → Nat → ℂ) (hu : AdjointPairs b u) (left : Basis)
    (hleft : left = bosonBasis b ∨ ∃ p, left = spin1d b p) (Q : List Char → Matrix n n ℂ)
    (hQ : ∀ s, '%' ∉ s → Q ((s.map hcChar).reverse) = (Q s).conjTranspose) (Ntot : Nat) (app : F → ℂ → ℂ) (t : ℂ) (static : List Entry)
    (dynamic : List (Entry × F)) (hs : ∀ e ∈ static, '%' ∉ e.1.1 ∧ '%' ∉ e.1.2) (hd : ∀ e ∈ dynamic, '%' ∉ e.1.1.1 ∧ '%' ∉ e.1.1.2)
    (hsb : ∀ e ∈ static, '|' ∉ e.1.1) (hdb : ∀ e ∈ dynamic, '|' ∉ e.1.1.1)
    (h1 : ∀ s, extendStatic (written static) = some s → DistinctStatic (photonBasis left Ntot) s)
    (h2 : ∀ d, extendDynamic (writtenD dynamic) = some d → DistinctDynamic (photonBasis left Ntot) app t d)
    (h : photonHerm left Ntot app t (written static) (writtenD dynamic)) :
    (operator (fun o i => opWord (siteOp b N u) o i) Q static).conjTranspose = operator (fun o i => opWord (siteOp b N u) o i) Q static ∧
      (driven (fun o i => opWord (siteOp b N u) o i) Q (fun f => app f t) dynamic).conjTranspose =
        driven (fun o i => opWord (siteOp b N u) o i) Q (fun f => app f t) dynamic := by
  obtain ⟨s', d', x1, x2, s, sh, d, de, dh, k1, k2, k3, k4, k5, k6, k7⟩ := h
  have e1 : left.sort = sortSite := by rcases hleft with rfl | ⟨p, rfl⟩ <;> rfl
  have e2 : left.hc = hcSite := by rcases hleft with rfl | ⟨p, rfl⟩ <;> rfl
  have hsort : ∀ op : Op, (∀ c ∈ op.str, c ≠ '%') → ∀ r, (photonBasis left Ntot).sort op = some r →
      photonVal b N u Q r = photonVal b N u Q op ∧ ∀ c ∈ r.str, c ≠ '%' :=
    fun op hop r hr => ⟨photonSort_val e1 hr, photonSort_letters e1 hr hop⟩
  have hhc : ∀ op : Op, (∀ c ∈ op.str, c ≠ '%') → ∀ r, (photonBasis left Ntot).hc op = some r →
      photonVal b N u Q r = star (photonVal b N u Q op) := fun op hop r hr => photonHc_val hu hQ e2 hr hop
  refine ⟨?_, ?_⟩
  · rw [← extendStatic_sum hsb x1]
    exact herm_static (letters_flatten (G := fun c => c ≠ '%') (letters_extend hs x1)) hsort hhc k1 (h1 s' x1 s k1) k2 k6
  · rw [← extendDynamic_sum _ hdb x2]
    refine herm_dynamic (fun f => app f t) (fun op y => ?_) (letters_flattenD (G := fun c => c ≠ '%') (letters_extendD hd x2))
      (fun op y h => h) hsort hhc k3 k4 (h2 d' x2 d de k3 k4) k5 k7
    simp only [photonVal, timesDrive, smul_smul, mul_comm]

/-- The hypotheses hold for the exchange of quanta between a spin and the photons, `+|- + -|+`. -/
example : ∃ s, extendStatic (written [((['+'], ['-']), [(1, [0])]), ((['-'], ['+']), [(1, [0])])]) = some s ∧
    DistinctStatic (photonBasis (spin1d 2 1) 2) s ∧
    photonHerm (F := Unit) (spin1d 2 1) 2 (fun _ _ => 1) 0 (written [((['+'], ['-']), [(1, [0])]), ((['-'], ['+']), [(1, [0])])]) (writtenD []) := by
  have h0 : extendStatic (written [((['+'], ['-']), [(1, [0])]), ((['-'], ['+']), [(1, [0])])]) =
      some [(['+', '|', '-'], [(1, [0, 0])]), (['-', '|', '+'], [(1, [0, 0])])] := by
    simp [extendStatic, written, extendBonds, extend, splitBar]
  have h1 : localList (photonBasis (spin1d 2 1) 2) [(['+', '|', '-'], [(1, [0, 0])]), (['-', '|', '+'], [(1, [0, 0])])] =
      some [⟨['+', '|', '-'], [0, 0], 1⟩, ⟨['-', '|', '+'], [0, 0], 1⟩] := by
    simp [localList, flatten, photonBasis, photonSort, spin1d, sortSite, splitBar, leftPart, hoBasis, join]
  refine ⟨_, h0, fun s hs => ?_, _, [], h0, rfl, _, [⟨['-', '|', '+'], [0, 0], 1⟩, ⟨['+', '|', '-'], [0, 0], 1⟩], [], [], [], h1, ?_, rfl, rfl, rfl, ?_, ?_⟩
  · rw [h1] at hs
    cases hs
    simp
  · simp [photonBasis, tensorBasis, barred, splitBar, leftPart, rightPart, join, spin1d, hcSite, reversed, hcChar, sortSite, hoBasis]
  · simp
  · simp

/-! ### The check of the total number -/

/-- A string without bars and with one site for every symbol. -/
def Plain1 (op : Op) : Prop := '|' ∉ op.str ∧ op.str.length = op.indx.length

/-- The functions of the basis raise nothing for such strings. -/
structure Handles (left : Basis) : Prop where
  sort : ∀ op, Plain1 op → ∃ a, left.sort op = some a ∧ Plain1 a
  expand : ∀ op, Plain1 op → ∃ as, left.expand op = some as ∧ ∀ a ∈ as, Plain1 a
  nonZero : ∀ op, ∃ b, left.nonZero op = some b

theorem expandSpin_nobar (pauli : Int) (op : Op) (h : '|' ∉ op.str) : ∀ r ∈ expandSpin pauli op, '|' ∉ r.str := by
  fun_induction expandSpin pauli op with
  | case1 op h' c hc =>
    intro r hr
    obtain ⟨p, hp, rfl⟩ := List.mem_map.1 hr
    rw [hc, List.mem_singleton] at h
    unfold expandChar at hp
    rw [List.mem_singleton]
    split_ifs at hp <;> simp at hp
    · rcases hp with rfl | rfl <;> decide
    · rcases hp with rfl | rfl <;> decide
    · rcases hp with rfl | rfl <;> decide
    · rcases hp with rfl | rfl <;> decide
    · rw [hp]; exact h
  | case2 op h h' => intro r hr; rw [List.mem_singleton.1 hr]; assumption
  | case3 op h' ih1 ih2 =>
    intro r hr
    obtain ⟨a, ha, hr⟩ := List.mem_flatMap.1 hr
    obtain ⟨b, hb, rfl⟩ := List.mem_map.1 hr
    have h1 := ih2 (fun hm => h (List.mem_of_mem_take hm)) a ha
    have h2 := ih1 (fun hm => h (List.mem_of_mem_drop hm)) b hb
    simp only [List.mem_append, not_or]
    exact ⟨h1, h2⟩

theorem handles_spin (sps : Nat) (p : Int) : Handles (spin1d sps p) where
  sort op h := by
    obtain ⟨a, ha⟩ : ∃ a, sortSite op = some a := Option.ne_none_iff_exists'.1 fun hn => by
      rcases sortSite_none.1 hn with h' | h'
      · exact h.1 h'
      · exact h' h.2
    exact ⟨a, ha, sortSite_nobar ha, sortSite_lengths ha⟩
  expand op h := ⟨_, rfl, fun a ha => ⟨expandSpin_nobar p op h.1 a ha, by
    obtain ⟨h1, h2⟩ := expandSpin_lengths p op h.2 a ha
    rw [h1, h2, h.2]⟩⟩
  nonZero op := ⟨_, rfl⟩

theorem handles_boson (sps : Nat) : Handles (bosonBasis sps) where
  sort := (handles_spin sps 0).sort
  expand op h := ⟨_, rfl, fun a ha => by rw [List.mem_singleton.1 ha]; exact h⟩
  nonZero op := ⟨_, rfl⟩

theorem handles_fermion : Handles fermionBasis where
  sort op h := by
    obtain ⟨a, ha⟩ : ∃ a, sortFermion op = some a := Option.ne_none_iff_exists'.1 fun hn => by
      rcases sortFermion_none.1 hn with h' | h'
      · exact h.1 h'
      · exact h' h.2
    exact ⟨a, ha, sortFermion_nobar ha, sortFermion_lengths ha⟩
  expand op h := ⟨_, rfl, fun a ha => by rw [List.mem_singleton.1 ha]; exact h⟩
  nonZero op := ⟨_, rfl⟩

/-- A particle string and a photon string of at most `Ntot` raising and at most `Ntot` lowering operators. -/
def Usual (Ntot : Nat) (op : Op) : Prop :=
  ∃ a c : Op, op = join a c op.J ∧ Plain1 a ∧ Plain1 c ∧ c.str.count '+' ≤ Ntot ∧ c.str.count '-' ≤ Ntot

theorem usual_parts {a c : Op} {J K : ℂ} (ha : Plain1 a) (hc : Plain1 c) : barred (join a c J) = true ∧
    leftPart (join a c J) K = { a with J := K } ∧ rightPart (join a c J) K = { c with J := K } ∧ (join a c J).str.count '|' = 1 := by
  have e := splitBar_join a.str c.str ha.1
  have hcount : (join a c J).str.count '|' = 1 := by
    simp only [join, List.count_append, List.count_cons_self, List.count_eq_zero.mpr ha.1, List.count_eq_zero.mpr hc.1]
  refine ⟨?_, ?_, ?_, hcount⟩
  · unfold barred
    rw [hcount]
    simp only [join, List.mem_append, List.mem_cons, true_or, or_true, decide_true, Bool.true_and, decide_eq_true_eq, List.length_append, List.length_cons]
    have := ha.2
    have := hc.2
    omega
  · simp only [leftPart, join, e, ha.2, List.take_left']
  · simp only [rightPart, join, e, ha.2, List.drop_left']

theorem photonSort_usual {left : Basis} (hl : Handles left) {Ntot : Nat} {op : Op} (h : Usual Ntot op) :
    ∃ r, photonSort left Ntot op = some r ∧ Usual Ntot r := by
  obtain ⟨a, c, e, ha, hc, h1, h2⟩ := h
  obtain ⟨u1, u2, u3, u4⟩ := usual_parts (J := op.J) (K := op.J) ha hc
  obtain ⟨a', g1, g2⟩ := hl.sort { a with J := op.J } ha
  rw [e]
  unfold photonSort
  have hlen : (join a c op.J).str.length = (join a c op.J).indx.length + 1 := by
    simp only [join, List.length_append, List.length_cons, ha.2, hc.2]
    omega
  rw [if_neg (by rw [u4]; simp), if_neg (by rw [hlen]; simp)]
  have hJ : (join a c op.J).J = op.J := rfl
  rw [hJ, u2, g1]
  refine ⟨_, rfl, a', ⟨c.str, List.replicate c.str.length (({ a with J := op.J } : Op).indx.min?.getD 0), op.J⟩, ?_, g2, ⟨hc.1, by simp⟩, h1, h2⟩
  simp only [join, splitBar_join a.str c.str ha.1]

theorem expand_nothing {left : Basis} (hl : Handles left) {Ntot : Nat} {X : Type} (l : List (Op × X)) (h : ∀ p ∈ l, Usual Ntot p.1) :
    expandList (photonBasis left Ntot) l = some [] := by
  unfold expandList
  have h1 : (l.mapM fun p => ((photonBasis left Ntot).expand p.1).bind fun os =>
      (os.mapM fun o => ((photonBasis left Ntot).nonZero o).map fun b => (o, b)).map fun obs =>
        (obs.filter fun ob => ob.2).map fun ob => (ob.1, p.2)) = some (l.map fun _ => []) := by
    refine Proof.Tensor.mapM_some _ _ _ fun p hp => ?_
    obtain ⟨a, c, e, ha, hc, h1, h2⟩ := h p hp
    obtain ⟨u1, u2, u3, -⟩ := usual_parts (J := p.1.J) (K := 1) ha hc
    obtain ⟨-, -, u4, -⟩ := usual_parts (J := p.1.J) (K := p.1.J) ha hc
    obtain ⟨as, g1, g2⟩ := hl.expand { a with J := 1 } ha
    have hex : (photonBasis left Ntot).expand p.1 = some (as.flatMap fun x => [join x { c with J := p.1.J } (x.J * p.1.J)]) := by
      rw [e]
      simp only [photonBasis, tensorBasis]
      rw [if_pos u1, u2, g1, Option.bind_some]
      have hJ : (join a c p.1.J).J = p.1.J := rfl
      rw [hJ, u4]
      rfl
    rw [hex, Option.bind_some]
    have hnz : ((as.flatMap fun x => [join x { c with J := p.1.J } (x.J * p.1.J)]).mapM fun o => ((photonBasis left Ntot).nonZero o).map fun b => (o, b)) =
        some ((as.flatMap fun x => [join x { c with J := p.1.J } (x.J * p.1.J)]).map fun o => (o, false)) := by
      refine Proof.Tensor.mapM_some _ _ _ fun o ho => ?_
      obtain ⟨x, hx, ho⟩ := List.mem_flatMap.1 ho
      rw [List.mem_singleton] at ho
      subst ho
      obtain ⟨v1, v2, v3, -⟩ := usual_parts (J := x.J * p.1.J) (K := x.J * p.1.J) (g2 x hx) (c := { c with J := p.1.J }) hc
      obtain ⟨b, hb⟩ := hl.nonZero { x with J := x.J * p.1.J }
      have hJ : (join x { c with J := p.1.J } (x.J * p.1.J)).J = x.J * p.1.J := rfl
      simp only [photonBasis, tensorBasis]
      rw [if_pos v1, hJ, v2, hb, v3]
      simp only [hoBasis, Option.bind_some, Option.map_some, decide_eq_false (Nat.not_lt.mpr h1), decide_eq_false (Nat.not_lt.mpr h2), gt_iff_lt,
        Bool.or_self, Bool.and_false]
    rw [hnz, Option.map_some, List.filter_map]
    congr 1
    rw [List.map_map, List.map_eq_nil_iff, List.filter_eq_nil_iff]
    simp
  rw [h1, Option.bind_some]
  have : (l.map fun _ => ([] : List (Op × X))).flatten = [] := by simp
  rw [this]
  rfl

theorem extend_usual {Ntot : Nat} {o p : List Char} (ho : '|' ∉ o) (hp : '|' ∉ p) (h1 : p.count '+' ≤ Ntot) (h2 : p.count '-' ≤ Ntot)
    {i : List Nat} (hi : o.length = i.length) : ∃ j, extend (o ++ '|' :: p) i = some j ∧ ∀ J, Usual Ntot ⟨o ++ '|' :: p, j, J⟩ := by
  have hcount : (o ++ '|' :: p).count '|' = 1 := by
    simp only [List.count_append, List.count_cons_self, List.count_eq_zero.mpr ho, List.count_eq_zero.mpr hp]
  unfold extend
  rw [if_neg (by rw [hcount]; simp), if_neg (by rw [splitBar_join o p ho, hi]; simp)]
  refine ⟨_, rfl, fun J => ⟨⟨o, i, J⟩, ⟨p, _, J⟩, rfl, ⟨ho, hi⟩, ⟨hp, ?_⟩, h1, h2⟩⟩
  simp only [List.length_replicate, List.length_append, List.length_cons]
  omega

/-- A written entry: no bars inside of the strings, one site for every particle operator, at most `Ntot` raising and at most `Ntot` lowering
photon operators. -/
def Admissible (Ntot : Nat) (e : Entry) : Prop :=
  '|' ∉ e.1.1 ∧ '|' ∉ e.1.2 ∧ e.1.2.count '+' ≤ Ntot ∧ e.1.2.count '-' ≤ Ntot ∧ ∀ b ∈ e.2, e.1.1.length = b.2.length

theorem extendBonds_usual {Ntot : Nat} {e : Entry} (h : Admissible Ntot e) :
    ∃ r, extendBonds (e.1.1 ++ '|' :: e.1.2) e.2 = some r ∧ ∀ b ∈ r, Usual Ntot ⟨e.1.1 ++ '|' :: e.1.2, b.2, b.1⟩ := by
  obtain ⟨h1, h2, h3, h4, h5⟩ := h
  obtain ⟨r, hr, hf⟩ := Proof.Assembly.mapM_some (fun b : ℂ × List Nat => (extend (e.1.1 ++ '|' :: e.1.2) b.2).map fun i => (b.1, i)) e.2 (by
    intro b hb
    obtain ⟨j, hj, -⟩ := extend_usual h1 h2 h3 h4 (h5 b hb)
    rw [hj]
    rfl)
  refine ⟨r, hr, fun b hb => ?_⟩
  have hf' : List.Forall₂ (fun a c => a ∈ e.2 ∧ (extend (e.1.1 ++ '|' :: e.1.2) a.2).map (fun i => (a.1, i)) = some c) e.2 r := by
    rw [List.forall₂_and_left]
    exact ⟨fun a ha => ha, hf⟩
  obtain ⟨a, -, hab⟩ := forall₂_mem hf' hb
  obtain ⟨j, hj, hu⟩ := extend_usual h1 h2 h3 h4 (h5 a hab.1)
  rw [hj] at hab
  obtain rfl := Option.some.inj hab.2
  exact hu _

theorem extendStatic_usual {Ntot : Nat} {l : List Entry} (h : ∀ e ∈ l, Admissible Ntot e) :
    ∃ s, extendStatic (written l) = some s ∧ ∀ op ∈ flatten s, Usual Ntot op := by
  obtain ⟨s, hs, hf⟩ := Proof.Assembly.mapM_some (fun e : List Char × List (ℂ × List Nat) => (extendBonds e.1 e.2).map fun b => (e.1, b)) (written l) (by
    intro e he
    obtain ⟨a, ha, rfl⟩ := List.mem_map.1 he
    obtain ⟨r, hr, -⟩ := extendBonds_usual (h a ha)
    simp only [hr, Option.map_some, Option.isSome_some])
  refine ⟨s, hs, fun op hop => ?_⟩
  obtain ⟨e, he, hop⟩ := List.mem_flatMap.1 hop
  obtain ⟨b, hb, rfl⟩ := List.mem_map.1 hop
  have hf' : List.Forall₂ (fun a c => a ∈ written l ∧ (extendBonds a.1 a.2).map (fun b => (a.1, b)) = some c) (written l) s := by
    rw [List.forall₂_and_left]
    exact ⟨fun a ha => ha, hf⟩
  obtain ⟨a, -, ha, hac⟩ := forall₂_mem hf' he
  obtain ⟨a, ha', rfl⟩ := List.mem_map.1 ha
  obtain ⟨r, hr, hu⟩ := extendBonds_usual (h a ha')
  rw [hr] at hac
  obtain rfl := Option.some.inj hac
  exact hu b hb

theorem extendDynamic_usual {F : Type} {Ntot : Nat} {l : List (Entry × F)} (h : ∀ e ∈ l, Admissible Ntot e.1) :
    ∃ s, extendDynamic (writtenD l) = some s ∧ ∀ p ∈ flattenD s, Usual Ntot p.1 := by
  obtain ⟨s, hs, hf⟩ := Proof.Assembly.mapM_some (fun e : List Char × List (ℂ × List Nat) × F => (extendBonds e.1 e.2.1).map fun b => (e.1, b, e.2.2))
    (writtenD l) (by
      intro e he
      obtain ⟨a, ha, rfl⟩ := List.mem_map.1 he
      obtain ⟨r, hr, -⟩ := extendBonds_usual (h a ha)
      simp only [hr, Option.map_some, Option.isSome_some])
  refine ⟨s, hs, fun op hop => ?_⟩
  obtain ⟨e, he, hop⟩ := List.mem_flatMap.1 hop
  obtain ⟨b, hb, rfl⟩ := List.mem_map.1 hop
  have hf' : List.Forall₂ (fun a c => a ∈ writtenD l ∧ (extendBonds a.1 a.2.1).map (fun b => (a.1, b, a.2.2)) = some c) (writtenD l) s := by
    rw [List.forall₂_and_left]
    exact ⟨fun a ha => ha, hf⟩
  obtain ⟨a, -, ha, hac⟩ := forall₂_mem hf' he
  obtain ⟨a, ha', rfl⟩ := List.mem_map.1 ha
  obtain ⟨r, hr, hu⟩ := extendBonds_usual (h a ha')
  rw [hr] at hac
  obtain rfl := Option.some.inj hac
  exact hu b hb

/-- `check_pcon` of a photon basis accepts every list, whatever it does to the total number: the test for vanishing photon strings is
inverted, so that all terms are taken to vanish.  (Only lists with more than `Ntot` raising or lowering photon operators in one string are
examined.) -/
theorem C90_fails_check {F : Type} (left : Basis) (hleft : left = fermionBasis ∨ (∃ sps, left = bosonBasis sps) ∨ ∃ sps p, left = spin1d sps p)
    (Ntot : Nat) (tiny : ℂ → Prop) (static : List Entry) (dynamic : List (Entry × F)) (hs : ∀ e ∈ static, Admissible Ntot e)
    (hd : ∀ e ∈ dynamic, Admissible Ntot e.1) : photonPcon left Ntot tiny (written static) (writtenD dynamic) := by
  have hl : Handles left := by
    rcases hleft with rfl | ⟨sps, rfl⟩ | ⟨sps, p, rfl⟩
    · exact handles_fermion
    · exact handles_boson sps
    · exact handles_spin sps p
  obtain ⟨s, s1, s2⟩ := extendStatic_usual hs
  obtain ⟨d, d1, d2⟩ := extendDynamic_usual hd
  obtain ⟨s', s3, s4⟩ := Proof.Assembly.mapM_some (photonBasis left Ntot).sort (flatten s) (by
    intro op hop
    obtain ⟨r, hr, -⟩ := photonSort_usual hl (s2 op hop)
    show (photonSort left Ntot op).isSome = true
    rw [hr]
    rfl)
  obtain ⟨d', d3, d4⟩ := Proof.Assembly.mapM_some (fun p : Op × F => ((photonBasis left Ntot).sort p.1).map fun o => (o, p.2)) (flattenD d) (by
    intro q hq
    obtain ⟨r, hr, -⟩ := photonSort_usual hl (d2 q hq)
    have : (photonBasis left Ntot).sort q.1 = some r := hr
    simp only [this, Option.map_some, Option.isSome_some])
  have hs' : ∀ op ∈ s', Usual Ntot op := by
    intro r hr
    have hf' : List.Forall₂ (fun a c => a ∈ flatten s ∧ (photonBasis left Ntot).sort a = some c) (flatten s) s' := by
      rw [List.forall₂_and_left]
      exact ⟨fun a ha => ha, s4⟩
    obtain ⟨a, -, ha, hac⟩ := forall₂_mem hf' hr
    obtain ⟨r', hr', hu⟩ := photonSort_usual hl (s2 a ha)
    obtain rfl : r' = r := Option.some.inj (hr'.symm.trans hac)
    exact hu
  have hd' : ∀ q ∈ d', Usual Ntot q.1 := by
    intro r hr
    have hf' : List.Forall₂ (fun a c => a ∈ flattenD d ∧ ((photonBasis left Ntot).sort a.1).map (fun o => (o, a.2)) = some c) (flattenD d) d' := by
      rw [List.forall₂_and_left]
      exact ⟨fun a ha => ha, d4⟩
    obtain ⟨a, -, ha, hac⟩ := forall₂_mem hf' hr
    obtain ⟨r', hr', hu⟩ := photonSort_usual hl (d2 a ha)
    obtain ⟨o, ho, rfl⟩ := Option.map_eq_some_iff.1 hac
    obtain rfl : r' = o := Option.some.inj (hr'.symm.trans ho)
    exact hu
  refine ⟨s, d, s1, d1, s', [], d', [], s3, expand_nothing hl _ ?_, d3, expand_nothing hl _ hd', ?_, ?_⟩
  · intro q hq
    obtain ⟨o, ho, rfl⟩ := List.mem_map.1 hq
    exact hs' o ho
  · simp [consolidate]
  · simp [consolidate]

/-- `x|`, the field that creates and destroys excitations of a spin, is accepted with 3 quanta. -/
example : photonPcon (F := Unit) (spin1d 2 1) 3 (fun J => J = 0) (written [((['x'], []), [(1, [0])])]) (writtenD []) :=
  C90_fails_check _ (Or.inr (Or.inr ⟨2, 1, rfl⟩)) 3 _ _ _ (by simp [Admissible]) (by simp)

/-- One spin: state 0 is up, state 1 is down; `+` raises it. -/
def raisedSpin : Model.Tensor.Basis := ⟨2, fun o _ J => if o = ['+'] then some [(J, 0, 1)] else none, fun _ => none⟩

/-- The operator `+|` of one spin and `N` quanta changes the total number; nothing of it acts inside of the sector.  It is accepted, and its matrix has
the element 1 between the state with the spin down and `N` photons and the state with the spin up and `N - 1` photons. -/
theorem C90_fails_matrix (N : Nat) (hN : 0 < N) (hN' : N < 128) :
    photonPcon (F := Unit) (spin1d 2 1) N (fun J => J = 0) (written [((['+'], []), [(1, [0])])]) (writtenD []) ∧
      (∃ l, (Model.Tensor.photonOp raisedSpin (Model.Tensor.photons N [1, 0]) N ['+', '|'] [0] 1).1 = some l ∧ Spec.Kronecker.entry l 0 1 = 1) ∧
      Spec.Oscillator.element LinearMap.id (N - 1) N = 0 := by
  refine ⟨C90_fails_check _ (Or.inr (Or.inr ⟨2, 1, rfl⟩)) N _ _ _ (by simp [Admissible]) (by simp), ?_, ?_⟩
  · obtain ⟨ph, p1, p2, p3⟩ := C31_partial N [] [] 1 _ rfl rfl (by
      intro w hw
      unfold Model.Tensor.width at hw
      rw [if_pos (by norm_num; omega)] at hw
      obtain rfl := Option.some.inj hw
      norm_num
      omega)
    obtain ⟨me, row, e1, hrow, he⟩ := p3 N le_rfl
    have h1 : (1 : ℂ) = if N = row then me else 0 := by
      rw [← he N le_rfl]
      unfold Spec.Oscillator.element
      rw [LinearMap.id_apply, Finsupp.single_eq_same, mul_one]
    have hme : me = 1 := by
      split_ifs at h1
      · exact h1.symm
      · norm_num at h1
    have hn := photons_getElem (Ntot := N) (by omega) (Np := [1, 0]) (by simp; omega) 1 (by simp)
    have hitem : Model.Tensor.item ph ((N : ℕ) : ℤ) = some (1, (row : ℤ), (N : ℤ)) := by
      unfold Model.Tensor.item
      rw [if_pos (by omega), Int.toNat_natCast, e1, hme]
    refine ⟨[(1, 0, 1)], ?_, ?_⟩
    · have hidx : (['+', '|'] : List Char).idxOf '|' = 1 := by decide
      have hcount : (['+', '|'] : List Char).count '|' = 1 := by decide
      unfold Model.Tensor.photonOp
      rw [if_neg (by decide), if_neg (by rw [hcount]; simp)]
      dsimp only
      rw [hidx, if_neg (by simp)]
      simp only [List.length_cons, List.length_nil, List.drop_succ_cons, List.drop_nil, List.take_succ_cons, List.take_zero,
        zero_add, Nat.add_one_sub_one, Nat.sub_self, List.replicate_zero, List.append_nil]
      rw [p1, Option.bind_some]
      have hop : raisedSpin.op ['+'] [0] 1 = some [(1, 0, 1)] := by simp [raisedSpin]
      rw [hop, Option.bind_some, List.mapM_cons, List.mapM_nil]
      simp only [Nat.cast_one] at hn
      have hn' : Model.Tensor.item (Model.Tensor.photons N [1, 0]) 1 = some ((N : ℕ) : ℤ) := hn
      simp only [hn', Option.bind_some, hitem, Option.map_some]
      simp
    · simp [Spec.Kronecker.entry]
  · unfold Spec.Oscillator.element
    rw [LinearMap.id_apply, Finsupp.single_apply, if_neg (by omega)]

end Props
