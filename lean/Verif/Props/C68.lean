import Verif.Props.C67
/-!
C68: in a one-dimensional basis without symmetry blocks the matrix of a sum of operator strings has the matrix elements of
the operator between the configurations of the basis.
-/
namespace Props
open Spec Model Model.Chain Proof.Chain Proof.Assembly

theorem matrix_entry {basis : List ℕ} {terms : List (ℕ → Option (ℕ × ℂ))} {column : (ℕ → Option (ℕ × ℂ)) → ℕ → Option (Option (ℕ × ℂ))}
    (hc : ∀ f ∈ terms, ∀ (i : ℕ) (hi : i < basis.length), ∃ r m, f basis[i] = some (r, m) ∧
      (column f i).isSome ∧ ∀ (j : ℕ) (hj : j < basis.length), entry (column f) j i = if r = basis[j] then m else 0) :
    ∃ M, matrixOfColumns (terms.map column) basis.length = some M ∧ IsMatrixBetween basis (operatorOf terms) M := by
  obtain ⟨M, hM, he⟩ := matrixOfColumns_spec (terms.map column) basis.length (by
    intro c hc' i hi
    obtain ⟨f, hf, rfl⟩ := List.mem_map.1 hc'
    obtain ⟨r, m, _, h, _⟩ := hc f hf i hi
    exact h)
  refine ⟨M, hM, fun i j => ?_⟩
  rw [he j i i.2, List.map_map]
  unfold operatorOf
  congr 1
  apply List.map_congr_left
  intro f hf
  obtain ⟨r, m, h1, _, h2⟩ := hc f hf i i.2
  simp only [Function.comp_apply]
  rw [h2 j j.2]
  simp only [Fin.getElem_fin, h1]

/-- Bases with particle numbers: whatever configurations the strings lead to, the matrix contains exactly the elements between
configurations of the basis. -/
theorem C68_conserved (basis : List ℕ) (hb : basis.Pairwise (· > ·)) (terms : List (ℕ → Option (ℕ × ℂ)))
    (hd : ∀ f ∈ terms, ∀ s ∈ basis, (f s).isSome) :
    ∃ M, matrixOfColumns (terms.map (columnNumber basis)) basis.length = some M ∧ IsMatrixBetween basis (operatorOf terms) M := by
  apply matrix_entry
  intro f hf i hi
  obtain ⟨⟨r, m⟩, hrm⟩ := Option.isSome_iff_exists.1 (hd f hf basis[i] (List.getElem_mem hi))
  refine ⟨r, m, hrm, ?_⟩
  have hnd : basis.Nodup := hb.imp fun h => Nat.ne_of_gt h
  have hg : basis[i]? = some basis[i] := List.getElem?_eq_getElem hi
  by_cases hr : r = basis[i]
  · have e : columnNumber basis f i = some (some (i, m)) := by
      unfold columnNumber
      simp only [hg, hrm, hr, ne_eq, not_true_eq_false, if_false]
    refine ⟨by rw [e]; rfl, fun j hj => ?_⟩
    unfold entry
    rw [e]
    simp only [hr, hnd.getElem_inj_iff]
  · rcases C16_one_dimensional basis hb r with ⟨k, hk, hk'⟩ | ⟨hn, hn'⟩
    · have e : columnNumber basis f i = some (some (k, m)) := by
        unfold columnNumber
        simp only [hg, hrm, ne_eq, hr, not_false_eq_true, if_true, hk]
      refine ⟨by rw [e]; rfl, fun j hj => ?_⟩
      obtain ⟨hkl, hkr⟩ := List.getElem?_eq_some_iff.1 hk'
      unfold entry
      rw [e]
      simp only [← hkr, hnd.getElem_inj_iff]
    · have e : columnNumber basis f i = some none := by
        unfold columnNumber
        simp only [hg, hrm, ne_eq, hr, not_false_eq_true, if_true, hn]
      refine ⟨by rw [e]; rfl, fun j hj => ?_⟩
      unfold entry
      rw [e]
      rw [if_neg]
      rintro rfl
      exact hn' (List.getElem_mem hj)

/-- Bases of all configurations.  Missing for the full claim: bases without particle numbers and without doubly occupied sites,
for which it is false (`C68_fails_double_occupancy`). -/
theorem C68_all_partial (t : Option ℕ) (size : ℕ) (ht : ∀ w, t = some w → size ≤ 2 ^ w) (terms : List (ℕ → Option (ℕ × ℂ)))
    (hd : TermsWithin size terms) :
    ∃ M, matrixOfColumns (terms.map (columnFull t (List.range size).reverse)) size = some M ∧
      IsMatrixBetween (List.range size).reverse (operatorOf terms) M := by
  have hlen : (List.range size).reverse.length = size := by simp
  have hget : ∀ (i : ℕ) (hi : i < (List.range size).reverse.length), (List.range size).reverse[i] = size - 1 - i := by
    intro i hi
    rw [List.getElem_reverse, List.getElem_range, List.length_range]
  have := matrix_entry (basis := (List.range size).reverse) (terms := terms) (column := columnFull t (List.range size).reverse) (by
    intro f hf i hi
    have hi' : i < size := by omega
    obtain ⟨r, hr, m, hrm⟩ := hd f hf (size - 1 - i) (by omega)
    refine ⟨r, m, by rw [hget i hi]; exact hrm, ?_⟩
    have hg : (List.range size).reverse[i]? = some (size - 1 - i) := by rw [List.getElem?_eq_getElem hi, hget i hi]
    have hrow : (match t with
        | none => (size : Int) - (r : Int) - 1
        | some w => ((size : Int) - (r : Int) - 1) % 2 ^ w) = ((size - 1 - r : ℕ) : Int) := by
      have e : (size : Int) - (r : Int) - 1 = ((size - 1 - r : ℕ) : Int) := by omega
      cases t with
      | none => exact e
      | some w =>
        have h1 := ht w rfl
        simp only
        rw [e]
        exact_mod_cast Nat.mod_eq_of_lt (show size - 1 - r < 2 ^ w by omega)
    by_cases hm : m = 0
    · have e : columnFull t (List.range size).reverse f i = some none := by
        unfold columnFull
        simp only [hg, hrm, if_pos hm]
      refine ⟨by rw [e]; rfl, fun j hj => ?_⟩
      unfold entry
      rw [e, hm]
      simp
    · have e : columnFull t (List.range size).reverse f i = some (some (size - 1 - r, m)) := by
        unfold columnFull
        simp only [hg, hrm, if_neg hm, hlen]
        have h1 : (0 : Int) ≤ ((size - 1 - r : ℕ) : Int) ∧ ((size - 1 - r : ℕ) : Int) < (size : Int) := by omega
        cases t with
        | none =>
          simp only at hrow ⊢
          rw [hrow, if_pos h1]
          rfl
        | some w =>
          simp only at hrow ⊢
          rw [hrow, if_pos h1]
          rfl
      refine ⟨by rw [e]; rfl, fun j hj => ?_⟩
      unfold entry
      rw [e, hget j hj]
      simp only
      have : size - 1 - r = j ↔ r = size - 1 - j := by omega
      simp only [this])
  rwa [hlen] at this

/-! ### where it fails -/

/-- `n|n` on the sites 1 and 0 of two sites: acts on the configuration `0110` only (up spin on site 1, down spin on site 0), if doubly
occupied sites are excluded. -/
noncomputable def numberPair : ℕ → Option (ℕ × ℂ) := fun s => if s = 6 then some (6, 1) else some (s, 0)

/-- Two sites without doubly occupied ones, without particle numbers: the number operators of an up spin on site 1 and a down spin on
site 0 have the expectation value 1 in the configuration `0110`, but the matrix has 0 there and puts 1 elsewhere. -/
theorem C68_fails_double_occupancy :
    let basis := [12, 9, 8, 6, 4, 3, 2, 1, 0]
    basisTypeSpf 2 none = some (some 32) ∧
    plainBasis id (fun _ => 0) (2 ^ (2 * 2)) [(visited (inc1 32) (2 ^ (2 * 2)) 0).filter (spfAllowed 2 false)] = some basis ∧
    (∀ s ∈ basis, hcp1dOp true 32 4 [('n', 1), ('n', 2)] s 1 = numberPair s) ∧
    ∃ M, matrixOfColumns ([numberPair].map (columnFull (some 32) basis)) basis.length = some M ∧
      M 3 3 = 0 ∧ M 2 3 = 1 ∧ ¬ IsMatrixBetween basis (operatorOf [numberPair]) M := by
  intro basis
  refine ⟨by decide +kernel, by decide +kernel, ?_, ?_⟩
  · intro s hs
    simp only [basis, List.mem_cons, List.not_mem_nil, or_false] at hs
    rcases hs with rfl | rfl | rfl | rfl | rfl | rfl | rfl | rfl | rfl <;>
      simp [hcp1dOp, opLoop, hcp1dStep, fermionSign1d, bitCount1d, numberPair]
  · have h3 : columnFull (some 32) basis numberPair 3 = some (some (2, 1)) := by
      simp [columnFull, numberPair, basis]
    have hz : ∀ i < basis.length, (columnFull (some 32) basis numberPair i).isSome := by
      intro i hi
      by_cases h : basis[i] = 6
      · simp [columnFull, List.getElem?_eq_getElem hi, numberPair, h, basis]
      · simp [columnFull, List.getElem?_eq_getElem hi, numberPair, h]
    obtain ⟨M, hM, he⟩ := matrixOfColumns_spec ([numberPair].map (columnFull (some 32) basis)) basis.length (by
      intro c hc i hi
      obtain rfl : c = columnFull (some 32) basis numberPair := by simpa using hc
      exact hz i hi)
    have h33 : M 3 3 = 0 := by rw [he 3 3 (by decide)]; simp [entry, h3]
    have h23 : M 2 3 = 1 := by rw [he 2 3 (by decide)]; simp [entry, h3]
    refine ⟨M, hM, h33, h23, fun h => ?_⟩
    have := h ⟨3, by decide⟩ ⟨3, by decide⟩
    simp only [h33] at this
    simp [operatorOf, basis, numberPair] at this

/-! ### the hypotheses are met -/

/-- The configurations of three bosons on two sites with four levels, found by the model of the constructor. -/
example : [12, 9, 6, 3].Pairwise (· > ·) := by decide

/-- The number operator of the first of two two-level sites stays within the four configurations. -/
example : TermsWithin 4 [fun s => some (s, if s / 2 = 1 then (1 : ℂ) else 0)] := by
  intro f hf s hs
  obtain rfl : f = fun s => some (s, if s / 2 = 1 then (1 : ℂ) else 0) := by simpa using hf
  exact ⟨s, hs, _, rfl⟩

end Props
