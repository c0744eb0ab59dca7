import Verif.Props.C26

/-!
C58  The particle-conservation check accepts exactly operator lists that conserve the number of particles.

`acceptsPcon B tiny static dynamic`: `check_pcon` raises nothing.  `Spec.KeepsSum M`: the operator connects only configurations with the
same number of particles (the same magnetisation).

What holds: accepted lists conserve the number if no site occurs more often in a bond than there are states per site, discarded
couplings are zero, and all drives of the dynamic list have the same value (`C58_*_partial`).  In general the property fails in both
directions: `C58_fails_accepts`, `C58_fails_drives`, `C58_fails_rejects`.
-/

namespace Props
open Model.OpStr Spec Proof.OpStr Proof.Lattice

theorem bondsD_count {F : Type} {b : Nat} {l : List (List Char × List (ℂ × List Nat) × F)} (h : ∀ e ∈ l, ∀ bd ∈ e.2.1, ∀ i, bd.2.count i ≤ b) :
    ∀ p ∈ flattenD l, ∀ i, p.1.indx.count i ≤ b := by
  intro p hp
  obtain ⟨e, he, hp⟩ := List.mem_flatMap.1 hp
  obtain ⟨bd, hbd, rfl⟩ := List.mem_map.1 hp
  exact h e he bd hbd

/-- Spins 1/2; `x` and `y` may occur.
Missing: strings that repeat a site more often than there are levels, several drives, and lists whose terms cancel (`C58_fails_accepts`, `C58_fails_drives`, `C58_fails_rejects`). -/
theorem C58_spin_half_partial {F : Type} (N : Nat) (p : Int) (hp : p = 0 ∨ p = 1 ∨ p = -1) (tiny : ℂ → Prop) (ht : ∀ J, tiny J → J = 0)
    (static : OpList) (dynamic : List (List Char × List (ℂ × List Nat) × F)) (hs : ∀ e ∈ static, ∀ bd ∈ e.2, ∀ i, bd.2.count i ≤ 2)
    (hd : ∀ e ∈ dynamic, ∀ bd ∈ e.2.1, ∀ i, bd.2.count i ≤ 2) (h : acceptsPcon (spinBasis 2 p) tiny static dynamic) :
    KeepsSum (listOp (siteOp 2 N (pauliMatrix p)) static) ∧
      ∀ x : F → ℂ, (∀ e ∈ dynamic, ∀ e' ∈ dynamic, x e.2.2 = x e'.2.2) → KeepsSum (drivenOp (siteOp 2 N (pauliMatrix p)) x dynamic) :=
  (expands_spinHalf hp N).pcon ht (fun op hop => ⟨trivial, bonds_count hs op hop⟩) (fun q hq => ⟨trivial, bondsD_count hd q hq⟩) h

/-- Other spins and bosons.
Missing: strings that repeat a site more often than there are levels, several drives, and lists whose terms cancel (`C58_fails_accepts`, `C58_fails_drives`, `C58_fails_rejects`). -/
theorem C58_sites_partial {F : Type} (b N : Nat) (hb : 0 < b) (u : Char → Nat → Nat → ℂ) (hu : Ladder u) (B : Basis)
    (hB : B = bosonBasis b ∨ ∃ p, B = spinBasis b p) (tiny : ℂ → Prop) (ht : ∀ J, tiny J → J = 0)
    (static : OpList) (dynamic : List (List Char × List (ℂ × List Nat) × F)) (hs : ∀ e ∈ static, ∀ bd ∈ e.2, ∀ i, bd.2.count i ≤ b)
    (hd : ∀ e ∈ dynamic, ∀ bd ∈ e.2.1, ∀ i, bd.2.count i ≤ b) (hs' : ∀ e ∈ static, ∀ c ∈ e.1, c ≠ 'x' ∧ c ≠ 'y')
    (hd' : ∀ e ∈ dynamic, ∀ c ∈ e.1, c ≠ 'x' ∧ c ≠ 'y') (h : acceptsPcon B tiny static dynamic) :
    KeepsSum (listOp (siteOp b N u) static) ∧
      ∀ x : F → ℂ, (∀ e ∈ dynamic, ∀ e' ∈ dynamic, x e.2.2 = x e'.2.2) → KeepsSum (drivenOp (siteOp b N u) x dynamic) := by
  rcases hB with rfl | ⟨p, rfl⟩
  · exact (expands_boson hb hu N).pcon ht (fun op hop => ⟨bonds_plain hs' op hop, bonds_count hs op hop⟩)
      (fun q hq => ⟨letters_flattenD hd' q hq, bondsD_count hd q hq⟩) h
  · exact (expands_spin hb hu p N).pcon ht (fun op hop => ⟨bonds_plain hs' op hop, bonds_count hs op hop⟩)
      (fun q hq => ⟨letters_flattenD hd' q hq, bondsD_count hd q hq⟩) h

/-- Spinless fermions.
Missing: strings that repeat a site more often than there are levels, several drives, and lists whose terms cancel (`C58_fails_accepts`, `C58_fails_drives`, `C58_fails_rejects`). -/
theorem C58_fermion_partial {F : Type} (N : Nat) (tiny : ℂ → Prop) (ht : ∀ J, tiny J → J = 0)
    (static : OpList) (dynamic : List (List Char × List (ℂ × List Nat) × F)) (hs : ∀ e ∈ static, ∀ bd ∈ e.2, ∀ i, bd.2.count i ≤ 2)
    (hd : ∀ e ∈ dynamic, ∀ bd ∈ e.2.1, ∀ i, bd.2.count i ≤ 2) (hs' : ∀ e ∈ static, ∀ c ∈ e.1, c ≠ 'x' ∧ c ≠ 'y')
    (hd' : ∀ e ∈ dynamic, ∀ c ∈ e.1, c ≠ 'x' ∧ c ≠ 'y') (h : acceptsPcon fermionBasis tiny static dynamic) :
    KeepsSum (listOp (fermionOp N) static) ∧
      ∀ x : F → ℂ, (∀ e ∈ dynamic, ∀ e' ∈ dynamic, x e.2.2 = x e'.2.2) → KeepsSum (drivenOp (fermionOp N) x dynamic) :=
  (expands_fermion N).pcon ht (fun op hop => ⟨bonds_plain hs' op hop, bonds_count hs op hop⟩)
    (fun q hq => ⟨letters_flattenD hd' q hq, bondsD_count hd q hq⟩) h

/-- The hypotheses hold for the hopping on two sites, and for a driven interaction. -/
example : acceptsPcon (F := Unit) fermionBasis (fun J => J = 0) [(['+', '-'], [(1, [0, 1]), (1, [1, 0])])] [(['n', 'n'], [(1, [0, 1])], ())] := by
  have h1 : localList fermionBasis [(['+', '-'], [(1, [0, 1]), (1, [1, 0])])] = some [⟨['+', '-'], [0, 1], 1⟩, ⟨['-', '+'], [0, 1], -1⟩] := by
    simp [localList, flatten, fermionBasis, sortFermion, bubble, sweep, ladder]
  have h2 : expandList fermionBasis ([(⟨['+', '-'], [0, 1], 1⟩ : Op), ⟨['-', '+'], [0, 1], -1⟩].map fun o => (o, ())) =
      some [(⟨['+', '-'], [0, 1], 1⟩, ()), (⟨['-', '+'], [0, 1], -1⟩, ())] := by
    rw [expandList_total (B := fermionBasis) (ex := expandNone) (nz := nonZero 1) rfl rfl]
    simp [expandNone, nonZero, sitesOf, fermionBasis, sortFermion, bubble, sweep]
  have h3 : localDynamic fermionBasis [(['n', 'n'], [(1, [0, 1])], ())] = some [(⟨['n', 'n'], [0, 1], 1⟩, ())] := by
    simp [localDynamic, fermionBasis, sortFermion, bubble, sweep]
  have h4 : expandList fermionBasis [((⟨['n', 'n'], [0, 1], 1⟩ : Op), ())] = some [(⟨['n', 'n'], [0, 1], 1⟩, ())] := by
    rw [expandList_total (B := fermionBasis) (ex := expandNone) (nz := nonZero 1) rfl rfl]
    simp [expandNone, nonZero, sitesOf, fermionBasis, sortFermion, bubble, sweep]
  refine ⟨_, _, _, _, h1, h2, h3, h4, ?_, ?_⟩
  · simp [consolidate, consolidateStep]
  · simp [consolidate, consolidateStep]

/-! ### Failures -/

/-- `xxx` on one site is accepted; it does not conserve the magnetisation. -/
theorem C58_fails_accepts (tiny : ℂ → Prop) : acceptsPcon (F := Unit) (spinBasis 2 0) tiny [(['x', 'x', 'x'], [(1, [1, 1, 1])])] [] ∧
    ¬KeepsSum (listOp (siteOp 2 2 (pauliMatrix 0)) [(['x', 'x', 'x'], [(1, [1, 1, 1])])]) := by
  refine ⟨?_, ?_⟩
  · have h1 : localList (spinBasis 2 0) [(['x', 'x', 'x'], [(1, [1, 1, 1])])] = some [⟨['x', 'x', 'x'], [1, 1, 1], 1⟩] := by
      simp [localList, flatten, spinBasis, sortSite, List.insertionSort]
    have h2 : expandList (spinBasis 2 0) ([(⟨['x', 'x', 'x'], [1, 1, 1], 1⟩ : Op)].map fun o => (o, ())) = some [] := by
      rw [expandList_total (B := spinBasis 2 0) (ex := expandSpin 0) (nz := nonZero 1) rfl rfl]
      have : (expandSpin 0 ⟨['x', 'x', 'x'], [1, 1, 1], 1⟩).filter (nonZero 1) = [] := by
        simp [expandSpin, expandChar, nonZero, sitesOf]
      simp [this]
    exact ⟨_, _, [], [], h1, h2, rfl, rfl, by simp [consolidate], by simp [consolidate]⟩
  · intro h
    have hne : listOp (siteOp 2 2 (pauliMatrix 0)) [(['x', 'x', 'x'], [(1, [1, 1, 1])])] ![0, 1] ![0, 0] ≠ 0 := by
      simp only [listOp, term, opWord, List.zip_cons_cons, List.zip_nil_right, List.map_cons, List.map_nil, List.prod_cons, List.prod_nil, mul_one, one_smul,
        List.sum_cons, List.sum_nil, add_zero]
      rw [siteOp, dif_pos (by decide), onSite_mul, Fin.sum_univ_two, onSite_mul, onSite_mul, Fin.sum_univ_two, Fin.sum_univ_two]
      simp [onSite, pauliMatrix, spinHalf, Fin.forall_fin_two]
    have := h _ _ hne
    simp at this

/-- `+` with a drive `f` and `-1` times `+` with a drive `g` is accepted; it does not conserve the magnetisation if `f ≠ g`. -/
theorem C58_fails_drives : acceptsPcon (spinBasis 2 0) (fun J => J = 0) [] [(['+'], [(1, [0])], true), (['+'], [(-1, [0])], false)] ∧
    ∃ x : Bool → ℂ, ¬KeepsSum (drivenOp (siteOp 2 1 (pauliMatrix 0)) x [(['+'], [(1, [0])], true), (['+'], [(-1, [0])], false)]) := by
  refine ⟨?_, fun f => if f then 1 else 0, ?_⟩
  · have h1 : localDynamic (spinBasis 2 0) [(['+'], [(1, [0])], true), (['+'], [(-1, [0])], false)] = some [(⟨['+'], [0], 1⟩, true), (⟨['+'], [0], -1⟩, false)] := by
      simp [localDynamic, spinBasis, sortSite]
    have h2 : expandList (spinBasis 2 0) [((⟨['+'], [0], 1⟩ : Op), true), (⟨['+'], [0], -1⟩, false)] = some [(⟨['+'], [0], 1⟩, true), (⟨['+'], [0], -1⟩, false)] := by
      rw [expandList_total (B := spinBasis 2 0) (ex := expandSpin 0) (nz := nonZero 1) rfl rfl]
      have e : ∀ J : ℂ, expandSpin 0 ⟨['+'], [0], J⟩ = [⟨['+'], [0], J⟩] := by intro J; simp [expandSpin, expandChar]
      simp [e, nonZero, spinBasis, sortSite]
    exact ⟨[], [], _, _, rfl, rfl, h1, h2, by simp [consolidate], by simp [consolidate, consolidateStep]⟩
  · intro h
    have hne : drivenOp (siteOp 2 1 (pauliMatrix 0)) (fun f : Bool => if f then 1 else 0) [(['+'], [(1, [0])], true), (['+'], [(-1, [0])], false)] ![1] ![0] ≠ 0 := by
      simp [drivenOp, term, opWord, siteOp, onSite, pauliMatrix, spinHalf]
    have := h _ _ hne
    simp at this

/-- `+z` and `z+` on one site are rejected; their sum is zero. -/
theorem C58_fails_rejects (N : Nat) : ¬acceptsPcon (F := Unit) (spinBasis 2 0) (fun J => J = 0) [(['+', 'z'], [(1, [0, 0])]), (['z', '+'], [(1, [0, 0])])] [] ∧
    listOp (siteOp 2 N (pauliMatrix 0)) [(['+', 'z'], [(1, [0, 0])]), (['z', '+'], [(1, [0, 0])])] = 0 := by
  refine ⟨?_, ?_⟩
  · rintro ⟨s, se, d, de, k1, k2, -, -, k5, -⟩
    have h1 : localList (spinBasis 2 0) [(['+', 'z'], [(1, [0, 0])]), (['z', '+'], [(1, [0, 0])])] = some [⟨['+', 'z'], [0, 0], 1⟩, ⟨['z', '+'], [0, 0], 1⟩] := by
      simp [localList, flatten, spinBasis, sortSite, List.insertionSort]
    rw [h1] at k1
    cases k1
    have h2 : expandList (spinBasis 2 0) ([(⟨['+', 'z'], [0, 0], 1⟩ : Op), ⟨['z', '+'], [0, 0], 1⟩].map fun o => (o, ())) =
        some [(⟨['+', 'z'], [0, 0], 1⟩, ()), (⟨['z', '+'], [0, 0], 1⟩, ())] := by
      rw [expandList_total (B := spinBasis 2 0) (ex := expandSpin 0) (nz := nonZero 1) rfl rfl]
      have e1 : expandSpin 0 ⟨['+', 'z'], [0, 0], 1⟩ = [⟨['+', 'z'], [0, 0], 1⟩] := by simp [expandSpin, expandChar]
      have e2 : expandSpin 0 ⟨['z', '+'], [0, 0], 1⟩ = [⟨['z', '+'], [0, 0], 1⟩] := by simp [expandSpin, expandChar]
      simp [e1, e2, nonZero, spinBasis, sortSite, List.insertionSort]
    rw [h2] at k2
    cases k2
    have := k5 (⟨['+', 'z'], [0, 0], 1⟩, ()) (by simp [consolidate, consolidateStep])
    simp at this
  · by_cases hN : 0 < N
    · ext t s
      simp only [listOp, term, opWord, List.zip_cons_cons, List.zip_nil_right, List.map_cons, List.map_nil, List.prod_cons, List.prod_nil, mul_one, one_smul,
        List.sum_cons, List.sum_nil, add_zero, Matrix.add_apply, Matrix.zero_apply]
      rw [siteOp, dif_pos hN, siteOp, dif_pos hN, onSite_mul, onSite_mul, Fin.sum_univ_two, Fin.sum_univ_two]
      have e : ∀ a : Fin 2, (∀ j, j ≠ (⟨0, hN⟩ : Fin N) → Function.update t ⟨0, hN⟩ a j = s j) ↔ ∀ j, j ≠ (⟨0, hN⟩ : Fin N) → t j = s j := by
        intro a
        exact forall_congr' fun j => ⟨fun h hj => by rw [← h hj, Function.update_of_ne hj], fun h hj => by rw [Function.update_of_ne hj, h hj]⟩
      simp only [onSite, e, Function.update_self]
      by_cases hj : ∀ j, j ≠ (⟨0, hN⟩ : Fin N) → t j = s j
      · simp only [if_pos hj]
        rcases (by omega : t ⟨0, hN⟩ = 0 ∨ t ⟨0, hN⟩ = 1) with ht | ht <;> rcases (by omega : s ⟨0, hN⟩ = 0 ∨ s ⟨0, hN⟩ = 1) with hs | hs <;>
          simp [ht, hs, pauliMatrix, spinHalf]
      · simp only [if_neg hj]; simp
    · simp [listOp, term, opWord, siteOp, hN]

end Props
