import Verif.Proof.PartialTrace
import Mathlib.Tactic.NormNum
import Mathlib.Analysis.Complex.Basic

/-!
C29: partial traces.

`A` and `B` list the sites of the two subsystems, together every site once.  `row` is the place of a configuration in the full basis,
`partialTrace` the reduced density matrix.
-/

namespace Props
open Spec.PartialTrace Model.PartialTrace Proof.PartialTrace

section
variable {L d : ℕ}

/-- `_shuffle_sites` for a reordering `T` of the sites moves the entry of the configuration `s` to the place of the reordered configuration,
and this is a bijection of places. -/
theorem C29_reorder (T : List (Fin L)) (hT : T.Perm (List.finRange L)) (hL : L ≤ 64) (X : ℕ → ℂ) :
    ∃ Y, shuffle d (T.map Fin.val) (d ^ L) X = some Y ∧
      (∀ s : Config L d, Y (position d (T.map fun i => (s i : ℕ))) = X (row s)) ∧
      (∀ m < d ^ L, ∃! s : Config L d, position d (T.map fun i => (s i : ℕ)) = m) := by
  have hp : (T.map Fin.val).Perm (List.range L) := by
    have := hT.map Fin.val
    rwa [List.map_coe_finRange_eq_range] at this
  obtain ⟨Y, hY, he⟩ := shuffle_config (d := d) hp hL X
  have hmap (s : Config L d) : (T.map Fin.val).map (fun i => if hi : i < L then (s ⟨i, hi⟩ : ℕ) else 0) = T.map fun i => (s i : ℕ) := by
    rw [List.map_map]
    refine List.map_congr_left fun i _ => ?_
    simp
  have hlen : T.length = L := by simpa using hT.length_eq
  refine ⟨Y, hY, fun s => ?_, fun m hm => ?_⟩
  · have := he (fun i => if hi : i < L then (s ⟨i, hi⟩ : ℕ) else 0) (by
      intro i hi
      rw [dif_pos hi]
      exact (s ⟨i, hi⟩).2)
    rwa [hmap, ← row_range] at this
  · have hbound (s : Config L d) : ∀ x ∈ T.map fun i => (s i : ℕ), x < d := by
      intro x hx
      obtain ⟨i, -, rfl⟩ := List.mem_map.mp hx
      exact (s i).2
    have hinj : Function.Injective fun s : Config L d => position d (T.map fun i => (s i : ℕ)) := by
      intro s t hst
      have := position_inj d _ _ (by simp) (hbound s) (hbound t) hst
      rw [List.map_inj_left] at this
      funext i
      exact Fin.ext (this i (hT.mem_iff.mpr (List.mem_finRange i)))
    have hsurj : ∃ s : Config L d, position d (T.map fun i => (s i : ℕ)) = m := by
      let f : Config L d → Fin (d ^ L) := fun s => ⟨position d (T.map fun i => (s i : ℕ)), by
        have := position_lt d _ (hbound s)
        rwa [List.length_map, hlen] at this⟩
      have hf : Function.Injective f := fun s t hst => hinj (congrArg Fin.val hst)
      have hb := (Fintype.bijective_iff_injective_and_card f).mpr ⟨hf, by simp⟩
      obtain ⟨s, hs⟩ := hb.2 ⟨m, hm⟩
      exact ⟨s, congrArg Fin.val hs⟩
    obtain ⟨s, hs⟩ := hsurj
    exact ⟨s, hs, fun t ht => hinj (ht.trans hs.symm)⟩

variable {A B : List (Fin L)} (h : (A ++ B).Perm (List.finRange L))
include h

/-- Pure states: the first matrix is the partial trace over the other sites.  Partial: the second one is the complex conjugate of the partial
trace over the sites of `A` (`C29_fails_conjugate`). -/
theorem C29_pure_partial (hL : L ≤ 64) (psi : ℕ → ℂ) :
    ∃ rA rB, tracePure d (A.map Fin.val) (B.map Fin.val) (d ^ L) psi = some (rA, rB) ∧
      (∀ a a' : Config A.length d, rA (row a) (row a') = partialTrace (projector fun s => psi (row s)) A a a') ∧
      (∀ b b' : Config B.length d, rB (row b) (row b') = star (partialTrace (projector fun s => psi (row s)) B b b')) := by
  obtain ⟨v, hv, he⟩ := reshapePure_config (d := d) h hL psi
  have hj (a : Config A.length d) (b : Config B.length d) : v (row a) (row b) = psi (row ((split h).symm (a, b))) := by
    rw [← he]
    congr 2 <;> congr 1 <;> funext p
    · exact (join_left h a b p).symm
    · exact (join_right h a b p).symm
  refine ⟨_, _, by rw [tracePure, hv, Option.map_some], fun a a' => ?_, fun b b' => ?_⟩
  · rw [partialTrace_left h, List.length_map, sum_rows]
    refine Finset.sum_congr rfl fun b _ => ?_
    rw [hj, hj]
    rfl
  · rw [partialTrace_right h, List.length_map, sum_rows, star_sum]
    refine Finset.sum_congr rfl fun a _ => ?_
    rw [hj, hj]
    simp [projector]

/-- The trace is the squared norm of the state. -/
theorem C29_trace (hL : L ≤ 64) (psi : ℕ → ℂ) :
    ∃ rA rB, tracePure d (A.map Fin.val) (B.map Fin.val) (d ^ L) psi = some (rA, rB) ∧
      ∑ i ∈ Finset.range (d ^ A.length), rA i i = ∑ i ∈ Finset.range (d ^ L), (Complex.normSq (psi i) : ℂ) ∧
      ∑ i ∈ Finset.range (d ^ B.length), rB i i = ∑ i ∈ Finset.range (d ^ L), (Complex.normSq (psi i) : ℂ) := by
  obtain ⟨rA, rB, hr, h1, h2⟩ := C29_pure_partial (d := d) h hL psi
  refine ⟨rA, rB, hr, ?_, ?_⟩
  · rw [sum_rows, sum_rows]
    simp only [h1, partialTrace_left h]
    rw [← Equiv.sum_comp (split h).symm, Fintype.sum_prod_type]
    refine Finset.sum_congr rfl fun a _ => Finset.sum_congr rfl fun b _ => ?_
    exact Complex.mul_conj _
  · rw [sum_rows, sum_rows]
    simp only [h2, partialTrace_right h, star_sum]
    rw [Finset.sum_comm, ← Equiv.sum_comp (split h).symm, Fintype.sum_prod_type]
    refine Finset.sum_congr rfl fun a _ => Finset.sum_congr rfl fun b _ => ?_
    simp only [projector, star_mul', star_star]
    rw [mul_comm]
    exact Complex.mul_conj _

/-- Mixed states: the same, for every density matrix.
Missing: the matrix of the rest is the complex conjugate (`C29_fails_conjugate`). -/
theorem C29_mixed_partial (hL : 2 * L ≤ 64) (rho : ℕ → ℕ → ℂ) :
    ∃ rA rB, traceMixed d L (A.map Fin.val) (B.map Fin.val) (d ^ L) rho = some (rA, rB) ∧
      (∀ a a' : Config A.length d, rA (row a) (row a') = partialTrace (fun s t => rho (row s) (row t)) A a a') ∧
      (∀ b b' : Config B.length d, rB (row b) (row b') = star (partialTrace (fun s t => rho (row s) (row t)) B b b')) := by
  obtain ⟨v, hv, he⟩ := reshapeMixed_config (d := d) h hL rho
  have hj (a a' : Config A.length d) (b b' : Config B.length d) :
      v (row a) (row b) (row a') (row b') = rho (row ((split h).symm (a, b))) (row ((split h).symm (a', b'))) := by
    rw [← he]
    congr 2 <;> congr 1 <;> funext p
    · exact (join_left h a b p).symm
    · exact (join_right h a b p).symm
    · exact (join_left h a' b' p).symm
    · exact (join_right h a' b' p).symm
  refine ⟨_, _, by rw [traceMixed, hv, Option.map_some], fun a a' => ?_, fun b b' => ?_⟩
  · rw [partialTrace_left h, List.length_map, sum_rows]
    refine Finset.sum_congr rfl fun b _ => ?_
    rw [hj]
  · rw [partialTrace_right h, List.length_map, sum_rows, star_sum]
    refine Finset.sum_congr rfl fun a _ => ?_
    rw [hj]

/-- The mixed-state routine agrees with the pure-state routine on projectors. -/
theorem C29_agree (hL : 2 * L ≤ 64) (psi : ℕ → ℂ) :
    ∃ rA rB rA' rB', tracePure d (A.map Fin.val) (B.map Fin.val) (d ^ L) psi = some (rA, rB) ∧
      traceMixed d L (A.map Fin.val) (B.map Fin.val) (d ^ L) (fun i j => psi i * star (psi j)) = some (rA', rB') ∧
      (∀ i < d ^ A.length, ∀ j < d ^ A.length, rA i j = rA' i j) ∧ (∀ i < d ^ B.length, ∀ j < d ^ B.length, rB i j = rB' i j) := by
  obtain ⟨rA, rB, hr, h1, h2⟩ := C29_pure_partial (d := d) h (by omega) psi
  obtain ⟨rA', rB', hr', h1', h2'⟩ := C29_mixed_partial (d := d) h hL fun i j => psi i * star (psi j)
  refine ⟨rA, rB, rA', rB', hr, hr', fun i hi j hj => ?_, fun i hi j hj => ?_⟩
  · obtain ⟨a, rfl⟩ := row_surjective i hi
    obtain ⟨a', rfl⟩ := row_surjective j hj
    rw [h1, h1']
    rfl
  · obtain ⟨b, rfl⟩ := row_surjective i hi
    obtain ⟨b', rfl⟩ := row_surjective j hj
    rw [h2, h2']
    rfl

/-- A sparse state with the stored entries `psi` gives the same matrices.  Partial: the division has to be exact
(`C29_fails_quotient`). -/
theorem C29_sparse_partial (psi : List (ℕ × ℂ)) (hpsi : ∀ e ∈ psi, e.1 < d ^ L) (quotient : ℕ → ℕ → ℕ)
    (hq : ∀ m < d ^ L, quotient m (d ^ B.length) = m / d ^ B.length) :
    let full : Config L d → ℂ := fun s => ((psi.filter fun e => e.1 = row s).map Prod.snd).sum
    let r := traceSparse quotient d L (A.map Fin.val) (B.map Fin.val) psi
    (∀ a a' : Config A.length d, r.1 (row a) (row a') = partialTrace (projector full) A a a') ∧
      (∀ b b' : Config B.length d, r.2 (row b) (row b') = star (partialTrace (projector full) B b b')) := by
  intro full r
  have hentry (a : Config A.length d) (b : Config B.length d) :
      (((reshapeSparse quotient d L (A.map Fin.val) (B.map Fin.val) psi).filter fun e => e.1 = row a ∧ e.2.1 = row b).map fun e => e.2.2).sum =
        full ((split h).symm (a, b)) := by
    unfold reshapeSparse
    rw [List.filter_map, List.map_map]
    simp only [full]
    congr 1
    refine congrArg (List.map _) (List.filter_congr fun e he => ?_)
    simp only [Function.comp_apply, decide_eq_decide]
    obtain ⟨s, hs⟩ := row_surjective e.1 (hpsi e he)
    have hidx : sparseIndex d L (A.map Fin.val ++ B.map Fin.val) e.1 = row (s ∘ A.get) * d ^ B.length + row (s ∘ B.get) := by
      rw [← hs, row_range, sparseIndex_config (sites_perm h), row_split h]
      intro i hi
      rw [dif_pos hi]
      exact (s ⟨i, hi⟩).2
    have hlt := row_lt (s ∘ B.get)
    have hlt' := row_lt (s ∘ A.get)
    have hlen := length_add h
    have hm : row (s ∘ A.get) * d ^ B.length + row (s ∘ B.get) < d ^ L := by
      calc _ < row (s ∘ A.get) * d ^ B.length + d ^ B.length := by omega
        _ = (row (s ∘ A.get) + 1) * d ^ B.length := by ring
        _ ≤ d ^ A.length * d ^ B.length := Nat.mul_le_mul_right _ hlt'
        _ = d ^ L := by rw [← pow_add, hlen]
    rw [List.length_map, hidx, hq _ hm, ← hs]
    have hd : (row (s ∘ A.get) * d ^ B.length + row (s ∘ B.get)) / d ^ B.length = row (s ∘ A.get) := by
      rw [mul_comm, Nat.mul_add_div (by omega), Nat.div_eq_of_lt hlt, add_zero]
    have hmod : (row (s ∘ A.get) * d ^ B.length + row (s ∘ B.get)) % d ^ B.length = row (s ∘ B.get) := by
      rw [mul_comm, Nat.mul_add_mod, Nat.mod_eq_of_lt hlt]
    rw [hd, hmod]
    constructor
    · rintro ⟨h1, h2⟩
      rw [← row_injective h1, ← row_injective h2]
      congr 1
      exact ((split h).symm_apply_apply s).symm
    · intro h1
      have h1 := row_injective h1
      subst h1
      exact ⟨congrArg row (funext fun p => join_left h a b p), congrArg row (funext fun p => join_right h a b p)⟩
  constructor
  · intro a a'
    simp only [r, traceSparse]
    rw [partialTrace_left h, List.length_map, sum_rows]
    refine Finset.sum_congr rfl fun b _ => ?_
    rw [hentry, hentry]
    rfl
  · intro b b'
    simp only [r, traceSparse]
    rw [partialTrace_right h, List.length_map, sum_rows, star_sum]
    refine Finset.sum_congr rfl fun a _ => ?_
    rw [hentry, hentry]
    simp [projector]

end

/-! ### Defects -/

/-- The state `|0⟩ ⊗ (|0⟩ + i|1⟩)` of two sites with two levels each. -/
noncomputable def yState : ℕ → ℂ := fun m => if m = 0 then 1 else if m = 1 then Complex.I else 0

/-- The reduced density matrix of the second site is returned as its complex conjugate. -/
theorem C29_fails_conjugate : ∃ rA rB, tracePure 2 [0] [1] 4 yState = some (rA, rB) ∧ rB 0 1 = Complex.I ∧
    partialTrace (projector fun s : Config 2 2 => yState (row s)) [1] ![0] ![1] = -Complex.I := by
  have h : ([0] ++ [1] : List (Fin 2)).Perm (List.finRange 2) := by decide
  obtain ⟨rA, rB, hr, -, h2⟩ := C29_pure_partial (d := 2) h (by norm_num) yState
  have hv : partialTrace (projector fun s : Config 2 2 => yState (row s)) [1] ![0] ![1] = -Complex.I := by
    rw [partialTrace_right h]
    have hj (a b : Fin 2) : (split h).symm ((![a] : Config 1 2), (![b] : Config 1 2)) = ![a, b] := by
      rw [Equiv.symm_apply_eq, split_apply]
      refine Prod.ext (funext fun p => ?_) (funext fun p => ?_)
      · have : p = (0 : Fin 1) := Subsingleton.elim (α := Fin 1) _ _
        subst this; rfl
      · have : p = (0 : Fin 1) := Subsingleton.elim (α := Fin 1) _ _
        subst this; rfl
    have hsum (f : Config 1 2 → ℂ) : ∑ a, f a = f ![0] + f ![1] := by
      rw [← Equiv.sum_comp (Equiv.funUnique (Fin 1) (Fin 2)).symm, Fin.sum_univ_two]
      congr 2 <;> (funext p; fin_cases p; rfl)
    refine (hsum _).trans ?_
    rw [hj, hj, hj, hj]
    have r00 : row (![0, 0] : Config 2 2) = 0 := by decide
    have r01 : row (![0, 1] : Config 2 2) = 1 := by decide
    have r10 : row (![1, 0] : Config 2 2) = 2 := by decide
    have r11 : row (![1, 1] : Config 2 2) = 3 := by decide
    simp only [projector, r00, r01, r10, r11]
    simp [yState]
  refine ⟨rA, rB, hr, ?_, hv⟩
  have := h2 ![0] ![1]
  rw [hv] at this
  have r0 : row (![0] : Config 1 2) = 0 := by decide
  have r1 : row (![1] : Config 1 2) = 1 := by decide
  have e : rB (row (![0] : Config 1 2)) (row (![1] : Config 1 2)) = star (-Complex.I) := this
  rw [r0, r1] at e
  rw [e]
  simp

/-- The row of an entry is computed with double precision numbers: for 54 sites the last configuration gets the row 2 of a matrix with two
rows. -/
theorem C29_fails_quotient :
    reshapeSparse doubleQuotient 2 54 [0] ((List.range 53).map (· + 1)) [(2 ^ 54 - 1, (1 : ℂ))] = [(2, 2 ^ 53 - 1, 1)] := by
  have hT : [0] ++ (List.range 53).map (· + 1) = List.range 54 := by decide
  have hi : sparseIndex 2 54 ([0] ++ (List.range 53).map (· + 1)) (2 ^ 54 - 1) = 2 ^ 54 - 1 := by
    unfold sparseIndex
    rw [if_neg (by simpa using hT)]
  have hl : ((List.range 53).map (· + 1)).length = 53 := by simp
  have hq : doubleQuotient (2 ^ 54 - 1) (2 ^ 53) = 2 := by decide +kernel
  simp only [reshapeSparse, List.map_cons, List.map_nil, hi, hl, hq]
  norm_num

theorem partialTrace_delta {L d : ℕ} (s : Config L d) (S : List (Fin L)) (a b : Config S.length d) :
    partialTrace (projector fun t => if t = s then 1 else 0) S a b =
      if (∀ p, s (S.get p) = a p) ∧ (∀ p, s (S.get p) = b p) then 1 else 0 := by
  unfold partialTrace projector
  rw [Finset.sum_eq_single s, Finset.sum_eq_single s]
  · simp
  · intro t _ ht; simp [ht]
  · simp
  · intro t _ ht; simp [ht]
  · simp

/-- Python walks through `set(range(9)) - set((0,2,3,4,5,6,7))` as `(8, 1)`: the second matrix then is the one for the sites in this order,
not in ascending order, whatever `subsys_ordering` says.  The two differ, e.g. for the state with only site 1 excited. -/
theorem C29_fails_order : ∃ s : Config 9 2,
    partialTrace (projector fun t => if t = s then 1 else 0) [8, 1] ![1, 0] ![1, 0] ≠
      partialTrace (projector fun t => if t = s then 1 else 0) [1, 8] ![1, 0] ![1, 0] := by
  refine ⟨fun i => if i = 1 then 1 else 0, ?_⟩
  rw [partialTrace_delta, partialTrace_delta, if_neg, if_pos]
  · exact zero_ne_one
  · decide
  · decide

/-! ### Non-vacuity -/

example : ([2, 0] ++ [1, 3] : List (Fin 4)).Perm (List.finRange 4) := by decide

example : reduce [2, 0, 1, 3] 2 = ([1, 0, 2], [4, 2, 2]) := by decide

end Props
