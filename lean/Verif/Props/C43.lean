import Verif.Props.C30

/-!
C43: photon bases with a conserved total number.

The states of the sector are `|r, Ntot - Np r⟩`, where `r` runs through the states of the particle basis and `Np r ≤ Ntot` is the number of
particles.  The particle string gives the matrix `A`, the photon string stands for the operator `X` on all levels.
-/

namespace Props
open Model.Tensor Spec.Kronecker Proof.Tensor
open Spec.Oscillator (string element)

/-- Photon strings change the level by the number of `+` minus the number of `-`. -/
theorem element_shift (opstr : List Char) (X : Spec.Oscillator.Vec →ₗ[ℂ] Spec.Oscillator.Vec) (hX : string opstr = some X) (m c : ℕ)
    (h : element X m c ≠ 0) : m + opstr.count '-' = c + opstr.count '+' := by
  have key : ∀ (opstr : List Char) X, string opstr = some X → ∃ k z, X (Finsupp.single c 1) = Finsupp.single k z ∧
      (z ≠ 0 → k + opstr.count '-' = c + opstr.count '+') := by
    intro opstr
    induction opstr with
    | nil =>
      intro X hX
      obtain rfl := Option.some.inj hX
      exact ⟨c, 1, by simp, by simp⟩
    | cons o os ih =>
      intro X hX
      unfold string at hX
      obtain ⟨x, hx, hX⟩ := Option.bind_eq_some_iff.mp hX
      obtain ⟨Y, hY, rfl⟩ := Option.map_eq_some_iff.mp hX
      obtain ⟨k, z, e, hz⟩ := ih Y hY
      rw [LinearMap.comp_apply, e]
      unfold Spec.Oscillator.symbol at hx
      split at hx
      · obtain rfl := Option.some.inj hx
        exact ⟨k, z, rfl, by simpa using hz⟩
      · obtain rfl := Option.some.inj hx
        rw [number_single]
        refine ⟨k, _, rfl, fun h => ?_⟩
        have := hz (left_ne_zero_of_mul h)
        simpa using this
      · obtain rfl := Option.some.inj hx
        rw [raise_single]
        refine ⟨k + 1, _, rfl, fun h => ?_⟩
        have := hz (left_ne_zero_of_mul h)
        rw [List.count_cons_self, List.count_cons_of_ne (by decide)]
        omega
      · obtain rfl := Option.some.inj hx
        rw [lower_single]
        refine ⟨k - 1, _, rfl, fun h => ?_⟩
        have h1 := hz (left_ne_zero_of_mul h)
        have h2 : k ≠ 0 := by
          rintro rfl
          simp at h
        rw [List.count_cons_self, List.count_cons_of_ne (by decide)]
        omega
      · exact absurd hx (by simp)
  obtain ⟨k, z, e, hz⟩ := key opstr X hX
  unfold element at h
  rw [e, Finsupp.single_apply] at h
  by_cases hk : k = m
  · subst hk
    rw [if_pos rfl] at h
    exact hz h
  · rw [if_neg hk] at h
    exact absurd rfl h

theorem photons_getElem {Ntot : ℕ} (hN : Ntot < 128) {Np : List ℕ} (hNp : ∀ p ∈ Np, p ≤ Ntot) (c : ℕ) (hc : c < Np.length) :
    item (photons Ntot Np) (c : ℤ) = some ((Ntot - Np[c] : ℕ) : ℤ) := by
  have hp := hNp _ (List.getElem_mem hc)
  unfold item photons
  rw [if_pos (by omega), Int.toNat_natCast, List.getElem?_map, List.getElem?_eq_getElem hc, Option.map_some]
  have e1 : Int.bmod ((Np[c] : ℤ) - Ntot) (2 ^ 8) = (Np[c] : ℤ) - Ntot := bmod_eq (w := 7) (by omega) (by omega)
  have e2 : Int.bmod (((Np[c] : ℤ) - Ntot) * -1) (2 ^ 8) = ((Np[c] : ℤ) - Ntot) * -1 := bmod_eq (w := 7) (by omega) (by omega)
  rw [e1, e2]
  congr 1
  omega

open Classical in
theorem entry_filter (l : List (ℂ × ℤ × ℤ)) (r c : ℤ) : entry (l.filter fun t => t.1 ≠ 0) r c = entry l r c := by
  rw [entry_sum, entry_sum]
  induction l with
  | nil => rfl
  | cons t l ih =>
    rw [List.filter_cons]
    by_cases h : t.1 = 0
    · rw [if_neg (by simpa using h), ih, List.map_cons, List.sum_cons, h, ite_self, zero_add]
    · rw [if_pos (by simpa using h), List.map_cons, List.sum_cons, ih, List.map_cons, List.sum_cons]

/-- The operator for a number-conserving string is the restriction of the tensor product `J A ⊗ X` to the sector.  Partial: at most 127 quanta
(`C43_fails_large`), and room for the levels (C31). -/
theorem C43_partial (left : Basis) (o1 o2 : List Char) (indx : List ℕ) (A : ℕ → ℕ → ℂ) (hleft : Represents left o1 indx A) (hNs : left.Ns ≠ 0)
    (hb1 : '|' ∉ o1) (hb2 : '|' ∉ o2) (hlen : indx.length = o1.length)
    (X : Spec.Oscillator.Vec →ₗ[ℂ] Spec.Oscillator.Vec) (hX : string o2 = some X)
    (Ntot : ℕ) (hN : Ntot < 128) (hroom : ∀ w, width (Ntot + 1) = some w → Ntot + o2.length < 2 ^ (w - 1))
    (Np : List ℕ) (hNp : ∀ p ∈ Np, p ≤ Ntot) (hlenNp : Np.length = left.Ns)
    (hcons : ∀ r c, (hr : r < left.Ns) → (hc : c < left.Ns) → A r c ≠ 0 → Np[r] + o2.count '+' = Np[c] + o2.count '-') (J : ℂ) :
    ∃ l, (photonOp left (photons Ntot Np) Ntot (o1 ++ '|' :: o2) indx J).1 = some l ∧ Inside left.Ns l ∧
      ∀ r c, (hr : r < left.Ns) → (hc : c < left.Ns) → entry l r c = J * A r c * element X (Ntot - Np[r]) (Ntot - Np[c]) := by
  classical
  obtain ⟨ph, p1, p2, p3⟩ := C31_partial Ntot o2 (List.replicate o2.length 0) 1 X hX (by simp) hroom
  obtain ⟨l, l1, l2, l3⟩ := hleft J
  have hcount : (o1 ++ '|' :: o2).count '|' = 1 := by
    rw [List.count_append, List.count_cons_self, List.count_eq_zero.mpr hb1, List.count_eq_zero.mpr hb2]
  have htake : (o1 ++ '|' :: o2).take o1.length = o1 := List.take_left
  have hdrop : (o1 ++ '|' :: o2).drop (o1.length + 1) = o2 := by rw [List.drop_append]; simp
  have hn : (o1 ++ '|' :: o2).length - 1 - indx.length = o2.length := by rw [List.length_append, List.length_cons]; omega
  -- the element for a column
  let e : ℕ → ℂ := fun c => (ph[Ntot - Np.getD c 0]?).elim 0 fun t => t.1
  have hitem : ∀ t ∈ l, ((item (photons Ntot Np) t.2.2).bind fun k => (item ph k).map fun e => (t.1 * e.1, t.2.1, t.2.2)) =
      some (t.1 * e t.2.2.toNat, t.2.1, t.2.2) := by
    intro t ht
    obtain ⟨-, c0, c1⟩ := l2 t ht
    obtain ⟨c, hc⟩ := Int.eq_ofNat_of_zero_le c0
    have hc' : c < Np.length := by omega
    rw [hc, photons_getElem hN hNp c hc', Option.bind_some]
    obtain ⟨me, row, e1, -⟩ := p3 (Ntot - Np[c]) (by omega)
    unfold item
    rw [if_pos (by omega), Int.toNat_natCast, e1, Option.map_some]
    simp only [e, Int.toNat_natCast, List.getD_eq_getElem _ _ hc', e1, Option.elim_some]
  have hmap := mapM_some _ l _ hitem
  refine ⟨(l.map fun t => (t.1 * e t.2.2.toNat, t.2.1, t.2.2)).filter fun t => t.1 ≠ 0, ?_, ?_, fun r c hr hc => ?_⟩
  · unfold photonOp
    rw [if_neg hNs, if_neg (by rw [hcount]; simp)]
    dsimp only
    rw [take_idx _ _ hb1, htake, hdrop, if_neg (by omega), hn, ← hlen, List.drop_left, List.take_left, p1, Option.bind_some, l1,
      Option.bind_some, hmap, Option.map_some]
  · intro t ht
    obtain ⟨ht, -⟩ := List.mem_filter.mp ht
    obtain ⟨s, hs, rfl⟩ := List.mem_map.mp ht
    exact l2 s hs
  · rw [entry_filter]
    have h1 : entry (l.map fun t => (t.1 * e t.2.2.toNat, t.2.1, t.2.2)) r c = entry l r c * e c := by
      rw [entry_sum, entry_sum, List.map_map, ← List.sum_map_mul_right]
      refine congrArg List.sum (List.map_congr_left fun t _ => ?_)
      simp only [Function.comp_apply]
      by_cases h : t.2.1 = (r : ℤ) ∧ t.2.2 = (c : ℤ)
      · rw [if_pos h, if_pos h, h.2, Int.toNat_natCast]
      · rw [if_neg h, if_neg h, zero_mul]
    rw [h1, l3 r hr c hc]
    by_cases hA : A r c = 0
    · rw [hA]; ring
    congr 1
    have hcr := hcons r c hr hc hA
    have hc' : c < Np.length := by omega
    have hr' : r < Np.length := by omega
    have b1 := hNp _ (List.getElem_mem hc')
    have b2 := hNp _ (List.getElem_mem hr')
    obtain ⟨me, row, e1, hrow, he⟩ := p3 (Ntot - Np[c]) (by omega)
    have hec : e c = me := by simp only [e, List.getD_eq_getElem _ _ hc', e1, Option.elim_some]
    rw [hec]
    have hm := he (Ntot - Np[r]) (by omega)
    rw [one_mul] at hm
    rw [hm]
    by_cases hrm : Ntot - Np[r] = row
    · rw [if_pos hrm]
    · rw [if_neg hrm]
      by_contra hne
      have h2 := he row hrow
      rw [if_pos rfl, one_mul] at h2
      have h3 := element_shift o2 X hX row (Ntot - Np[c]) (by rw [h2]; exact hne)
      omega

/-! ### Defects -/

/-- Particles of one spin with two states: the identity. -/
def twoStates : Basis := ⟨2, fun o _ J => if o = [] then some [(J, 0, 0), (J, 1, 1)] else none, fun _ => none⟩

theorem twoStates_represents : Represents twoStates [] [] fun r c => if r = c then 1 else 0 := by
  intro J
  refine ⟨_, rfl, ?_, fun r hr c hc => ?_⟩
  · intro t ht
    simp only [List.mem_cons, List.not_mem_nil, or_false] at ht
    rcases ht with rfl | rfl <;> simp [twoStates]
  · have hr : r < 2 := hr
    have hc : c < 2 := hc
    obtain rfl | rfl : r = 0 ∨ r = 1 := by omega
    all_goals obtain rfl | rfl : c = 0 ∨ c = 1 := by omega
    all_goals simp [entry]

/-- With 200 quanta the photon numbers do not fit into eight bits, and negative numbers count from the end of the array of elements: the photon
number of the two states comes out as 144 and 145 instead of 199 and 200. -/
theorem C43_fails_large :
    (photonOp twoStates (photons 200 [1, 0]) 200 ['|', 'n'] [] 1).1 = some [(144, 0, 0), (145, 1, 1)] := by
  obtain ⟨ph, p1, p2, p3⟩ := C31_partial 200 ['n'] [0] 1 _ rfl rfl (by
    intro w hw
    have : width (200 + 1) = some 16 := by decide
    rw [this] at hw
    obtain rfl := Option.some.inj hw
    norm_num)
  have hn : photons 200 [1, 0] = [-57, -56] := by decide
  have hel : ∀ c : ℕ, c ≤ 200 → ∃ row : ℤ, ph[c]? = some ((c : ℂ), row, (c : ℤ)) := by
    intro c hc
    obtain ⟨me, row, e, hrow, he⟩ := p3 c hc
    have h1 := he c hc
    have hx : element (Spec.Oscillator.number ∘ₗ LinearMap.id) c c = c := by
      simp only [element, LinearMap.comp_apply, LinearMap.id_apply, number_single, Finsupp.single_eq_same, one_mul]
    rw [hx, one_mul] at h1
    by_cases hcr : c = row
    · rw [if_pos hcr] at h1
      exact ⟨row, by rw [e, h1]⟩
    · rw [if_neg hcr] at h1
      have h2 := he row hrow
      rw [if_pos rfl, one_mul] at h2
      have hx2 : element (Spec.Oscillator.number ∘ₗ LinearMap.id) row c = 0 := by
        simp only [element, LinearMap.comp_apply, LinearMap.id_apply, number_single]
        rw [Finsupp.single_eq_of_ne (fun h => hcr h.symm)]
      rw [hx2] at h2
      exact ⟨row, by rw [e, ← h2, h1]⟩
  obtain ⟨r1, e1⟩ := hel 144 (by norm_num)
  obtain ⟨r2, e2⟩ := hel 145 (by norm_num)
  have i1 : item ph (-57) = ph[144]? := by
    unfold item
    rw [if_neg (by norm_num), p2, if_pos (by norm_num)]
    rfl
  have i2 : item ph (-56) = ph[145]? := by
    unfold item
    rw [if_neg (by norm_num), p2, if_pos (by norm_num)]
    rfl
  have hidx : (['|', 'n'] : List Char).idxOf '|' = 0 := by decide
  have hcount : (['|', 'n'] : List Char).count '|' = 1 := by decide
  unfold photonOp
  rw [if_neg (by decide), if_neg (by rw [hcount]; simp)]
  dsimp only
  rw [hidx, if_neg (by simp), hn]
  simp only [List.length_cons, List.length_nil, List.nil_append, List.drop_zero, List.take_zero, List.drop_succ_cons, zero_add,
    Nat.add_one_sub_one, Nat.sub_zero, List.replicate_one]
  rw [p1, Option.bind_some]
  have hop : twoStates.op [] [] 1 = some [(1, 0, 0), (1, 1, 1)] := rfl
  rw [hop, Option.bind_some, List.mapM_cons, List.mapM_cons, List.mapM_nil]
  have k1 : item ([-57, -56] : List ℤ) 0 = some (-57) := rfl
  have k2 : item ([-57, -56] : List ℤ) 1 = some (-56) := rfl
  simp only [k1, k2, Option.bind_some, i1, i2, e1, e2, Option.map_some]
  simp

/-- `Op` appends to the list of indices of the caller, so the same call fails the second time. -/
theorem C43_fails_twice (left : Basis) (hNs : left.Ns ≠ 0) (n : List ℤ) (Ntot : ℕ) (o1 o2 : List Char) (indx : List ℕ) (J : ℂ)
    (hb1 : '|' ∉ o1) (hb2 : '|' ∉ o2) (hlen : indx.length = o1.length) (ho2 : o2 ≠ []) :
    (photonOp left n Ntot (o1 ++ '|' :: o2) (photonOp left n Ntot (o1 ++ '|' :: o2) indx J).2 J).1 = none := by
  have hcount : (o1 ++ '|' :: o2).count '|' = 1 := by
    rw [List.count_append, List.count_cons_self, List.count_eq_zero.mpr hb1, List.count_eq_zero.mpr hb2]
  have htake : (o1 ++ '|' :: o2).take o1.length = o1 := List.take_left
  have hn : (o1 ++ '|' :: o2).length - 1 - indx.length = o2.length := by rw [List.length_append, List.length_cons]; omega
  have h2 : (photonOp left n Ntot (o1 ++ '|' :: o2) indx J).2 = indx ++ List.replicate o2.length 0 := by
    unfold photonOp
    rw [if_neg hNs, if_neg (by rw [hcount]; simp)]
    dsimp only
    rw [take_idx _ _ hb1, htake, if_neg (by omega), hn]
  rw [h2]
  unfold photonOp
  rw [if_neg hNs, if_neg (by rw [hcount]; simp)]
  dsimp only
  rw [take_idx _ _ hb1, htake, if_pos]
  rw [List.length_append, List.length_replicate]
  have := List.length_pos_iff.mpr ho2
  omega

/-! ### Non-vacuity -/

/-- The photon number in the sector with five quanta. -/
example : ∃ l, (photonOp twoStates (photons 5 [1, 0]) 5 ['|', 'n'] [] 1).1 = some l := by
  obtain ⟨l, h, -⟩ := C43_partial twoStates [] ['n'] [] _ twoStates_represents (by decide) (by decide) (by decide) rfl _ rfl 5 (by norm_num) (by
    intro w hw
    have : width (5 + 1) = some 8 := by decide
    rw [this] at hw
    obtain rfl := Option.some.inj hw
    norm_num) [1, 0] (by decide) rfl (by
      intro r c hr hc h
      by_cases hrc : r = c
      · subst hrc; rfl
      · rw [if_neg hrc] at h
        exact absurd rfl h) 1
  exact ⟨l, h⟩

end Props
