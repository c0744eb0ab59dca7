import Verif.Props.C09
import Verif.Model.BlockMemory

/-!
C116: memory of the symmetry blocks of general bases.

`construct cls sps total pers given …` is the constructor of a basis of all `total` states with symmetries of periods `pers`; `given` is the argument
`Ns_block_est`.  The test of the states and the loops over them, with threads, are those of C08 and C14.
-/

namespace Props
open Model Spec Proof.Symmetry Model.BlockMemory Model.GeneralMake

/-- Some product of the symmetries other than the identity leaves `s` unchanged. -/
def IsSymmetric (ys : List Generator) (s : ℕ) : Prop := ∃ cs ∈ exponents ys, cs ≠ ys.map (fun _ => 0) ∧ (word ys cs (s, 1)).1 = s

open Classical in
/-- The number of symmetric states. -/
noncomputable def symmetricStates (ys : List Generator) (M : ℕ) : ℕ := ((Finset.range M).filter (IsSymmetric ys)).card

open Classical in
/-- The representatives and their orbits: the block has at most `M/|G|` states plus a share for every symmetric state. -/
theorem kept_bound (ys : List Generator) (M : ℕ) (h : Acts (· < M) ys) (hlen : ys.length ≤ 32) :
    total ys * (kept (checkKeep ys) (List.range M)).length ≤ M + (total ys - 1) * symmetricStates ys M := by
  have h' : Acts (· ∈ List.range M) ys := by simpa using h
  obtain ⟨K, hK⟩ : ∃ K : Finset ℕ, K = (Finset.range M).filter (Member ys) := ⟨_, rfl⟩
  have hcard : (kept (checkKeep ys) (List.range M)).length = K.card := by
    rw [kept_length, hK, Finset.card_filter, ← List.sum_toFinset _ List.nodup_range, List.toFinset_range]
  have hlt : ∀ s ∈ K, s < M := fun s hs => by rw [hK, Finset.mem_filter, Finset.mem_range] at hs; exact hs.1
  have hmax : ∀ s ∈ K, ∀ t, Related ys s t → t ≤ s := fun s hs => by
    rw [hK, Finset.mem_filter] at hs
    exact ((C08_kept_iff _ ys h hlen s (Finset.mem_range.1 hs.1)).1 hs.2).1
  obtain ⟨orb, horb⟩ : ∃ orb : ℕ → Finset ℕ, orb = fun s => (Finset.range M).filter (Related ys s) := ⟨_, rfl⟩
  have hdisj : (∑ s ∈ K, (orb s).card) ≤ M := by
    rw [← Finset.card_biUnion]
    · calc _ ≤ (Finset.range M).card := Finset.card_le_card (by
            intro t ht
            rw [Finset.mem_biUnion] at ht
            obtain ⟨s, -, ht⟩ := ht
            rw [horb, Finset.mem_filter] at ht
            exact ht.1)
        _ = M := Finset.card_range M
    · intro a ha b hb hab
      change Disjoint (orb a) (orb b)
      rw [Finset.disjoint_left]
      intro t h1 h2
      rw [horb] at h1 h2
      rw [Finset.mem_filter] at h1 h2
      have e1 := hmax a ha b (h1.2.trans (related_symm h (hlt b hb) h2.2))
      have e2 := hmax b hb a (h2.2.trans (related_symm h (hlt a ha) h1.2))
      omega
  have hone : ∀ s ∈ K, 1 ≤ (orb s).card := fun s hs => Finset.card_pos.2 ⟨s, by
    rw [horb, Finset.mem_filter, Finset.mem_range]; exact ⟨hlt s hs, Relation.ReflTransGen.refl⟩⟩
  have hfree : ∀ s ∈ K, ¬ IsSymmetric ys s → (orb s).card = total ys := fun s hs hn => by
    have h1 := orbit_stabiliser (List.range M) List.nodup_range h' s (by simpa using hlt s hs)
    have h2 : hits ys s s = 1 := by
      have e : (exponents ys).filter (fun cs => decide ((word ys cs (s, 1)).1 = s)) = (exponents ys).filter (fun cs => decide (cs = ys.map fun _ => 0)) := by
        apply List.filter_congr
        intro cs hc
        rw [decide_eq_decide]
        constructor
        · intro e
          by_contra h0
          exact hn ⟨cs, hc, h0, e⟩
        · intro e
          rw [e, word_zero]
      unfold hits
      rw [e, ← List.toFinset_card_of_nodup ((exponents_nodup ys).filter _), Finset.card_eq_one]
      refine ⟨ys.map fun _ => 0, ?_⟩
      ext cs
      rw [List.mem_toFinset, List.mem_filter, Finset.mem_singleton, decide_eq_true_eq]
      exact ⟨fun a => a.2, fun a => ⟨by rw [a, mem_exponents]; exact zero_inRange h (fun _ h => h), a⟩⟩
    rw [h2, one_mul] at h1
    rw [← h1, horb, ← List.toFinset_card_of_nodup (List.nodup_range.filter _)]
    congr 1
    ext t
    simp
  have hsum : total ys * K.card ≤ (∑ s ∈ K, (orb s).card) + (total ys - 1) * (K.filter (IsSymmetric ys)).card := by
    have : ∀ s ∈ K, total ys ≤ (orb s).card + if IsSymmetric ys s then total ys - 1 else 0 := fun s hs => by
      have h1 := hone s hs
      split
      · omega
      · rename_i hn
        rw [hfree s hs hn]; omega
    calc total ys * K.card = ∑ _s ∈ K, total ys := by rw [Finset.sum_const, smul_eq_mul, mul_comm]
      _ ≤ ∑ s ∈ K, ((orb s).card + if IsSymmetric ys s then total ys - 1 else 0) := Finset.sum_le_sum this
      _ = _ := by rw [Finset.sum_add_distrib, ← Finset.sum_filter, Finset.sum_const, smul_eq_mul, mul_comm (total ys - 1)]
  have hsub : (K.filter (IsSymmetric ys)).card ≤ symmetricStates ys M := by
    apply Finset.card_le_card
    intro s hs
    rw [Finset.mem_filter] at hs ⊢
    exact ⟨Finset.mem_range.2 (hlt s hs.1), hs.2⟩
  rw [hcard]
  calc _ ≤ _ := hsum
    _ ≤ _ := Nat.add_le_add hdisj (Nat.mul_le_mul_left _ hsub)

/-- When the array has more places than the block has states, the constructor returns the states of C08. -/
theorem construct_ok (cls : Cls) (sps M : ℕ) (pers : List ℕ) (given : Option ℤ) (e : ℤ) (he : estimate cls sps M pers given = .ok e) (w : ℕ)
    (sort : List (ℕ × ℤ) → List (ℕ × ℤ)) (hs : SortsDescending sort) (check : Check) (hM : M ≤ 2 ^ w) (T : ℕ) (writes : List (ℕ × (ℕ × ℤ)))
    (hw : Interleaving w check M T writes) (hroom : (kept check (List.range M)).length < room e) :
    construct cls sps M pers given w sort check T writes = .ok (kept check (List.range M)).reverse := by
  unfold construct
  rw [he]
  dsimp only
  have h1 := C15_shortage_consistent_partial w sort hs check pers.length M (room e) T hM (by omega) writes hw
  have h2 := (C15_never_overruns w sort hs check pers.length M (room e) T hM writes hw).1
  cases hb : makeBasis w sort check pers.length M (room e) T writes with
  | ok l => rw [C14_unrestricted w sort hs check pers.length M (room e) T hM writes hw l hb]
  | insufficient => have := h1.1 hb; omega
  | overrun => exact absurd hb h2

theorem factor_two (cls : Cls) (sps : ℕ) (h : 2 ≤ sps) : 2 ≤ factor cls sps := by
  cases cls <;> simp only [factor] <;> (try split) <;> omega

/-- Without an estimate the constructor succeeds, with every number of threads and every schedule, when the symmetric states are few: their number times
twice the order of the group is at most the number of states.

Missing: symmetries with many symmetric states, where it may fail (`C116_fails_exchanges`). -/
theorem C116_free_partial (cls : Cls) (sps M : ℕ) (hsps : 2 ≤ sps) (ys : List Generator) (hne : ys ≠ []) (h : Acts (· < M) ys) (hlen : ys.length ≤ 32)
    (hB : 2 * ((ys.map (·.per)).prod - 1) * symmetricStates ys M ≤ M) (w : ℕ) (sort : List (ℕ × ℤ) → List (ℕ × ℤ)) (hs : SortsDescending sort)
    (hM : M ≤ 2 ^ w) (T : ℕ) (writes : List (ℕ × (ℕ × ℤ))) (hw : Interleaving w (checkKeep ys) M T writes) :
    ∃ l, construct cls sps M (ys.map (·.per)) none w sort (checkKeep ys) T writes = .ok l := by
  refine ⟨_, construct_ok cls sps M _ none ((M / (ys.map (·.per)).prod * factor cls sps : ℕ) : ℤ) ?_ w sort hs _ hM T writes hw ?_⟩
  · unfold estimate
    rw [if_neg (by simpa using hne)]
    unfold handedOn
    split <;> simp_all
  · have h1 := kept_bound ys M h hlen
    rw [show total ys = (ys.map (·.per)).prod from rfl] at h1
    have hG : 0 < (ys.map (·.per)).prod := by
      apply List.prod_pos
      intro a ha
      obtain ⟨y, hy, rfl⟩ := List.mem_map.1 ha
      exact h.per_pos y hy
    generalize (ys.map (·.per)).prod = G at *
    generalize (kept (checkKeep ys) (List.range M)).length = k at *
    generalize symmetricStates ys M = B at *
    have hc := factor_two cls sps hsps
    generalize factor cls sps = c at *
    have h2 : 2 * (M / G) ≤ M / G * c := by rw [mul_comm]; exact Nat.mul_le_mul_left _ hc
    have h3 : k < max (2 * (M / G)) 1000 := by
      have h4 : 2 * (G * k) ≤ 3 * M := by
        have : 2 * ((G - 1) * B) ≤ M := by rw [← mul_assoc]; exact hB
        omega
      have h5 := Nat.div_add_mod M G
      have h6 := Nat.mod_lt M hG
      generalize M / G = q at *
      by_contra hk
      rw [not_lt, max_le_iff] at hk
      have h7 : M < G * (q + 1) := by rw [mul_add, mul_one]; omega
      have h8 : 2 * (G * k) < 3 * (G * (q + 1)) := by omega
      have h9 : 2 * k < 3 * (q + 1) := by
        have : G * (2 * k) < G * (3 * (q + 1)) := by
          calc G * (2 * k) = 2 * (G * k) := by ring
            _ < 3 * (G * (q + 1)) := h8
            _ = _ := by ring
        exact Nat.lt_of_mul_lt_mul_left this
      omega
    unfold room
    omega

/-- The translation of three sites with two levels. -/
def rotationOfThree : Generator := { img := fun t => t / 2 + t % 2 * 4, sgn := fun _ => 1, per := 3, q := 1 }

theorem rotationOfThree_acts : Acts (· < 8) [rotationOfThree] where
  per_pos := by decide
  closed := by decide
  sign := by decide
  period := by decide
  commute := by decide

theorem rotationOfThree_symmetric : ∀ s < 8, IsSymmetric [rotationOfThree] s ↔ s = 0 ∨ s = 7 := by
  unfold IsSymmetric
  decide

open Classical in
/-- Only the empty and the full state are symmetric. -/
example : symmetricStates [rotationOfThree] 8 = 2 ∧ 2 * (([rotationOfThree].map (·.per)).prod - 1) * 2 ≤ 8 := by
  refine ⟨?_, by decide⟩
  have h : ∀ s < 8, IsSymmetric [rotationOfThree] s ↔ s = 0 ∨ s = 7 := rotationOfThree_symmetric
  unfold symmetricStates
  rw [show ((Finset.range 8).filter (IsSymmetric [rotationOfThree])) = {0, 7} from by
    ext s
    rw [Finset.mem_filter, Finset.mem_range, Finset.mem_insert, Finset.mem_singleton]
    exact ⟨fun a => (h s a.1).1 a.2, fun a => have : s < 8 := by omega
      ⟨this, (h s this).2 a⟩⟩]
  rfl

/-- One symmetry of period two that moves some state, such as a reflection or an inversion: without an estimate the constructor always succeeds. -/
theorem C116_order_two (cls : Cls) (sps M : ℕ) (hsps : 2 ≤ sps) (hev : M % 2 = 0) (y : Generator) (hp : y.per = 2) (h : Acts (· < M) [y])
    (hmove : ∃ s < M, y.img s ≠ s) (w : ℕ) (sort : List (ℕ × ℤ) → List (ℕ × ℤ)) (hs : SortsDescending sort) (hM : M ≤ 2 ^ w) (T : ℕ)
    (writes : List (ℕ × (ℕ × ℤ))) (hw : Interleaving w (checkKeep [y]) M T writes) :
    ∃ l, construct cls sps M [y.per] none w sort (checkKeep [y]) T writes = .ok l := by
  rw [hp]
  refine ⟨_, construct_ok cls sps M _ none ((M / [2].prod * factor cls sps : ℕ) : ℤ) ?_ w sort hs _ hM T writes hw ?_⟩
  · unfold estimate
    rw [if_neg (by simp)]
    unfold handedOn
    split <;> simp_all
  · classical
    obtain ⟨s, hsM, hne⟩ := hmove
    have hk : (kept (checkKeep [y]) (List.range M)).length < M := by
      rw [kept_length, ← List.sum_toFinset _ List.nodup_range, List.toFinset_range, ← Finset.card_filter]
      calc _ < (Finset.range M).card := Finset.card_lt_card (by
            refine Finset.filter_ssubset.2 ?_
            have hc := h.closed y (by simp) s hsM
            have h1 : Related [y] s (y.img s) := Relation.ReflTransGen.single ⟨y, by simp, rfl⟩
            by_cases hlt : s < y.img s
            · refine ⟨s, Finset.mem_range.2 hsM, fun hm => ?_⟩
              have := ((C08_kept_iff _ [y] h (by simp) s hsM).1 hm).1 _ h1
              omega
            · refine ⟨y.img s, Finset.mem_range.2 hc, fun hm => ?_⟩
              have := ((C08_kept_iff _ [y] h (by simp) _ hc).1 hm).1 _ (related_symm h hsM h1)
              omega)
        _ = M := Finset.card_range M
    have hc := factor_two cls sps hsps
    have h2 : M / 2 * 2 ≤ M / 2 * factor cls sps := Nat.mul_le_mul_left _ hc
    simp only [List.prod_cons, List.prod_nil, mul_one] at *
    unfold room
    omega

/-- The exchange of two sites. -/
example : Acts (· < 4) [{ img := fun t => t / 2 + t % 2 * 2, sgn := fun _ => 1, per := 2, q := 0 }] ∧ (4 : ℕ) % 2 = 0 ∧ 1 / 2 + 1 % 2 * 2 ≠ 1 :=
  ⟨⟨by decide, by decide, by decide, by decide, by decide⟩, by decide⟩

/-- An estimate above the number of states of the block is enough, except for bosons with two levels per site. -/
theorem C116_given (cls : Cls) (sps M : ℕ) (pers : List ℕ) (hb : ¬(cls = .boson ∧ sps = 2)) (e : ℕ) (w : ℕ)
    (sort : List (ℕ × ℤ) → List (ℕ × ℤ)) (hs : SortsDescending sort) (check : Check) (hM : M ≤ 2 ^ w) (T : ℕ)
    (writes : List (ℕ × (ℕ × ℤ))) (hw : Interleaving w check M T writes) (hne : pers ≠ [])
    (he : (kept check (List.range M)).length < e) :
    construct cls sps M pers (some e) w sort check T writes = .ok (kept check (List.range M)).reverse := by
  refine construct_ok cls sps M pers _ e ?_ w sort hs _ hM T writes hw ?_
  · unfold estimate handedOn
    rw [if_neg hne, if_neg hb]
    simp only
    rw [if_neg (by omega)]
  · unfold room; omega

example : estimate .spin 2 4096 [2, 2] (some 3000) = .ok 3000 ∧ estimate .higherSpin 3 81 [2] none = .ok 120 := by decide

/-- Every block below a thousand states fits without an estimate. -/
theorem C116_small (cls : Cls) (sps M : ℕ) (pers : List ℕ) (w : ℕ) (sort : List (ℕ × ℤ) → List (ℕ × ℤ)) (hs : SortsDescending sort) (check : Check)
    (hM : M ≤ 2 ^ w) (T : ℕ) (writes : List (ℕ × (ℕ × ℤ))) (hw : Interleaving w check M T writes)
    (he : (kept check (List.range M)).length < 1000) :
    construct cls sps M pers none w sort check T writes = .ok (kept check (List.range M)).reverse := by
  obtain ⟨e, hest⟩ : ∃ e, estimate cls sps M pers none = .ok e := by
    have : handedOn cls sps none = none := by unfold handedOn; split <;> rfl
    unfold estimate
    rw [this]
    split <;> exact ⟨_, rfl⟩
  refine construct_ok cls sps M pers _ e hest w sort hs _ hM T writes hw ?_
  unfold room; omega

/-- Estimates that are not positive are refused, except by the bases with two levels per site. -/
theorem C116_refused (cls : Cls) (sps M : ℕ) (pers : List ℕ) (hne : pers ≠ []) (e : ℤ) (he : e ≤ 0) (hc : factor cls sps ≠ 2) :
    estimate cls sps M pers (some e) = .error .valueError := by
  unfold estimate handedOn
  rw [if_neg hne]
  cases cls <;> simp_all [factor]

end Props
