import Verif.Proof.Symmetry
namespace Proof.Symmetry
open Spec Model

variable {S : Nat → Prop} {all : List Generator}

theorem checkInner_spec (h : Acts S all) (s : Nat) {ys : List Generator} (hys : ∀ z ∈ ys, z ∈ all)
    (cs : List Nat) (hc : InRange ys cs) (x0 : Nat × Int) (hx0 : S x0.1) (k : ℝ) :
    (checkInner s ys cs (word ys cs x0) k = none → ∃ ds, InRange ys ds ∧ s < (word ys ds x0).1) ∧
    (∀ out, checkInner s ys cs (word ys cs x0) k = some out →
      out.1 = incr ys cs ∧ out.2.1 = word ys (incr ys cs) x0 ∧
      (∃ m : ℤ, out.2.2 - angle ys (incr ys cs) = k - angle ys cs + m * (2 * Real.pi)) ∧
      (ys ≠ [] → (word ys (incr ys cs) x0).1 ≤ s)) := by
  induction ys generalizing cs k with
  | nil =>
    cases hc
    refine ⟨by simp [checkInner], ?_⟩
    intro out ho
    simp only [checkInner, Option.some.injEq] at ho
    subst ho
    exact ⟨rfl, rfl, ⟨0, by simp [incr]⟩, fun h => absurd rfl h⟩
  | cons y ys ih =>
    cases hc with
    | cons hc1 hc2 =>
      rename_i c cs
      have hy := hys y (by simp)
      have hys' : ∀ z ∈ ys, z ∈ all := fun z hz => hys z (by simp [hz])
      have hp := h.per_pos y hy
      have hpR : (y.per : ℝ) ≠ 0 := by exact_mod_cast Nat.pos_iff_ne_zero.1 hp
      rw [checkInner]
      rw [word_incr h hy hys' c cs hc1 hx0, incr]
      by_cases hw : c + 1 > y.per - 1
      · rw [if_pos hw, if_pos hw, if_pos hw]
        have hcw : c = y.per - 1 := by omega
        have hzero : word ys cs x0 = word (y :: ys) (0 :: cs) x0 := rfl
        obtain ⟨ih1, ih2⟩ := ih hys' cs hc2 (k + 2 * Real.pi * y.q / y.per)
        by_cases hgt : (word ys cs x0).1 > s
        · rw [if_pos hgt]
          refine ⟨fun _ => ⟨0 :: cs, List.Forall₂.cons hp hc2, by rw [← hzero]; exact hgt⟩, by simp⟩
        · rw [if_neg hgt]
          refine ⟨?_, ?_⟩
          · intro he
            rw [Option.map_eq_none_iff] at he
            obtain ⟨ds, d1, d2⟩ := ih1 he
            exact ⟨0 :: ds, List.Forall₂.cons hp d1, d2⟩
          · intro out ho
            rw [Option.map_eq_some_iff] at ho
            obtain ⟨out', h1, rfl⟩ := ho
            obtain ⟨e1, e2, ⟨m, e3⟩, e4⟩ := ih2 out' h1
            refine ⟨by rw [e1], by rw [e2]; rfl, ⟨m + y.q, ?_⟩, ?_⟩
            · simp only [angle, Nat.cast_zero, mul_zero, zero_add]
              rw [e3, hcw, Nat.cast_sub (by omega)]
              push_cast
              field_simp
              ring
            · intro _
              change (word ys (incr ys cs) x0).1 ≤ s
              cases ys with
              | nil => simpa [word] using hgt
              | cons z zs => exact e4 (by simp)
      · rw [if_neg hw, if_neg hw, if_neg hw]
        by_cases hgt : (word (y :: ys) ((c + 1) :: cs) x0).1 > s
        · rw [if_pos hgt]
          exact ⟨fun _ => ⟨(c + 1) :: cs, List.Forall₂.cons (by omega) hc2, hgt⟩, by simp⟩
        · rw [if_neg hgt]
          refine ⟨by simp, ?_⟩
          intro out ho
          simp only [Option.some.injEq] at ho
          subst ho
          refine ⟨rfl, rfl, ⟨0, ?_⟩, fun _ => by omega⟩
          simp only [angle]
          push_cast
          ring

/-- contribution of one group element to the norm -/
noncomputable def weight (ys : List Generator) (s : Nat) (cs : List Nat) : ℝ :=
  if (word ys cs (s, 1)).1 = s then (word ys cs (s, 1)).2 * Real.cos (angle ys cs) else 0

theorem checkOuter_spec (h : Acts S all) (hall : all ≠ []) (s : Nat) (hs : S s)
    (fuel n : Nat) (hn : n < total all) (hf : n + fuel = total all) (k norm : ℝ)
    (hk : ∃ m : ℤ, k - angle all (ofVal all n) = m * (2 * Real.pi)) :
    ∃ res, checkOuter all s (all.map (fun y => y.per - 1)).sum fuel (ofVal all n)
        (word all (ofVal all n) (s, 1)) k norm = some res ∧
      (res = none → ∃ ds, InRange all ds ∧ s < (word all ds (s, 1)).1) ∧
      (∀ v, res = some v →
        v = norm + ((List.range' n fuel).map (fun m => weight all s (ofVal all m))).sum ∧
        ∀ m, n ≤ m → m < total all → (word all (ofVal all (m + 1)) (s, 1)).1 ≤ s) := by
  induction fuel generalizing n k norm with
  | zero => omega
  | succ fuel ih =>
    rw [checkOuter]
    obtain ⟨m0, hm0⟩ := hk
    obtain ⟨c1, c2⟩ := checkInner_spec h s (ys := all) (fun z hz => hz) (ofVal all n)
      (ofVal_inRange all h.per_pos n) (s, 1) hs k
    obtain ⟨b1, b2⟩ := ofVal_sum all h.per_pos n hn
    have hcos : Real.cos k = Real.cos (angle all (ofVal all n)) := by
      rw [show k = angle all (ofVal all n) + m0 * (2 * Real.pi) by rw [← hm0]; ring]
      exact Real.cos_add_int_mul_two_pi _ _
    have hnorm : (if (word all (ofVal all n) (s, 1)).1 = s then
        norm + (word all (ofVal all n) (s, 1)).2 * Real.cos k else norm)
        = norm + weight all s (ofVal all n) := by
      unfold weight
      rw [hcos]; split <;> simp
    cases hci : checkInner s all (ofVal all n) (word all (ofVal all n) (s, 1)) k with
    | none =>
      exact ⟨none, rfl, fun _ => c1 hci, by simp⟩
    | some out =>
      obtain ⟨d1, d2, ⟨m1, d3⟩, d4⟩ := c2 out hci
      simp only
      rw [incr_ofVal all h.per_pos] at d1 d2 d3 d4
      have d4 := d4 hall
      rw [hnorm]
      split
      · rename_i hge
        have hlast := b2.1 (by omega)
        have hf0 : fuel = 0 := by omega
        subst hf0
        refine ⟨_, rfl, by simp, ?_⟩
        intro v hv
        simp only [Option.some.injEq] at hv
        refine ⟨?_, fun m h1 h2 => ?_⟩
        · rw [← hv]; simp [List.range'_succ]
        · rw [show m = n by omega]; exact d4
      · rename_i hge
        have hnl : n + 1 < total all := by
          rcases Nat.lt_or_ge (n + 1) (total all) with h' | h'
          · exact h'
          · have := b2.2 (by omega)
            omega
        rw [d1, d2]
        obtain ⟨res, e1, e2, e3⟩ := ih (n + 1) hnl (by omega) out.2.2 (norm + weight all s (ofVal all n))
          ⟨m1 + m0, by rw [d3, hm0]; push_cast; ring⟩
        refine ⟨res, e1, e2, ?_⟩
        intro v hv
        obtain ⟨f1, f2⟩ := e3 v hv
        refine ⟨?_, fun m h1 h2 => ?_⟩
        · rw [f1, List.range'_succ, List.map_cons, List.sum_cons]; ring
        · rcases Nat.lt_or_eq_of_le h1 with h3 | h3
          · exact f2 m h3 h2
          · rw [← h3]; exact d4

/-! ### sums over the group -/

theorem angle_append (ys zs : List Generator) (cs ds : List Nat) (hl : ys.length = cs.length) :
    angle (ys ++ zs) (cs ++ ds) = angle ys cs + angle zs ds := by
  induction ys generalizing cs with
  | nil => 
    cases cs with
    | nil => simp [angle]
    | cons c cs => simp at hl
  | cons y ys ih =>
    cases cs with
    | nil => simp at hl
    | cons c cs => simp only [List.cons_append, angle, ih cs (by simpa using hl)]; ring

theorem angle_reverse (ys : List Generator) (cs : List Nat) (hl : ys.length = cs.length) :
    angle ys.reverse cs.reverse = angle ys cs := by
  induction ys generalizing cs with
  | nil => cases cs <;> simp_all [angle]
  | cons y ys ih =>
    cases cs with
    | nil => simp at hl
    | cons c cs =>
      have hl' : ys.length = cs.length := by simpa using hl
      rw [List.reverse_cons, List.reverse_cons, angle_append _ _ _ _ (by simpa using hl'), ih cs hl']
      simp only [angle]; ring

theorem exponents_reverse (ys : List Generator) :
    ((exponents ys.reverse).map List.reverse).Perm (exponents ys) := by
  rw [List.perm_ext_iff_of_nodup]
  · intro cs
    rw [mem_exponents]
    simp only [List.mem_map, mem_exponents]
    constructor
    · rintro ⟨ds, hd, rfl⟩
      have := inRange_reverse hd
      rwa [List.reverse_reverse] at this
    · intro hc
      exact ⟨cs.reverse, inRange_reverse hc, List.reverse_reverse _⟩
  · exact (exponents_nodup _).map (List.reverse_injective)
  · exact exponents_nodup _

theorem addMod_inj {ys : List Generator} (ds cs cs' : List Nat) (hd : InRange ys ds) (hc : InRange ys cs)
    (hc' : InRange ys cs') (he : addMod ys cs ds = addMod ys cs' ds) : cs = cs' := by
  induction ys generalizing ds cs cs' with
  | nil => cases hc; cases hc'; rfl
  | cons y ys ih =>
    cases hc with
    | cons hc1 hc2 =>
      cases hc' with
      | cons hc1' hc2' =>
        cases hd with
        | cons hd1 hd2 =>
          rename_i c cs c' cs' d ds
          simp only [addMod, List.cons.injEq] at he
          have h1 : c = c' := by
            have h2 := Nat.ModEq.add_right_cancel' (n := y.per) d he.1
            rw [Nat.ModEq, Nat.mod_eq_of_lt hc1, Nat.mod_eq_of_lt hc1'] at h2
            exact h2
          rw [h1, ih ds cs cs' hd2 hc2 hc2' he.2]

theorem exponents_shift (h : Acts S all) (ds : List Nat) (hd : InRange all ds) :
    ((exponents all).map (fun cs => addMod all cs ds)).Perm (exponents all) := by
  have hnd : ((exponents all).map (fun cs => addMod all cs ds)).Nodup := by
    refine List.Nodup.map_on ?_ (exponents_nodup all)
    intro a ha b hb he
    exact addMod_inj ds a b hd ((mem_exponents _ _).1 ha) ((mem_exponents _ _).1 hb) he
  refine (hnd.subperm ?_).perm_of_length_le (by simp)
  intro cs hcs
  rw [List.mem_map] at hcs
  obtain ⟨a, ha, rfl⟩ := hcs
  exact (mem_exponents _ _).2 (addMod_inRange h (fun _ h => h) _ _ ((mem_exponents _ _).1 ha) hd)

theorem sum_shift {R : Type} [AddCommMonoid R] (h : Acts S all) (ds : List Nat) (hd : InRange all ds) (f : List Nat → R) :
    ((exponents all).map f).sum = ((exponents all).map (fun cs => f (addMod all cs ds))).sum := by
  have := ((exponents_shift h ds hd).map f).sum_eq
  rw [← this, List.map_map]; rfl

theorem angle_add {ys : List Generator} (hp : ∀ y ∈ ys, 0 < y.per) (cs ds : List Nat) (hc : InRange ys cs)
    (hd : InRange ys ds) : ∃ m : ℤ, angle ys cs + angle ys ds = angle ys (addMod ys cs ds) + m * (2 * Real.pi) := by
  induction ys generalizing cs ds with
  | nil => exact ⟨0, by simp [angle]⟩
  | cons y ys ih =>
    cases hc with
    | cons hc1 hc2 =>
      cases hd with
      | cons hd1 hd2 =>
        rename_i c cs d ds
        obtain ⟨m, hm⟩ := ih (fun z hz => hp z (by simp [hz])) cs ds hc2 hd2
        have hy := hp y (by simp)
        have hpR : (y.per : ℝ) ≠ 0 := by exact_mod_cast Nat.pos_iff_ne_zero.1 hy
        refine ⟨m + y.q * ((c + d) / y.per : Nat), ?_⟩
        simp only [angle, addMod]
        have e : ((c : ℝ) + d) = y.per * ((c + d) / y.per : Nat) + ((c + d) % y.per : Nat) := by
          exact_mod_cast (Nat.div_add_mod (c + d) y.per).symm
        have e2 : 2 * Real.pi * y.q / y.per * c + 2 * Real.pi * y.q / y.per * d
            = 2 * Real.pi * y.q / y.per * ((c + d) % y.per : Nat) + y.q * ((c + d) / y.per : Nat) * (2 * Real.pi) := by
          rw [← mul_add, e]; field_simp; ring
        calc _ = (2 * Real.pi * y.q / y.per * c + 2 * Real.pi * y.q / y.per * d) + (angle ys cs + angle ys ds) := by ring
          _ = _ := by rw [e2, hm, Int.cast_add, Int.cast_mul, Int.cast_natCast]; ring

theorem character_add {ys : List Generator} (hp : ∀ y ∈ ys, 0 < y.per) (cs ds : List Nat) (hc : InRange ys cs)
    (hd : InRange ys ds) : character ys (addMod ys cs ds) = character ys cs * character ys ds := by
  obtain ⟨m, hm⟩ := angle_add hp cs ds hc hd
  unfold character
  rw [← Complex.exp_add, ← mul_add, ← Complex.ofReal_add, hm]
  push_cast
  rw [mul_add, Complex.exp_add,
    show Complex.I * ((m : ℂ) * (2 * Real.pi)) = m * (2 * Real.pi * Complex.I) by ring,
    Complex.exp_int_mul_two_pi_mul_I, mul_one]

theorem character_ne_zero (ys : List Generator) (cs : List Nat) : character ys cs ≠ 0 := Complex.exp_ne_zero _

theorem iter_sign (h : Acts S all) {y : Generator} (hy : y ∈ all) (c : Nat) (x : Nat × Int) (hx : S x.1)
    (h2 : x.2 = 1 ∨ x.2 = -1) : (y.U^[c] x).2 = 1 ∨ (y.U^[c] x).2 = -1 := by
  induction c with
  | zero => exact h2
  | succ c ih =>
    rw [Function.iterate_succ_apply']
    have := h.sign y hy _ (iter_closed h hy c hx)
    simp only [Generator.U]
    rcases ih with e | e <;> rcases this with e' | e' <;> rw [e, e'] <;> simp

theorem word_sign (h : Acts S all) {ys : List Generator} (hys : ∀ y ∈ ys, y ∈ all) (cs : List Nat)
    (s : Nat) (hs : S s) : (word ys cs (s, 1)).2 = 1 ∨ (word ys cs (s, 1)).2 = -1 := by
  induction ys generalizing cs with
  | nil => left; rfl
  | cons y ys ih =>
    cases cs with
    | nil => left; rfl
    | cons c cs =>
      have hys' : ∀ y ∈ ys, y ∈ all := fun z hz => hys z (by simp [hz])
      exact iter_sign h (hys y (by simp)) c _ (word_closed h hys' cs hs) (ih hys' cs)

/-- the group elements fixing `s` -/
noncomputable def stab (ys : List Generator) (s : Nat) : List (List Nat) :=
  (exponents ys).filter (fun cs => (word ys cs (s, 1)).1 = s)

/-- signed character -/
noncomputable def chi (ys : List Generator) (s : Nat) (cs : List Nat) : ℂ :=
  (starRingEnd ℂ) (character ys cs) * (word ys cs (s, 1)).2

theorem word_split_sign (ys : List Generator) (cs ds : List Nat) (s : Nat) :
    word ys cs (word ys ds (s, 1))
      = ((word ys cs ((word ys ds (s, 1)).1, 1)).1, (word ys ds (s, 1)).2 * (word ys cs ((word ys ds (s, 1)).1, 1)).2) := by
  conv_lhs => rw [eq_scale (word ys ds (s, 1)), word_scale]
  rfl

/-- translation of the projection along the orbit -/
theorem projection_shift (h : Acts S all) (s t : Nat) (hs : S s) (ds : List Nat) (hd : InRange all ds) :
    projection all s t = chi all s ds * projection all (word all ds (s, 1)).1 t := by
  unfold projection
  rw [sum_shift h ds hd, ← List.sum_map_mul_left]
  congr 1
  apply List.map_congr_left
  intro cs hcs
  have hc := (mem_exponents _ _).1 hcs
  rw [word_add h (fun _ h => h) cs ds hc hd (x := (s, 1)) hs, word_split_sign,
    character_add h.per_pos cs ds hc hd]
  simp only [mul_ite, mul_zero]
  split
  · unfold chi; push_cast; rw [map_mul]; ring
  · rfl

/-- either every stabiliser element acts trivially, or the projection vanishes -/
theorem projection_cases (h : Acts S all) (s : Nat) (hs : S s) :
    ((∀ cs, InRange all cs → (word all cs (s, 1)).1 = s → chi all s cs = 1) ∧
      projection all s s = ((stab all s).length : ℂ) ∧ 0 < (stab all s).length) ∨
    (∀ t, projection all s t = 0) := by
  by_cases hall : ∀ cs, InRange all cs → (word all cs (s, 1)).1 = s → chi all s cs = 1
  · left
    refine ⟨hall, ?_, ?_⟩
    · unfold projection stab
      have : ∀ l : List (List Nat), (∀ cs ∈ l, InRange all cs) →
          (l.map fun cs => if (word all cs (s, 1)).1 = s then
            (starRingEnd ℂ) (character all cs) * (word all cs (s, 1)).2 else 0).sum
          = ((l.filter (fun cs => (word all cs (s, 1)).1 = s)).length : ℂ) := by
        intro l
        induction l with
        | nil => simp
        | cons a l ih =>
          intro hl
          rw [List.map_cons, List.sum_cons, ih (fun c hc => hl c (by simp [hc])), List.filter_cons]
          by_cases ha : (word all a (s, 1)).1 = s
          · have h1 := hall a (hl a (by simp)) ha
            unfold chi at h1
            simp only [ha, if_true, h1, decide_true, List.length_cons]
            push_cast; ring
          · simp [ha]
      exact this _ (fun cs hcs => (mem_exponents _ _).1 hcs)
    · apply List.length_pos_of_mem (a := all.map fun _ => 0)
      rw [stab, List.mem_filter, mem_exponents]
      exact ⟨zero_inRange h (fun _ h => h), by rw [word_zero]; simp⟩
  · right
    push Not at hall
    obtain ⟨ds, hd, h1, h2⟩ := hall
    intro t
    have := projection_shift h s t hs ds hd
    rw [h1] at this
    have h3 : (1 - chi all s ds) * projection all s t = 0 := by rw [sub_mul, one_mul, ← this, sub_self]
    rcases mul_eq_zero.1 h3 with h4 | h4
    · exact absurd (sub_eq_zero.1 h4).symm h2
    · exact h4

theorem re_term (ys : List Generator) (s : Nat) (cs : List Nat) :
    (if (word ys cs (s, 1)).1 = s then (starRingEnd ℂ) (character ys cs) * ((word ys cs (s, 1)).2 : ℂ) else 0).re
      = weight ys s cs := by
  unfold weight
  split
  · unfold character
    rw [show Complex.I * (angle ys cs : ℂ) = angle ys cs * Complex.I by ring, Complex.exp_ofReal_mul_I]
    simp [Complex.mul_re, mul_comm, ← Complex.ofReal_cos]
  · simp

theorem weight_reverse (h : Acts S all) (s : Nat) (hs : S s) (cs : List Nat) (hc : InRange all cs) :
    weight all.reverse s cs.reverse = weight all s cs := by
  unfold weight
  rw [word_reverse h (fun _ h => h) cs (inRange_length hc) hs, angle_reverse _ _ (inRange_length hc)]

theorem sum_weight (h : Acts S all) (s : Nat) (hs : S s) :
    ((List.range' 0 (total all.reverse)).map (fun m => weight all.reverse s (ofVal all.reverse m))).sum
      = (projection all s s).re := by
  have hr := acts_reverse h
  have e1 : ((List.range' 0 (total all.reverse)).map (fun m => weight all.reverse s (ofVal all.reverse m))).sum
      = ((exponents all.reverse).map (weight all.reverse s)).sum := by
    rw [exponents_eq all.reverse hr.per_pos, List.map_map, List.range_eq_range']; rfl
  rw [e1]
  have e2 : ((exponents all.reverse).map (weight all.reverse s)).sum
      = ((exponents all).map (weight all s)).sum := by
    rw [← ((exponents_reverse all).map (weight all s)).sum_eq, List.map_map]
    congr 1
    apply List.map_congr_left
    intro cs hcs
    have hc := (mem_exponents _ _).1 hcs
    have := inRange_reverse hc
    rw [List.reverse_reverse] at this
    simp only [Function.comp]
    rw [← weight_reverse h s hs _ this, List.reverse_reverse]
  rw [e2]
  unfold projection
  have : ∀ l : List (List Nat), (l.map (weight all s)).sum = ((l.map fun cs =>
      if (word all cs (s, 1)).1 = s then (starRingEnd ℂ) (character all cs) * ((word all cs (s, 1)).2 : ℂ) else 0).sum).re := by
    intro l
    induction l with
    | nil => simp
    | cons a l ih => rw [List.map_cons, List.sum_cons, List.map_cons, List.sum_cons, Complex.add_re, re_term, ih]
  exact this _

theorem checkState_spec (h : Acts S all) (hlen : all.length ≤ 32) (s : Nat) (hs : S s) :
    ((∃ t, Related all s t ∧ s < t) → checkState all s = some none) ∧
    ((∀ t, Related all s t → t ≤ s) → checkState all s = some (some (projection all s s).re)) := by
  unfold checkState
  by_cases h0 : all.length = 0
  · have h0' : all = [] := List.length_eq_zero_iff.1 h0
    subst h0'
    refine ⟨?_, ?_⟩
    · rintro ⟨t, ht, hlt⟩
      obtain ⟨cs, hc, e⟩ := (related_iff h s t hs).1 ht
      cases hc
      simp [word] at e
      omega
    · intro _
      simp [projection, exponents, word, character, angle]
  · rw [if_neg (by omega)]
    have hr := acts_reverse h
    have hne : all.reverse ≠ [] := by
      intro he; apply h0; rw [List.reverse_eq_nil_iff] at he; rw [he]; rfl
    have htot : total all.reverse = (all.map (fun y => y.per)).prod := by
      unfold total; rw [List.map_reverse]; exact List.prod_reverse _
    have hsum : (all.map (fun y => y.per - 1)).sum = (all.reverse.map (fun y => y.per - 1)).sum := by
      rw [List.map_reverse, List.sum_reverse]
    have hz : all.map (fun _ => 0) = ofVal all.reverse 0 := by
      rw [ofVal_zero]; simp [List.map_const']
    have hw0 : ((s, 1) : Nat × Int) = word all.reverse (ofVal all.reverse 0) (s, 1) := by
      rw [ofVal_zero, word_zero]
    have ha0 : angle all.reverse (ofVal all.reverse 0) = 0 := by
      rw [ofVal_zero]
      generalize all.reverse = l
      induction l with
      | nil => rfl
      | cons y l ih => simp only [List.map_cons, angle, ih]; simp
    have hpos : 0 < total all.reverse := by
      unfold total
      apply Nat.pos_of_ne_zero
      intro he
      rw [List.prod_eq_zero_iff, List.mem_map] at he
      obtain ⟨y, hy, he⟩ := he
      have := hr.per_pos y hy
      omega
    obtain ⟨res, r1, r2, r3⟩ := checkOuter_spec hr hne s hs (total all.reverse) 0 hpos (by omega) 0 0
      ⟨0, by rw [ha0]; simp⟩
    rw [← hw0, ← hz, ← hsum, htot] at r1
    rw [r1]
    refine ⟨?_, ?_⟩
    · rintro ⟨t, ht, hlt⟩
      cases res with
      | none => rfl
      | some v =>
        exfalso
        obtain ⟨_, r4⟩ := r3 v rfl
        obtain ⟨cs, hc, rfl⟩ := (related_iff h s t hs).1 ht
        obtain ⟨m, hm, he⟩ := exists_ofVal all.reverse hr.per_pos cs.reverse (inRange_reverse hc)
        rw [← word_reverse h (fun _ h => h) cs (inRange_length hc) hs, he] at hlt
        cases m with
        | zero => rw [← hw0] at hlt; omega
        | succ m => have := r4 m (Nat.zero_le _) (by omega); omega
    · intro hmax
      cases res with
      | none =>
        exfalso
        obtain ⟨ds, d1, d2⟩ := r2 rfl
        have d3 := inRange_reverse d1
        rw [List.reverse_reverse] at d3
        have d4 := word_reverse h (fun _ h => h) ds.reverse (inRange_length d3) hs (x := (s, 1))
        rw [List.reverse_reverse] at d4
        rw [d4] at d2
        have := hmax _ ((related_iff h s _ hs).2 ⟨_, d3, rfl⟩)
        omega
      | some v =>
        rw [(r3 v rfl).1, sum_weight h s hs, zero_add]

end Proof.Symmetry
