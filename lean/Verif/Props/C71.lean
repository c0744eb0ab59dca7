import Verif.Proof.AmpNorm
/-!
C71  `representative`, `normalization` and `get_amp` of a basis with symmetries describe the reduced basis.

`Spec.Acts S ys`: the maps act as commuting symmetries of the stated periods on the configurations in `S`.
`Spec.OrbitMax ys s`: `s` is the largest of its orbit.  `Spec.squareNorm conf ys s`: square of the norm of the
projection of the representative `s` onto the quantum numbers, zero for other configurations.
`Spec.symState conf ys r s`: amplitude on `s` of the (normalised) basis state with representative `r`.
`Spec.IsExpanded conf ys v psi`: `psi` is the full vector with coefficients `v` in the reduced basis.
-/
namespace Props
open Model Model.Amp Spec Proof.Symmetry Proof.Amp
open scoped BigOperators

/-- `representative`, for every combination of the optional outputs, number of threads, distribution of the
states over them and order of the writes: the entry of a state is the largest configuration of its orbit, the
reported exponents lead to it and the reported sign is the sign it comes with. -/
theorem C71_representative (S : Nat → Prop) (ys : List Generator) (h : Acts S ys) (hlen : ys.length ≤ 32)
    (states : List Nat) (hS : ∀ s ∈ states, S s) (wantG wantSign : Bool) (T : Nat) (hT : 0 < T)
    (share : Nat → List Nat) (hd : Distributes states.length T share) (mem : Loc → Int)
    (hm : Representative ys states wantG wantSign T share mem) (i s : Nat) (hi : states[i]? = some s) :
    ∃ (r : Nat) (g : List Nat) (sign : Int),
      Related ys s r ∧ (∀ t, Related ys s t → t ≤ r) ∧ g ∈ exponents ys ∧ word ys g (s, 1) = (r, sign) ∧
      mem (.r i) = r ∧ (wantG = true → ∀ j < ys.length, mem (.g i j) = (g.getD j 0 : Nat)) ∧
      (wantSign = true → mem (.sign i) = sign) := by
  have hin : i < states.length := (List.getElem?_eq_some_iff.1 hi).1
  obtain ⟨b, b1, b2, b3, b4, b5⟩ := C07_representative S ys h hlen s (hS s (List.mem_of_getElem? hi))
  obtain ⟨l, hl, rfl⟩ := hm
  refine ⟨b.r, b.g, b.phase, b2, b3, b4, b5, ?_⟩
  have hcov : ∀ i < states.length, ∃ t < T, i ∈ iterations wantG wantSign states.length share t := by
    intro k hk
    unfold iterations
    split
    · exact ⟨0, hT, List.mem_range.2 hk⟩
    · exact hd k hk
  have key : ∀ a : Loc, a.iter = i → (l.foldl (fun mem e => store mem e.2) fun _ => 0) a
      = seq (block ys states wantG wantSign i) (fun _ => 0) a := by
    intro a ha
    rw [foldl_eq_seq, schedule T states.length _ (block_iter ys states wantG wantSign) _ hcov l hl a (by rw [ha]; exact hin), ha]
  have hblock : block ys states wantG wantSign i
      = (if wantG then (refLog ys s).flatMap fun g => (List.range ys.length).map fun j => (Loc.g i j, (g.getD j 0 : Int))
          else []) ++ ((Loc.r i, (b.r : Int)) :: if wantSign then [(Loc.sign i, b.phase)] else []) := by
    unfold block
    rw [hi]
    simp only
    rw [b1]
  refine ⟨?_, ?_, ?_⟩
  · rw [key _ rfl, hblock, seq_append]
    cases wantSign <;> simp [seq, store]
  · intro hg j hj
    rw [key _ rfl, hblock, seq_append, seq_untouched]
    · rw [hg, if_pos rfl, seq_log ys.length i _ _ j hj (ys.map fun _ => 0), ← refLog_last ys s b b1]
      simp only [List.getD_eq_getElem?_getD, List.getElem?_map]
      cases ys[j]? <;> rfl
    · intro w hw
      rcases List.mem_cons.1 hw with rfl | hw
      · simp
      · cases wantSign with
        | false => simp at hw
        | true => simp at hw; rw [hw]; simp
  · intro hs
    rw [key _ rfl, hblock, seq_append, hs]
    simp [seq, store]

/-- Two states get the same representative exactly when a symmetry takes one to the other. -/
theorem C71_representative_iff (S : Nat → Prop) (ys : List Generator) (h : Acts S ys) (hlen : ys.length ≤ 32)
    (states : List Nat) (hS : ∀ s ∈ states, S s) (wantG wantSign : Bool) (T : Nat) (hT : 0 < T)
    (share : Nat → List Nat) (hd : Distributes states.length T share) (mem : Loc → Int)
    (hm : Representative ys states wantG wantSign T share mem) (i j s t : Nat) (hi : states[i]? = some s)
    (hj : states[j]? = some t) : mem (.r i) = mem (.r j) ↔ Related ys s t := by
  obtain ⟨r, _, _, r1, r2, _, _, r3, _⟩ := C71_representative S ys h hlen states hS wantG wantSign T hT share hd mem hm i s hi
  obtain ⟨q, _, _, q1, q2, _, _, q3, _⟩ := C71_representative S ys h hlen states hS wantG wantSign T hT share hd mem hm j t hj
  have hs := hS s (List.mem_of_getElem? hi)
  have ht := hS t (List.mem_of_getElem? hj)
  rw [r3, q3]
  constructor
  · intro e
    have e : r = q := by exact_mod_cast e
    rw [e] at r1
    exact r1.trans (related_symm h ht q1)
  · intro hst
    have : r = q := Nat.le_antisymm (q2 _ ((related_symm h hs hst).trans r1)) (r2 _ (hst.trans q1))
    rw [this]

/-- `normalization(states, out)`, for every order of the iterations and every number of them that notice an
error: if a value does not fit the type of `out` a `TypeError` is raised, otherwise every entry is the square of
the norm of the projection, and zero for states that are not representatives.  Partial: the group has fewer than
2³¹ elements (`C71_fails_int_factor`). -/
theorem C71_normalization_partial (conf : Finset Nat) (ys : List Generator) (h : Acts (· ∈ conf) ys)
    (hlen : ys.length ≤ 32) (hb : (ys.map fun y => y.per).prod < 2 ^ 31) (w : Nat) (hw : w ≤ 64) (states : List Nat)
    (hS : ∀ s ∈ states, s ∈ conf) (order : List (Nat × Bool)) (ho : (order.map (·.1)).Perm (List.range states.length))
    (out : Nat → Nat) :
    ((∃ s ∈ states, squareNorm conf ys s > 2 ^ w - 1) → normalizationCore ys w states order out = none) ∧
    ((∀ s ∈ states, squareNorm conf ys s ≤ 2 ^ w - 1) → ∃ out', normalizationCore ys w states order out = some out' ∧
      ∀ (i s : Nat), states[i]? = some s → (out' i : ℝ) = squareNorm conf ys s) := by
  have hcast : ((2 ^ w - 1 : Nat) : ℝ) = 2 ^ w - 1 := by
    rw [Nat.cast_sub Nat.one_le_two_pow]; push_cast; ring
  constructor
  · rintro ⟨s, hs, hgt⟩
    obtain ⟨i, hi⟩ := List.mem_iff_getElem?.1 hs
    have hin : i < states.length := (List.getElem?_eq_some_iff.1 hi).1
    obtain ⟨N, h1, h2, _⟩ := normBody_spec h hlen hb w hw states i s hi (hS s hs)
    have hmem : i ∈ order.map (·.1) := ho.mem_iff.2 (List.mem_range.2 hin)
    obtain ⟨e, he, rfl⟩ := List.mem_map.1 hmem
    unfold normalizationCore
    rw [if_pos]
    apply parFor_err
    refine ⟨e, he, ?_⟩
    rw [h2, decide_eq_true_eq]
    rw [← h1, ← hcast] at hgt
    exact_mod_cast hgt
  · intro hle
    have hok : ∀ e ∈ order, (normBody ys w states e.1).2 = false := by
      intro e he
      have hin : e.1 < states.length :=
        List.mem_range.1 (ho.mem_iff.1 (List.mem_map.2 ⟨e, he, rfl⟩))
      obtain ⟨N, h1, h2, _⟩ := normBody_spec h hlen hb w hw states e.1 states[e.1]
        (List.getElem?_eq_getElem hin) (hS _ (List.getElem_mem _))
      rw [h2, decide_eq_false_iff_not]
      have := hle states[e.1] (List.getElem_mem _)
      rw [← h1, ← hcast] at this
      have : N ≤ 2 ^ w - 1 := by exact_mod_cast this
      omega
    obtain ⟨p1, p2⟩ := parFor_ok (normBody ys w states) order out hok
    refine ⟨_, by unfold normalizationCore; rw [if_neg (by rw [p1]; simp)], ?_⟩
    intro i s hi
    have hin : i < states.length := (List.getElem?_eq_some_iff.1 hi).1
    rw [p2, if_pos (ho.mem_iff.2 (List.mem_range.2 hin))]
    obtain ⟨N, h1, _, h3⟩ := normBody_spec h hlen hb w hw states i s hi (hS s (List.mem_of_getElem? hi))
    rw [h3, h1]
    have := hle s (List.mem_of_getElem? hi)
    rw [← h1, ← hcast] at this
    exact_mod_cast this

/-- `normalization(states)`: with a type of the norms (`nMax` its largest value) that holds the norm of every
given representative, the type of the result is always large enough and the values are right.
Missing: types of results chosen by the caller, and excluded representatives (`C71_fails_nan`). -/
theorem C71_normalization_default_partial (conf : Finset Nat) (ys : List Generator) (h : Acts (· ∈ conf) ys)
    (hlen : ys.length ≤ 32) (hb : (ys.map fun y => y.per).prod < 2 ^ 31) (nMax : Nat) (hn : nMax < 2 ^ 32)
    (states : List Nat) (hS : ∀ s ∈ states, s ∈ conf)
    (hfit : ∀ s ∈ states, InReduced ys s → ‖projection ys s s‖ ≤ nMax) (order : List (Nat × Bool))
    (ho : (order.map (·.1)).Perm (List.range states.length)) :
    ∃ vals, normalization ys nMax states order = some vals ∧ vals.length = states.length ∧
      ∀ (i s : Nat), states[i]? = some s → ∃ v, vals[i]? = some v ∧ (v : ℝ) = squareNorm conf ys s := by
  have hbits : ∀ m, m < 2 ^ 64 → ∃ w, minBits m = some w ∧ w ≤ 64 ∧ m ≤ 2 ^ w - 1 := by
    intro m hm
    unfold minBits
    split
    · exact ⟨8, rfl, by omega, by omega⟩
    split
    · exact ⟨16, rfl, by omega, by omega⟩
    split
    · exact ⟨32, rfl, by omega, by omega⟩
    · exact ⟨64, rfl, by omega, by omega⟩
  have hprod : nMax * (ys.map fun y => y.per).prod < 2 ^ 64 := by
    calc nMax * (ys.map fun y => y.per).prod ≤ nMax * 2 ^ 31 := Nat.mul_le_mul_left _ hb.le
      _ ≤ 2 ^ 32 * 2 ^ 31 := Nat.mul_le_mul_right _ hn.le
      _ < 2 ^ 64 := by norm_num
  obtain ⟨w, w1, w2, w3⟩ := hbits _ hprod
  have hle : ∀ s ∈ states, squareNorm conf ys s ≤ 2 ^ w - 1 := by
    intro s hs
    have hcast : ((2 ^ w - 1 : Nat) : ℝ) = 2 ^ w - 1 := by
      rw [Nat.cast_sub Nat.one_le_two_pow]; push_cast; ring
    rw [← hcast]
    have hb2 : squareNorm conf ys s ≤ ((nMax * (ys.map fun y => y.per).prod : Nat) : ℝ) := by
      unfold squareNorm
      split
      · rename_i hmax
        rcases max_cases h hlen s (hS s hs) hmax with ⟨n, n1, n2, n3, n4, n5⟩ | ⟨n1, n2⟩
        · have hm := hfit s hs ⟨hmax, s, by rw [n4]; exact_mod_cast n1.ne'⟩
          rw [n4] at hm
          have hm : (n : ℝ) ≤ nMax := by simpa using hm
          rw [n5]
          push_cast
          rw [mul_comm]
          exact mul_le_mul_of_nonneg_right hm (by
            have : (0 : ℝ) ≤ (((ys.map fun y => y.per).prod : Nat) : ℝ) := Nat.cast_nonneg _
            push_cast at this
            exact this)
        · simp only [n2]
          simp only [norm_zero, ne_eq, OfNat.ofNat_ne_zero, not_false_eq_true, zero_pow, Finset.sum_const_zero]
          positivity
      · positivity
    exact hb2.trans (by exact_mod_cast w3)
  obtain ⟨out', o1, o2⟩ := (C71_normalization_partial conf ys h hlen hb w w2 states hS order ho fun _ => 0).2 hle
  unfold normalization
  rw [w1]
  simp only
  rw [o1]
  simp only
  have hmaxb : ∀ (l : List Nat) (a : Nat), (∀ x ∈ l, x ≤ l.foldl max a) ∧ a ≤ l.foldl max a := by
    intro l
    induction l with
    | nil => intro a; simp
    | cons x l ih =>
      intro a
      obtain ⟨i1, i2⟩ := ih (max a x)
      refine ⟨?_, ?_⟩
      · intro y hy
        rcases List.mem_cons.1 hy with rfl | hy
        · exact le_trans (le_max_right _ _) i2
        · exact i1 y hy
      · exact le_trans (le_max_left _ _) i2
  have hfold : ∀ (l : List Nat) (a B : Nat), (∀ x ∈ l, x < B) → a < B → l.foldl max a < B := by
    intro l
    induction l with
    | nil => intro a B _ h; exact h
    | cons x l ih => intro a B hl ha; exact ih _ _ (fun y hy => hl y (by simp [hy])) (max_lt ha (hl x (by simp)))
  generalize hv : (List.range states.length).map out' = vals
  have hvals : ∀ (i s : Nat), states[i]? = some s → ∃ v, vals[i]? = some v ∧ (v : ℝ) = squareNorm conf ys s := by
    intro i s hi
    have hin : i < states.length := (List.getElem?_eq_some_iff.1 hi).1
    refine ⟨out' i, ?_, o2 i s hi⟩
    rw [← hv, List.getElem?_map, List.getElem?_range hin]; rfl
  have hlenv : vals.length = states.length := by rw [← hv]; simp
  have hsmall : ∀ v ∈ vals, v < 2 ^ 64 := by
    intro v hv'
    obtain ⟨i, hi⟩ := List.mem_iff_getElem?.1 hv'
    have hin : i < states.length := by rw [← hlenv]; exact (List.getElem?_eq_some_iff.1 hi).1
    obtain ⟨v', h1, h2⟩ := hvals i states[i] (List.getElem?_eq_getElem hin)
    rw [hi] at h1
    injection h1 with h1
    subst h1
    have := hle states[i] (List.getElem_mem _)
    rw [← h2] at this
    have h3 : ((v : ℝ)) < 2 ^ w := by linarith
    have h3 : v < 2 ^ w := by exact_mod_cast h3
    exact lt_of_lt_of_le h3 (Nat.pow_le_pow_right (by norm_num) w2)
  obtain ⟨w', w1', _, w3'⟩ := hbits (vals.foldl max 0) (hfold _ _ _ hsmall (by norm_num))
  rw [w1']
  refine ⟨_, rfl, by simp [hlenv], ?_⟩
  intro i s hi
  obtain ⟨v, v1, v2⟩ := hvals i s hi
  refine ⟨v, ?_, v2⟩
  rw [List.getElem?_map, v1]
  simp only [Option.map_some, Option.some.injEq]
  apply Nat.mod_eq_of_lt
  have := (hmaxb vals 0).1 v (List.mem_of_getElem? v1)
  have hp : 1 ≤ 2 ^ w' := Nat.one_le_two_pow
  omega

/-- `get_amp(states, mode='full_basis')` with a complex output, for every order of the iterations: every state is
replaced by its representative `r` and the entry of the result is the amplitude, on the state, of the basis
state of `r` (zero if the symmetries exclude it). -/
theorem C71_amp_full (conf : Finset Nat) (ys : List Generator) (h : Acts (· ∈ conf) ys) (hlen : ys.length ≤ 32)
    (fermionic : Bool) (hf : fermionic = false → ∀ y ∈ ys, ∀ t ∈ conf, y.sgn t = 1) (states : List Nat)
    (hS : ∀ s ∈ states, s ∈ conf) (out : List (Option ℂ)) (order : List (Nat × Bool))
    (ho : (order.map (·.1)).Perm (List.range states.length)) (amps : Option (List (Option ℂ))) :
    ∃ states' out' amps', getAmp fermionic false ys "full_basis" states out amps order = .ok states' out' amps' ∧
      amps' = amps.map (fun a => List.zipWith divide a out') ∧
      states'.length = states.length ∧ out'.length = states.length ∧
      ∀ (i s : Nat), states[i]? = some s → ∃ r, states'[i]? = some r ∧ Related ys s r ∧ OrbitMax ys r ∧
        out'[i]? = some (some (symState conf ys r s)) := by
  have hb : ∀ (i s : Nat), states[i]? = some s → ∃ r, Related ys s r ∧ OrbitMax ys r ∧
      fullBody fermionic false ys states i = ((r, some (symState conf ys r s)), false) := by
    intro i s hi
    obtain ⟨r, r1, r2, r3⟩ := ampFull_spec h hlen fermionic hf s (hS s (List.mem_of_getElem? hi))
    refine ⟨r, r1, r2, ?_⟩
    unfold fullBody
    rw [hi]
    simp only
    rw [r3]
    simp [checkImag]
  have hok : ∀ e ∈ order, (fullBody fermionic false ys states e.1).2 = false := by
    intro e he
    have hin : e.1 < states.length := List.mem_range.1 (ho.mem_iff.1 (List.mem_map.2 ⟨e, he, rfl⟩))
    obtain ⟨r, _, _, r3⟩ := hb e.1 _ (List.getElem?_eq_getElem hin)
    rw [r3]
  obtain ⟨p1, p2⟩ := parFor_ok (fullBody fermionic false ys states) order
    (fun i => (states.getD i 0, out.getD i none)) hok
  have hcore : ampCore fermionic false ys "full_basis" states out order
      = parFor (fullBody fermionic false ys states) order (fun i => (states.getD i 0, out.getD i none), false) := by
    unfold ampCore
    simp
  refine ⟨(List.range states.length).map fun i => ((ampCore fermionic false ys "full_basis" states out order).1 i).1,
    (List.range states.length).map fun i => ((ampCore fermionic false ys "full_basis" states out order).1 i).2,
    _, ?_, rfl, ?_, ?_, ?_⟩
  · unfold getAmp
    simp only
    rw [if_neg (by rw [hcore, p1]; simp)]
    cases amps <;> simp
  · simp
  · simp
  · intro i s hi
    have hin : i < states.length := (List.getElem?_eq_some_iff.1 hi).1
    obtain ⟨r, r1, r2, r3⟩ := hb i s hi
    refine ⟨r, ?_, r1, r2, ?_⟩
    · rw [List.getElem?_map, List.getElem?_range hin]
      simp only [Option.map_some]
      rw [hcore, p2, if_pos (ho.mem_iff.2 (List.mem_range.2 hin)), r3]
    · rw [List.getElem?_map, List.getElem?_range hin]
      simp only [Option.map_some]
      rw [hcore, p2, if_pos (ho.mem_iff.2 (List.mem_range.2 hin)), r3]

/-- `get_amp(states, amps=…, mode='full_basis')` turns amplitudes of a vector of the full space into its
coefficients in the reduced basis.  Partial: states the quantum numbers exclude get NaN (`C71_fails_zero_amp`). -/
theorem C71_amp_coefficients_partial (conf : Finset Nat) (ys : List Generator) (h : Acts (· ∈ conf) ys)
    (hlen : ys.length ≤ 32) (fermionic : Bool) (hf : fermionic = false → ∀ y ∈ ys, ∀ t ∈ conf, y.sgn t = 1)
    (states : List Nat) (hS : ∀ s ∈ states, s ∈ conf) (out : List (Option ℂ)) (order : List (Nat × Bool))
    (ho : (order.map (·.1)).Perm (List.range states.length)) (v psi : Nat → ℂ) (hpsi : IsExpanded conf ys v psi) :
    ∃ states' out' amps',
      getAmp fermionic false ys "full_basis" states out (some (states.map fun s => some (psi s))) order
        = .ok states' out' (some amps') ∧
      ∀ (i s : Nat), states[i]? = some s → ∃ r, states'[i]? = some r ∧ Related ys s r ∧ OrbitMax ys r ∧
        (InReduced ys r → amps'[i]? = some (some (v r))) := by
  obtain ⟨states', out', amps', h1, rfl, h3, h4, h5⟩ := C71_amp_full conf ys h hlen fermionic hf states hS out order ho
    (some (states.map fun s => some (psi s)))
  refine ⟨states', out', _, h1, ?_⟩
  intro i s hi
  obtain ⟨r, r1, r2, r3, r4⟩ := h5 i s hi
  refine ⟨r, r1, r2, r3, ?_⟩
  intro hin
  have hs := hS s (List.mem_of_getElem? hi)
  rw [List.getElem?_zipWith, r4, List.getElem?_map, hi]
  simp only [Option.map_some, Option.some.injEq]
  have hne := symState_ne_zero h hlen r s (related_closed h hs r2) hin (related_symm h hs r2)
  unfold divide
  simp only
  rw [if_neg hne, expanded_at h v psi hpsi r s hs r2 r3, mul_div_cancel_left₀ _ hne]

/-- `get_amp(states, mode='representative')` for states of the reduced basis: the entry of the result is the
amplitude of the basis state on its own representative, and given coefficients of a vector in the reduced basis
become its amplitudes in the full space.  Partial: only for states of the reduced basis (`C71_fails_nan`). -/
theorem C71_amp_representative_partial (conf : Finset Nat) (ys : List Generator) (h : Acts (· ∈ conf) ys)
    (hlen : ys.length ≤ 32) (fermionic : Bool) (hf : fermionic = false → ∀ y ∈ ys, ∀ t ∈ conf, y.sgn t = 1)
    (states : List Nat) (hS : ∀ s ∈ states, s ∈ conf) (hin : ∀ s ∈ states, InReduced ys s) (out : List (Option ℂ))
    (order : List (Nat × Bool)) (ho : (order.map (·.1)).Perm (List.range states.length))
    (v psi : Nat → ℂ) (hpsi : IsExpanded conf ys v psi) :
    getAmp fermionic false ys "representative" states out (some (states.map fun s => some (v s))) order
      = .ok states (states.map fun s => some (symState conf ys s s)) (some (states.map fun s => some (psi s))) := by
  have hb : ∀ (i s : Nat), states[i]? = some s →
      lightBody fermionic false ys states i = ((s, some (symState conf ys s s)), false) := by
    intro i s hi
    have hm := List.mem_of_getElem? hi
    unfold lightBody
    rw [hi]
    simp only
    rw [ampLight_spec h hlen fermionic hf s (hS s hm) (hin s hm)]
    simp [checkImag]
  have hok : ∀ e ∈ order, (lightBody fermionic false ys states e.1).2 = false := by
    intro e he
    have hi : e.1 < states.length := List.mem_range.1 (ho.mem_iff.1 (List.mem_map.2 ⟨e, he, rfl⟩))
    rw [hb e.1 _ (List.getElem?_eq_getElem hi)]
  obtain ⟨p1, p2⟩ := parFor_ok (lightBody fermionic false ys states) order
    (fun i => (states.getD i 0, out.getD i none)) hok
  have hcore : ampCore fermionic false ys "representative" states out order
      = parFor (lightBody fermionic false ys states) order (fun i => (states.getD i 0, out.getD i none), false) := by
    unfold ampCore
    simp
  have hst : ((List.range states.length).map fun i =>
      ((ampCore fermionic false ys "representative" states out order).1 i).1) = states := by
    apply List.ext_getElem (by simp)
    intro i hi1 hi2
    rw [List.getElem_map, List.getElem_range, hcore, p2, if_pos (ho.mem_iff.2 (List.mem_range.2 hi2)),
      hb i _ (List.getElem?_eq_getElem hi2)]
  have hout : ((List.range states.length).map fun i =>
      ((ampCore fermionic false ys "representative" states out order).1 i).2)
      = states.map fun s => some (symState conf ys s s) := by
    apply List.ext_getElem (by simp)
    intro i hi1 hi2
    rw [List.getElem_map, List.getElem_map, List.getElem_range, hcore, p2]
    rw [List.length_map] at hi2
    rw [if_pos (ho.mem_iff.2 (List.mem_range.2 hi2)), hb i _ (List.getElem?_eq_getElem hi2)]
  unfold getAmp
  simp only
  rw [if_neg (by rw [hcore, p1]; simp)]
  simp only [if_true]
  rw [hst, hout]
  congr 2
  rw [List.zipWith_map_left, List.zipWith_map_right, List.zipWith_self]
  apply List.map_congr_left
  intro s hs
  rw [times, expanded_at h v psi hpsi s s (hS s hs) Relation.ReflTransGen.refl (hin s hs).1, mul_comm]

/-- With a real output type: either a `TypeError` (some amplitude has an imaginary part) or the real parts. -/
theorem C71_amp_real (conf : Finset Nat) (ys : List Generator) (h : Acts (· ∈ conf) ys) (hlen : ys.length ≤ 32)
    (fermionic : Bool) (hf : fermionic = false → ∀ y ∈ ys, ∀ t ∈ conf, y.sgn t = 1) (states : List Nat)
    (hS : ∀ s ∈ states, s ∈ conf) (out : List (Option ℂ)) (order : List (Nat × Bool))
    (ho : (order.map (·.1)).Perm (List.range states.length)) :
    ((∃ s ∈ states, ∃ r, Related ys s r ∧ OrbitMax ys r ∧ |(symState conf ys r s).im| > 11 / 10 ^ 16) →
      getAmp fermionic true ys "full_basis" states out none order = .typeError) ∧
    ((∀ s ∈ states, ∀ r, Related ys s r → OrbitMax ys r → |(symState conf ys r s).im| ≤ 11 / 10 ^ 16) →
      ∃ states' out', getAmp fermionic true ys "full_basis" states out none order = .ok states' out' none ∧
      ∀ (i s : Nat), states[i]? = some s → ∃ r, states'[i]? = some r ∧ Related ys s r ∧ OrbitMax ys r ∧
        out'[i]? = some (some ((symState conf ys r s).re : ℂ))) := by
  have hb : ∀ (i s : Nat), states[i]? = some s → ∃ r, Related ys s r ∧ OrbitMax ys r ∧
      fullBody fermionic true ys states i
        = ((r, some ((symState conf ys r s).re : ℂ)), decide (|(symState conf ys r s).im| > 11 / 10 ^ 16)) := by
    intro i s hi
    obtain ⟨r, r1, r2, r3⟩ := ampFull_spec h hlen fermionic hf s (hS s (List.mem_of_getElem? hi))
    refine ⟨r, r1, r2, ?_⟩
    unfold fullBody
    rw [hi]
    simp only
    rw [r3]
    simp [checkImag]
  have hcore : ampCore fermionic true ys "full_basis" states out order
      = parFor (fullBody fermionic true ys states) order (fun i => (states.getD i 0, out.getD i none), false) := by
    unfold ampCore
    simp
  have huniq : ∀ s ∈ states, ∀ r r', Related ys s r → OrbitMax ys r → Related ys s r' → OrbitMax ys r' → r = r' := by
    intro s hs r r' h1 h2 h3 h4
    exact Nat.le_antisymm (h4 _ ((related_symm h (hS s hs) h3).trans h1))
      (h2 _ ((related_symm h (hS s hs) h1).trans h3))
  constructor
  · rintro ⟨s, hs, r, h1, h2, h3⟩
    obtain ⟨i, hi⟩ := List.mem_iff_getElem?.1 hs
    have hin : i < states.length := (List.getElem?_eq_some_iff.1 hi).1
    obtain ⟨r', q1, q2, q3⟩ := hb i s hi
    have e := huniq s hs r r' h1 h2 q1 q2
    subst e
    obtain ⟨e, he, rfl⟩ := List.mem_map.1 (ho.mem_iff.2 (List.mem_range.2 hin))
    unfold getAmp
    simp only
    rw [if_pos]
    rw [hcore]
    apply parFor_err
    exact ⟨e, he, by rw [q3]; simpa using h3⟩
  · intro hle
    have hok : ∀ e ∈ order, (fullBody fermionic true ys states e.1).2 = false := by
      intro e he
      have hin : e.1 < states.length := List.mem_range.1 (ho.mem_iff.1 (List.mem_map.2 ⟨e, he, rfl⟩))
      obtain ⟨r, r1, r2, r3⟩ := hb e.1 _ (List.getElem?_eq_getElem hin)
      rw [r3]
      simp only [decide_eq_false_iff_not, not_lt]
      exact hle _ (List.getElem_mem _) r r1 r2
    obtain ⟨p1, p2⟩ := parFor_ok (fullBody fermionic true ys states) order
      (fun i => (states.getD i 0, out.getD i none)) hok
    refine ⟨(List.range states.length).map fun i => ((ampCore fermionic true ys "full_basis" states out order).1 i).1,
      (List.range states.length).map fun i => ((ampCore fermionic true ys "full_basis" states out order).1 i).2, ?_, ?_⟩
    · unfold getAmp
      simp only
      rw [if_neg (by rw [hcore, p1]; simp)]
    · intro i s hi
      have hin : i < states.length := (List.getElem?_eq_some_iff.1 hi).1
      obtain ⟨r, r1, r2, r3⟩ := hb i s hi
      refine ⟨r, ?_, r1, r2, ?_⟩ <;>
      · rw [List.getElem?_map, List.getElem?_range hin]
        simp only [Option.map_some]
        rw [hcore, p2, if_pos (ho.mem_iff.2 (List.mem_range.2 hin)), r3]

/-! ### A concrete case: three sites, rotation with momentum 1 and inversion, `exampleSymmetries` of C07. -/

theorem act8 : Acts (· ∈ Finset.range 8) exampleSymmetries where
  per_pos := exampleSymmetries_act.per_pos
  closed := fun y hy t ht => Finset.mem_range.2 (exampleSymmetries_act.closed y hy t (Finset.mem_range.1 ht))
  sign := fun y hy t ht => exampleSymmetries_act.sign y hy t (Finset.mem_range.1 ht)
  period := fun y hy t ht => exampleSymmetries_act.period y hy t (Finset.mem_range.1 ht)
  commute := fun y hy z hz t ht => exampleSymmetries_act.commute y hy z hz t (Finset.mem_range.1 ht)

/-- two threads, the first takes the first state and the second the others -/
example : Distributes [1, 2, 7].length 2 (fun t => if t = 0 then [0] else [1, 2]) := by
  intro i hi
  have hi : i < 3 := hi
  rcases i with _ | i
  · exact ⟨0, by decide, by decide⟩
  · exact ⟨1, by decide, by
      have : i = 0 ∨ i = 1 := by omega
      rcases this with rfl | rfl <;> decide⟩

example : block exampleSymmetries [1, 2, 7] true true 0
    = [(Loc.g 0 0, 0), (Loc.g 0 1, 1), (Loc.r 0, 6), (Loc.sign 0, 1)] := by decide

/-- the writes of two threads that both run the whole loop over one state -/
example : Representative exampleSymmetries [1] true false 2 (fun _ => [0])
    ([(0, (Loc.g 0 0, 0)), (1, (Loc.g 0 0, 0)), (1, (Loc.g 0 1, 1)), (1, (Loc.r 0, 6)), (0, (Loc.g 0 1, 1)),
      (0, (Loc.r 0, 6))].foldl (fun mem e => store mem e.2) fun _ => 0) :=
  ⟨_, ⟨by decide, fun t ht => by
    have : t = 0 ∨ t = 1 := by omega
    rcases this with rfl | rfl <;> decide⟩, rfl⟩

example (order : List (Nat × Bool)) (ho : (order.map (·.1)).Perm (List.range [1, 2, 7].length)) :
    ∃ states' out' amps', getAmp false false exampleSymmetries "full_basis" [1, 2, 7] [] none order
      = .ok states' out' amps' := by
  obtain ⟨a, b, c, h, _⟩ := C71_amp_full (Finset.range 8) exampleSymmetries act8 (by decide) false
    (fun _ => by
      intro y hy t _
      simp [exampleSymmetries] at hy
      rcases hy with rfl | rfl <;> rfl)
    [1, 2, 7] (by decide) [] order ho none
  exact ⟨a, b, c, h⟩

/-! ### Defects -/

/-- One symmetry of two sites, their exchange, odd (`q = 1`). -/
def oddExchange : List Generator :=
  [{ img := fun t => t / 2 + t % 2 * 2, sgn := fun _ => 1, per := 2, q := 1 }]

theorem oddExchange_acts : Acts (· ∈ Finset.range 4) oddExchange where
  per_pos := by decide
  closed := by decide
  sign := by decide
  period := by decide
  commute := by decide

theorem oddExchange_zero (s : Nat) (hfix : s / 2 + s % 2 * 2 = s) : ∀ t, projection oddExchange s t = 0 := by
  intro t
  have hw0 : word oddExchange [0] (s, 1) = (s, 1) := rfl
  have hw1 : word oddExchange [1] (s, 1) = (s, 1) := by
    simp [word, oddExchange, Generator.U, hfix]
  have he : exponents oddExchange = [[0], [1]] := by decide
  unfold projection
  rw [he]
  simp only [List.map_cons, List.map_nil, List.sum_cons, List.sum_nil, hw0, hw1]
  have c0 : character oddExchange [0] = 1 := by simp [character, angle, oddExchange]
  have c1 : character oddExchange [1] = -1 := by
    have : Complex.I * ((angle oddExchange [1] : ℝ) : ℂ) = Real.pi * Complex.I := by
      simp [angle, oddExchange]; ring
    rw [character, this, Complex.exp_pi_mul_I]
  rw [c0, c1]
  split <;> simp

theorem oddExchange_max (s : Nat) (hs : s < 4) (hfix : s / 2 + s % 2 * 2 = s) : OrbitMax oddExchange s := by
  intro t ht
  obtain ⟨cs, hc, rfl⟩ := (related_iff oddExchange_acts s t (Finset.mem_range.2 hs)).1 ht
  have he : exponents oddExchange = [[0], [1]] := by decide
  have hm := (mem_exponents _ _).2 hc
  rw [he] at hm
  have hw1 : word oddExchange [1] (s, 1) = (s, 1) := by
    simp [word, oddExchange, Generator.U, hfix]
  rcases List.mem_cons.1 hm with rfl | hm
  · exact Nat.le_refl _
  · rw [List.mem_singleton.1 hm, hw1]

/-- `get_amp(states)` (default mode) is documented to return zero for a state that is not part of the reduced
basis.  The doubly occupied state of two sites, odd under their exchange, is its own representative and has no
odd part; the result is NaN (0/0, `general_basis_get_amp.h:194-195`, no test of the norm). -/
theorem C71_fails_nan :
    ¬ InReduced oddExchange 3 ∧ OrbitMax oddExchange 3 ∧
      getAmp false false oddExchange "representative" [3] [some 0] none [(0, false)] = .ok [3] [none] none := by
  have h0 := oddExchange_zero 3 (by decide)
  have hmax := oddExchange_max 3 (by decide) (by decide)
  refine ⟨fun h => by obtain ⟨_, t, ht⟩ := h; exact ht (h0 t), hmax, ?_⟩
  have hc := (checkState_spec oddExchange_acts (by decide) 3 (by decide)).2 hmax
  rw [h0] at hc
  have hl : ampLight false oddExchange 3 = none := by
    unfold ampLight
    rw [hc]
    have : needPhase false oddExchange = true := by decide
    simp [this]
  have hb : lightBody false false oddExchange [3] 0 = ((3, none), false) := by
    unfold lightBody
    simp [hl]
  simp [getAmp, ampCore, parFor, hb]

/-- `get_amp(states, amps=…, mode='full_basis')` divides by the amplitude.  For a vector of the reduced space all
of whose amplitudes are given, the states that the quantum numbers exclude have amplitude 0 and get NaN
instead of a number (`base_general.py:1143`). -/
theorem C71_fails_zero_amp :
    IsExpanded (Finset.range 4) oddExchange (fun _ => 0) (fun _ => 0) ∧
      getAmp false false oddExchange "full_basis" [3] [some 0] (some [some 0]) [(0, false)]
        = .ok [3] [some 0] (some [none]) := by
  refine ⟨fun t _ => by simp, ?_⟩
  have h0 := oddExchange_zero 3 (by decide)
  have hmax := oddExchange_max 3 (by decide) (by decide)
  obtain ⟨r, r1, r2, r3⟩ := ampFull_spec oddExchange_acts (by decide) false (fun _ => by decide) 3 (by decide)
  have hr : r = 3 := Nat.le_antisymm (hmax r r1) (r2 3 (related_symm oddExchange_acts (by decide) r1))
  subst hr
  have hz : symState (Finset.range 4) oddExchange 3 3 = 0 := by unfold symState; rw [h0]; simp
  have hb : fullBody false false oddExchange [3] 0 = ((3, some 0), false) := by
    unfold fullBody
    simp [r3, hz, checkImag]
  simp [getAmp, ampCore, parFor, hb, divide]

/-- `get_amp` with a misspelt `mode` and no `amps` raises nothing and returns zeros: the `ValueError` is created
but not raised (`general_basis_core.pyx:1017`), and the test in Python runs only if `amps` is given.  The state
used here is a representative with amplitude 1 (no symmetries). -/
theorem C71_fails_mode :
    getAmp false false [] "full-basis" [1] [some 0] none [] = .ok [1] [some 0] none ∧
      symState (Finset.range 4) [] 1 1 = 1 := by
  refine ⟨by simp [getAmp, ampCore], ?_⟩
  unfold symState
  have hp : ∀ t, projection [] 1 t = if 1 = t then 1 else 0 := by
    intro t
    simp [projection, exponents, word, character, angle]
  have : (∑ u ∈ Finset.range 4, ‖projection [] 1 u‖ ^ 2) = 1 := by
    simp [hp, Finset.sum_range_succ]
  rw [this, hp]
  simp

/-- Exchange of sites `2i` and `2i+1`. -/
def exchange (i : Nat) : Generator where
  img := fun t => if t.testBit (2 * i) = t.testBit (2 * i + 1) then t else t ^^^ (2 ^ (2 * i) + 2 ^ (2 * i + 1))
  sgn := fun _ => 1
  per := 2
  q := 0

/-- 62 sites with the 31 exchanges of neighbouring pairs. -/
def exchanges : List Generator := (List.range 31).map exchange

theorem exchange_fixed (i : Nat) (hi : i < 31) : (exchange i).img (2 ^ 62 - 1) = 2 ^ 62 - 1 := by
  unfold exchange
  simp only
  rw [if_pos]
  rw [Nat.testBit_two_pow_sub_one, Nat.testBit_two_pow_sub_one]
  have h1 : 2 * i < 62 := by omega
  have h2 : 2 * i + 1 < 62 := by omega
  simp [h1, h2]

theorem exchange_U (i : Nat) (hi : i < 31) (a : Int) : (exchange i).U (2 ^ 62 - 1, a) = (2 ^ 62 - 1, a) := by
  have := exchange_fixed i hi
  unfold Generator.U
  simp only
  rw [this]
  simp [exchange]

theorem mem_exchanges {y : Generator} (hy : y ∈ exchanges) : ∃ i < 31, y = exchange i := by
  unfold exchanges at hy
  obtain ⟨i, hi, rfl⟩ := List.mem_map.1 hy
  exact ⟨i, List.mem_range.1 hi, rfl⟩

theorem exchanges_act : Acts (· ∈ ({2 ^ 62 - 1} : Finset Nat)) exchanges where
  per_pos := by
    intro y hy
    obtain ⟨i, _, rfl⟩ := mem_exchanges hy
    exact Nat.two_pos
  closed := by
    intro y hy t ht
    obtain ⟨i, hi, rfl⟩ := mem_exchanges hy
    rw [Finset.mem_singleton] at ht ⊢
    rw [ht, exchange_fixed i hi]
  sign := by
    intro y hy t _
    obtain ⟨i, _, rfl⟩ := mem_exchanges hy
    exact Or.inl rfl
  period := by
    intro y hy t ht
    obtain ⟨i, hi, rfl⟩ := mem_exchanges hy
    rw [Finset.mem_singleton] at ht
    subst ht
    show (exchange i).U ((exchange i).U (2 ^ 62 - 1, 1)) = _
    rw [exchange_U i hi, exchange_U i hi]
  commute := by
    intro y hy z hz t ht
    obtain ⟨i, hi, rfl⟩ := mem_exchanges hy
    obtain ⟨j, hj, rfl⟩ := mem_exchanges hz
    rw [Finset.mem_singleton] at ht
    subst ht
    rw [exchange_U j hj, exchange_U i hi, exchange_U j hj]

theorem exchanges_prod : (exchanges.map fun y => y.per).prod = 2147483648 := by
  have : exchanges.map (fun y => y.per) = List.replicate 31 2 := by
    unfold exchanges
    rw [List.map_map]
    have : ((fun y => y.per) ∘ exchange) = fun _ => 2 := rfl
    rw [this, List.map_const', List.length_range]
  rw [this, List.prod_replicate]
  norm_num

theorem bmod_small (m : Int) (h0 : 0 < m) (h1 : m ≤ 1073741824) : Int.bmod m 4294967296 = m := by
  apply Int.bmod_eq_of_le <;> omega

theorem exchanges_step (M n : Nat) :
    ((List.range (n + 1)).map exchange).foldl (fun (a : Int) y => Int.bmod (a * y.per) M) 1
      = Int.bmod (((List.range n).map exchange).foldl (fun (a : Int) y => Int.bmod (a * y.per) M) 1 * 2) M := by
  rw [List.range_succ, List.map_append, List.foldl_append]
  rfl

theorem pow_small (n : Nat) (hn : n + 1 ≤ 30) : (2 : Int) ^ (n + 1) ≤ 1073741824 := by
  have : (2 : Int) ^ (n + 1) ≤ 2 ^ 30 := pow_le_pow_right₀ (by norm_num) hn
  norm_num at this ⊢
  exact this

theorem exchanges_factor : perFactor exchanges = -2147483648 := by
  have key : ∀ M : Nat, M = 4294967296 → ∀ n : Nat, n ≤ 30 →
      ((List.range n).map exchange).foldl (fun (a : Int) y => Int.bmod (a * y.per) M) 1 = 2 ^ n := by
    intro M hM n
    induction n with
    | zero => intro _; rfl
    | succ n ih =>
      intro hn
      rw [exchanges_step, ih (Nat.le_of_succ_le hn), ← pow_succ, hM]
      exact bmod_small _ (by positivity) (pow_small n hn)
  have last : ∀ M : Nat, M = 4294967296 →
      ((List.range 31).map exchange).foldl (fun (a : Int) y => Int.bmod (a * y.per) M) 1 = -2147483648 := by
    intro M hM
    rw [exchanges_step M 30, key M hM 30 (Nat.le_refl 30), hM]
    have e1 : (2 : Int) ^ 30 * 2 = 2147483648 := by norm_num
    rw [e1]
    decide
  exact last _ rfl

section
variable (full : Nat) (hU : ∀ i < 31, ∀ a, (exchange i).U (full, a) = (full, a))
include hU

theorem exchanges_word (l : List Generator) (hl : ∀ y ∈ l, y ∈ exchanges) (cs : List Nat) :
    word l cs (full, 1) = (full, 1) := by
  induction l generalizing cs with
  | nil => cases cs <;> rfl
  | cons y l ih =>
    cases cs with
    | nil => rfl
    | cons c cs =>
      rw [word, ih (fun z hz => hl z (by simp [hz]))]
      obtain ⟨i, hi, rfl⟩ := mem_exchanges (hl y (by simp))
      induction c with
      | zero => rfl
      | succ c ihc => rw [Function.iterate_succ_apply', ihc, hU i hi]

theorem exchanges_projection : projection exchanges full full = (2147483648 : Nat) := by
  have hang : ∀ (l : List Generator) (cs : List Nat), (∀ y ∈ l, y ∈ exchanges) → angle l cs = 0 := by
    intro l
    induction l with
    | nil => intro cs _; cases cs <;> rfl
    | cons y l ih =>
      intro cs hl
      cases cs with
      | nil => rfl
      | cons c cs =>
        obtain ⟨i, _, rfl⟩ := mem_exchanges (hl y (by simp))
        rw [angle, ih cs (fun z hz => hl z (by simp [hz]))]
        simp [exchange]
  unfold projection
  have : ∀ cs ∈ exponents exchanges, (if (word exchanges cs (full, 1)).1 = full then
      (starRingEnd ℂ) (character exchanges cs) * ((word exchanges cs (full, 1)).2 : ℂ) else 0) = 1 := by
    intro cs _
    rw [exchanges_word full hU exchanges (fun _ h => h), if_pos rfl, character, hang exchanges cs fun _ h => h]
    simp
  rw [List.map_congr_left this, List.map_const', List.sum_replicate, Proof.Projector.exponents_length, exchanges_prod,
    nsmul_eq_mul, mul_one]

theorem exchanges_max (h : Acts (· ∈ ({full} : Finset Nat)) exchanges) : OrbitMax exchanges full := by
  intro t ht
  obtain ⟨cs, _, rfl⟩ := (related_iff h _ t (Finset.mem_singleton_self _)).1 ht
  rw [exchanges_word full hU exchanges (fun _ h => h)]

theorem exchanges_square (h : Acts (· ∈ ({full} : Finset Nat)) exchanges) :
    squareNorm {full} exchanges full = 2 ^ 62 := by
  unfold squareNorm
  rw [if_pos (exchanges_max full hU h), norm_projection h full (Finset.mem_singleton_self _) ((2147483648 : Nat) : Int)
    (by rw [exchanges_projection full hU, Int.cast_natCast]), Proof.Projector.exponents_length, exchanges_prod,
    Int.cast_natCast]
  norm_num

theorem exchanges_body (h : Acts (· ∈ ({full} : Finset Nat)) exchanges) :
    normBody exchanges 64 [full] 0 = (2 ^ 64 - 2 ^ 62, false) := by
  have hcheck : checkState exchanges full = some (some ((2147483648 : Nat) : ℝ)) := by
    rw [(checkState_spec h (by simp [exchanges]) full (Finset.mem_singleton_self _)).2 (exchanges_max full hU h),
      exchanges_projection full hU, Complex.natCast_re]
  unfold normBody
  simp only [List.getElem?_cons_zero]
  rw [hcheck]
  simp only [Int.floor_natCast]
  rw [exchanges_factor]
  norm_num
  rfl

theorem exchanges_result (h : Acts (· ∈ ({full} : Finset Nat)) exchanges) :
    normalization exchanges (2 ^ 32 - 1) [full] [(0, false)] = some [2 ^ 64 - 2 ^ 62] := by
  have hb := exchanges_body full hU h
  unfold normalization
  rw [exchanges_prod]
  have hm : minBits ((2 ^ 32 - 1) * 2147483648) = some 64 := by unfold minBits; norm_num
  rw [hm]
  simp only [normalizationCore, parFor, hb]
  norm_num [minBits]

end

/-- The product of the periods is formed in a 32-bit integer (`general_basis_rep.h:23`).  62 sites with the 31
exchanges of pairs as (even) symmetries, all sites occupied: the square of the norm is 2⁶², `normalization`
returns 2⁶⁴ − 2⁶² and raises nothing. -/
theorem C71_fails_int_factor :
    squareNorm {2 ^ 62 - 1} exchanges (2 ^ 62 - 1) = 2 ^ 62 ∧
      normalization exchanges (2 ^ 32 - 1) [2 ^ 62 - 1] [(0, false)] = some [2 ^ 64 - 2 ^ 62] := by
  have hU := exchange_U
  have h := exchanges_act
  generalize 2 ^ 62 - 1 = full at hU h ⊢
  refine ⟨exchanges_square full hU h, ?_⟩
  exact exchanges_result full hU h

end Props
