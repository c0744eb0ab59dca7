import Verif.Proof.Amp
import Verif.Spec.Amp
import Verif.Props.C07
/-! Values of the normalization and of the amplitudes. -/
namespace Proof.Amp
open Model Model.Amp Spec Proof.Symmetry Proof.Projector
open scoped BigOperators

variable {conf : Finset Nat} {ys : List Generator}

/-- the two cases of an orbit maximum -/
theorem max_cases (h : Acts (· ∈ conf) ys) (hlen : ys.length ≤ 32) (r : Nat) (hr : r ∈ conf) (hmax : OrbitMax ys r) :
    (∃ n : Nat, 0 < n ∧ n ≤ (ys.map fun y => y.per).prod ∧ checkState ys r = some (some (n : ℝ)) ∧
      projection ys r r = n ∧
      ∑ t ∈ conf, ‖projection ys r t‖ ^ 2 = ((ys.map fun y => y.per).prod : Nat) * (n : ℝ)) ∨
    (checkState ys r = some (some 0) ∧ ∀ t, projection ys r t = 0) := by
  have hc := (checkState_spec h hlen r hr).2 hmax
  rcases projection_cases h r hr with ⟨_, h2, h3⟩ | h0
  · left
    refine ⟨(stab ys r).length, h3, ?_, ?_, h2, ?_⟩
    · rw [← exponents_length]
      exact List.length_filter_le _ _
    · rw [hc, h2]; simp
    · have := norm_projection h r hr (stab ys r).length (by rw [h2]; simp)
      rw [this, exponents_length]
      simp
  · right
    exact ⟨by rw [hc, h0]; simp, h0⟩

theorem prod_pos (h : Acts (· ∈ conf) ys) : 0 < (ys.map fun y => y.per).prod := by
  rw [← exponents_length]; exact exponents_pos h

theorem perFactor_eq (hp : ∀ y ∈ ys, 0 < y.per) (hb : (ys.map fun y => y.per).prod < 2 ^ 31) :
    perFactor ys = ((ys.map fun y => y.per).prod : Nat) := by
  unfold perFactor
  have key : ∀ (l : List Generator) (a : Nat), (∀ y ∈ l, 0 < y.per) → a * (l.map fun y => y.per).prod < 2 ^ 31 →
      l.foldl (fun (a : Int) y => Int.bmod (a * y.per) 4294967296) (a : Int) = (a * (l.map fun y => y.per).prod : Nat) := by
    intro l
    induction l with
    | nil => intro a _ _; simp
    | cons y l ih =>
      intro a hl hb
      rw [List.foldl_cons]
      have hb' : a * y.per * (l.map fun y => y.per).prod < 2 ^ 31 := by
        rw [List.map_cons, List.prod_cons, ← mul_assoc] at hb; exact hb
      have hpos : 0 < (l.map fun y => y.per).prod := by
        apply Nat.pos_of_ne_zero
        intro he
        rw [List.prod_eq_zero_iff, List.mem_map] at he
        obtain ⟨z, hz, hz0⟩ := he
        have := hl z (by simp [hz])
        omega
      have hle : a * y.per ≤ a * y.per * (l.map fun y => y.per).prod := Nat.le_mul_of_pos_right _ hpos
      have hbm : Int.bmod ((a : Int) * y.per) 4294967296 = ((a * y.per : Nat) : Int) := by
        have h3 : a * y.per < 2 ^ 31 := lt_of_le_of_lt hle hb'
        rw [← Nat.cast_mul]
        generalize a * y.per = m at h3
        apply Int.bmod_eq_of_le <;> omega
      rw [hbm, ih _ (fun z hz => hl z (by simp [hz])) hb', List.map_cons, List.prod_cons, mul_assoc]
  have := key ys 1 hp (by rw [one_mul]; exact hb)
  rw [one_mul] at this
  exact_mod_cast this

/-- one iteration of the normalization -/
theorem normBody_spec (h : Acts (· ∈ conf) ys) (hlen : ys.length ≤ 32) (hb : (ys.map fun y => y.per).prod < 2 ^ 31)
    (w : Nat) (hw : w ≤ 64) (states : List Nat) (i s : Nat) (hi : states[i]? = some s) (hs : s ∈ conf) :
    ∃ N : Nat, (N : ℝ) = squareNorm conf ys s ∧ (normBody ys w states i).2 = decide (N > 2 ^ w - 1) ∧
      (N ≤ 2 ^ w - 1 → (normBody ys w states i).1 = N) := by
  unfold normBody squareNorm
  rw [hi]
  simp only
  by_cases hmax : OrbitMax ys s
  · rw [if_pos hmax]
    rcases max_cases h hlen s hs hmax with ⟨n, h1, h2, h3, _, h5⟩ | ⟨h1, h2⟩
    · refine ⟨(ys.map fun y => y.per).prod * n, by rw [h5]; push_cast; ring, ?_⟩
      rw [h3]
      simp only [Int.floor_natCast]
      rw [if_pos (by exact_mod_cast h1), perFactor_eq h.per_pos hb]
      generalize (ys.map fun y => y.per).prod = P at *
      have hPn : P * n < 2 ^ 62 := by
        calc P * n ≤ P * P := Nat.mul_le_mul_left _ h2
          _ < 2 ^ 31 * 2 ^ 31 := Nat.mul_lt_mul'' hb hb
          _ = 2 ^ 62 := by norm_num
      have e : ((n : Int) * (P : Int)) % 2 ^ 64 = ((P * n : Nat) : Int) := by
        rw [Int.emod_eq_of_lt (by positivity)]
        · push_cast; ring
        · have : ((P * n : Nat) : Int) < 2 ^ 62 := by exact_mod_cast hPn
          push_cast at this
          have e2 : (n : Int) * P = P * n := by ring
          omega
      have hpw : (1 : Nat) ≤ 2 ^ w := Nat.one_le_two_pow
      refine ⟨?_, ?_⟩
      · simp only [e]
        congr 1
        apply propext
        have : ((2 : Int) ^ w) = ((2 ^ w : Nat) : Int) := by push_cast; rfl
        rw [this]
        generalize (2 : Nat) ^ w = q at *
        omega
      · intro hle
        have e3 : ((n : Int) % 2 ^ w * (P : Int)) % 2 ^ w = ((P * n : Nat) : Int) := by
          rw [Int.mul_emod, Int.emod_emod_of_dvd _ (dvd_refl _), ← Int.mul_emod]
          rw [Int.emod_eq_of_lt (by positivity)]
          · push_cast; ring
          · have : ((2 : Int) ^ w) = ((2 ^ w : Nat) : Int) := by push_cast; rfl
            rw [this]
            have e2 : (n : Int) * P = ((P * n : Nat) : Int) := by push_cast; ring
            rw [e2]
            generalize (2 : Nat) ^ w = q at *
            omega
        rw [e3]; exact Int.toNat_natCast _
    · refine ⟨0, by simp [h2], ?_⟩
      rw [h1]
      simp
  · rw [if_neg hmax]
    have hex : ∃ t, Related ys s t ∧ s < t := by
      unfold OrbitMax at hmax
      push Not at hmax
      exact hmax
    rw [(checkState_spec h hlen s hs).1 hex]
    exact ⟨0, by simp, by simp, by simp⟩

/-- the amplitude of `get_amp` in full-basis mode -/
theorem ampFull_spec (h : Acts (· ∈ conf) ys) (hlen : ys.length ≤ 32) (fermionic : Bool)
    (hf : fermionic = false → ∀ y ∈ ys, ∀ t ∈ conf, y.sgn t = 1) (s : Nat) (hs : s ∈ conf) :
    ∃ r, Related ys s r ∧ OrbitMax ys r ∧ ampFull fermionic ys s = some (r, symState conf ys r s) := by
  obtain ⟨b, b1, b2, b3, _, _⟩ := Props.C07_representative _ ys h hlen s hs
  have hrc : b.r ∈ conf := related_closed h hs b2
  have hmax : OrbitMax ys b.r := fun t ht => b3 t (b2.trans ht)
  have hrs : Related ys b.r s := related_symm h hs b2
  refine ⟨b.r, b2, hmax, ?_⟩
  unfold ampFull
  rw [b1]
  simp only
  rcases max_cases h hlen b.r hrc hmax with ⟨n, h1, h2, h3, h4, h5⟩ | ⟨h1, h2⟩
  · rw [h3]
    simp only
    have hn : (0 : ℝ) < n := by exact_mod_cast h1
    rw [if_pos hn]
    have hP : (0 : ℝ) < perProd ys := by unfold perProd; exact_mod_cast prod_pos h
    have hsym : symState conf ys b.r s = projection ys b.r s / (Real.sqrt (n * perProd ys) : ℝ) := by
      unfold symState
      rw [h5]
      congr 3
      unfold perProd
      ring
    by_cases hph : needPhase fermionic ys = true
    · rw [if_pos hph, getAmpRep_eq h b.r s hrc hrs, hsym]
    · rw [if_neg hph, hsym]
      unfold needPhase at hph
      simp only [Bool.or_eq_true, decide_eq_true_eq, not_or, Bool.not_eq_true] at hph
      obtain ⟨hq, hfe⟩ := hph
      have hq0 : ∀ y ∈ ys, y.q = 0 := by
        intro y hy
        have : (ys.map fun y => y.q.natAbs).sum = 0 := by omega
        rw [List.sum_eq_zero_iff] at this
        have := this _ (List.mem_map.2 ⟨y, hy, rfl⟩)
        omega
      obtain ⟨cs, hcs, e⟩ := (related_iff h b.r s hrc).1 hrs
      have hshift := projection_shift_right h b.r b.r hrc hrc cs hcs
      rw [e] at hshift
      have hang : ∀ (l : List Generator) (cs : List Nat), (∀ y ∈ l, y.q = 0) → angle l cs = 0 := by
        intro l
        induction l with
        | nil => intro cs _; simp [angle]
        | cons y l ih =>
          intro cs hl
          cases cs with
          | nil => simp [angle]
          | cons c cs =>
            rw [angle, ih cs (fun z hz => hl z (by simp [hz])), hl y (by simp)]
            simp
      have hsg : ∀ (l : List Generator) (cs : List Nat), (∀ y ∈ l, y ∈ ys) → ∀ x : Nat × Int, x.1 ∈ conf →
          (word l cs x).2 = x.2 ∧ (word l cs x).1 ∈ conf := by
        intro l
        induction l with
        | nil => intro cs _ x hx; cases cs <;> exact ⟨rfl, hx⟩
        | cons y l ih =>
          intro cs hl x hx
          cases cs with
          | nil => exact ⟨rfl, hx⟩
          | cons c cs =>
            rw [word]
            obtain ⟨i1, i2⟩ := ih cs (fun z hz => hl z (by simp [hz])) x hx
            generalize word l cs x = u at i1 i2
            have : ∀ c, (y.U^[c] u).2 = u.2 ∧ (y.U^[c] u).1 ∈ conf := by
              intro c
              induction c with
              | zero => exact ⟨rfl, i2⟩
              | succ c ihc =>
                rw [Function.iterate_succ_apply']
                refine ⟨?_, h.closed y (hl y (by simp)) _ ihc.2⟩
                show (y.U^[c] u).2 * y.sgn (y.U^[c] u).1 = u.2
                rw [hf hfe y (hl y (by simp)) _ ihc.2, ihc.1, mul_one]
            exact ⟨(this c).1.trans i1, (this c).2⟩
      have hchi : chi ys b.r cs = 1 := by
        unfold chi character
        rw [hang ys cs hq0, (hsg ys cs (fun _ h => h) (b.r, 1) hrc).1]
        simp
      rw [hshift, hchi, one_mul, h4]
      congr 2
      have e1 : ((n : ℂ)) = ((n : ℝ) : ℂ) := by simp
      rw [e1, ← Complex.ofReal_div]
      congr 1
      rw [Real.sqrt_div hn.le, Real.sqrt_mul hn.le]
      rw [div_mul_eq_div_div, Real.div_sqrt]
  · rw [h1]
    simp only
    rw [if_neg (by simp)]
    unfold symState
    rw [h2]; simp

/-- the amplitude in representative mode -/
theorem ampLight_spec (h : Acts (· ∈ conf) ys) (hlen : ys.length ≤ 32) (fermionic : Bool)
    (hf : fermionic = false → ∀ y ∈ ys, ∀ t ∈ conf, y.sgn t = 1) (s : Nat) (hs : s ∈ conf) (hin : InReduced ys s) :
    ampLight fermionic ys s = some (symState conf ys s s) := by
  obtain ⟨r, r1, r2, r3⟩ := ampFull_spec h hlen fermionic hf s hs
  have hrs : r = s := Nat.le_antisymm (hin.1 r r1) (r2 s (related_symm h hs r1))
  subst hrs
  obtain ⟨hmax, t, ht⟩ := hin
  rcases max_cases h hlen r hs hmax with ⟨n, h1, h2, h3, h4, h5⟩ | ⟨h1, h2⟩
  · unfold ampLight
    rw [h3]
    simp only
    have hn : (0 : ℝ) < n := by exact_mod_cast h1
    obtain ⟨b, b1, b2, b3, _, _⟩ := Props.C07_representative _ ys h hlen r hs
    have hbr : b.r = r := Nat.le_antisymm (hmax _ b2) (b3 _ Relation.ReflTransGen.refl)
    unfold ampFull at r3
    rw [b1] at r3
    simp only [hbr] at r3
    rw [h3] at r3
    simp only at r3
    rw [if_pos hn] at r3
    by_cases hph : needPhase fermionic ys = true
    · rw [if_pos hph] at r3 ⊢
      rw [if_neg hn.ne']
      injection r3 with r3
      injection r3 with _ r3
      rw [r3]
    · rw [if_neg hph] at r3 ⊢
      injection r3 with r3
      injection r3 with _ r3
      rw [r3]
  · exact absurd (h2 t) ht

/-- different representatives have no common configuration -/
theorem symState_zero (h : Acts (· ∈ conf) ys) (r r' s : Nat) (hr : r ∈ conf) (hr' : r' ∈ conf) (hmax : OrbitMax ys r)
    (hmax' : OrbitMax ys r') (hrs : Related ys r s) (hne : r' ≠ r) : symState conf ys r' s = 0 := by
  unfold symState
  rw [projection_unrelated h r' s hr', zero_div]
  intro hrel
  apply hne
  have h1 : Related ys r' r := hrel.trans (related_symm h hr hrs)
  exact Nat.le_antisymm (hmax r' (related_symm h hr' h1)) (hmax' r h1)

/-- the amplitude of an expanded vector -/
theorem expanded_at (h : Acts (· ∈ conf) ys) (v psi : Nat → ℂ) (hpsi : IsExpanded conf ys v psi) (r s : Nat)
    (hs : s ∈ conf) (hrs : Related ys s r) (hmax : OrbitMax ys r) :
    psi s = symState conf ys r s * v r := by
  classical
  have hr : r ∈ conf := related_closed h hs hrs
  rw [hpsi s hs, Finset.sum_eq_single r]
  · ring
  · intro r' hr' hne
    rw [Finset.mem_filter] at hr'
    rw [symState_zero h r r' s hr hr'.1 hmax hr'.2.1 (related_symm h hs hrs) hne, mul_zero]
  · intro hnot
    rw [Finset.mem_filter] at hnot
    have h0 : ∀ t, projection ys r t = 0 := by
      intro t
      by_contra hne
      exact hnot ⟨hr, hmax, t, hne⟩
    unfold symState
    rw [h0]; simp

/-- the amplitude vanishes only outside the block -/
theorem symState_ne_zero (h : Acts (· ∈ conf) ys) (hlen : ys.length ≤ 32) (r s : Nat) (hr : r ∈ conf)
    (hin : InReduced ys r) (hrs : Related ys r s) : symState conf ys r s ≠ 0 := by
  obtain ⟨hmax, t, ht⟩ := hin
  rcases max_cases h hlen r hr hmax with ⟨n, h1, _, _, h4, h5⟩ | ⟨_, h2⟩
  · unfold symState
    rw [h5]
    obtain ⟨cs, hcs, e⟩ := (related_iff h r s hr).1 hrs
    have hshift := projection_shift_right h r r hr hr cs hcs
    rw [e] at hshift
    rw [hshift, h4]
    have hchi := chi_normSq h r hr cs
    apply div_ne_zero
    · apply mul_ne_zero
      · intro h0
        rw [h0] at hchi
        simp at hchi
      · exact_mod_cast h1.ne'
    · have hP := prod_pos h
      rw [Ne, Complex.ofReal_eq_zero, Real.sqrt_eq_zero']
      push Not
      positivity
  · exact absurd (h2 t) ht

end Proof.Amp
