import Verif.Proof.Ops
namespace Proof.Ops
open Spec Model Model.Word Proof.Digits

variable {b N : Nat} [NeZero b]

omit [NeZero b] in
theorem dsum_eq_sum (n s : Nat) : dsum b n s = ∑ k ∈ Finset.range n, digit b s k := by
  induction n with
  | zero => rfl
  | succ n ih => rw [dsum_top, Finset.sum_range_succ, ih]

omit [NeZero b] in
theorem dsum_set (s t j a : Nat) (hj : j < N) (h : ∀ k, digit b t k = if k = j then a else digit b s k) :
    dsum b N t + digit b s j = dsum b N s + a := by
  rw [dsum_eq_sum, dsum_eq_sum, ← Finset.sum_erase_add _ _ (Finset.mem_range.2 hj),
    ← Finset.sum_erase_add (Finset.range N) (digit b s) (Finset.mem_range.2 hj), h j, if_pos rfl]
  have : ∑ x ∈ (Finset.range N).erase j, digit b t x = ∑ x ∈ (Finset.range N).erase j, digit b s x := by
    apply Finset.sum_congr rfl
    intro k hk
    rw [h k, if_neg (Finset.ne_of_mem_erase hk)]
  omega

omit [NeZero b] in
theorem occ_of_digit (s t a : Nat) (i : Fin N)
    (h : ∀ k, digit b t k = if k = N - i - 1 then a else digit b s k) (j : Fin N) :
    occ b N t j = if j = i then a else occ b N s j := by
  have hi := i.2
  have hj := j.2
  unfold occ
  rw [h]
  have : (N - 1 - (j : Nat) = N - i - 1) ↔ j = i := by
    rw [Fin.ext_iff]; omega
  simp only [this]

omit [NeZero b] in
theorem digit_occ (s : Nat) (i : Fin N) : digit b s (N - i - 1) = occ b N s i := by
  unfold occ; congr 1; omega

/-- Target of a symbol. -/
def target (b N : Nat) (o : Char) (i r : Nat) : Nat :=
  if o = '+' then (if digit b r (N - i - 1) + 1 < b then r + b ^ (N - i - 1) else r)
  else if o = '-' then (if 0 < digit b r (N - i - 1) then r - b ^ (N - i - 1) else r)
  else r

omit [NeZero b] in
theorem add_fit (w r p : Nat) (c : Prop) [Decidable c] (hr : r < 2 ^ w) (h : c → r + p < 2 ^ w) :
    add w r (if c then p else 0) = if c then r + p else r := by
  unfold add
  split
  · rename_i hc; rw [Nat.mod_eq_of_lt (h hc)]
  · rw [Nat.add_zero, Nat.mod_eq_of_lt hr]

omit [NeZero b] in
theorem sub_fit (w r p : Nat) (c : Prop) [Decidable c] (hr : r < 2 ^ w) (h : c → p ≤ r) :
    sub w r (if c then p else 0) = if c then r - p else r := by
  unfold sub
  split
  · rename_i hc
    have := h hc
    rw [Nat.mod_eq_of_lt (by omega : p < 2 ^ w)]
    rw [show r + (2 ^ w - p) = (r - p) + 2 ^ w by omega, Nat.add_mod_right, Nat.mod_eq_of_lt (by omega)]
  · rw [Nat.zero_mod, Nat.sub_zero, Nat.add_mod_right, Nat.mod_eq_of_lt hr]

/-- Room needed by a symbol at the state `r`. -/
structure Room (w b N : Nat) (o : Char) (i r : Nat) : Prop where
  lt : r < b ^ N
  word : r < 2 ^ w
  pow : b ^ (N - i - 1) < 2 ^ w
  inc : o = '+' → digit b r (N - i - 1) + 1 < b → r + b ^ (N - i - 1) < 2 ^ w

omit [NeZero b] in
theorem target_lt (w : Nat) (o : Char) (i : Fin N) (r : Nat) (h : Room w b N o i r) : target b N o i r < b ^ N := by
  have hi := i.2
  have := h.lt
  unfold target
  split
  · split
    · rename_i _ hc; exact inc_lt r _ h.lt (by omega) hc
    · exact this
  · split
    · split
      · omega
      · exact this
    · exact this

/-- Column of a matrix that shifts the level of site `i` up, down or leaves it. -/
theorem col_level (u : Nat → Nat → ℂ) (o : Char) (i : Fin N) (r : Nat) (c : ℂ)
    (hplus : o = '+' → ∀ a < b, u a (occ b N r i) = if a = occ b N r i + 1 then c else 0)
    (hfull : o = '+' → c ≠ 0 → occ b N r i + 1 < b)
    (hminus : o = '-' → (∀ a < b, u a (occ b N r i) = if a + 1 = occ b N r i then c else 0) ∧ (c ≠ 0 → 0 < occ b N r i))
    (hdiag : o ≠ '+' → o ≠ '-' → ∀ a < b, u a (occ b N r i) = if a = occ b N r i then c else 0) :
    Col (b := b) (onSite u i) r (target b N o i r) c := by
  unfold target
  rw [digit_occ]
  by_cases hp : o = '+'
  · rw [if_pos hp]
    refine col_onSite u i r _ (occ b N r i + 1) c (hplus hp) ?_
    intro hc j
    rw [if_pos (hfull hp hc)]
    apply occ_of_digit
    intro k
    rw [digit_inc r _ k (by rw [digit_occ]; exact hfull hp hc), digit_occ]
  · rw [if_neg hp]
    by_cases hm : o = '-'
    · rw [if_pos hm]
      obtain ⟨h1, h2⟩ := hminus hm
      by_cases hc : c = 0
      · subst hc
        refine col_onSite u i r _ 0 0 ?_ (fun h => absurd rfl h)
        intro a ha
        have := h1 a ha
        simpa using this
      refine col_onSite u i r _ (occ b N r i - 1) c ?_ ?_
      · intro a ha
        rw [h1 a ha]
        have := h2 hc
        have e : a + 1 = occ b N r i ↔ a = occ b N r i - 1 := by omega
        simp only [e]
      · intro _ j
        rw [if_pos (h2 hc)]
        apply occ_of_digit
        intro k
        rw [digit_dec r _ k (by rw [digit_occ]; exact h2 hc) (NeZero.pos b), digit_occ]
    · rw [if_neg hm]
      refine col_onSite u i r _ (occ b N r i) c (hdiag hp hm) ?_
      intro _ j; split <;> simp_all

omit [NeZero b] in
theorem digitM_eq (w r j : Nat) (h : b ^ j < 2 ^ w) : digitM w b r j = digit b r j := by
  rw [digitM, Boson.powM_eq, Nat.mod_eq_of_lt h]; rfl

theorem boson_step (w : Nat) (o : Char) (i : Fin N) (r : Nat) (d f : ℝ)
    (ho : o ∈ ['I', 'n', '+', '-']) (h : Room w b N o i r) :
    ∃ c e : ℝ, bosonStep w b N o i ⟨r, d, f⟩ = some ⟨target b N o i r, d * c, f * e⟩ ∧ 0 ≤ e ∧
      Col (b := b) (onSite (boson b o) i) r (target b N o i r) ((c * Real.sqrt e : ℝ) : ℂ) ∧
      (o = '+' → e ≠ 0 → occ b N r i + 1 < b) ∧ (o = '-' → e ≠ 0 → 0 < occ b N r i) := by
  have hp : powM w b (N - i - 1) = b ^ (N - (i : Nat) - 1) := by rw [Boson.powM_eq, Nat.mod_eq_of_lt h.pow]
  have hlt : occ b N r i < b := digit_lt _ _ _ (NeZero.pos b)
  unfold bosonStep
  simp only [digitM_eq w r _ h.pow, hp]
  simp only [List.mem_cons, List.not_mem_nil, or_false] at ho
  rcases ho with rfl | rfl | rfl | rfl
  · refine ⟨1, 1, by simp [target], by norm_num, ?_, by simp, by simp⟩
    exact col_level _ _ i r _ (by simp) (by simp) (by simp) (by simp [boson])
  · refine ⟨occ b N r i, 1, by simp [target, digit_occ], by norm_num, ?_, by simp, by simp⟩
    exact col_level _ _ i r _ (by simp) (by simp) (by simp) (by simp [boson])
  · have e1 : (((digit b r (N - i - 1) + 1) % b : Nat) : ℝ) = if occ b N r i + 1 < b then (occ b N r i : ℝ) + 1 else 0 := by
      rw [digit_occ]
      split
      · rename_i hc; rw [Nat.mod_eq_of_lt hc]; push_cast; rfl
      · rw [show occ b N r i + 1 = b by omega, Nat.mod_self]; simp
    refine ⟨1, if occ b N r i + 1 < b then (occ b N r i : ℝ) + 1 else 0, ?_, ?_, ?_, ?_, by simp⟩
    · rw [add_fit w r _ _ h.word (h.inc rfl), e1]; simp [target]
    · split
      · positivity
      · norm_num
    · refine col_level _ _ i r _ ?_ ?_ (by simp) (by simp)
      · intro _ a ha
        by_cases hc : occ b N r i + 1 < b
        · simp [boson, hc]
        · have : a ≠ occ b N r i + 1 := by omega
          simp [boson, this]
      · intro _ hc
        by_contra h'
        simp [h'] at hc
    · intro _ he
      by_contra h'
      simp [h'] at he
  · refine ⟨1, occ b N r i, ?_, by positivity, ?_, by simp, ?_⟩
    · rw [sub_fit w r _ _ h.word (fun hc => pow_le_of_digit r _ hc)]; simp [target, digit_occ]
    · refine col_level _ _ i r _ (by simp) (by simp) ?_ (by simp)
      intro _
      refine ⟨fun a ha => by simp [boson], fun hc => ?_⟩
      by_contra h'
      have : occ b N r i = 0 := by omega
      simp [this] at hc
    · intro _ he
      by_contra h'
      have : occ b N r i = 0 := by omega
      simp [this] at he

theorem spin_plus (b c : ℝ) : (b - 1) / 2 * ((b - 1) / 2 + 1) - (c - (b - 1) / 2) * ((c - (b - 1) / 2) + 1)
    = (c + 1) * (b - c - 1) := by ring

theorem spin_minus (b c : ℝ) : (b - 1) / 2 * ((b - 1) / 2 + 1) - (c - (b - 1) / 2) * ((c - (b - 1) / 2) - 1)
    = c * (b - c) := by ring

theorem higherSpin_step (w : Nat) (o : Char) (i : Fin N) (r : Nat) (d f : ℝ)
    (ho : o ∈ ['I', 'z', '+', '-']) (h : Room w b N o i r) :
    ∃ c e : ℝ, higherSpinStep w b N o i ⟨r, d, f⟩ = some ⟨target b N o i r, d * c, f * e⟩ ∧ 0 ≤ e ∧
      Col (b := b) (onSite (spin b o) i) r (target b N o i r) ((c * Real.sqrt e : ℝ) : ℂ) ∧
      (o = '+' → e ≠ 0 → occ b N r i + 1 < b) ∧ (o = '-' → e ≠ 0 → 0 < occ b N r i) := by
  have hp : powM w b (N - i - 1) = b ^ (N - (i : Nat) - 1) := by rw [Boson.powM_eq, Nat.mod_eq_of_lt h.pow]
  have hlt : occ b N r i < b := digit_lt _ _ _ (NeZero.pos b)
  have hge : (occ b N r i : ℝ) + 1 ≤ b := by exact_mod_cast hlt
  unfold higherSpinStep
  simp only [digitM_eq w r _ h.pow, hp]
  simp only [List.mem_cons, List.not_mem_nil, or_false] at ho
  have hfull : ∀ x : ℝ, x = ((occ b N r i : ℝ) + 1) * (b - occ b N r i - 1) → x ≠ 0 → occ b N r i + 1 < b := by
    intro x hx h0
    by_contra h'
    have e : (b : ℝ) = (occ b N r i : ℝ) + 1 := by
      have : b = occ b N r i + 1 := by omega
      exact_mod_cast this
    apply h0
    rw [hx, e]; ring
  rcases ho with rfl | rfl | rfl | rfl
  · refine ⟨1, 1, by simp [target], by norm_num, ?_, by simp, by simp⟩
    exact col_level _ _ i r _ (by simp) (by simp) (by simp) (by simp [spin])
  · refine ⟨occ b N r i - ((b : ℝ) - 1) / 2, 1, by simp [target, digit_occ], by norm_num, ?_, by simp, by simp⟩
    exact col_level _ _ i r _ (by simp) (by simp) (by simp) (by simp [spin])
  · refine ⟨1, ((occ b N r i : ℝ) + 1) * (b - occ b N r i - 1), ?_, ?_, ?_, ?_, by simp⟩
    · rw [add_fit w r _ _ h.word (h.inc rfl)]; simp [target, digit_occ]
    · apply mul_nonneg <;> [positivity; linarith]
    · refine col_level _ _ i r _ ?_ ?_ (by simp) (by simp)
      · intro _ a ha
        simp only [spin]
        rw [spin_plus]; simp
      · intro _ hc
        apply hfull _ rfl
        intro h0
        simp [h0] at hc
    · intro _ he
      exact hfull _ rfl he
  · refine ⟨1, (occ b N r i : ℝ) * (b - occ b N r i), ?_, ?_, ?_, by simp, ?_⟩
    · rw [sub_fit w r _ _ h.word (fun hc => pow_le_of_digit r _ hc)]; simp [target, digit_occ]
    · apply mul_nonneg <;> [positivity; linarith]
    · refine col_level _ _ i r _ (by simp) (by simp) ?_ (by simp)
      intro _
      refine ⟨fun a ha => by simp only [spin]; rw [spin_minus]; simp, fun hc => ?_⟩
      by_contra h'
      have : occ b N r i = 0 := by omega
      simp [this] at hc
    · intro _ he
      by_contra h'
      have : occ b N r i = 0 := by omega
      simp [this] at he

/-- Occurrences of a symbol. -/
def times (o : Char) (l : List (Char × Fin N)) : Nat := l.countP (fun p => p.1 == o)

/-- Every partial application (from the left of `l`) keeps the number of quanta at most `K`. -/
def Below (K : Nat) (b : Nat) (l : List (Char × Fin N)) (r : Nat) : Prop :=
  ∀ l', l' <+: l → dsum b N r + times '+' l' ≤ K + times '-' l'

theorem below_target (K : Nat) (p : Char × Fin N) (l : List (Char × Fin N)) (r : Nat)
    (h : Below K b (p :: l) r)
    (hp : p.1 = '+' → occ b N r p.2 + 1 < b) (hm : p.1 = '-' → 0 < occ b N r p.2) :
    Below K b l (target b N p.1 p.2 r) := by
  intro l' hl'
  have h1 := h (p :: l') (by simpa using hl')
  have hi := p.2.2
  unfold times at *
  simp only [List.countP_cons] at h1
  unfold target
  rw [digit_occ]
  by_cases hc : p.1 = '+'
  · simp only [hc, if_true] at h1 ⊢
    rw [if_pos (hp hc)]
    have := dsum_set (N := N) (b := b) r (r + b ^ (N - p.2 - 1)) (N - p.2 - 1) _ (by omega)
      (fun k => digit_inc r _ k (by rw [digit_occ]; exact hp hc))
    simp at h1
    omega
  · by_cases hc2 : p.1 = '-'
    · simp only [hc2, if_true] at h1 ⊢
      rw [if_pos (hm hc2)]
      have hpos : 0 < digit b r (N - p.2 - 1) := by rw [digit_occ]; exact hm hc2
      have := dsum_set (N := N) (b := b) r (r - b ^ (N - (p.2 : Nat) - 1)) (N - p.2 - 1) _ (by omega)
        (fun k => digit_dec r _ k hpos (NeZero.pos b))
      simp at h1
      simp
      omega
    · have e1 : (p.1 == '+') = false := by simpa using hc
      have e2 : (p.1 == '-') = false := by simpa using hc2
      simp only [e1, e2] at h1
      simp only [hc, hc2, if_false]
      simpa using h1

omit [NeZero b] in
/-- Room for a whole string. -/
theorem room_of_below (w K : Nat) (hfit : ∀ x < b ^ N, dsum b N x ≤ K → x < 2 ^ w)
    (hpow : ∀ k < N, b ^ k < 2 ^ w) (p : Char × Fin N) (l : List (Char × Fin N)) (r : Nat)
    (hr : r < b ^ N) (h : Below K b (p :: l) r) : Room w b N p.1 p.2 r := by
  have hi := p.2.2
  have h0 := h [] (by simp)
  refine ⟨hr, hfit r hr (by simpa [times] using h0), hpow _ (by omega), ?_⟩
  intro hp hd
  apply hfit _ (inc_lt r _ hr (by omega) hd)
  have := dsum_set (N := N) (b := b) r (r + b ^ (N - p.2 - 1)) (N - p.2 - 1) _ (by omega)
      (fun k => digit_inc r _ k hd)
  have h1 := h [p] (by simp)
  simp [times, hp] at h1
  omega

/-- Soundness of a multi-level symbol, in the form shared by all classes. -/
def StepOk (w b N : Nat) [NeZero b] (u : Char → Nat → Nat → ℂ) (step : Char → Nat → LevelAcc → Option LevelAcc)
    (ok : Char → Prop) : Prop :=
  ∀ (o : Char) (i : Fin N) (r : Nat) (d f : ℝ), ok o → Room w b N o i r →
    ∃ c e : ℝ, step o i ⟨r, d, f⟩ = some ⟨target b N o i r, d * c, f * e⟩ ∧ 0 ≤ e ∧
      Col (b := b) (onSite (u o) i) r (target b N o i r) ((c * Real.sqrt e : ℝ) : ℂ) ∧
      (o = '+' → e ≠ 0 → occ b N r i + 1 < b) ∧ (o = '-' → e ≠ 0 → 0 < occ b N r i)

theorem boson1d_step (spinMe : Bool) (w : Nat) :
    StepOk w b N (if spinMe then spin b else boson b) (boson1dStep spinMe w b N)
      (fun o => o ∈ (if spinMe then ['I', 'z', '+', '-'] else ['I', 'z', 'n', '+', '-'])) := by
  intro o i r d f ho h
  have hp : powM w b (N - i - 1) = b ^ (N - (i : Nat) - 1) := by rw [Boson.powM_eq, Nat.mod_eq_of_lt h.pow]
  have hlt : occ b N r i < b := digit_lt _ _ _ (NeZero.pos b)
  have hb : 0 < b := NeZero.pos b
  have hge : (occ b N r i : ℝ) + 1 ≤ b := by exact_mod_cast hlt
  have hc1 : ((b - 1 : Nat) : ℝ) = (b : ℝ) - 1 := by
    rw [Nat.cast_sub (by omega), Nat.cast_one]
  have hdg : r / b ^ (N - (i : Nat) - 1) % b = occ b N r i := digit_occ r i
  have hiff : occ b N r i < b - 1 ↔ occ b N r i + 1 < b := by omega
  have hz : o = 'z' → boson b 'z' = spin b 'z' := by
    intro _; funext a c; simp [boson, spin]
  unfold boson1dStep
  simp only [hp, Nat.sub_add_cancel hb, hdg, hc1, hiff]
  have hplus : ∀ e : ℝ, e = (if occ b N r i + 1 < b then (occ b N r i : ℝ) + 1 else 0) * (if spinMe then (b : ℝ) - 1 - occ b N r i else 1) →
      0 ≤ e ∧ (e ≠ 0 → occ b N r i + 1 < b) ∧
      Col (b := b) (onSite ((if spinMe then spin b else boson b) '+') i) r (target b N '+' i r) ((1 * Real.sqrt e : ℝ) : ℂ) := by
    intro e he
    have h3 : e ≠ 0 → occ b N r i + 1 < b := by
      intro h0; by_contra h'; simp [h'] at he; exact h0 he
    refine ⟨?_, h3, ?_⟩
    · rw [he]; apply mul_nonneg
      · split
        · positivity
        · norm_num
      · split
        · linarith
        · norm_num
    · refine col_level _ _ i r _ ?_ ?_ (by simp) (by simp)
      · intro _ a ha
        by_cases hc : occ b N r i + 1 < b
        · rw [he]
          cases spinMe
          · simp [boson, hc]
          · simp only [if_true, spin, hc]
            rw [spin_plus, show (b : ℝ) - occ b N r i - 1 = b - 1 - occ b N r i by ring]
            simp
        · have : a ≠ occ b N r i + 1 := by omega
          cases spinMe <;> simp [boson, spin, this]
      · intro _ h0
        apply h3
        intro h1; simp [h1] at h0
  have hminus : ∀ e : ℝ, e = (occ b N r i : ℝ) * (if spinMe then (b : ℝ) - 1 - occ b N r i + 1 else 1) →
      0 ≤ e ∧ (e ≠ 0 → 0 < occ b N r i) ∧
      Col (b := b) (onSite ((if spinMe then spin b else boson b) '-') i) r (target b N '-' i r) ((1 * Real.sqrt e : ℝ) : ℂ) := by
    intro e he
    have h3 : e ≠ 0 → 0 < occ b N r i := by
      intro h0; by_contra h'
      have : occ b N r i = 0 := by omega
      simp [this] at he; exact h0 he
    refine ⟨?_, h3, ?_⟩
    · rw [he]; apply mul_nonneg
      · positivity
      · split
        · linarith
        · norm_num
    · refine col_level _ _ i r _ (by simp) (by simp) ?_ (by simp)
      intro _
      refine ⟨?_, ?_⟩
      · intro a ha
        rw [he]
        cases spinMe
        · simp [boson]
        · simp only [if_true, spin]
          rw [spin_minus, show (b : ℝ) - 1 - occ b N r i + 1 = b - occ b N r i by ring]
          simp
      · intro h0
        apply h3
        intro h1; simp [h1] at h0
  have hmem : o = 'I' ∨ o = 'z' ∨ (o = 'n' ∧ spinMe = false) ∨ o = '+' ∨ o = '-' := by
    cases spinMe <;> simp at ho <;> tauto
  rcases hmem with rfl | rfl | ⟨rfl, rfl⟩ | rfl | rfl
  · refine ⟨1, 1, by simp [target], by norm_num, ?_, by simp, by simp⟩
    cases spinMe <;> exact col_level _ _ i r _ (by simp) (by simp) (by simp) (by simp [boson, spin])
  · refine ⟨occ b N r i - ((b : ℝ) - 1) / 2, 1, by simp [target], by norm_num, ?_, by simp, by simp⟩
    cases spinMe <;> exact col_level _ _ i r _ (by simp) (by simp) (by simp) (by simp [boson, spin])
  · refine ⟨occ b N r i, 1, by simp [target], by norm_num, ?_, by simp, by simp⟩
    exact col_level _ _ i r _ (by simp) (by simp) (by simp) (by simp [boson])
  · obtain ⟨h1, h2, h3⟩ := hplus _ rfl
    refine ⟨1, _, ?_, h1, h3, fun _ => h2, by simp⟩
    rw [add_fit w r _ _ h.word (fun hc => h.inc rfl (by rw [digit_occ]; exact hc))]
    simp [target, digit_occ, mul_assoc]
  · obtain ⟨h1, h2, h3⟩ := hminus _ rfl
    refine ⟨1, _, ?_, h1, h3, by simp, fun _ => h2⟩
    rw [sub_fit w r _ _ h.word (fun hc => pow_le_of_digit r _ (by rw [digit_occ]; exact hc))]
    simp [target, digit_occ, mul_assoc]

theorem boson_stepOk (w : Nat) : StepOk w b N (boson b) (bosonStep w b N) (fun o => o ∈ ['I', 'n', '+', '-']) :=
  fun o i r d f ho h => boson_step w o i r d f ho h

theorem higherSpin_stepOk (w : Nat) : StepOk w b N (spin b) (higherSpinStep w b N) (fun o => o ∈ ['I', 'z', '+', '-']) :=
  fun o i r d f ho h => higherSpin_step w o i r d f ho h

/-- A whole string, when every configuration fits the type. -/
theorem level_full (w : Nat) (h1 : 1 < b) (hw : b ^ N ≤ 2 ^ w) (u : Char → Nat → Nat → ℂ)
    (step : Char → Nat → LevelAcc → Option LevelAcc) (ok : Char → Prop) (hstep : StepOk w b N u step ok)
    (stop : LevelAcc → Prop) (hstop : ∀ y, stop y → y.diag = 0 ∨ y.off = 0) (hgo : ∀ y, ¬ stop y → y.off ≠ 0)
    (str : List (Char × Fin N)) (hstr : ∀ p ∈ str, ok p.1) (s : Nat) (hs : s < b ^ N) (A : ℂ) :
    ∃ y, levelLoop stop step s (str.reverse.map fun p => (p.1, (p.2 : Nat))) ⟨s, 1, 1⟩ = some y ∧ y.r < b ^ N ∧
      Col (A • stringOp (fun o i => onSite (b := b) (u o) i) str) s y.r (A * ((y.diag * Real.sqrt y.off : ℝ) : ℂ)) := by
  obtain ⟨y, h1, h2, h3⟩ := levelLoop_spec (b := b) (fun o i => onSite (u o) i) stop step
    (fun l r => r < b ^ N ∧ ∀ p ∈ l, ok p.1) (fun _ _ h => h.1) hstop hgo (by
      intro p l r d f ⟨hr, hok⟩
      have hi := p.2.2
      have room : Room w b N p.1 p.2 r := by
        refine ⟨hr, by omega, ?_, ?_⟩
        · exact Nat.lt_of_lt_of_le (Nat.pow_lt_pow_right h1 (by omega)) hw
        · intro _ hd
          have := inc_lt r (N - p.2 - 1) hr (by omega) hd
          omega
      obtain ⟨c, e, g1, g2, g3, _⟩ := hstep p.1 p.2 r d f (hok p (by simp)) room
      exact ⟨_, c, e, g1, g2, fun _ => ⟨target_lt w p.1 p.2 r room, fun q hq => hok q (by simp [hq])⟩, g3⟩)
    A s hs str.reverse (A • 1) s 1 1 ⟨hs, by simpa using hstr⟩ (by norm_num) (by
      simpa using col_one (b := b) (N := N) s A)
  exact ⟨y, h1, h2, by simpa using h3⟩

/-- A whole string, when the number of quanta never exceeds `K` and the configurations with at most
`K` quanta fit the type. -/
theorem level_bounded (w K : Nat) (hfit : ∀ x < b ^ N, dsum b N x ≤ K → x < 2 ^ w)
    (hpow : ∀ k < N, b ^ k < 2 ^ w) (u : Char → Nat → Nat → ℂ)
    (step : Char → Nat → LevelAcc → Option LevelAcc) (ok : Char → Prop) (hstep : StepOk w b N u step ok)
    (stop : LevelAcc → Prop) (hstop : ∀ y, stop y → y.diag = 0 ∨ y.off = 0) (hgo : ∀ y, ¬ stop y → y.off ≠ 0)
    (str : List (Char × Fin N)) (hstr : ∀ p ∈ str, ok p.1) (s : Nat) (hs : s < b ^ N)
    (hK : Below K b str.reverse s) (A : ℂ) :
    ∃ y, levelLoop stop step s (str.reverse.map fun p => (p.1, (p.2 : Nat))) ⟨s, 1, 1⟩ = some y ∧ y.r < b ^ N ∧
      Col (A • stringOp (fun o i => onSite (b := b) (u o) i) str) s y.r (A * ((y.diag * Real.sqrt y.off : ℝ) : ℂ)) := by
  obtain ⟨y, h1, h2, h3⟩ := levelLoop_spec (b := b) (fun o i => onSite (u o) i) stop step
    (fun l r => r < b ^ N ∧ Below K b l r ∧ ∀ p ∈ l, ok p.1) (fun _ _ h => h.1) hstop hgo (by
      intro p l r d f ⟨hr, hbel, hok⟩
      have room := room_of_below w K hfit hpow p l r hr hbel
      obtain ⟨c, e, g1, g2, g3, g4, g5⟩ := hstep p.1 p.2 r d f (hok p (by simp)) room
      refine ⟨_, c, e, g1, g2, fun he => ⟨target_lt w p.1 p.2 r room, ?_, fun q hq => hok q (by simp [hq])⟩, g3⟩
      exact below_target K p l r hbel (fun h => g4 h he) (fun h => g5 h he))
    A s hs str.reverse (A • 1) s 1 1 ⟨hs, hK, by simpa using hstr⟩ (by norm_num) (by
      simpa using col_one (b := b) (N := N) s A)
  exact ⟨y, h1, h2, by simpa using h3⟩

end Proof.Ops
