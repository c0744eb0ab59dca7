import Verif.Proof.ChainMatrix
import Verif.Proof.ChainRef
import Verif.Model.ChainOp
import Verif.Spec.ChainBlock
/-! From representatives to matrix elements. -/
namespace Proof.Chain
open Model Spec Model.Chain Proof.Symmetry Proof.Maps
open Spec.Chain (Fits HasFlip)
open scoped BigOperators

/-- `l` is the basis of the states in `S` that `keep` keeps. -/
structure IsBlock {α : Type} (S : ℕ → Prop) (keep : ℕ → Option α) (l : List (ℕ × α)) : Prop where
  sorted : (l.map (·.1)).Pairwise (· > ·)
  mem : ∀ s d, (s, d) ∈ l ↔ S s ∧ keep s = some d

theorem makeBlock_fst {α : Type} (keep : ℕ → Option α) (nosymm : ℕ → Bool) (es : List ℕ) (h : es.Pairwise (· < ·)) :
    ((es.filterMap fun s => if nosymm s then (keep s).map fun d => (s, d) else none).map (·.1)).Pairwise (· < ·) := by
  rw [List.pairwise_map, List.pairwise_filterMap]
  refine h.imp ?_
  intro a a' haa b hb b' hb'
  have h1 : ∀ (x : ℕ) (y : ℕ × α), (if nosymm x then (keep x).map fun d => (x, d) else none) = some y → y.1 = x := by
    intro x y hxy
    split_ifs at hxy
    rw [Option.map_eq_some_iff] at hxy
    obtain ⟨d, _, rfl⟩ := hxy
    rfl
  rw [h1 _ _ hb, h1 _ _ hb']
  exact haa

theorem isBlock_of_visited {α : Type} (keep : ℕ → Option α) (nosymm : ℕ → Bool) (next : ℕ → ℕ) (MAX s0 : ℕ)
    (h : (visited next MAX s0).Pairwise (· < ·)) :
    IsBlock (fun s => s ∈ visited next MAX s0 ∧ nosymm s = true) keep (blockBasis next nosymm keep MAX s0) where
  sorted := by
    unfold blockBasis
    rw [List.map_reverse, List.pairwise_reverse]
    exact makeBlock_fst keep nosymm _ h
  mem := by
    intro s d
    unfold blockBasis makeBlock
    rw [List.mem_reverse, List.mem_filterMap]
    constructor
    · rintro ⟨t, ht, he⟩
      split_ifs at he with hn
      rw [Option.map_eq_some_iff] at he
      obtain ⟨d', h1, h2⟩ := he
      simp only [Prod.mk.injEq] at h2
      obtain ⟨rfl, rfl⟩ := h2
      exact ⟨⟨ht, hn⟩, h1⟩
    · rintro ⟨⟨ht, hn⟩, hk⟩
      exact ⟨s, ht, by rw [if_pos hn, hk]; rfl⟩

theorem visited_inc (MAX s : ℕ) : visited (fun s => s + 1) MAX s = List.range' s MAX := by
  induction MAX generalizing s with
  | zero => rfl
  | succ n ih => rw [visited, ih, List.range'_succ]

theorem visited_iterates (w n s : ℕ) : visited (nextStatePcon w) n s = Proof.Gosper.iterates w n s := by
  induction n generalizing s with
  | zero => rfl
  | succ n ih => rw [visited, ih, Proof.Gosper.iterates]

/-- what the search finds -/
theorem columnOf_spec {α : Type} {ys : List Generator} {size : ℕ} {l : List (ℕ × α)} (weight : α → ℝ)
    (hsort : (l.map (·.1)).Pairwise (· > ·)) (ref : ℕ → Ref) (exps : Ref → List ℕ) (factor : Ref → α → α → ℂ)
    (href : ∀ r, r < size → IsReference ys r (exps (ref r)) (ref r).r (ref r).sign)
    (hfac : ∀ r, r < size → ∀ d d', (∃ s, (s, d) ∈ l) → (∃ s, (s, d') ∈ l) → factor (ref r) d d'
      = (Real.sqrt (weight d' / weight d) : ℝ) * ((starRingEnd ℂ) (character ys (exps (ref r))) * (ref r).sign)) :
    ColumnSpec (Finset.range size) ys l weight (columnOf ref factor l) := by
  intro f i s d r m hi hf hr
  rw [Finset.mem_range] at hr
  obtain ⟨h1, h2, h3⟩ := href r hr
  refine ⟨exps (ref r), h1, ?_, ?_⟩
  · rw [h2]; exact h3
  rw [h2]
  simp only
  unfold columnOf
  simp only [hi, hf]
  have hchi : chi ys r (exps (ref r)) = (starRingEnd ℂ) (character ys (exps (ref r))) * (ref r).sign := by
    unfold chi; rw [h2]
  by_cases hrs : (ref r).r = s
  · left
    refine ⟨i, d, by rw [hi, hrs], ?_⟩
    rw [if_neg (by simpa using hrs)]
    simp only [hi]
    rw [hfac r hr d d ⟨s, List.mem_of_getElem? hi⟩ ⟨s, List.mem_of_getElem? hi⟩, hchi]
  · rw [if_pos hrs]
    have hlen : (l.map (·.1)).length = l.length := List.length_map _
    rcases Props.C16_one_dimensional (l.map (·.1)) hsort (ref r).r with ⟨j, hj, hj'⟩ | ⟨hn, hn'⟩
    · left
      rw [hlen] at hj
      rw [hj]
      rw [List.getElem?_map, Option.map_eq_some_iff] at hj'
      obtain ⟨⟨sj, dj⟩, e1, e2⟩ := hj'
      simp only at e2
      subst e2
      refine ⟨j, dj, e1, ?_⟩
      simp only [e1]
      rw [hfac r hr d dj ⟨s, List.mem_of_getElem? hi⟩ ⟨_, List.mem_of_getElem? e1⟩, hchi]
    · right
      rw [hlen] at hn
      rw [hn]
      exact ⟨hn', rfl⟩

/-- restriction for a block -/
theorem block_restriction {α : Type} {ys : List Generator} {size : ℕ} {S : ℕ → Prop} {l : List (ℕ × α)} {keep : ℕ → Option α}
    (h : Acts (· < size) ys) (hS : ∀ s, S s → s < size) (hcl : ∀ y ∈ ys, ∀ s, S s → S (y.img s)) (hl : IsBlock S keep l)
    (hkeep : ∀ s, s < size → ((keep s).isSome ↔ IsRepresentative ys s))
    (weight : α → ℝ) (κ : ℝ) (hκ : 0 < κ) (hw : ∀ s d, s < size → keep s = some d → projection ys s s = (weight d * κ : ℝ))
    (ref : ℕ → Ref) (exps : Ref → List ℕ) (factor : Ref → α → α → ℂ)
    (href : ∀ r, r < size → IsReference ys r (exps (ref r)) (ref r).r (ref r).sign)
    (hfac : ∀ r, r < size → ∀ d d', (∃ s, (s, d) ∈ l) → (∃ s, (s, d') ∈ l) → factor (ref r) d d'
      = (Real.sqrt (weight d' / weight d) : ℝ) * ((starRingEnd ℂ) (character ys (exps (ref r))) * (ref r).sign))
    (terms : List (ℕ → Option (ℕ × ℂ))) (hterms : ∀ f ∈ terms, ∀ s < size, ∃ r < size, ∃ m, f s = some (r, m))
    (hinv : InvariantUnder (· < size) ys (operatorOf terms)) :
    ∃ M, matrixOfColumns (terms.map (columnOf ref factor l)) l.length = some M ∧
      ∀ i j : Fin l.length, M j i = ∑ t ∈ Finset.range size, ∑ u ∈ Finset.range size,
        (starRingEnd ℂ) (symState (Finset.range size) ys l[j].1 t) * operatorOf terms t u
          * symState (Finset.range size) ys l[i].1 u := by
  have h' : Acts (· ∈ Finset.range size) ys := by simpa only [Finset.mem_range] using h
  refine restriction_of_columns h' (fun s hs => Finset.mem_range.2 (hS s hs)) hcl hl.sorted ?_ weight κ hκ ?_ _
    (columnOf_spec weight hl.sorted ref exps factor href hfac) terms (by simpa only [Finset.mem_range] using hterms)
    (by simpa only [Finset.mem_range] using hinv)
  · intro s
    constructor
    · rintro ⟨d, hd⟩
      obtain ⟨h1, h2⟩ := (hl.mem s d).1 hd
      exact ⟨h1, (hkeep s (hS s h1)).1 (by rw [h2]; rfl)⟩
    · rintro ⟨h1, h2⟩
      obtain ⟨d, hd⟩ := Option.isSome_iff_exists.1 ((hkeep s (hS s h1)).2 h2)
      exact ⟨d, (hl.mem s d).2 ⟨h1, hd⟩⟩
  · intro s d hd
    obtain ⟨h1, h2⟩ := (hl.mem s d).1 hd
    exact hw s d (hS s h1) h2

/-! ### characters -/

theorem character_parity {y : Generator} {p : Int} (hp : HasParity y p) (ys : List Generator) (g : ℕ) (hg : g < 2) (cs : List ℕ) :
    character (y :: ys) (g :: cs) = (p : ℂ) ^ g * character ys cs := by
  obtain ⟨hq, hp'⟩ := parity_q hp
  rw [character_cons]
  obtain rfl | rfl : g = 0 ∨ g = 1 := by omega
  · simp
  · have := parity_one p hp' (fun s => (s, 1)) ys cs
    rw [character_cons] at this
    simp only [gen] at this
    rw [hp.1, hq, this, pow_one]

theorem root_conj_phase (T k n l : ℕ) (hT : 0 < T) (hn : 0 < n) : (starRingEnd ℂ) (root n k l) = phase k (T * n) T l := by
  have e : wave k (T * n) T * l = 2 * Real.pi * (k : Int) / n * l := by
    have h1 : (T : ℝ) ≠ 0 := by exact_mod_cast Nat.pos_iff_ne_zero.1 hT
    have h2 : (n : ℝ) ≠ 0 := by exact_mod_cast Nat.pos_iff_ne_zero.1 hn
    unfold wave
    push_cast
    field_simp
  unfold phase root
  rw [e, mul_comm Complex.I, ← Complex.exp_conj, map_mul, Complex.conj_ofReal, Complex.conj_I, mul_neg, ← neg_mul,
    ← Complex.ofReal_neg, Complex.exp_mul_I, ← Complex.ofReal_cos, ← Complex.ofReal_sin, Real.cos_neg, Real.sin_neg]
  push_cast
  ring

theorem root_mod (n : ℕ) (hn : 0 < n) (k l : ℕ) : root n k (l % n) = root n k l := by
  conv_rhs => rw [← Nat.mod_add_div l n, root_add]
  have : root n k (n * (l / n)) = 1 := (root_eq_one n hn k _).2 ⟨k * (l / n), by ring⟩
  rw [this, mul_one]

theorem root_half (T k n : ℕ) (hT : 0 < T) (hn : 0 < n) (h : 2 * T * k % (T * n) = 0) (l e : ℕ) (he : e = 2 * l * T * k) :
    root n k l = (-1) ^ (e / (T * n)) := by
  obtain ⟨j, hj⟩ := Nat.dvd_of_mod_eq_zero h
  have hj' : 2 * k = n * j := by
    have : T * (2 * k) = T * (n * j) := by rw [← Nat.mul_assoc, ← Nat.mul_assoc, Nat.mul_comm T 2]; exact hj
    exact Nat.eq_of_mul_eq_mul_left hT this
  have hd : e / (T * n) = j * l := by
    have : e = (T * n) * (j * l) := by rw [he, show 2 * l * T * k = 2 * T * k * l by ring, hj]; ring
    rw [this, Nat.mul_div_cancel_left _ (Nat.mul_pos hT hn)]
  have h1 : root n k 1 = (-1) ^ j := by
    have e1 : (2 * Real.pi * ((k : Int) : ℝ) / n * ((1 : ℕ) : ℝ) : ℝ) = Real.pi * j := by
      have h2 : (n : ℝ) ≠ 0 := by exact_mod_cast Nat.pos_iff_ne_zero.1 hn
      have h3 : (2 : ℝ) * k = n * j := by exact_mod_cast hj'
      rw [div_mul_eq_mul_div, div_eq_iff h2]
      push_cast
      linear_combination Real.pi * h3
    unfold root
    rw [e1]
    rw [show Complex.I * ((Real.pi * j : ℝ) : ℂ) = (j : ℂ) * (Real.pi * Complex.I) by push_cast; ring, Complex.exp_nat_mul, Complex.exp_pi_mul_I]
  rw [hd, pow_mul, ← h1, ← root_mul, one_mul]

theorem character_shift {y : Generator} {n k : ℕ} (hn : 0 < n) (hp : y.per = n) (hq : y.q = k) (ys : List Generator) (l : ℕ) (cs : List ℕ) :
    character (y :: ys) (l % n :: cs) = root n k l * character ys cs := by
  rw [character_cons, hp, hq, ← root_mod n hn k l]
  rfl

theorem phaseT_eq (T k n l : ℕ) (hT : 0 < T) (hn : 0 < n) : phaseT k (T * n) T l = (starRingEnd ℂ) (root n k l) := by
  unfold phaseT
  split_ifs with h
  · rw [root_half T k n hT hn h l _ rfl]; simp
  · rw [root_conj_phase T k n l hT hn]

/-! ### blocks -/

theorem isBlock_visited {α : Type} (keep : ℕ → Option α) (next : ℕ → ℕ) (nosymm : ℕ → Bool) (MAX s0 : ℕ) {size : ℕ} {ys : List Generator}
    (hs : IsSectorOf size ys ((visited next MAX s0).filter nosymm)) (hinc : (visited next MAX s0).Pairwise (· < ·)) :
    IsBlock (fun s => s ∈ (visited next MAX s0).filter nosymm) keep (blockBasis next nosymm keep MAX s0) := by
  have := isBlock_of_visited keep nosymm next MAX s0 hinc
  simpa only [List.mem_filter] using this

/-- the conclusion of the theorems of C65 -/
theorem block_matrix {α : Type} {ys : List Generator} {size : ℕ} {keep : ℕ → Option α} {next : ℕ → ℕ} {nosymm : ℕ → Bool} {MAX s0 : ℕ}
    (h : Acts (· < size) ys) (hinc : (visited next MAX s0).Pairwise (· < ·))
    (hs : IsSectorOf size ys ((visited next MAX s0).filter nosymm))
    (hkeep : ∀ s, s < size → ((keep s).isSome ↔ IsRepresentative ys s))
    (weight : α → ℝ) (κ : ℝ) (hκ : 0 < κ) (hw : ∀ s d, s < size → keep s = some d → projection ys s s = (weight d * κ : ℝ))
    (ref : ℕ → Ref) (exps : Ref → List ℕ) (factor : Ref → α → α → ℂ)
    (href : ∀ r, r < size → IsReference ys r (exps (ref r)) (ref r).r (ref r).sign)
    (hfac : ∀ r, r < size → ∀ d d', (∃ s, keep s = some d) → (∃ s, keep s = some d') → factor (ref r) d d'
      = (Real.sqrt (weight d' / weight d) : ℝ) * ((starRingEnd ℂ) (character ys (exps (ref r))) * (ref r).sign))
    (terms : List (ℕ → Option (ℕ × ℂ))) (hterms : TermsWithin size terms)
    (hinv : InvariantUnder (· < size) ys (operatorOf terms)) :
    AreRepresentatives ys ((visited next MAX s0).filter nosymm) ((blockBasis next nosymm keep MAX s0).map (·.1)) ∧
    ∃ M, matrixOfColumns (terms.map (columnOf ref factor (blockBasis next nosymm keep MAX s0))) (blockBasis next nosymm keep MAX s0).length = some M ∧
      IsRestriction size ys ((blockBasis next nosymm keep MAX s0).map (·.1)) (operatorOf terms) M := by
  have hl := isBlock_visited keep next nosymm MAX s0 hs hinc
  generalize blockBasis next nosymm keep MAX s0 = l at hl ⊢
  refine ⟨⟨hl.sorted, ?_⟩, ?_⟩
  · intro s
    rw [List.mem_map]
    constructor
    · rintro ⟨⟨s', d⟩, hd, rfl⟩
      obtain ⟨h1, h2⟩ := (hl.mem _ _).1 hd
      exact ⟨h1, (hkeep _ (hs.below _ h1)).1 (by rw [h2]; rfl)⟩
    · rintro ⟨h1, h2⟩
      obtain ⟨d, hd⟩ := Option.isSome_iff_exists.1 ((hkeep s (hs.below _ h1)).2 h2)
      exact ⟨(s, d), (hl.mem s d).2 ⟨h1, hd⟩, rfl⟩
  · obtain ⟨M, hM, hM'⟩ := block_restriction h hs.below hs.closed hl hkeep weight κ hκ hw ref exps factor href
      (fun r hr d d' ⟨s, hd⟩ ⟨s', hd'⟩ => hfac r hr d d' ⟨s, ((hl.mem _ _).1 hd).2⟩ ⟨s', ((hl.mem _ _).1 hd').2⟩) terms hterms hinv
    refine ⟨M, hM, ?_⟩
    intro i j
    have := hM' ⟨i, by simpa using i.2⟩ ⟨j, by simpa using j.2⟩
    simpa using this

end Proof.Chain
