import Verif.Proof.OpStrings
import Mathlib.Data.Finset.Card
import Mathlib.Data.List.Dedup

namespace Proof.OpStr
open Model.OpStr Spec Proof.Lattice

/-! ### Lists of options -/

theorem mapM_forall₂ {α β : Type} {f : α → Option β} {l : List α} {r : List β} (h : l.mapM f = some r) :
    List.Forall₂ (fun a b => f a = some b) l r := by
  induction l generalizing r with
  | nil =>
    simp only [List.mapM_nil, Option.pure_def, Option.some.injEq] at h
    subst h
    exact List.Forall₂.nil
  | cons a l ih =>
    rw [List.mapM_cons] at h
    simp only [Option.bind_eq_bind, Option.bind_eq_some_iff, Option.pure_def, Option.some.injEq] at h
    obtain ⟨b, hb, bs, hbs, rfl⟩ := h
    exact List.Forall₂.cons hb (ih hbs)

theorem mapM_some' {α β : Type} (f : α → β) (l : List α) : (l.mapM fun a => some (f a)) = some (l.map f) := by
  induction l with
  | nil => rfl
  | cons a l ih => rw [List.mapM_cons, ih]; rfl

theorem forall₂_sum {α β M : Type} [AddCommMonoid M] {R : α → β → Prop} {f : α → M} {g : β → M} (h : ∀ a b, R a b → g b = f a) {l : List α}
    {r : List β} (hr : List.Forall₂ R l r) : (r.map g).sum = (l.map f).sum := by
  induction hr with
  | nil => rfl
  | cons hab _ ih => simp [h _ _ hab, ih]

theorem forall₂_mem {α β : Type} {R : α → β → Prop} {l : List α} {r : List β} (hr : List.Forall₂ R l r) {b : β} (hb : b ∈ r) :
    ∃ a ∈ l, R a b := by
  induction hr with
  | nil => simp at hb
  | cons hab _ ih =>
    rcases List.mem_cons.1 hb with rfl | hb
    · exact ⟨_, by simp, hab⟩
    · obtain ⟨a, ha, h⟩ := ih hb
      exact ⟨a, by simp [ha], h⟩

variable {A : Type} [Ring A] [Algebra ℂ A]

/-! ### Expansion -/

theorem sum_products {α β γ : Type} (l : List α) (m : List β) (f : α → β → γ) (g : γ → A) (ga : α → A) (gb : β → A)
    (h : ∀ a ∈ l, ∀ b ∈ m, g (f a b) = ga a * gb b) :
    ((l.flatMap fun a => m.map (f a)).map g).sum = (l.map ga).sum * (m.map gb).sum := by
  induction l with
  | nil => simp
  | cons a l ih =>
    rw [List.flatMap_cons, List.map_append, List.sum_append, ih (fun a ha => h a (by simp [ha])), List.map_cons, List.sum_cons, add_mul]
    congr 1
    rw [List.map_map, ← List.sum_map_mul_left]
    congr 1
    refine List.map_congr_left fun b hb => ?_
    exact h a (by simp) b hb

theorem expandSpin_lengths (pauli : Int) (op : Op) (hl : op.str.length = op.indx.length) :
    ∀ r ∈ expandSpin pauli op, r.str.length = op.str.length ∧ r.indx = op.indx := by
  fun_induction expandSpin pauli op with
  | case1 op h c hc =>
    intro r hr
    obtain ⟨p, -, rfl⟩ := List.mem_map.1 hr
    simp [hc]
  | case2 op h h' => intro r hr; rw [List.mem_singleton.1 hr]; exact ⟨rfl, rfl⟩
  | case3 op h ih1 ih2 =>
    intro r hr
    obtain ⟨a, ha, hr⟩ := List.mem_flatMap.1 hr
    obtain ⟨b, hb, rfl⟩ := List.mem_map.1 hr
    obtain ⟨a1, a2⟩ := ih2 (by simp [hl]) a ha
    obtain ⟨b1, b2⟩ := ih1 (by simp [hl]) b hb
    simp only [List.length_append, a1, a2, b1, b2, List.length_take, List.length_drop, List.take_append_drop]
    exact ⟨by omega, trivial⟩

theorem expandSpin_val {w : Char → Nat → A} {pauli : Int} (op : Op)
    (hw : ∀ c ∈ op.str, ∀ i, w c i = ((expandChar pauli c).map fun p => p.1 • w p.2 i).sum) (hl : op.str.length = op.indx.length) : ((expandSpin pauli op).map (val w)).sum = val w op := by
  fun_induction expandSpin pauli op with
  | case1 op h c hc =>
    obtain ⟨i, hi⟩ : ∃ i, op.indx = [i] := by
      rw [hc] at hl
      exact List.length_eq_one_iff.1 (by simpa using hl.symm)
    simp only [val, term, opWord, hc, hi, List.map_map, List.zip_cons_cons, List.zip_nil_left, List.map_cons, List.map_nil, List.prod_singleton]
    rw [hw c (by simp [hc]) i, List.smul_sum]
    congr 1
    rw [List.map_map]
    refine List.map_congr_left fun p _ => ?_
    simp [val, term, opWord, mul_smul]
  | case2 op h h' => simp
  | case3 op h ih1 ih2 =>
    rw [sum_products _ _ _ _ (val w) (val w)]
    · rw [ih1 (fun c hc => hw c (List.mem_of_mem_drop hc)) (by simp [hl]), ih2 (fun c hc => hw c (List.mem_of_mem_take hc)) (by simp [hl])]
      simp only [val, term, word_eq, one_smul, smul_mul_assoc, ← wordL_append]
      congr 2
      rw [← List.zip_append (by simp [hl]), List.take_append_drop, List.take_append_drop]
    · intro a ha b hb
      obtain ⟨a1, a2⟩ := expandSpin_lengths pauli _ (by simp [hl]) a ha
      simp only [val, term, word_eq]
      rw [smul_mul_smul_comm, ← wordL_append, List.zip_append (by rw [a1, a2]; simp [hl])]

theorem expandChar_mem {pauli : Int} {c : Char} : ∀ p ∈ expandChar pauli c, p.2 ≠ 'x' ∧ p.2 ≠ 'y' := by
  intro p hp
  unfold expandChar at hp
  split at hp
  · split at hp <;> · fin_cases hp <;> simp
  · split at hp
    · split at hp <;> · fin_cases hp <;> simp
    · rename_i h1 h2
      rw [List.mem_singleton.1 hp]
      exact ⟨h1, h2⟩

theorem expandSpin_letters (pauli : Int) (op : Op) : ∀ r ∈ expandSpin pauli op, ∀ c ∈ r.str, c ≠ 'x' ∧ c ≠ 'y' := by
  fun_induction expandSpin pauli op with
  | case1 op h c hc =>
    intro r hr d hd
    obtain ⟨p, hp, rfl⟩ := List.mem_map.1 hr
    rw [List.mem_singleton.1 hd]
    exact expandChar_mem p hp
  | case2 op h h' =>
    intro r hr d hd
    rw [List.mem_singleton.1 hr] at hd
    have : op.str = [] := by
      rcases ho : op.str with _ | ⟨c, l⟩
      · rfl
      · rcases l with _ | ⟨e, l⟩
        · exact absurd ho (h' c)
        · rw [ho] at h; simp at h
    simp [this] at hd
  | case3 op h ih1 ih2 =>
    intro r hr d hd
    obtain ⟨a, ha, hr⟩ := List.mem_flatMap.1 hr
    obtain ⟨b, hb, rfl⟩ := List.mem_map.1 hr
    rcases List.mem_append.1 hd with hd | hd
    · exact ih2 a ha d hd
    · exact ih1 b hb d hd

/-! ### Strings that vanish -/

section Graded

variable {b N : Nat}

/-- The change of the level by an operator. -/
def shift (c : Char) : Int := if c = '+' then 1 else if c = '-' then -1 else 0

/-- An operator that changes only the level of its site, by `shift`. -/
def Graded (w : Char → Nat → Matrix (Conf b N) (Conf b N) ℂ) : Prop :=
  ∀ c i t s, c ≠ 'x' → c ≠ 'y' → w c i t s ≠ 0 → ∀ j : Fin N, (t j : Int) = s j + if (j : Nat) = i then shift c else 0

/-- Change of the level of site `j` along a list. -/
def shiftAt (l : List (Char × Nat)) (j : Nat) : Int := (l.map fun p => if j = p.2 then shift p.1 else 0).sum

theorem graded_word {w : Char → Nat → Matrix (Conf b N) (Conf b N) ℂ} (hw : Graded w) (l : List (Char × Nat))
    (hl : ∀ p ∈ l, p.1 ≠ 'x' ∧ p.1 ≠ 'y') : ∀ (t s : Conf b N), wordL w l t s ≠ 0 → ∀ j : Fin N, (t j : Int) = s j + shiftAt l j := by
  induction l with
  | nil =>
    intro t s h j
    rw [wordL_nil, Matrix.one_apply] at h
    have : t = s := by by_contra hts; simp [hts] at h
    simp [this, shiftAt]
  | cons p l ih =>
    intro t s h j
    rw [wordL_cons, Matrix.mul_apply] at h
    obtain ⟨m, -, hm⟩ := Finset.exists_ne_zero_of_sum_ne_zero h
    have h1 := hw p.1 p.2 t m (hl p (by simp)).1 (hl p (by simp)).2 (left_ne_zero_of_mul hm) j
    have h2 := ih (fun q hq => hl q (by simp [hq])) m s (right_ne_zero_of_mul hm) j
    simp only [shiftAt, List.map_cons, List.sum_cons] at h2 ⊢
    omega

theorem siteOp_graded {u : Char → Nat → Nat → ℂ} (hu : Ladder u) : Graded (siteOp b N u) := by
  intro c i t s hx hy h j
  unfold siteOp at h
  split at h
  · rename_i hi
    simp only [onSite] at h
    split at h
    · rename_i hk
      by_cases hj : (j : Nat) = i
      · rw [if_pos hj]
        have : j = ⟨i, hi⟩ := Fin.ext hj
        subst this
        unfold shift
        split
        · rename_i hc; subst hc; have := hu.1 _ _ h; omega
        · split
          · rename_i hc; subst hc; have := hu.2.1 _ _ h; omega
          · rename_i h1 h2; have := hu.2.2 c h1 h2 hx hy _ _ h; omega
      · rw [if_neg hj, add_zero, hk j (by rintro rfl; exact hj rfl)]
    · exact absurd rfl h
  · exact absurd rfl h

theorem spinHalf_ladder : Ladder spinHalf := by
  refine ⟨fun a c h => ?_, fun a c h => ?_, fun o h1 h2 h3 h4 a c h => ?_⟩
  · simp only [spinHalf] at h
    have : a = 1 ∧ c = 0 := by by_contra hh; simp [hh] at h
    omega
  · simp only [spinHalf] at h
    have : a = 0 ∧ c = 1 := by by_contra hh; simp [hh] at h
    omega
  · by_contra hac
    exact h (spinHalf_diag ⟨h1, h2, h3, h4⟩ a c hac)

theorem fermionOp_graded : Graded (fermionOp N) := by
  intro c i t s hx hy h j
  refine siteOp_graded (b := 2) (N := N) spinHalf_ladder c i t s hx hy ?_ j
  unfold fermionOp at h
  unfold siteOp
  split
  · rename_i hi
    rw [dif_pos hi] at h
    by_cases hc : c = '+' ∨ c = '-'
    · rw [fermion_ladder c hc, parity, Matrix.mul_diagonal] at h
      exact left_ne_zero_of_mul h
    · rw [fermion_even c (fun h => hc (Or.inl h)) (fun h => hc (Or.inr h))] at h
      exact h
  · rename_i hi
    rw [dif_neg hi] at h
    exact absurd rfl h

theorem shiftAt_eq (l : List (Char × Nat)) (j : Nat) :
    shiftAt l j = (((l.filter fun p => p.1 = '+').map Prod.snd).count j : Int) - ((l.filter fun p => p.1 = '-').map Prod.snd).count j := by
  induction l with
  | nil => rfl
  | cons p l ih =>
    simp only [shiftAt, List.map_cons, List.sum_cons] at ih ⊢
    rw [ih]
    by_cases h1 : p.1 = '+'
    · by_cases h2 : j = p.2
      · simp [h1, h2, shift]; omega
      · simp [h1, h2, Ne.symm h2, shift]
    · by_cases h3 : p.1 = '-'
      · by_cases h2 : j = p.2
        · simp [h3, h2, shift]; omega
        · simp [h3, h2, Ne.symm h2, shift]
      · simp [h1, h3, shift]

/-- Strings dropped by `_non_zero` vanish if no site has both ladder operators. -/
theorem nonZero_word {w : Char → Nat → Matrix (Conf b N) (Conf b N) ℂ} (hw : Graded w) (hb : 0 < b) (hN : ∀ c i, N ≤ i → w c i = 0) (op : Op)
    (hx : ∀ c ∈ op.str, c ≠ 'x' ∧ c ≠ 'y') (hs : ∀ i ∈ sitesOf '+' op, (sitesOf '+' op).count i > b - 1 → i ∉ sitesOf '-' op)
    (hs' : ∀ i ∈ sitesOf '-' op, (sitesOf '-' op).count i > b - 1 → i ∉ sitesOf '+' op)
    (h : nonZero (b - 1) op = false) : opWord w op.str op.indx = 0 := by
  have key : ∃ i, (i ∈ sitesOf '+' op ∧ (sitesOf '+' op).count i > b - 1 ∧ (sitesOf '-' op).count i = 0) ∨
      (i ∈ sitesOf '-' op ∧ (sitesOf '-' op).count i > b - 1 ∧ (sitesOf '+' op).count i = 0) := by
    unfold nonZero at h
    split at h
    · rw [Bool.and_eq_false_iff] at h
      rcases h with h | h
      · simp only [Bool.not_eq_false', List.any_eq_true, decide_eq_true_eq] at h
        obtain ⟨i, hi, hc⟩ := h
        exact ⟨i, Or.inl ⟨hi, hc, List.count_eq_zero_of_not_mem (hs i hi hc)⟩⟩
      · simp only [Bool.not_eq_false', List.any_eq_true, decide_eq_true_eq] at h
        obtain ⟨i, hi, hc⟩ := h
        exact ⟨i, Or.inr ⟨hi, hc, List.count_eq_zero_of_not_mem (hs' i hi hc)⟩⟩
    · simp at h
  by_contra hne
  obtain ⟨t, s, hts⟩ : ∃ t s, opWord w op.str op.indx t s ≠ 0 := by
    by_contra hh
    push Not at hh
    exact hne (Matrix.ext hh)
  have hl : ∀ p ∈ op.str.zip op.indx, p.1 ≠ 'x' ∧ p.1 ≠ 'y' := fun p hp => hx _ (List.of_mem_zip hp).1
  obtain ⟨i, hi⟩ := key
  have hiN : i < N := by
    by_contra hge
    have hmem : ∃ c, (c, i) ∈ op.str.zip op.indx := by
      have : i ∈ sitesOf '+' op ∨ i ∈ sitesOf '-' op := by rcases hi with h | h; exacts [Or.inl h.1, Or.inr h.1]
      rcases this with h | h <;>
        · obtain ⟨p, hp, rfl⟩ := List.mem_map.1 h
          exact ⟨p.1, (List.mem_filter.1 hp).1⟩
    obtain ⟨c, hc⟩ := hmem
    refine hne ?_
    rw [opWord]
    refine List.prod_eq_zero ?_
    exact List.mem_map.2 ⟨(c, i), hc, hN c i (by omega)⟩
  have h1 := graded_word hw _ hl t s hts ⟨i, hiN⟩
  rw [shiftAt_eq, show ((⟨i, hiN⟩ : Fin N) : Nat) = i from rfl] at h1
  simp only [sitesOf] at hi
  have ht := (t ⟨i, hiN⟩).2
  have hs := (s ⟨i, hiN⟩).2
  rcases hi with ⟨-, h2, h3⟩ | ⟨-, h2, h3⟩
  · rw [h3] at h1; omega
  · rw [h3] at h1; omega

/-- Strings with as many `+` as `-` keep the sum of the levels. -/
theorem conserve_word {w : Char → Nat → Matrix (Conf b N) (Conf b N) ℂ} (hw : Graded w) (hN : ∀ c i, N ≤ i → w c i = 0) (l : List (Char × Nat))
    (hx : ∀ p ∈ l, p.1 ≠ 'x' ∧ p.1 ≠ 'y') (t s : Conf b N) (h : wordL w l t s ≠ 0) :
    (∑ j, (t j : Int)) = (∑ j, (s j : Int)) + (((l.map Prod.fst).count '+' : Int) - (l.map Prod.fst).count '-') := by
  have h1 := graded_word hw l hx t s h
  rw [Finset.sum_congr rfl fun j _ => h1 j, Finset.sum_add_distrib]
  congr 1
  have hlt : ∀ p ∈ l, p.2 < N := by
    intro p hp
    by_contra hge
    refine h ?_
    have : wordL w l = 0 := List.prod_eq_zero (List.mem_map.2 ⟨p, hp, hN p.1 p.2 (by omega)⟩)
    rw [this]; rfl
  clear h h1
  induction l with
  | nil => simp [shiftAt]
  | cons p l ih =>
    have e := ih (fun q hq => hx q (by simp [hq])) (fun q hq => hlt q (by simp [hq]))
    have hp := hlt p (by simp)
    simp only [shiftAt, List.map_cons, List.sum_cons, Finset.sum_add_distrib] at e ⊢
    rw [e]
    have : ∑ x : Fin N, (if (x : Nat) = p.2 then shift p.1 else 0) = shift p.1 := by
      rw [Finset.sum_eq_single ⟨p.2, hp⟩]
      · simp
      · intro j _ hj; rw [if_neg]; intro h; exact hj (Fin.ext h)
      · simp
    rw [this]
    unfold shift
    by_cases h1 : p.1 = '+'
    · simp [h1]; omega
    · by_cases h2 : p.1 = '-'
      · simp [h2]; omega
      · simp [h1, h2]

end Graded

/-! ### Consolidation -/

section Consolidate

variable {X : Type}

/-- Value of terms with a factor for their further entries. -/
def total (w : Char → Nat → A) (φ : X → ℂ) (l : List (Op × X)) : A := (l.map fun p => φ p.2 • val w p.1).sum

theorem consolidateStep_keys (d : List (Op × X)) (p : Op × X) : ∀ q ∈ consolidateStep d p,
    (∃ q' ∈ d, q.1.str = q'.1.str ∧ q.1.indx = q'.1.indx ∧ q.2 = q'.2) ∨ q.1.str = p.1.str ∧ q.1.indx = p.1.indx ∧ q.2 = p.2 := by
  induction d with
  | nil => intro q hq; rw [consolidateStep, List.mem_singleton] at hq; subst hq; exact Or.inr ⟨rfl, rfl, rfl⟩
  | cons e d ih =>
    intro q hq
    rw [consolidateStep] at hq
    split at hq
    · rcases List.mem_cons.1 hq with rfl | hq
      · exact Or.inl ⟨e, by simp, rfl, rfl, rfl⟩
      · exact Or.inl ⟨q, by simp [hq], rfl, rfl, rfl⟩
    · rcases List.mem_cons.1 hq with rfl | hq
      · exact Or.inl ⟨q, by simp, rfl, rfl, rfl⟩
      · rcases ih q hq with ⟨q', hq', h⟩ | h
        · exact Or.inl ⟨q', by simp [hq'], h⟩
        · exact Or.inr h

theorem consolidateStep_total (w : Char → Nat → A) (φ : X → ℂ) (d : List (Op × X)) (p : Op × X)
    (h : ∀ q ∈ d, q.1.str = p.1.str → q.1.indx = p.1.indx → φ q.2 = φ p.2) :
    total w φ (consolidateStep d p) = total w φ d + φ p.2 • val w p.1 := by
  induction d with
  | nil => simp [consolidateStep, total]
  | cons e d ih =>
    rw [consolidateStep]
    split
    · rename_i hk
      have hφ := h e (by simp) hk.1 hk.2
      simp only [total, List.map_cons, List.sum_cons, val, term, hφ, hk.1, hk.2, add_smul, smul_add]
      abel
    · have := ih (fun q hq => h q (by simp [hq]))
      simp only [total, List.map_cons, List.sum_cons] at this ⊢
      rw [this]
      abel

theorem foldl_total (w : Char → Nat → A) (φ : X → ℂ) (l : List (Op × X)) : ∀ d : List (Op × X),
    (∀ p ∈ d ++ l, ∀ q ∈ d ++ l, p.1.str = q.1.str → p.1.indx = q.1.indx → φ p.2 = φ q.2) →
    total w φ (l.foldl consolidateStep d) = total w φ d + total w φ l := by
  induction l with
  | nil => intro d _; simp [total]
  | cons p l ih =>
    intro d h
    rw [List.foldl_cons, ih, consolidateStep_total]
    · simp only [total, List.map_cons, List.sum_cons]; abel
    · intro q hq h1 h2
      exact h q (by simp [hq]) p (by simp) h1 h2
    · have key : ∀ q ∈ consolidateStep d p ++ l, ∃ q' ∈ d ++ p :: l, q.1.str = q'.1.str ∧ q.1.indx = q'.1.indx ∧ q.2 = q'.2 := by
        intro q hq
        rcases List.mem_append.1 hq with hq | hq
        · rcases consolidateStep_keys d p q hq with ⟨q', hq', h'⟩ | h'
          · exact ⟨q', by simp [hq'], h'⟩
          · exact ⟨p, by simp, h'⟩
        · exact ⟨q, by simp [hq], rfl, rfl, rfl⟩
      intro a ha c hc h1 h2
      obtain ⟨a', ha', a1, a2, a3⟩ := key a ha
      obtain ⟨c', hc', c1, c2, c3⟩ := key c hc
      rw [a3, c3]
      exact h a' ha' c' hc' (by rw [← a1, ← c1, h1]) (by rw [← a2, ← c2, h2])

theorem foldl_keys (l : List (Op × X)) : ∀ d : List (Op × X), ∀ q ∈ l.foldl consolidateStep d,
    ∃ q' ∈ d ++ l, q.1.str = q'.1.str ∧ q.1.indx = q'.1.indx ∧ q.2 = q'.2 := by
  induction l with
  | nil => intro d q hq; exact ⟨q, by simpa using hq, rfl, rfl, rfl⟩
  | cons p l ih =>
    intro d q hq
    obtain ⟨q', hq', h⟩ := ih _ q hq
    rcases List.mem_append.1 hq' with hq' | hq'
    · rcases consolidateStep_keys d p q' hq' with ⟨e, he, h'⟩ | h'
      · exact ⟨e, by simp [he], h.1.trans h'.1, h.2.1.trans h'.2.1, h.2.2.trans h'.2.2⟩
      · exact ⟨p, by simp, h.1.trans h'.1, h.2.1.trans h'.2.1, h.2.2.trans h'.2.2⟩
    · exact ⟨q', by simp [hq'], h⟩

theorem consolidate_keys (tiny : ℂ → Prop) (l : List (Op × X)) : ∀ q ∈ consolidate tiny l,
    ∃ q' ∈ l, q.1.str = q'.1.str ∧ q.1.indx = q'.1.indx ∧ q.2 = q'.2 := by
  intro q hq
  have := foldl_keys l [] q (List.mem_filter.1 hq).1
  simpa using this

theorem consolidate_total (w : Char → Nat → A) (φ : X → ℂ) (tiny : ℂ → Prop) (ht : ∀ J, tiny J → J = 0) (l : List (Op × X))
    (h : ∀ p ∈ l, ∀ q ∈ l, p.1.str = q.1.str → p.1.indx = q.1.indx → φ p.2 = φ q.2) : total w φ (consolidate tiny l) = total w φ l := by
  have e := foldl_total w φ l [] (by simpa using h)
  rw [show total w φ ([] : List (Op × X)) = 0 from rfl, zero_add] at e
  rw [← e, consolidate]
  generalize l.foldl consolidateStep [] = d
  clear e
  induction d with
  | nil => rfl
  | cons p d ih =>
    rw [List.filter_cons]
    split
    · simp only [total, List.map_cons, List.sum_cons] at ih ⊢
      rw [ih]
    · rename_i hp
      have : p.1.J = 0 := ht _ (by simpa using hp)
      rw [ih]
      simp [total, val, term, this]

end Consolidate

/-! ### Local lists and expansion of lists -/

section Lists

variable {X : Type}

theorem flatten_sum (w : Char → Nat → A) (l : OpList) : ((flatten l).map (val w)).sum = listOp w l := by
  induction l with
  | nil => rfl
  | cons e l ih =>
    simp only [flatten, List.flatMap_cons, List.map_append, List.sum_append, listOp, List.map_cons, List.sum_cons] at ih ⊢
    rw [ih, List.map_map]
    rfl

theorem localList_sum {w : Char → Nat → A} {B : Basis} {l : OpList} (hs : ∀ op ∈ flatten l, ∀ r, B.sort op = some r → val w r = val w op)
    {s : List Op} (h : localList B l = some s) : (s.map (val w)).sum = listOp w l := by
  rw [← flatten_sum]
  have hf := mapM_forall₂ h
  have : List.Forall₂ (fun a b => a ∈ flatten l ∧ B.sort a = some b) (flatten l) s := by
    rw [List.forall₂_and_left]
    exact ⟨fun a ha => ha, hf⟩
  exact forall₂_sum (fun a b hab => hs a hab.1 b hab.2) this

/-- `expandList` for bases whose `_expand_opstr` and `_non_zero` raise nothing. -/
theorem expandList_total {B : Basis} {ex : Op → List Op} {nz : Op → Bool} (h1 : B.expand = fun o => some (ex o)) (h2 : B.nonZero = fun o => some (nz o))
    (l : List (Op × X)) : expandList B l =
      (l.flatMap fun p => ((ex p.1).filter nz).map fun o => (o, p.2)).mapM fun p => (B.sort p.1).map fun o => (o, p.2) := by
  unfold expandList
  rw [h1, h2]
  have : ∀ p : Op × X, ((some (ex p.1)).bind fun os =>
      (os.mapM fun o => (some (nz o)).map fun b => (o, b)).map fun obs => (obs.filter fun ob => ob.2).map fun ob => (ob.1, p.2)) =
      some (((ex p.1).filter nz).map fun o => (o, p.2)) := by
    intro p
    simp only [Option.bind_some, Option.map_some]
    rw [mapM_some', Option.map_some]
    congr 1
    rw [List.filter_map, List.map_map]
    rfl
  simp only [this]
  rw [mapM_some', Option.bind_some, List.flatMap_def]

theorem expandList_sum {w : Char → Nat → A} {φ : X → ℂ} {B : Basis} {ex : Op → List Op} {nz : Op → Bool} (h1 : B.expand = fun o => some (ex o))
    (h2 : B.nonZero = fun o => some (nz o)) {l e : List (Op × X)} (h : expandList B l = some e)
    (hex : ∀ p ∈ l, ((ex p.1).map (val w)).sum = val w p.1) (hnz : ∀ p ∈ l, ∀ o ∈ ex p.1, nz o = false → val w o = 0)
    (hs : ∀ op r, B.sort op = some r → (∃ p ∈ l, op ∈ ex p.1) → val w r = val w op) : total w φ e = total w φ l := by
  rw [expandList_total h1 h2] at h
  have hf := mapM_forall₂ h
  have step1 : total w φ e = total w φ (l.flatMap fun p => ((ex p.1).filter nz).map fun o => (o, p.2)) := by
    unfold total
    have hf' : List.Forall₂ (fun (a b : Op × X) => a ∈ (l.flatMap fun p => ((ex p.1).filter nz).map fun o => (o, p.2)) ∧
        (B.sort a.1).map (fun o => (o, a.2)) = some b) (l.flatMap fun p => ((ex p.1).filter nz).map fun o => (o, p.2)) e := by
      rw [List.forall₂_and_left]
      exact ⟨fun a ha => ha, hf⟩
    refine forall₂_sum (fun a b hab => ?_) hf'
    obtain ⟨ha, hb⟩ := hab
    obtain ⟨o, ho, rfl⟩ := Option.map_eq_some_iff.1 hb
    obtain ⟨p, hp, ha⟩ := List.mem_flatMap.1 ha
    obtain ⟨o', ho', rfl⟩ := List.mem_map.1 ha
    simp only [hs _ _ ho ⟨p, hp, (List.mem_filter.1 ho').1⟩]
  rw [step1]
  clear h hf step1 hs
  induction l with
  | nil => rfl
  | cons p l ih =>
    have e := ih (fun q hq => hex q (by simp [hq])) (fun q hq => hnz q (by simp [hq]))
    unfold total at e ⊢
    rw [List.flatMap_cons, List.map_append, List.sum_append, e, List.map_cons, List.sum_cons]
    congr 1
    rw [← hex p (by simp), List.smul_sum, List.map_map, List.map_map]
    have hz := hnz p (by simp)
    generalize ex p.1 = os at hz
    induction os with
    | nil => rfl
    | cons o os ih2 =>
      have := ih2 (fun o ho => hz o (by simp [ho]))
      rw [List.filter_cons]
      split
      · simp only [List.map_cons, List.sum_cons, this, Function.comp]
      · rename_i hn
        rw [this, List.map_cons, List.sum_cons, Function.comp, hz o (by simp) (by simpa using hn), smul_zero, zero_add]

end Lists

/-! ### The hermiticity check -/

theorem subset_sum {M : Type} [AddCommMonoid M] {α : Type} {s r : List α} (hn : s.Nodup) (hl : r.length = s.length) (hs : ∀ x ∈ s, x ∈ r) (f : α → M) :
    (s.map f).sum = (r.map f).sum := by
  have : s.Perm r := (List.subperm_of_subset hn hs).perm_of_length_le (by omega)
  exact (this.map f).sum_eq

theorem accepts_star {M : Type} [AddCommMonoid M] [StarAddMonoid M] {v : Op → M} {hc : Op → Option Op} {s sh : List Op}
    (hv : ∀ op ∈ s, ∀ r, hc op = some r → v r = star (v op)) (hn : s.Nodup) (h : s.mapM hc = some sh) (hs : ∀ x ∈ s, x ∈ sh) :
    star ((s.map v).sum) = (s.map v).sum := by
  have hf := mapM_forall₂ h
  have e1 := subset_sum hn hf.length_eq.symm hs v
  have hf' : List.Forall₂ (fun a b => a ∈ s ∧ hc a = some b) s sh := by
    rw [List.forall₂_and_left]
    exact ⟨fun a ha => ha, hf⟩
  have e2 : (sh.map v).sum = (s.map fun o => star (v o)).sum := forall₂_sum (fun a b hab => hv a hab.1 b hab.2) hf'
  have e3 : star ((s.map v).sum) = (s.map fun o => star (v o)).sum := by
    clear e1 e2 hf hf' h hs hv hn
    induction s with
    | nil => simp
    | cons a s ih => simp [star_add, ih]
  rw [e3, ← e2, e1]

end Proof.OpStr
