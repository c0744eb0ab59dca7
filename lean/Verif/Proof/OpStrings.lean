import Verif.Model.OpStrings
import Verif.Proof.Lattice
import Mathlib.Algebra.Star.Module
import Mathlib.Tactic.Linarith

namespace Proof.OpStr
open Model.OpStr Spec Proof.Lattice

variable {A : Type} [Ring A] [Algebra ℂ A]

/-- The product along a list of pairs. -/
def wordL (w : Char → Nat → A) (l : List (Char × Nat)) : A := (l.map fun p => w p.1 p.2).prod

omit [Algebra ℂ A] in
theorem word_eq (w : Char → Nat → A) (s : List Char) (i : List Nat) : opWord w s i = wordL w (s.zip i) := rfl

omit [Algebra ℂ A] in
@[simp] theorem wordL_nil (w : Char → Nat → A) : wordL w [] = 1 := rfl

omit [Algebra ℂ A] in
@[simp] theorem wordL_cons (w : Char → Nat → A) (p : Char × Nat) (l : List (Char × Nat)) : wordL w (p :: l) = w p.1 p.2 * wordL w l := by
  simp [wordL]

omit [Algebra ℂ A] in
theorem wordL_append (w : Char → Nat → A) (l m : List (Char × Nat)) : wordL w (l ++ m) = wordL w l * wordL w m := by
  simp [wordL]

theorem zip_fst_snd (l : List (Char × Nat)) : (l.map Prod.fst).zip (l.map Prod.snd) = l := by
  induction l with
  | nil => rfl
  | cons a l ih => simp [ih]

/-! ### Commuting sites -/

omit [Algebra ℂ A] in
theorem orderedInsert_word {w : Char → Nat → A} (hw : ∀ o p i j, i ≠ j → w o i * w p j = w p j * w o i) (x : Char × Nat) (l : List (Char × Nat)) :
    wordL w (l.orderedInsert (fun a b => a.2 ≤ b.2) x) = w x.1 x.2 * wordL w l := by
  induction l with
  | nil => simp [List.orderedInsert]
  | cons y l ih =>
    rw [List.orderedInsert_cons]
    split
    · simp
    · rename_i h
      rw [wordL_cons, ih, wordL_cons, ← mul_assoc, ← mul_assoc, hw _ _ _ _ (by omega)]

omit [Algebra ℂ A] in
theorem insertionSort_word {w : Char → Nat → A} (hw : ∀ o p i j, i ≠ j → w o i * w p j = w p j * w o i) (l : List (Char × Nat)) :
    wordL w (l.insertionSort fun a b => a.2 ≤ b.2) = wordL w l := by
  induction l with
  | nil => rfl
  | cons x l ih => rw [List.insertionSort_cons, orderedInsert_word hw, ih, wordL_cons]

theorem sortSite_some {op r : Op} (h : sortSite op = some r) : '|' ∉ op.str ∧ op.str.length = op.indx.length ∧
    r = ⟨((op.str.zip op.indx).insertionSort fun a b => a.2 ≤ b.2).map Prod.fst,
      ((op.str.zip op.indx).insertionSort fun a b => a.2 ≤ b.2).map Prod.snd, op.J⟩ := by
  unfold sortSite at h
  split at h
  · cases h
  · split at h
    · cases h
    · rename_i h1 h2
      exact ⟨h1, by simpa using h2, (Option.some.inj h).symm⟩

/-- The value of an operator. -/
def val (w : Char → Nat → A) (op : Op) : A := term w op.str op.indx op.J

theorem sortSite_val {w : Char → Nat → A} (hw : ∀ o p i j, i ≠ j → w o i * w p j = w p j * w o i) {op r : Op} (h : sortSite op = some r) :
    val w r = val w op := by
  obtain ⟨-, -, rfl⟩ := sortSite_some h
  simp only [val, term, word_eq, zip_fst_snd, insertionSort_word hw]

theorem sortSite_sorted {op r : Op} (h : sortSite op = some r) : r.indx.Pairwise (· ≤ ·) := by
  obtain ⟨-, -, rfl⟩ := sortSite_some h
  rw [List.pairwise_map]
  have : IsTotal (Char × Nat) (fun a b => a.2 ≤ b.2) := ⟨fun a b => le_total a.2 b.2⟩
  have : IsTrans (Char × Nat) (fun a b => a.2 ≤ b.2) := ⟨fun a b c h1 h2 => Nat.le_trans h1 h2⟩
  exact List.pairwise_insertionSort (r := fun (a b : Char × Nat) => a.2 ≤ b.2) _

theorem sortSite_lengths {op r : Op} (h : sortSite op = some r) : r.str.length = r.indx.length := by
  obtain ⟨-, -, rfl⟩ := sortSite_some h
  simp

theorem sortSite_none {op : Op} : sortSite op = none ↔ '|' ∈ op.str ∨ op.str.length ≠ op.indx.length := by
  unfold sortSite
  split
  · rename_i h; simp [h]
  · split
    · rename_i h1 h2; simp [h2]
    · rename_i h1 h2; simp only [reduceCtorEq, h1, h2, or_self]

/-! ### Adjoints -/

theorem hcChar_eq {c : Char} (h : c ≠ '%') : hcChar c = if c = '+' then '-' else if c = '-' then '+' else c := by
  unfold hcChar
  by_cases h1 : c = '+'
  · subst h1; decide
  · by_cases h2 : c = '-'
    · subst h2; decide
    · simp [h1, h2, h]

/-- `+` and `-` are adjoint, the others self-adjoint. -/
def Adj [StarRing A] (w : Char → Nat → A) : Prop :=
  ∀ i, star (w '+' i) = w '-' i ∧ star (w '-' i) = w '+' i ∧ ∀ o, o ≠ '+' → o ≠ '-' → star (w o i) = w o i

omit [Algebra ℂ A] in
theorem star_hcChar [StarRing A] {w : Char → Nat → A} (hw : Adj w) {c : Char} (h : c ≠ '%') (i : Nat) : star (w c i) = w (hcChar c) i := by
  rw [hcChar_eq h]
  split
  · rename_i h; subst h; exact (hw i).1
  · split
    · rename_i h; subst h; exact (hw i).2.1
    · rename_i h1 h2; exact (hw i).2.2 c h1 h2

omit [Algebra ℂ A] in
theorem star_wordL [StarRing A] {w : Char → Nat → A} (hw : Adj w) (l : List (Char × Nat)) (h : ∀ p ∈ l, p.1 ≠ '%') :
    star (wordL w l) = wordL w ((l.map fun p => (hcChar p.1, p.2)).reverse) := by
  induction l with
  | nil => simp
  | cons p l ih =>
    rw [wordL_cons, star_mul, ih (fun q hq => h q (by simp [hq])), star_hcChar hw (h p (by simp)), List.map_cons, List.reverse_cons,
      wordL_append]
    simp

theorem zip_reverse (s : List Char) (i : List Nat) (h : s.length = i.length) : s.reverse.zip i.reverse = (s.zip i).reverse := by
  induction s generalizing i with
  | nil => simp
  | cons c s ih =>
    cases i with
    | nil => simp at h
    | cons j i =>
      have hl : s.length = i.length := by simpa using h
      rw [List.reverse_cons, List.reverse_cons, List.zip_append (by simpa using hl), ih i hl]
      simp

theorem reversed_val [StarRing A] [StarModule ℂ A] {w : Char → Nat → A} (hw : Adj w) {op : Op} (hl : op.str.length = op.indx.length)
    (h : '%' ∉ op.str) : val w (reversed op) = star (val w op) := by
  simp only [val, term, star_smul, reversed, word_eq]
  rw [zip_reverse _ _ (by simpa using hl), star_wordL hw]
  · congr 3
    rw [List.zip_map_left]
    rfl
  · intro p hp hp'
    exact h (hp' ▸ (List.of_mem_zip hp).1)

theorem hcSite_val [StarRing A] [StarModule ℂ A] {w : Char → Nat → A} (hc : ∀ o p i j, i ≠ j → w o i * w p j = w p j * w o i) (hw : Adj w)
    {op r : Op} (hp : '%' ∉ op.str) (h : hcSite op = some r) : val w r = star (val w op) := by
  have hl := (sortSite_some h).2.1
  rw [sortSite_val hc h, reversed_val hw (by simpa [reversed] using hl) hp]

/-! ### Fermions -/

/-- The number of pairs in the wrong order. -/
def inv : List (Char × Nat) → Nat
  | [] => 0
  | x :: l => l.countP (fun y => y.2 < x.2) + inv l

theorem sweep_perm (l : List (Char × Nat)) : (sweep l).1.Perm l := by
  fun_induction sweep l with
  | case1 => exact List.Perm.refl _
  | case2 x => exact List.Perm.refl _
  | case3 x y l h ih => exact (ih.cons y).trans (List.Perm.swap _ _ _)
  | case4 x y l h ih => exact ih.cons x

theorem sweep_inv (l : List (Char × Nat)) : inv (sweep l).1 ≤ inv l ∧ ((sweep l).2.1 = true → inv (sweep l).1 < inv l) := by
  fun_induction sweep l with
  | case1 => simp
  | case2 x => simp
  | case3 x y l h ih =>
    have hp := (sweep_perm (x :: l)).countP_eq (fun z => decide (z.2 < y.2))
    simp only [inv, hp, List.countP_cons]
    have h1 : decide (x.2 < y.2) = false := by simp; omega
    have h2 : decide (y.2 < x.2) = true := by simp; omega
    have h3 := ih.1
    simp only [inv] at h3
    simp only [h1, h2]
    constructor <;> intros <;> simp <;> omega
  | case4 x y l h ih =>
    have hp := (sweep_perm (y :: l)).countP_eq (fun z => decide (z.2 < x.2))
    simp only [inv, hp]
    have h3 := ih.1
    have h4 := ih.2
    simp only [inv] at h3 h4
    exact ⟨by omega, fun h => by have := h4 h; omega⟩

theorem inv_le (l : List (Char × Nat)) : inv l ≤ l.length * l.length := by
  induction l with
  | nil => simp [inv]
  | cons x l ih =>
    have := List.countP_le_length (p := fun y : Char × Nat => decide (y.2 < x.2)) (l := l)
    simp only [inv, List.length_cons]
    nlinarith

theorem sweep_sorted (l : List (Char × Nat)) (h : (sweep l).2.1 = false) : (sweep l).1 = l ∧ l.Pairwise (fun a b => a.2 ≤ b.2) ∧ (sweep l).2.2 = 1 := by
  fun_induction sweep l with
  | case1 => simp
  | case2 x => simp
  | case3 x y l h' ih => simp at h
  | case4 x y l h' ih =>
    obtain ⟨h1, h2, h3⟩ := ih h
    refine ⟨by simp [h1], ?_, h3⟩
    rw [List.pairwise_cons]
    refine ⟨fun z hz => ?_, h2⟩
    rcases List.mem_cons.1 hz with rfl | hz
    · omega
    · have := (List.pairwise_cons.1 h2).1 z hz; omega

theorem bubble_some (k : Nat) : ∀ (s : Int) (l : List (Char × Nat)), inv l < k → ∃ r, bubble k s l = some r ∧ r.1.Perm l ∧ r.1.Pairwise (fun a b => a.2 ≤ b.2) := by
  induction k with
  | zero => intro s l h; omega
  | succ k ih =>
    intro s l h
    rw [bubble]
    split
    · rename_i hs
      obtain ⟨r, h1, h2, h3⟩ := ih (s * (sweep l).2.2) (sweep l).1 (by have := (sweep_inv l).2 hs; omega)
      exact ⟨r, h1, h2.trans (sweep_perm l), h3⟩
    · rename_i hs
      obtain ⟨h1, h2, h3⟩ := sweep_sorted l (by simpa using hs)
      exact ⟨_, rfl, sweep_perm l, by rw [h1]; exact h2⟩

/-- Exchange of operators on different sites. -/
def Exchange (G : Char → Prop) (w : Char → Nat → A) : Prop :=
  ∀ o p i j, G o → G p → i ≠ j → w o i * w p j = exch o p • (w p j * w o i)

theorem ladder_iff (c : Char) : ladder c = true ↔ c = '+' ∨ c = '-' := by simp [ladder]

theorem exch_int (o p : Char) : exch o p = ((if ladder o && ladder p then -1 else 1 : Int) : ℂ) := by
  unfold exch
  by_cases h : (o = '+' ∨ o = '-') ∧ (p = '+' ∨ p = '-')
  · rw [if_pos h, if_pos (by rw [Bool.and_eq_true, ladder_iff, ladder_iff]; exact h)]; simp
  · rw [if_neg h, if_neg (by rw [Bool.and_eq_true, ladder_iff, ladder_iff]; exact h)]; simp

theorem sweep_word {G : Char → Prop} {w : Char → Nat → A} (hw : Exchange G w) (l : List (Char × Nat)) (hG : ∀ p ∈ l, G p.1) :
    wordL w l = ((sweep l).2.2 : ℂ) • wordL w (sweep l).1 := by
  fun_induction sweep l with
  | case1 => simp
  | case2 x => simp
  | case3 x y l h ih =>
    have e := ih (fun p hp => hG p (by rcases List.mem_cons.1 hp with rfl | hp <;> simp_all))
    rw [wordL_cons] at e
    rw [wordL_cons, wordL_cons, ← mul_assoc, hw _ _ _ _ (hG x (by simp)) (hG y (by simp)) (by omega), smul_mul_assoc, mul_assoc, e,
      wordL_cons, exch_int]
    simp only [mul_smul_comm, smul_smul]
    congr 1
    push_cast
    rfl
  | case4 x y l h ih =>
    rw [wordL_cons, ih (fun p hp => hG p (by simp [hp]))]
    simp

theorem bubble_word {G : Char → Prop} {w : Char → Nat → A} (hw : Exchange G w) (k : Nat) : ∀ (s : Int) (l : List (Char × Nat)),
    (∀ p ∈ l, G p.1) → ∀ r, bubble k s l = some r → (r.2 : ℂ) • wordL w r.1 = (s : ℂ) • wordL w l := by
  induction k with
  | zero => intro s l _ r h; simp [bubble] at h
  | succ k ih =>
    intro s l hG r h
    rw [bubble] at h
    split at h
    · have := ih _ _ (fun p hp => hG p ((sweep_perm l).mem_iff.1 hp)) r h
      rw [this, sweep_word hw l hG, smul_smul]
      push_cast; rfl
    · obtain rfl := Option.some.inj h
      rw [sweep_word hw l hG, smul_smul]
      push_cast; rfl

theorem bubble_facts (s : List Char) (i : List Nat) (hl : s.length = i.length) :
    ∃ r, bubble (s.length * s.length + 1) 1 (s.zip i) = some r ∧ r.1.Perm (s.zip i) ∧ r.1.Pairwise (fun a b => a.2 ≤ b.2) := by
  refine bubble_some _ _ _ ?_
  have := inv_le (s.zip i)
  have h : (s.zip i).length = s.length := by simp [hl]
  rw [h] at this
  omega

theorem sortFermion_some {op r : Op} (h : sortFermion op = some r) : '|' ∉ op.str ∧ op.str.length = op.indx.length ∧
    ∃ p, bubble (op.str.length * op.str.length + 1) 1 (op.str.zip op.indx) = some p ∧ r = ⟨p.1.map Prod.fst, p.1.map Prod.snd, op.J * p.2⟩ := by
  unfold sortFermion at h
  split at h
  · cases h
  · split at h
    · cases h
    · rename_i h1 h2
      obtain ⟨p, hp, rfl⟩ := Option.map_eq_some_iff.1 h
      exact ⟨h1, by simpa using h2, p, hp, rfl⟩

theorem sortFermion_none {op : Op} : sortFermion op = none ↔ '|' ∈ op.str ∨ op.str.length ≠ op.indx.length := by
  unfold sortFermion
  split
  · rename_i h; simp [h]
  · split
    · rename_i h1 h2; simp [h2]
    · rename_i h1 h2
      obtain ⟨r, hr, -⟩ := bubble_facts op.str op.indx (by simpa using h2)
      simp only [hr, Option.map_some, reduceCtorEq, h1, h2, or_self]

theorem sortFermion_sorted {op r : Op} (h : sortFermion op = some r) : r.indx.Pairwise (· ≤ ·) := by
  obtain ⟨-, hl, p, hp, rfl⟩ := sortFermion_some h
  obtain ⟨q, hq, -, h2⟩ := bubble_facts op.str op.indx hl
  obtain rfl : p = q := Option.some.inj (hp.symm.trans hq)
  rw [List.pairwise_map]
  exact h2

theorem sortFermion_perm {op r : Op} (h : sortFermion op = some r) : (r.str.zip r.indx).Perm (op.str.zip op.indx) := by
  obtain ⟨-, hl, p, hp, rfl⟩ := sortFermion_some h
  obtain ⟨q, hq, h2, -⟩ := bubble_facts op.str op.indx hl
  obtain rfl : p = q := Option.some.inj (hp.symm.trans hq)
  simpa [zip_fst_snd] using h2

theorem sortFermion_lengths {op r : Op} (h : sortFermion op = some r) : r.str.length = r.indx.length := by
  obtain ⟨-, hl, p, hp, rfl⟩ := sortFermion_some h
  simp

theorem sortFermion_val {G : Char → Prop} {w : Char → Nat → A} (hw : Exchange G w) {op r : Op} (hG : ∀ c ∈ op.str, G c)
    (h : sortFermion op = some r) : val w r = val w op := by
  obtain ⟨-, hl, p, hp, rfl⟩ := sortFermion_some h
  have := bubble_word hw _ _ _ (fun q hq => hG q.1 (List.of_mem_zip hq).1) p hp
  simp only [val, term, word_eq, zip_fst_snd]
  rw [mul_smul, this]
  simp

theorem hcFermion_val [StarRing A] [StarModule ℂ A] {G : Char → Prop} {w : Char → Nat → A} (hx : Exchange G w) (hw : Adj w) {op r : Op}
    (hp : '%' ∉ op.str) (hG : ∀ c ∈ op.str, G (hcChar c)) (h : hcFermion op = some r) : val w r = star (val w op) := by
  have hl := (sortFermion_some h).2.1
  rw [sortFermion_val hx ?_ h, reversed_val hw (by simpa [reversed] using hl) hp]
  intro c hc
  simp only [reversed, List.mem_reverse, List.mem_map] at hc
  obtain ⟨c', hc', rfl⟩ := hc
  exact hG c' hc'

/-! ### Spinful fermions -/

/-- Parity of the number of ladder operators. -/
def lad (l : List (Char × Nat)) : Nat := l.countP fun p => ladder p.1

theorem move_word {G : Char → Prop} {w : Char → Nat → A} (hw : Exchange G w) (x : Char × Nat) (l : List (Char × Nat)) (hx : G x.1)
    (hG : ∀ p ∈ l, G p.1) (hd : ∀ p ∈ l, x.2 ≠ p.2) :
    w x.1 x.2 * wordL w l = ((-1) ^ ((if ladder x.1 then 1 else 0) * lad l) : ℂ) • (wordL w l * w x.1 x.2) := by
  induction l with
  | nil => simp [lad]
  | cons p l ih =>
    have e := ih (fun q hq => hG q (by simp [hq])) (fun q hq => hd q (by simp [hq]))
    rw [wordL_cons, ← mul_assoc, hw _ _ _ _ hx (hG p (by simp)) (hd p (by simp)), smul_mul_assoc, mul_assoc, e, mul_smul_comm, smul_smul,
      mul_assoc, exch_int]
    congr 1
    have h2 : lad (p :: l) = lad l + if ladder p.1 then 1 else 0 := by simp [lad, List.countP_cons]
    rw [h2]
    cases ladder x.1 <;> cases ladder p.1 <;> simp [pow_succ]

theorem words_exchange {G : Char → Prop} {w : Char → Nat → A} (hw : Exchange G w) (l m : List (Char × Nat)) (hl : ∀ p ∈ l, G p.1)
    (hm : ∀ p ∈ m, G p.1) (hd : ∀ p ∈ l, ∀ q ∈ m, p.2 ≠ q.2) :
    wordL w l * wordL w m = ((-1) ^ (lad l * lad m) : ℂ) • (wordL w m * wordL w l) := by
  induction l with
  | nil => simp [lad]
  | cons x l ih =>
    rw [wordL_cons, mul_assoc, ih (fun p hp => hl p (by simp [hp])) (fun p hp => hd p (by simp [hp])), mul_smul_comm, ← mul_assoc,
      move_word hw x m (hl x (by simp)) hm (fun q hq => hd x (by simp) q hq), smul_mul_assoc, smul_smul, mul_assoc]
    congr 1
    have h2 : lad (x :: l) = lad l + if ladder x.1 then 1 else 0 := by simp [lad, List.countP_cons]
    rw [h2, ← pow_add]
    ring_nf

theorem lad_zip (s : List Char) (i : List Nat) (h : s.length = i.length) : lad (s.zip i) = ladders s := by
  induction s generalizing i with
  | nil => simp [lad, ladders]
  | cons c s ih =>
    cases i with
    | nil => simp at h
    | cons j i =>
      have := ih i (by simpa using h)
      simp only [lad, ladders, List.zip_cons_cons, List.countP_cons, List.count_cons] at this ⊢
      rw [this]
      have hc : ladder c = true ↔ c = '+' ∨ c = '-' := ladder_iff c
      by_cases h1 : c = '+'
      · subst h1; simp [ladder]; omega
      · by_cases h2 : c = '-'
        · subst h2; simp [ladder]; omega
        · have : ladder c = false := by rw [← Bool.not_eq_true]; simp [hc, h1, h2]
          simp [this, h1, h2]

/-- The value of an operator with a bar. -/
def valSpinful (w : Char → Nat → A) (L : Nat) (op : Op) : A :=
  spinfulTerm w L (splitBar op.str).1 (op.indx.take (splitBar op.str).1.length) (splitBar op.str).2 (op.indx.drop (splitBar op.str).1.length) op.J

omit [Algebra ℂ A] in
theorem word_shift (w : Char → Nat → A) (L : Nat) (s : List Char) (i : List Nat) : opWord w s (i.map (· + L)) = opWord (fun o j => w o (j + L)) s i := by
  simp only [opWord, List.zip_map_right, List.map_map]
  rfl

theorem splitBar_join (a b : List Char) (ha : '|' ∉ a) : splitBar (a ++ '|' :: b) = (a, b) := by
  have h1 : (a ++ '|' :: b).takeWhile (· ≠ '|') = a := by
    rw [List.takeWhile_append_of_pos (by intro x hx; simp; rintro rfl; exact ha hx)]
    simp
  have h2 : (a ++ '|' :: b).dropWhile (· ≠ '|') = '|' :: b := by
    rw [List.dropWhile_append_of_pos (by intro x hx; simp; rintro rfl; exact ha hx)]
    simp
  rw [splitBar, h1, h2, List.tail_cons]

theorem splitBar_left (s : List Char) : '|' ∉ (splitBar s).1 := by
  intro h
  have : ∀ (s : List Char), '|' ∉ s.takeWhile (· ≠ '|') := by
    intro s
    induction s with
    | nil => simp
    | cons c s ih =>
      rw [List.takeWhile_cons]
      split
      · rename_i hc
        rw [List.mem_cons, not_or]
        exact ⟨fun h => by simp [← h] at hc, ih⟩
      · simp
  exact this s h

theorem valSpinful_join (w : Char → Nat → A) (L : Nat) (a b : Op) (J : ℂ) (ha : '|' ∉ a.str) (hl : a.str.length = a.indx.length) :
    valSpinful w L (join a b J) = spinfulTerm w L a.str a.indx b.str b.indx J := by
  simp only [valSpinful, join, splitBar_join _ _ ha, hl, List.take_left', List.drop_left']

theorem sortFermion_nobar {op r : Op} (h : sortFermion op = some r) : '|' ∉ r.str := by
  have hp := sortFermion_perm h
  have h1 := (sortFermion_some h).1
  have hl := sortFermion_lengths h
  have hl' := (sortFermion_some h).2.1
  have := hp.map Prod.fst
  rw [List.map_fst_zip (by omega), List.map_fst_zip (by omega)] at this
  rw [this.mem_iff]
  exact h1

theorem Exchange.shift {G : Char → Prop} {w : Char → Nat → A} (hw : Exchange G w) (L : Nat) : Exchange G (fun o j => w o (j + L)) :=
  fun o p i j ho hp hij => hw o p (i + L) (j + L) ho hp (by omega)

theorem sortSpinful_some {op r : Op} (h : sortSpinful op = some r) :
    barred op = true ∧ ∃ a b, sortFermion (leftPart op 1) = some a ∧ sortFermion (rightPart op 1) = some b ∧ r = join a b (op.J * (a.J * b.J)) := by
  unfold sortSpinful at h
  split at h
  · rename_i hb
    obtain ⟨a, ha, h⟩ := Option.bind_eq_some_iff.1 h
    obtain ⟨b, hb', rfl⟩ := Option.map_eq_some_iff.1 h
    exact ⟨hb, a, b, ha, hb', rfl⟩
  · cases h

theorem hcSpinful_some {op r : Op} (h : hcSpinful op = some r) :
    barred op = true ∧ ∃ a b, hcFermion (leftPart op op.J) = some a ∧ hcFermion (rightPart op 1) = some b ∧
      r = join a b ((-1) ^ (ladders (splitBar op.str).1 * ladders (splitBar op.str).2) * a.J * b.J) := by
  unfold hcSpinful at h
  split at h
  · rename_i hb
    obtain ⟨a, ha, h⟩ := Option.bind_eq_some_iff.1 h
    obtain ⟨b, hb', rfl⟩ := Option.map_eq_some_iff.1 h
    exact ⟨hb, a, b, ha, hb', rfl⟩
  · cases h

theorem splitBar_mem (s : List Char) : (∀ c ∈ (splitBar s).1, c ∈ s) ∧ ∀ c ∈ (splitBar s).2, c ∈ s :=
  ⟨fun _ hc => (List.takeWhile_sublist _).subset hc, fun _ hc => (List.dropWhile_sublist _).subset (List.mem_of_mem_tail hc)⟩

theorem sortSpinful_val {G : Char → Prop} {w : Char → Nat → A} (hw : Exchange G w) (L : Nat) {op r : Op} (hG : ∀ c ∈ op.str, G c)
    (h : sortSpinful op = some r) : valSpinful w L r = valSpinful w L op := by
  obtain ⟨-, a, b, ha, hb, rfl⟩ := sortSpinful_some h
  rw [valSpinful_join _ _ _ _ _ (sortFermion_nobar ha) (sortFermion_lengths ha)]
  have e1 := sortFermion_val hw (fun c hc => hG c ((splitBar_mem op.str).1 c hc)) ha
  have e2 := sortFermion_val (hw.shift L) (fun c hc => hG c ((splitBar_mem op.str).2 c hc)) hb
  simp only [val, term, leftPart, rightPart, one_smul] at e1 e2
  simp only [valSpinful, spinfulTerm, word_shift]
  rw [← e1, ← e2, mul_smul, smul_mul_smul_comm]

theorem hcSpinful_val [StarRing A] [StarModule ℂ A] {G : Char → Prop} {w : Char → Nat → A} (hx : Exchange G w) (hw : Adj w) (L : Nat) {op r : Op}
    (hp : '%' ∉ op.str) (hG : ∀ c ∈ op.str, G (hcChar c)) (hG' : ∀ c ∈ op.str, G c)
    (hL : ∀ i ∈ op.indx.take (splitBar op.str).1.length, i < L) (h : hcSpinful op = some r) :
    valSpinful w L r = star (valSpinful w L op) := by
  obtain ⟨-, a, b, ha, hb, rfl⟩ := hcSpinful_some h
  rw [valSpinful_join _ _ _ _ _ (sortFermion_nobar ha) (sortFermion_lengths ha)]
  have hm := splitBar_mem op.str
  have e1 := hcFermion_val hx hw (op := leftPart op op.J) (fun hc => hp (hm.1 _ hc)) (fun c hc => hG c (hm.1 c hc)) ha
  have e2 := hcFermion_val (hx.shift L) (fun i => hw (i + L)) (op := rightPart op 1) (fun hc => hp (hm.2 _ hc)) (fun c hc => hG c (hm.2 c hc)) hb
  have hl1 : (splitBar op.str).1.length = (op.indx.take (splitBar op.str).1.length).length := by
    simpa [reversed, leftPart] using (sortFermion_some ha).2.1
  have hl2 : (splitBar op.str).2.length = (op.indx.drop (splitBar op.str).1.length).length := by
    simpa [reversed, rightPart] using (sortFermion_some hb).2.1
  simp only [val, term, leftPart, rightPart, one_smul] at e1 e2
  simp only [valSpinful, spinfulTerm, word_shift, star_smul, star_mul]
  have ex := words_exchange hx ((splitBar op.str).1.zip (op.indx.take (splitBar op.str).1.length))
    ((splitBar op.str).2.zip ((op.indx.drop (splitBar op.str).1.length).map (· + L)))
    (fun p hp => hG' _ (hm.1 _ (List.of_mem_zip hp).1)) (fun p hp => hG' _ (hm.2 _ (List.of_mem_zip hp).1)) (by
      intro p hp q hq
      have h1 := hL _ (List.of_mem_zip hp).2
      obtain ⟨j, -, hj⟩ := List.mem_map.1 (List.of_mem_zip hq).2
      omega)
  rw [lad_zip _ _ hl1, lad_zip _ _ (by simpa using hl2)] at ex
  rw [← word_eq, ← word_eq, word_shift] at ex
  have ex' := congrArg star ex
  rw [star_mul, star_smul, star_mul] at ex'
  rw [ex']
  have hs : star ((-1 : ℂ) ^ (ladders (splitBar op.str).1 * ladders (splitBar op.str).2)) =
      (-1) ^ (ladders (splitBar op.str).1 * ladders (splitBar op.str).2) := by simp
  rw [hs]
  rw [star_smul] at e1
  rw [mul_assoc, mul_smul, ← smul_mul_smul_comm, e1, e2, smul_mul_assoc, smul_comm]

end Proof.OpStr
