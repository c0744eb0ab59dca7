import Verif.Model.FermionMaps
import Verif.Spec.FermionMaps
import Verif.Proof.Maps
import Verif.Proof.Period
import Mathlib.Algebra.BigOperators.Group.List.Basic
import Mathlib.Data.List.Perm.Basic
namespace Proof.FermionMaps
open Spec Model Model.Word Proof.Maps Proof.Digits

/-! ### merge sort counts inversions -/

/-- pairs `(x in l, y in r)` with `x < y` -/
def cross (l r : List Int) : Nat := (l.map fun a => r.countP (a < ·)).sum

/-- pairs in increasing order -/
def ups : List Int → Nat
  | [] => 0
  | a :: l => l.countP (a < ·) + ups l

def odd (n : Nat) : Bool := decide (n % 2 = 1)

theorem odd_add (m n : Nat) : odd (m + n) = xor (odd m) (odd n) := by
  unfold odd
  rcases Nat.mod_two_eq_zero_or_one m with h | h <;> rcases Nat.mod_two_eq_zero_or_one n with h' | h' <;>
    simp [Nat.add_mod, h, h']

theorem odd_mul (m n : Nat) : odd (m * n) = (odd m && odd n) := by
  unfold odd
  rcases Nat.mod_two_eq_zero_or_one m with h | h <;> rcases Nat.mod_two_eq_zero_or_one n with h' | h' <;>
    simp [Nat.mul_mod, h, h']

theorem cross_perm_left {l l' : List Int} (h : l.Perm l') (r : List Int) : cross l r = cross l' r :=
  (h.map _).sum_eq

theorem cross_perm_right (l : List Int) {r r' : List Int} (h : r.Perm r') : cross l r = cross l r' := by
  unfold cross
  congr 1
  apply List.map_congr_left
  intro a _
  exact h.countP_eq _

theorem ups_append (l r : List Int) : ups (l ++ r) = ups l + ups r + cross l r := by
  induction l with
  | nil => simp [ups, cross]
  | cons a l ih =>
    simp only [List.cons_append, ups, ih, List.countP_append, cross, List.map_cons, List.sum_cons]
    omega

theorem mergeCount_spec : ∀ (l r : List Int) (j : Nat) (f : Bool), l.Pairwise (· ≥ ·) → r.Pairwise (· ≥ ·) →
    (mergeCount l r j f).1.Perm (l ++ r) ∧ (mergeCount l r j f).1.Pairwise (· ≥ ·) ∧
      (mergeCount l r j f).2 = xor f (odd (j * l.length + cross l r))
  | [], r, j, f, _, hr => by simp [mergeCount, cross, odd, hr]
  | a :: l, [], j, f, hl, _ => by
    unfold mergeCount
    refine ⟨by simp, hl, ?_⟩
    have : cross (a :: l) [] = 0 := by simp [cross]
    rw [this, Nat.add_zero, odd_mul]
    rfl
  | a :: l, b :: r, j, f, hl, hr => by
    unfold mergeCount
    rw [List.pairwise_cons] at hl hr
    by_cases hab : a ≥ b
    · rw [if_pos hab]
      have ih := mergeCount_spec l (b :: r) j (xor f (decide (j % 2 = 1))) hl.2 (List.pairwise_cons.2 hr)
      refine ⟨by simpa using ih.1.cons a, ?_, ?_⟩
      · rw [List.pairwise_cons]
        refine ⟨fun x hx => ?_, ih.2.1⟩
        rw [ih.1.mem_iff, List.mem_append, List.mem_cons] at hx
        rcases hx with hx | rfl | hx
        · exact hl.1 x hx
        · exact hab
        · exact le_trans (hr.1 x hx) hab
      · simp only []
        rw [ih.2.2]
        have h0 : (b :: r).countP (a < ·) = 0 := by
          rw [List.countP_eq_zero]
          intro x hx
          rw [List.mem_cons] at hx
          simp only [decide_eq_true_eq, not_lt]
          rcases hx with rfl | hx
          · exact hab
          · exact le_trans (hr.1 x hx) hab
        have h1 : cross (a :: l) (b :: r) = cross l (b :: r) := by
          simp only [cross, List.map_cons, List.sum_cons, h0, Nat.zero_add]
        rw [h1, List.length_cons, show j * (l.length + 1) + cross l (b :: r) = j + (j * l.length + cross l (b :: r)) by ring,
          odd_add j, ← Bool.xor_assoc]
        rfl
    · rw [if_neg hab]
      have ih := mergeCount_spec (a :: l) r (j + 1) f (List.pairwise_cons.2 hl) hr.2
      refine ⟨?_, ?_, ?_⟩
      · refine (ih.1.cons b).trans ?_
        exact List.perm_middle.symm
      · rw [List.pairwise_cons]
        refine ⟨fun x hx => ?_, ih.2.1⟩
        rw [ih.1.mem_iff, List.mem_append, List.mem_cons] at hx
        rcases hx with (rfl | hx) | hx
        · exact le_of_lt (not_le.1 hab)
        · exact le_trans (hl.1 x hx) (le_of_lt (not_le.1 hab))
        · exact hr.1 x hx
      · simp only []
        rw [ih.2.2]
        have h1 : ∀ l' : List Int, (∀ x ∈ l', x < b) → cross l' (b :: r) = l'.length + cross l' r := by
          intro l' hl'
          induction l' with
          | nil => simp [cross]
          | cons x l' ih' =>
            have h2 := ih' (fun y hy => hl' y (by simp [hy]))
            have h3 : (b :: r).countP (x < ·) = 1 + r.countP (x < ·) := by
              rw [List.countP_cons, if_pos (by simpa using hl' x (by simp))]; omega
            unfold cross at h2 ⊢
            simp only [List.map_cons, List.sum_cons, List.length_cons, h3] at h2 ⊢
            omega
        have h2 := h1 (a :: l) (by
          intro x hx
          rw [List.mem_cons] at hx
          rcases hx with rfl | hx
          · exact not_le.1 hab
          · exact lt_of_le_of_lt (hl.1 x hx) (not_le.1 hab))
        rw [h2]
        congr 2
        ring
termination_by l r => l.length + r.length

theorem getfCount_spec : ∀ (n : Nat) (l : List Int) (f : Bool), l.length ≤ n → (getfCount l f).1.Perm l ∧ (getfCount l f).1.Pairwise (· ≥ ·) ∧
    (getfCount l f).2 = xor f (odd (ups l))
  | n, l, f, hn => by
    unfold getfCount
    by_cases h : l.length ≤ 1
    · rw [dif_pos h]
      match l, h with
      | [], _ => simp [ups, odd]
      | [a], _ => simp [ups, odd]
    · rw [dif_neg h]
      simp only []
      match n, hn with
      | 0, hn => omega
      | n + 1, hn =>
        have i1 := getfCount_spec n (l.take ((l.length + 1) / 2)) f (by rw [List.length_take]; omega)
        have i2 := getfCount_spec n (l.drop ((l.length + 1) / 2)) (getfCount (l.take ((l.length + 1) / 2)) f).2
          (by rw [List.length_drop]; omega)
        have m := mergeCount_spec _ _ 0 (getfCount (l.drop ((l.length + 1) / 2)) (getfCount (l.take ((l.length + 1) / 2)) f).2).2
          i1.2.1 i2.2.1
        refine ⟨?_, m.2.1, ?_⟩
        · refine m.1.trans ((i1.1.append i2.1).trans ?_)
          rw [List.take_append_drop]
        · rw [m.2.2, cross_perm_left i1.1, cross_perm_right _ i2.1, i2.2.2, i1.2.2]
          have hu := ups_append (l.take ((l.length + 1) / 2)) (l.drop ((l.length + 1) / 2))
          rw [List.take_append_drop] at hu
          rw [hu]
          simp only [Nat.zero_mul, odd_add, show odd 0 = false from rfl, Bool.false_xor, Bool.xor_assoc]

/-! ### signs of reordering -/

section
variable {α : Type} [LinearOrder α]

/-- sign of a pair -/
def pairSign (σ : α → α) (i k : α) : Int := (if i < k ∧ σ k < σ i then -1 else 1) * (if k < i ∧ σ i < σ k then -1 else 1)

theorem reorder_insert (σ : α → α) (O : Finset α) (i : α) (hi : i ∉ O) :
    reorderSign σ (insert i O) = reorderSign σ O * ∏ k ∈ O, pairSign σ i k := by
  unfold reorderSign
  rw [Finset.prod_insert hi, Finset.prod_insert hi, if_neg (by simp), one_mul]
  have : ∏ j ∈ O, ∏ k ∈ insert i O, (if j < k ∧ σ k < σ j then (-1 : Int) else 1)
      = (∏ j ∈ O, if j < i ∧ σ i < σ j then (-1 : Int) else 1) * ∏ j ∈ O, ∏ k ∈ O, (if j < k ∧ σ k < σ j then (-1 : Int) else 1) := by
    rw [← Finset.prod_mul_distrib]
    apply Finset.prod_congr rfl
    intro j _
    rw [Finset.prod_insert hi]
  rw [this, ← mul_assoc, ← Finset.prod_mul_distrib, mul_comm]
  rfl

theorem pair_after (σ : α → α) (i k : α) (hik : i ≠ k) (hσ : σ i ≠ σ k) :
    (if i < k then (-1 : Int) else 1) * pairSign σ i k = if σ i < σ k then -1 else 1 := by
  unfold pairSign
  rcases lt_or_gt_of_ne hik with h | h <;> rcases lt_or_gt_of_ne hσ with h' | h' <;>
    simp [h, h', not_lt_of_gt h, not_lt_of_gt h']

theorem pair_comp (σ τ : α → α) (i k : α) (hik : i ≠ k) (hσ : σ i ≠ σ k) (hτ : τ (σ i) ≠ τ (σ k)) :
    pairSign τ (σ i) (σ k) * pairSign σ i k = pairSign (fun x => τ (σ x)) i k := by
  unfold pairSign
  rcases lt_or_gt_of_ne hik with h | h <;> rcases lt_or_gt_of_ne hσ with h' | h' <;>
    rcases lt_or_gt_of_ne hτ with h'' | h'' <;>
    simp [h, h', h'', not_lt_of_gt h, not_lt_of_gt h', not_lt_of_gt h'']

theorem reorder_comp (σ τ : α → α) (O : Finset α) (hσ : Set.InjOn σ O) (hτ : Set.InjOn τ (O.image σ)) :
    reorderSign τ (O.image σ) * reorderSign σ O = reorderSign (fun x => τ (σ x)) O := by
  induction O using Finset.induction_on with
  | empty => simp [reorderSign]
  | insert i O hi ih =>
    have hne : ∀ k ∈ O, i ≠ k := fun k hk he => hi (he ▸ hk)
    have hσ' : ∀ k ∈ O, σ i ≠ σ k := fun k hk he =>
      hne k hk (hσ (by simp) (by simp [hk]) he)
    have hτ' : ∀ k ∈ O, τ (σ i) ≠ τ (σ k) := fun k hk he =>
      hσ' k hk (hτ (by simp) (by simp; exact Or.inr ⟨k, hk, rfl⟩) he)
    have hn : σ i ∉ O.image σ := by
      rw [Finset.mem_image]
      rintro ⟨k, hk, he⟩
      exact hσ' k hk he.symm
    have hinjO : Set.InjOn σ O := fun a ha b hb => hσ (by simp [Finset.mem_coe.1 ha]) (by simp [Finset.mem_coe.1 hb])
    rw [Finset.image_insert, reorder_insert τ _ _ hn, reorder_insert σ _ _ hi, reorder_insert _ _ _ hi,
      Finset.prod_image hinjO,
      ← ih hinjO (fun a ha b hb => hτ (by rw [Finset.image_insert]; simp at ha ⊢; exact Or.inr ha)
        (by rw [Finset.image_insert]; simp at hb ⊢; exact Or.inr hb))]
    rw [← Finset.prod_congr rfl (fun k hk => pair_comp σ τ i k (hne k hk) (hσ' k hk) (hτ' k hk)),
      Finset.prod_mul_distrib]
    ring

theorem reorder_id (O : Finset α) : reorderSign (fun x => x) O = 1 := by
  unfold reorderSign
  apply Finset.prod_eq_one
  intro j _
  apply Finset.prod_eq_one
  intro k _
  rw [if_neg]
  rintro ⟨h1, h2⟩
  exact lt_asymm h1 h2

theorem reorder_congr (σ τ : α → α) (O : Finset α) (h : ∀ i ∈ O, σ i = τ i) : reorderSign σ O = reorderSign τ O := by
  unfold reorderSign
  apply Finset.prod_congr rfl
  intro j hj
  apply Finset.prod_congr rfl
  intro k hk
  rw [h j hj, h k hk]

theorem reorder_sq (σ : α → α) (O : Finset α) : reorderSign σ O = 1 ∨ reorderSign σ O = -1 := by
  unfold reorderSign
  have hp : ∀ (β : Type) (s : Finset β) (f : β → Int), (∀ x ∈ s, f x = 1 ∨ f x = -1) → ∏ x ∈ s, f x = 1 ∨ ∏ x ∈ s, f x = -1 := by
    intro β s f hf
    refine Finset.prod_induction f (fun z => z = 1 ∨ z = -1) ?_ (Or.inl rfl) hf
    rintro a b (rfl | rfl) (rfl | rfl) <;> simp
  apply hp
  intro j _
  apply hp
  intro k _
  split <;> simp

end

/-! ### the loop -/

/-- targets of occupied sites below `n`, last site first -/
def posList (N : Nat) (map : List Int) (s : Nat) : Nat → List Int
  | 0 => []
  | n + 1 => (if occ 2 N s n = 1 then [(dest map n : Int)] else []) ++ posList N map s n

def occBelow (N s n : Nat) : Finset Nat := (Finset.range n).filter fun i => occ 2 N s i = 1

theorem occBelow_succ (N s n : Nat) : occBelow N s (n + 1) =
    if occ 2 N s n = 1 then insert n (occBelow N s n) else occBelow N s n := by
  unfold occBelow
  rw [Finset.range_add_one, Finset.filter_insert]

theorem sign_pow (n : Nat) : (if odd n = true then (-1 : Int) else 1) = (-1) ^ n := by
  unfold odd
  rcases Nat.even_or_odd n with h | h
  · rw [h.neg_one_pow, if_neg]; rw [Nat.even_iff] at h; simp [h]
  · rw [h.neg_one_pow, if_pos]; rw [Nat.odd_iff] at h; simp [h]

theorem count_posList (N : Nat) (map : List Int) (s : Nat) (d : Nat) : ∀ n,
    ((-1 : Int)) ^ ((posList N map s n).countP ((d : Int) < ·)) = ∏ k ∈ occBelow N s n, if d < dest map k then (-1 : Int) else 1
  | 0 => by simp [posList, occBelow]
  | n + 1 => by
    have ih := count_posList N map s d n
    rw [occBelow_succ]
    unfold posList
    by_cases h : occ 2 N s n = 1
    · rw [if_pos h, if_pos h, Finset.prod_insert (by simp [occBelow]), List.countP_append, pow_add, ih]
      congr 1
      by_cases hd : d < dest map n
      · rw [if_pos hd, List.countP_cons, if_pos (by simpa using hd)]; simp
      · rw [if_neg hd, List.countP_cons, if_neg (by simpa using hd)]; simp
    · rw [if_neg h, if_neg h]
      simpa using ih

theorem ups_posList {N : Nat} {map : List Int} (h : IsSiteMap N map) (s : Nat) : ∀ n, n ≤ N →
    ((-1 : Int)) ^ ups (posList N map s n) = reorderSign (dest map) (occBelow N s n)
  | 0, _ => by simp [posList, occBelow, ups, reorderSign]
  | n + 1, hn => by
    have ih := ups_posList h s n (by omega)
    rw [occBelow_succ]
    unfold posList
    by_cases ho : occ 2 N s n = 1
    · rw [if_pos ho, if_pos ho, reorder_insert _ _ _ (by simp [occBelow])]
      simp only [List.cons_append, List.nil_append, ups]
      rw [pow_add, ih, count_posList, mul_comm]
      congr 1
      apply Finset.prod_congr rfl
      intro k hk
      have hkn : k < n := by simp [occBelow] at hk; exact hk.1
      unfold pairSign
      by_cases hd : dest map n < dest map k
      · simp [hd, hkn, not_lt_of_gt hkn]
      · simp [hd, hkn, not_lt_of_gt hkn]
    · rw [if_neg ho, if_neg ho]
      simpa using ih

theorem loop_spec (w N : Nat) : ∀ (js : List Int) (s ss : Nat) (pos : List Int) (f : Bool),
    (fermionMapLoop w N js s ss pos f).1 = mapBitsLoop w N js s ss
  | [], _, _, _, _ => rfl
  | j :: js, s, ss, pos, f => by
    rw [fermionMapLoop, mapBitsLoop]
    exact loop_spec w N js _ _ _ _

theorem digit_shift (s k : Nat) : digit 2 (s >>> 1) k = digit 2 s (k + 1) := by
  unfold digit
  rw [Nat.shiftRight_eq_div_pow, Nat.div_div_eq_div_mul, Nat.pow_one, Nat.pow_succ, Nat.mul_comm]

/-- positions and sign flag accumulated over the first `js.length` sites -/
theorem loop_pos (w N : Nat) : ∀ (n : Nat) (map : List Int), map.length = n → ∀ (s ss : Nat) (pos : List Int) (f : Bool),
    (fermionMapLoop w N map.reverse s ss pos f).2.1 = pos ++ posList n map s n ∧
    ((if (fermionMapLoop w N map.reverse s ss pos f).2.2 = true then (-1 : Int) else 1) =
      (if f = true then (-1 : Int) else 1) * ∏ i ∈ occBelow n s n, if inverts map i = true ∧ i % 2 = 1 then (-1 : Int) else 1)
  | 0, map, hm, s, ss, pos, f => by
    have : map = [] := List.length_eq_zero_iff.1 hm
    subst this
    simp [fermionMapLoop, posList, occBelow]
  | n + 1, map, hm, s, ss, pos, f => by
    obtain ⟨map', j, rfl⟩ : ∃ m j, map = m ++ [j] := by
      refine ⟨map.dropLast, map.getLast (by intro h; simp [h] at hm), ?_⟩
      rw [List.dropLast_append_getLast]
    have hl : map'.length = n := by simpa using hm
    have hocc : occ 2 (n + 1) s n = s &&& 1 := by
      unfold occ digit
      rw [Nat.and_one_is_mod]
      simp
    have hn01 : s &&& 1 = 0 ∨ s &&& 1 = 1 := by rw [Nat.and_one_is_mod]; omega
    have hoccs : ∀ i < n, occ 2 n (s >>> 1) i = occ 2 (n + 1) s i := by
      intro i hi
      unfold occ
      rw [digit_shift]
      congr 1
      omega
    have hdest : ∀ i < n, dest (map' ++ [j]) i = dest map' i := by
      intro i hi
      unfold dest
      rw [List.getD_append _ _ _ _ (by omega)]
    have hinv : ∀ i < n, inverts (map' ++ [j]) i = inverts map' i := by
      intro i hi
      unfold inverts
      rw [List.getD_append _ _ _ _ (by omega)]
    have hlast : (map' ++ [j]).getD n 0 = j := by
      rw [List.getD_append_right _ _ _ _ (by omega), hl]; simp
    have hpos : ∀ m, m ≤ n → posList (n + 1) (map' ++ [j]) s m = posList n map' (s >>> 1) m := by
      intro m
      induction m with
      | zero => intro _; rfl
      | succ m ih =>
        intro hm
        unfold posList
        rw [ih (by omega), hoccs m (by omega), hdest m (by omega)]
    have hb : occBelow (n + 1) s n = occBelow n (s >>> 1) n := by
      unfold occBelow
      apply Finset.filter_congr
      intro i hi
      rw [Finset.mem_range] at hi
      rw [hoccs i hi]
    rw [List.reverse_append]
    simp only [List.reverse_cons, List.reverse_nil, List.nil_append, List.singleton_append]
    rw [fermionMapLoop]
    have ih := loop_pos w N n map' hl (s >>> 1)
      (ss ^^^ (if j < 0 then shl w ((s &&& 1) ^^^ 1) (j + N).toNat
        else shl w (s &&& 1) ((N : Int) - j - 1).toNat))
      (if s &&& 1 ≠ 0 then pos ++ [siteOf j] else pos)
      (if s &&& 1 ≠ 0 then xor f (decide (j < 0) && decide (map'.reverse.length % 2 = 1)) else f)
    refine ⟨?_, ?_⟩
    · rw [ih.1]
      conv_rhs => unfold posList
      rw [hpos n (Nat.le_refl _), hocc]
      rcases hn01 with h | h
      · simp [h]
      · simp only [h, ne_eq, Nat.one_ne_zero, not_false_eq_true, if_true]
        rw [List.append_assoc]
        congr 2
        unfold dest
        rw [hlast, Proof.Period.siteOf_eq]
    · rw [ih.2, occBelow_succ, hocc, ← hb]
      have hprod : ∏ i ∈ occBelow (n + 1) s n, (if inverts map' i = true ∧ i % 2 = 1 then (-1 : Int) else 1)
          = ∏ i ∈ occBelow (n + 1) s n, (if inverts (map' ++ [j]) i = true ∧ i % 2 = 1 then (-1 : Int) else 1) := by
        apply Finset.prod_congr rfl
        intro i hi
        have : i < n := by simp [occBelow] at hi; exact hi.1
        rw [hinv i this]
      rw [hprod]
      rcases hn01 with h | h
      · simp [h]
      · simp only [h, ne_eq, Nat.one_ne_zero, not_false_eq_true, if_true]
        rw [Finset.prod_insert (by simp [occBelow]), ← mul_assoc]
        congr 1
        unfold inverts
        rw [hlast, List.length_reverse, hl]
        cases f <;> by_cases h1 : j < 0 <;> by_cases h2 : n % 2 = 1 <;> simp [h1, h2]

theorem fermionMapBits_eq (w N : Nat) (map : List Int) (h : IsSiteMap N map) (s : Nat) (sign : Int) :
    fermionMapBits w N map s sign = (mapBits w N map s, sign * fermionMapSign N map s) := by
  unfold fermionMapBits
  simp only []
  have h1 := loop_spec w N map.reverse s 0 [] false
  have h2 := loop_pos w N N map h.length s 0 [] false
  have h3 := (getfCount_spec _ (fermionMapLoop w N map.reverse s 0 [] false).2.1
    (fermionMapLoop w N map.reverse s 0 [] false).2.2 (Nat.le_refl _)).2.2
  rw [h1, h3]
  refine Prod.ext rfl ?_
  show (if _ then sign * (-1) else sign) = _
  have hu := ups_posList h s N (Nat.le_refl _)
  rw [h2.1, List.nil_append]
  have key : ∀ a b : Bool, (if (xor a b) = true then sign * (-1) else sign) =
      sign * ((if b = true then (-1 : Int) else 1) * (if a = true then (-1 : Int) else 1)) := by
    intro a b; cases a <;> cases b <;> simp
  rw [key, h2.2, sign_pow, hu]
  simp [fermionMapSign, occupied, occBelow]

end Proof.FermionMaps
