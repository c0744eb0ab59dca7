import Verif.Proof.CheckSymm

namespace Proof.CheckSymm
open Model.OpStr Model.CheckSymm Spec Proof.OpStr Proof.Lattice

/-! ### The transformations of the checks move letters -/

section Moves
variable {N : Nat}

theorem zip_map_self {s : List Char} {i : List Nat} (f : Char × Nat → Char) :
    ((s.zip i).map f).zip i = (s.zip i).map fun p => (f p, p.2) := by
  induction s generalizing i with
  | nil => simp
  | cons c s ih =>
    cases i with
    | nil => simp
    | cons j i => simp [ih]

theorem sign_none (l : List (Char × Nat)) : (l.map (letterSign (N := N) fun _ => false)).prod = 1 := by
  induction l with
  | nil => rfl
  | cons p l ih => rw [List.map_cons, List.prod_cons, ih]; simp [letterSign]

theorem moved_sites (σ : Equiv.Perm (Fin N)) (f : Nat → Nat) (hf : ∀ i : Fin N, f i = σ i) (op : Op) (h : ∀ p ∈ letters op, p.2 < N) :
    Moved (moveLetter σ fun _ => false) (letterSign (N := N) fun _ => false) op { op with indx := op.indx.map f } where
  letters := by
    simp only [letters, List.zip_map_right]
    refine List.map_congr_left fun p hp => ?_
    have := h p hp
    simp only [moveLetter, dif_pos this, Prod.map]
    rw [← hf]
    rfl
  coupling := by rw [sign_none, mul_one]

theorem moved_T {L a i : Nat} (σ : Equiv.Perm (Fin L)) (hσ : ∀ j : Fin L, (σ j : Nat) = (j + i * a) % L) (op : Op) (h : ∀ p ∈ letters op, p.2 < L) :
    Moved (moveLetter σ fun _ => false) (letterSign (N := L) fun _ => false) op (moveT L a i op) :=
  moved_sites σ _ (fun j => (hσ j).symm) op h

theorem reflect_val {L : Nat} (j : Fin L) : (((L : Int) - 1 - (j : Nat)) % L).toNat = (Fin.revPerm j : Fin L) := by
  have := j.2
  rw [Int.emod_eq_of_lt (by omega) (by omega)]
  simp [Fin.val_rev]
  omega

theorem moved_P {L : Nat} (op : Op) (h : ∀ p ∈ letters op, p.2 < L) :
    Moved (moveLetter (Fin.revPerm (n := L)) fun _ => false) (letterSign (N := L) fun _ => false) op (moveP L op) :=
  moved_sites _ _ reflect_val op h

theorem cut_plain {s : List Char} (h : '|' ∉ s) : cut s = s.length := by
  unfold cut
  rw [List.count_eq_zero_of_not_mem h]
  simp

theorem sign_all (s : List Char) (i : List Nat) (hl : s.length = i.length) (h : ∀ j ∈ i, j < N) :
    ((s.zip i).map (letterSign (N := N) fun _ => true)).prod = (-1) ^ (s.count 'z' + s.count 'y') := by
  induction s generalizing i with
  | nil => simp
  | cons c s ih =>
    cases i with
    | nil => simp at hl
    | cons j i =>
      rw [List.zip_cons_cons, List.map_cons, List.prod_cons, ih i (by simpa using hl) fun k hk => h k (by simp [hk])]
      have hj := h j (by simp)
      simp only [letterSign, dif_pos hj, true_and, List.count_cons]
      by_cases h1 : c = 'z'
      · subst h1; simp; ring
      · by_cases h2 : c = 'y'
        · subst h2; simp; ring
        · simp [h1, h2]

theorem site_lt {op : Op} (hl : op.str.length = op.indx.length) (h : ∀ p ∈ letters op, p.2 < N) : ∀ j ∈ op.indx, j < N := by
  intro j hj
  have : j ∈ (letters op).map Prod.snd := by rw [letters, List.map_snd_zip (by omega)]; exact hj
  obtain ⟨p, hp, rfl⟩ := List.mem_map.1 this
  exact h p hp

theorem letter_flip (σ : Equiv.Perm (Fin N)) (f : Nat → Nat) (hf : ∀ i : Fin N, f i = σ i) {op : Op} (h : ∀ p ∈ letters op, p.2 < N) :
    (op.str.map swapChar).zip (op.indx.map f) = (letters op).map (moveLetter σ fun _ => true) := by
  rw [List.zip_map]
  refine List.map_congr_left fun p hp => ?_
  have := h p hp
  simp only [moveLetter, dif_pos this, Prod.map, if_true]
  rw [← hf]

theorem moved_Z {L : Nat} (op : Op) (hl : op.str.length = op.indx.length) (hb : '|' ∉ op.str) (h : ∀ p ∈ letters op, p.2 < L) (ho : ¬oddZ op) :
    Moved (moveLetter (Equiv.refl (Fin L)) fun _ => true) (letterSign (N := L) fun _ => true) op (moveZ op) where
  letters := by
    simp only [letters, moveZ, cut_plain hb, List.take_length, List.drop_length, List.append_nil]
    have := letter_flip (Equiv.refl (Fin L)) id (fun _ => rfl) h
    rw [List.map_id] at this
    exact this
  coupling := by
    rw [letters, sign_all _ _ hl (site_lt hl h)]
    simp only [oddZ, cut_plain hb, List.take_length, not_not] at ho
    have : Even (op.str.count 'z' + op.str.count 'y') := Nat.even_iff.2 (by omega)
    rw [this.neg_one_pow, mul_one]
    rfl

theorem moved_PZ {L : Nat} (op : Op) (hl : op.str.length = op.indx.length) (hb : '|' ∉ op.str) (h : ∀ p ∈ letters op, p.2 < L) :
    Moved (moveLetter (Fin.revPerm (n := L)) fun _ => true) (letterSign (N := L) fun _ => true) op (movePZ L op) where
  letters := by
    simp only [letters, movePZ, cut_plain hb, List.take_length, List.drop_length, List.append_nil]
    exact letter_flip _ _ reflect_val h
  coupling := by
    rw [letters, sign_all _ _ hl (site_lt hl h)]
    simp only [movePZ, cut_plain hb, List.take_length]

/-- The sites of a sublattice. -/
def sublattice (L lat : Nat) (i : Fin L) : Bool := decide ((i : Nat) % 2 = lat % 2)

theorem flipOne_letter {L lat : Nat} (p : Char × Nat) (h : p.2 < L) (h6 : p.1 ≠ '#') :
    ((flipOne lat p).2, p.2) = moveLetter (Equiv.refl (Fin L)) (sublattice L lat) p ∧ (((flipOne lat p).1 : Int) : ℂ) = letterSign (sublattice L lat) p ∧
      ((flipOne lat p).1 = 1 ∨ (flipOne lat p).1 = -1) := by
  obtain ⟨c, i⟩ := p
  simp only at h h6
  simp only [flipOne, moveLetter, letterSign, dif_pos h, sublattice, decide_eq_true_eq, Equiv.refl_apply]
  by_cases h1 : i % 2 = lat % 2
  · simp only [h1, if_true, true_and]
    by_cases h2 : c = 'z'
    · subst h2; simp [swapChar]
    · by_cases h3 : c = 'y'
      · subst h3; simp [swapChar]
      · by_cases h4 : c = '+'
        · subst h4; simp [swapChar]
        · by_cases h5 : c = '-'
          · subst h5; simp [swapChar]
          · simp [swapChar, h2, h3, h4, h5, h6]
  · simp [h1]

theorem sub_sign {L lat : Nat} (l : List (Char × Nat)) (h : ∀ p ∈ l, p.2 < L ∧ p.1 ≠ '#') :
    (((l.map fun p => (flipOne lat p).1).prod : Int) : ℂ) = (l.map (letterSign (sublattice L lat))).prod ∧
      ((l.map fun p => (flipOne lat p).1).prod = 1 ∨ (l.map fun p => (flipOne lat p).1).prod = -1) := by
  induction l with
  | nil => simp
  | cons p l ih =>
    obtain ⟨h1, h2⟩ := ih fun q hq => h q (by simp [hq])
    obtain ⟨-, h3, h4⟩ := flipOne_letter (lat := lat) p (h p (by simp)).1 (h p (by simp)).2
    rw [List.map_cons, List.prod_cons, List.map_cons, List.prod_cons, Int.cast_mul, h1, h3]
    refine ⟨rfl, ?_⟩
    rcases h2 with h2 | h2 <;> rcases h4 with h4 | h4 <;> simp [h2, h4]

theorem moved_sub {L lat : Nat} (op : Op) (hl : op.str.length = op.indx.length) (hb : '|' ∉ op.str)
    (h : ∀ p ∈ letters op, p.2 < L ∧ p.1 ≠ '#') (ho : ¬oddSub lat op) :
    Moved (moveLetter (Equiv.refl (Fin L)) (sublattice L lat)) (letterSign (sublattice L lat)) op (moveSub lat op) where
  letters := by
    simp only [letters, moveSub, flipSublat, cut_plain hb, List.take_length, List.drop_length, List.append_nil]
    rw [List.take_of_length_le (by omega), List.drop_of_length_le (by omega), List.append_nil, zip_map_self]
    exact List.map_congr_left fun p hp => (flipOne_letter p (h p hp).1 (h p hp).2).1
  coupling := by
    simp only [oddSub, flipSublat, cut_plain hb, List.take_length] at ho
    rw [List.take_of_length_le (by omega)] at ho
    obtain ⟨h1, h2⟩ := sub_sign (L := L) (lat := lat) (letters op) h
    rw [← h1]
    rcases h2 with h2 | h2
    · rw [h2]; simp [moveSub]
    · exact absurd h2 ho

/-! ### User maps -/

/-- The moves of a user map. -/
structure IsMap (map : List Int) (σ : Equiv.Perm (Fin N)) (flip : Fin N → Bool) : Prop where
  site : ∀ i : Fin N, ∃ m, map[(i : Nat)]? = some m ∧ (flip i = decide (m < 0)) ∧ (σ i : Nat) = (if m < 0 then -(m + 1) else m).toNat

/-- Without `+`, `-` (or without inverted sites) the loop moves the letters. -/
theorem mapLoop_eq {map : List Int} {σ : Equiv.Perm (Fin N)} {flip : Fin N → Bool} (hm : IsMap map σ flip) (str : List Char)
    (hstr : (∀ i, flip i = false) ∨ ∀ c ∈ str, swapChar c = c) :
    ∀ (j : Nat) (indx out : List Nat) (J : ℂ) (odd : Bool), (∀ i ∈ indx, i < N) → str.length = j + indx.length →
    ∃ odd', mapLoop map j indx (str, out, J, odd) =
      some (str, out ++ ((str.drop j).zip indx).map (fun p => (moveLetter σ flip p).2), J * (((str.drop j).zip indx).map (letterSign flip)).prod, odd') ∧
        ((∀ i, flip i = false) → odd' = odd) := by
  intro j indx
  induction indx generalizing j with
  | nil => intro out J odd _ _; exact ⟨odd, by simp [mapLoop], fun _ => rfl⟩
  | cons ind indx ih =>
    intro out J odd hi hl
    have hind := hi ind (by simp)
    simp only [List.length_cons] at hl
    have hj : j < str.length := by omega
    obtain ⟨m, e1, e2, e3⟩ := hm.site ⟨ind, hind⟩
    simp only at e1
    have hd : str.drop j = str[j] :: str.drop (j + 1) := List.drop_eq_getElem_cons hj
    have hmap : flip ⟨ind, hind⟩ = true → str.map swapChar = str := by
      intro hf
      rcases hstr with h | h
      · rw [h] at hf; simp at hf
      · conv_rhs => rw [← List.map_id str]
        exact List.map_congr_left fun c hc => h c hc
    rw [mapLoop, e1, List.getElem?_eq_getElem hj]
    simp only
    by_cases hneg : m < 0
    · have hf : flip ⟨ind, hind⟩ = true := by rw [e2]; simpa using hneg
      rw [if_pos hneg, hmap hf]
      obtain ⟨odd', h, -⟩ := ih (j + 1) (out ++ [(-(m + 1)).toNat]) (J * if str[j] = 'z' ∨ str[j] = 'y' then -1 else 1) (odd || str[j] = 'n')
        (fun i h => hi i (by simp [h])) (by omega)
      refine ⟨odd', ?_, fun h0 => absurd hf (by simp [h0])⟩
      rw [h, hd, List.zip_cons_cons, List.map_cons, List.map_cons, List.prod_cons]
      rw [if_pos hneg] at e3
      simp only [moveLetter, letterSign, dif_pos hind, hf, true_and, e3, List.append_assoc, List.singleton_append, mul_assoc]
    · have hf : flip ⟨ind, hind⟩ = false := by rw [e2]; simpa using hneg
      rw [if_neg hneg]
      obtain ⟨odd', h, ho⟩ := ih (j + 1) (out ++ [m.toNat]) J odd (fun i h => hi i (by simp [h])) (by omega)
      refine ⟨odd', ?_, ho⟩
      rw [h, hd, List.zip_cons_cons, List.map_cons, List.map_cons, List.prod_cons]
      rw [if_neg hneg] at e3
      simp only [moveLetter, letterSign, dif_pos hind, hf, e3, List.append_assoc, List.singleton_append]
      simp

theorem zip_snd_map {s : List Char} {i : List Nat} (f : Char × Nat → Char × Nat) (hf : ∀ p ∈ s.zip i, (f p).1 = p.1) (hl : s.length = i.length) :
    s.zip ((s.zip i).map fun p => (f p).2) = (s.zip i).map f := by
  induction s generalizing i with
  | nil => simp
  | cons c s ih =>
    cases i with
    | nil => simp at hl
    | cons j i =>
      have h1 := hf (c, j) (by simp)
      simp only at h1
      simp only [List.zip_cons_cons, List.map_cons]
      rw [ih (fun p hp => hf p (by simp [hp])) (by simpa using hl)]
      congr 1
      exact Prod.ext h1.symm rfl

theorem moved_map {map : List Int} {σ : Equiv.Perm (Fin N)} {flip : Fin N → Bool} (hm : IsMap map σ flip) (op : Op)
    (hl : op.str.length = op.indx.length) (h : ∀ p ∈ letters op, p.2 < N) (hstr : (∀ i, flip i = false) ∨ ∀ c ∈ op.str, swapChar c = c)
    {str : List Char} {indx : List Nat} {J : ℂ} {odd : Bool} (he : mapLoop map 0 op.indx (op.str, [], op.J, false) = some (str, indx, J, odd)) :
    Moved (moveLetter σ flip) (letterSign flip) op ⟨str, indx, J⟩ := by
  obtain ⟨odd', h', -⟩ := mapLoop_eq hm op.str hstr 0 op.indx [] op.J false (site_lt hl h) (by omega)
  rw [h'] at he
  simp only [Option.some.injEq, Prod.mk.injEq, List.drop_zero, List.nil_append] at he
  obtain ⟨rfl, rfl, rfl, -⟩ := he
  refine ⟨?_, rfl⟩
  refine zip_snd_map _ (fun p hp => ?_) hl
  have h2 := h p hp
  simp only [moveLetter, dif_pos h2]
  rcases hstr with h3 | h3
  · simp [h3]
  · simp [h3 _ (List.of_mem_zip hp).1]

end Moves

/-! ### Lists of operators -/

section Lists
variable {A : Type} [Ring A] [Algebra ℂ A]

/-- What the sorted lists have in common. -/
structure Tidy {X : Type} (P : Char × Nat → Prop) (l : List (Op × X)) : Prop where
  letters : ∀ p ∈ l, ∀ q ∈ letters p.1, P q
  len : ∀ p ∈ l, p.1.str.length = p.1.indx.length
  sorted : ∀ p ∈ l, (CheckSymm.letters p.1).Pairwise fun a b => a.2 ≤ b.2

theorem tidy_of {sort : Op → Option Op} {sgn : List (Char × Nat) → ℂ} (hs : Stable sort sgn) {P : Char × Nat → Prop} {o r : Op}
    (hP : ∀ q ∈ letters o, P q) (h : sort o = some r) : (∀ q ∈ letters r, P q) ∧ r.str.length = r.indx.length ∧
      (letters r).Pairwise fun a b => a.2 ≤ b.2 :=
  ⟨fun q hq => hP q (((hs.perm _ _ h).mem_iff).1 hq), (hs.len _ _ h).2, hs.sorted _ _ h⟩

theorem tidy_static {B : Basis} {sgn : List (Char × Nat) → ℂ} (hs : Stable B.sort sgn) {P : Char × Nat → Prop} {l : OpList}
    (hP : ∀ op ∈ flatten l, ∀ q ∈ letters op, P q) {s : List Op} (h : localList B l = some s) : Tidy P (s.map fun o => (o, ())) := by
  have : ∀ p ∈ s.map fun o => (o, ()), ∃ op ∈ flatten l, B.sort op = some p.1 := by
    intro p hp
    obtain ⟨o, ho, rfl⟩ := List.mem_map.1 hp
    exact forall₂_mem (mapM_forall₂ h) ho
  refine ⟨fun p hp => ?_, fun p hp => ?_, fun p hp => ?_⟩ <;> obtain ⟨op, hop, e⟩ := this p hp
  · exact (tidy_of hs (hP op hop) e).1
  · exact (tidy_of hs (hP op hop) e).2.1
  · exact (tidy_of hs (hP op hop) e).2.2

theorem tidy_dynamic {F : Type} {B : Basis} {sgn : List (Char × Nat) → ℂ} (hs : Stable B.sort sgn) {P : Char × Nat → Prop}
    {l : List (List Char × List (ℂ × List Nat) × F)} (hP : ∀ p ∈ flattenD l, ∀ q ∈ letters p.1, P q) {d : List (Op × F)}
    (h : localDynamic B l = some d) : Tidy P d := by
  refine ⟨fun p hp => ?_, fun p hp => ?_, fun p hp => ?_⟩ <;> obtain ⟨q, hq, e, -⟩ := localDynamic_mem h p hp
  · exact (tidy_of hs (hP q hq) e).1
  · exact (tidy_of hs (hP q hq) e).2.1
  · exact (tidy_of hs (hP q hq) e).2.2

theorem tidy_commutes {X : Type} {P : Char × Nat → Prop} {G : Char → Prop} {g : Char × Nat → Char × Nat} {ε : Char × Nat → ℂ} {w : Char → Nat → A} {U : A}
    {sort : Op → Option Op} {sgn : List (Char × Nat) → ℂ} (hg : Moves P g ε) (hs : Stable sort sgn)
    (hU : ∀ p, P p → U * w p.1 p.2 = ε p • (w (g p).1 (g p).2 * U)) (hG : ∀ p, P p → G (g p).1)
    (hval : ∀ op r, (∀ c ∈ op.str, G c) → sort op = some r → val w r = val w op)
    {l : List (Op × X)} (hn : l.Nodup) (ht : Tidy P l) (h : Found sort g ε l) (x : X → ℂ) :
    U * (l.map fun p => x p.2 • val w p.1).sum = (l.map fun p => x p.2 • val w p.1).sum * U := by
  refine found_commutes hg hs hU hn ht.letters ht.len ht.sorted ?_ h x
  intro p hp m r hm hr
  refine hval m r (fun c hc => ?_) hr
  have hl := (hs.len _ _ hr).1
  have : c ∈ (letters m).map Prod.fst := by rw [letters, List.map_fst_zip (by omega)]; exact hc
  obtain ⟨q, hq, rfl⟩ := List.mem_map.1 this
  rw [hm.letters] at hq
  obtain ⟨q', hq', rfl⟩ := List.mem_map.1 hq
  exact hG q' (ht.letters p hp q' hq')

end Lists
end Proof.CheckSymm
