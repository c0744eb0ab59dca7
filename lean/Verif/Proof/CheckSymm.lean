import Verif.Model.CheckSymm
import Verif.Spec.SymmetryOps
import Verif.Proof.OpIndependent
import Verif.Proof.OpAccept

namespace Proof.CheckSymm
open Model.OpStr Model.CheckSymm Spec Proof.OpStr Proof.Lattice

variable {A : Type} [Ring A] [Algebra ℂ A]

/-! ### Sorting by site is stable -/

/-- The letters on one site, in their order. -/
def onLine (j : Nat) (l : List (Char × Nat)) : List (Char × Nat) := l.filter fun p => p.2 = j

theorem sorted_ext {l m : List (Char × Nat)} (hl : l.Pairwise fun a b => a.2 ≤ b.2) (hm : m.Pairwise fun a b => a.2 ≤ b.2)
    (h : ∀ j, onLine j l = onLine j m) : l = m := by
  induction l generalizing m with
  | nil =>
    cases m with
    | nil => rfl
    | cons y m => have := h y.2; simp [onLine] at this
  | cons x l ih =>
    cases m with
    | nil => have := h x.2; simp [onLine] at this
    | cons y m =>
      rw [List.pairwise_cons] at hl hm
      have hxy : x.2 = y.2 := by
        by_contra hne
        rcases Nat.lt_or_gt_of_ne hne with hlt | hlt
        · have := h x.2
          have hx : x ∈ onLine x.2 (y :: m) := by rw [← this]; simp [onLine]
          simp only [onLine, List.mem_filter, List.mem_cons, decide_true, and_true] at hx
          rcases hx with rfl | hx
          · omega
          · have := hm.1 x hx; omega
        · have := h y.2
          have hx : y ∈ onLine y.2 (x :: l) := by rw [this]; simp [onLine]
          simp only [onLine, List.mem_filter, List.mem_cons, decide_true, and_true] at hx
          rcases hx with rfl | hx
          · omega
          · have := hl.1 y hx; omega
      have hx := h x.2
      simp only [onLine, List.filter_cons, decide_true, if_true, ← hxy, List.cons.injEq] at hx
      obtain ⟨rfl, hx⟩ := hx
      refine congrArg _ (ih hl.2 hm.2 fun j => ?_)
      by_cases hj : x.2 = j
      · subst hj; exact hx
      · have := h j
        simpa [onLine, List.filter_cons, hj] using this

theorem orderedInsert_line (j : Nat) (x : Char × Nat) (l : List (Char × Nat)) :
    onLine j (l.orderedInsert (fun a b => a.2 ≤ b.2) x) = onLine j (x :: l) := by
  induction l with
  | nil => rfl
  | cons y l ih =>
    rw [List.orderedInsert]
    split
    · rfl
    · rename_i h
      simp only [onLine, List.filter_cons] at ih ⊢
      rw [ih]
      by_cases h1 : x.2 = j <;> by_cases h2 : y.2 = j <;> simp [h1, h2]
      omega

theorem insertionSort_line (j : Nat) (l : List (Char × Nat)) : onLine j (l.insertionSort fun a b => a.2 ≤ b.2) = onLine j l := by
  induction l with
  | nil => rfl
  | cons x l ih =>
    rw [List.insertionSort, List.foldr_cons] at *
    rw [← List.insertionSort] at *
    rw [orderedInsert_line]
    simp only [onLine, List.filter_cons] at ih ⊢
    rw [ih]

theorem sweep_line (j : Nat) (l : List (Char × Nat)) : onLine j (sweep l).1 = onLine j l := by
  fun_induction sweep l with
  | case1 => rfl
  | case2 x => rfl
  | case3 x y l h ih =>
    simp only [onLine, List.filter_cons] at ih ⊢
    rw [ih]
    by_cases h1 : x.2 = j <;> by_cases h2 : y.2 = j <;> simp [h1, h2]
    omega
  | case4 x y l h ih =>
    simp only [onLine, List.filter_cons] at ih ⊢
    rw [ih]

theorem sweep_sign (l : List (Char × Nat)) : (sweep l).2.2 ≠ 0 := by
  fun_induction sweep l with
  | case1 => simp
  | case2 x => simp
  | case3 x y l h ih => split <;> simp [ih]
  | case4 x y l h ih => simpa using ih

theorem bubble_line (j k : Nat) : ∀ (s : Int) (l : List (Char × Nat)) r, bubble k s l = some r → s ≠ 0 → onLine j r.1 = onLine j l ∧ r.2 ≠ 0 := by
  induction k with
  | zero => intro s l r h; simp [bubble] at h
  | succ k ih =>
    intro s l r h hs
    rw [bubble] at h
    have := sweep_sign l
    split at h
    · obtain ⟨h1, h2⟩ := ih _ _ _ h (mul_ne_zero hs this)
      exact ⟨h1.trans (sweep_line j l), h2⟩
    · obtain rfl := Option.some.inj h
      exact ⟨sweep_line j l, mul_ne_zero hs this⟩

/-- The letters of an operator with their sites. -/
def letters (op : Op) : List (Char × Nat) := op.str.zip op.indx

/-- A sort that keeps the order of letters on the same site and multiplies the coupling by a number that depends on the letters only. -/
structure Stable (sort : Op → Option Op) (sgn : List (Char × Nat) → ℂ) : Prop where
  len : ∀ op r, sort op = some r → op.str.length = op.indx.length ∧ r.str.length = r.indx.length
  line : ∀ op r, sort op = some r → ∀ j, onLine j (letters r) = onLine j (letters op)
  sorted : ∀ op r, sort op = some r → (letters r).Pairwise fun a b => a.2 ≤ b.2
  perm : ∀ op r, sort op = some r → (letters r).Perm (letters op)
  coupling : ∀ op r, sort op = some r → r.J = op.J * sgn (letters op)
  sgn_ne : ∀ l, sgn l ≠ 0
  total : ∀ op : Op, op.str.length = op.indx.length → '|' ∉ op.str → ∃ r, sort op = some r

theorem pairwise_zip {s : List Char} {i : List Nat} (h : i.Pairwise (· ≤ ·)) : (s.zip i).Pairwise fun a b => a.2 ≤ b.2 := by
  induction s generalizing i with
  | nil => simp
  | cons c s ih =>
    cases i with
    | nil => simp
    | cons j i =>
      rw [List.pairwise_cons] at h
      rw [List.zip_cons_cons, List.pairwise_cons]
      exact ⟨fun p hp => h.1 _ (List.of_mem_zip hp).2, ih h.2⟩

theorem stable_site : Stable sortSite fun _ => 1 where
  len op r h := ⟨(sortSite_perm h).1, (sortSite_perm h).2.1⟩
  line op r h j := by
    obtain ⟨-, -, rfl⟩ := sortSite_some h
    simp only [letters, zip_fst_snd, insertionSort_line]
  sorted op r h := pairwise_zip (sortSite_sorted h)
  perm op r h := (sortSite_perm h).2.2
  coupling op r h := by obtain ⟨-, -, rfl⟩ := sortSite_some h; simp
  sgn_ne := by simp
  total op h1 h2 := by
    rw [← Option.ne_none_iff_exists', Ne, sortSite_none]
    push Not
    exact ⟨h2, h1⟩

/-- The sign of the sort of fermions. -/
def signF (l : List (Char × Nat)) : ℂ := ((bubble (l.length * l.length + 1) 1 l).elim 1 fun p => p.2 : Int)

theorem stable_fermion : Stable sortFermion signF where
  len op r h := ⟨(sortFermion_perm' h).1, (sortFermion_perm' h).2.1⟩
  line op r h j := by
    obtain ⟨-, -, p, hp, rfl⟩ := sortFermion_some h
    simp only [letters, zip_fst_snd]
    exact (bubble_line j _ _ _ _ hp one_ne_zero).1
  sorted op r h := by
    obtain ⟨-, hl, p, hp, rfl⟩ := sortFermion_some h
    obtain ⟨q, hq, -, hs⟩ := bubble_facts _ _ hl
    obtain rfl := Option.some.inj (hp.symm.trans hq)
    simpa only [letters, zip_fst_snd] using hs
  perm op r h := (sortFermion_perm' h).2.2
  coupling op r h := by
    obtain ⟨-, hl, p, hp, rfl⟩ := sortFermion_some h
    have e : (letters op).length = op.str.length := by simp [letters, hl]
    simp only [signF, e]
    rw [letters, hp]
    rfl
  sgn_ne l := by
    unfold signF
    cases h : bubble (l.length * l.length + 1) 1 l with
    | none => simp
    | some p => simpa using (bubble_line 0 _ _ _ _ h one_ne_zero).2
  total op h1 h2 := by
    rw [← Option.ne_none_iff_exists', Ne, sortFermion_none]
    push Not
    exact ⟨h2, h1⟩

/-! ### Moving letters -/

theorem map_inj_on {α β : Type} {g : α → β} {l m : List α} (h : ∀ x ∈ l, ∀ y ∈ m, g x = g y → x = y) (e : l.map g = m.map g) : l = m := by
  induction l generalizing m with
  | nil => cases m <;> simp_all
  | cons x l ih =>
    cases m with
    | nil => simp at e
    | cons y m =>
      rw [List.map_cons, List.map_cons, List.cons.injEq] at e
      rw [h x (by simp) y (by simp) e.1, ih (fun a ha b hb => h a (by simp [ha]) b (by simp [hb])) e.2]

/-- `g` moves the allowed letters between sites; letters on the same site stay together. -/
structure Moves (P : Char × Nat → Prop) (g : Char × Nat → Char × Nat) (ε : Char × Nat → ℂ) : Prop where
  inj : ∀ p q, P p → P q → g p = g q → p = q
  site : ∀ p q, P p → P q → ((g p).2 = (g q).2 ↔ p.2 = q.2)
  ne : ∀ p, P p → ε p ≠ 0

/-- `op'` is `op` with moved letters. -/
structure Moved (g : Char × Nat → Char × Nat) (ε : Char × Nat → ℂ) (op op' : Op) : Prop where
  letters : letters op' = (CheckSymm.letters op).map g
  coupling : op'.J = op.J * ((CheckSymm.letters op).map ε).prod

theorem line_map {P : Char × Nat → Prop} {g : Char × Nat → Char × Nat} {ε : Char × Nat → ℂ} (hg : Moves P g ε) (q : Char × Nat) (hq : P q)
    (l : List (Char × Nat)) (hl : ∀ p ∈ l, P p) : onLine (g q).2 (l.map g) = (onLine q.2 l).map g := by
  induction l with
  | nil => rfl
  | cons x l ih =>
    have := ih fun p hp => hl p (by simp [hp])
    simp only [onLine, List.map_cons, List.filter_cons] at this ⊢
    rw [this]
    have h := hg.site x q (hl x (by simp)) hq
    by_cases hx : x.2 = q.2 <;> simp [h, hx]

theorem prod_ne {l : List (Char × Nat)} {ε : Char × Nat → ℂ} (h : ∀ p ∈ l, ε p ≠ 0) : (l.map ε).prod ≠ 0 := by
  induction l with
  | nil => simp
  | cons x l ih =>
    rw [List.map_cons, List.prod_cons]
    exact mul_ne_zero (h x (by simp)) (ih fun p hp => h p (by simp [hp]))

theorem op_ext {o o' : Op} (h1 : o.str.length = o.indx.length) (h2 : o'.str.length = o'.indx.length) (h : letters o = letters o') (hJ : o.J = o'.J) : o = o' := by
  have a := congrArg (List.map Prod.fst) h
  have c := congrArg (List.map Prod.snd) h
  simp only [letters] at a c
  rw [List.map_fst_zip (by omega), List.map_fst_zip (by omega)] at a
  rw [List.map_snd_zip (by omega), List.map_snd_zip (by omega)] at c
  exact Op.ext a c hJ

/-- Moving and sorting does not identify terms. -/
theorem moved_inj {P : Char × Nat → Prop} {g : Char × Nat → Char × Nat} {ε : Char × Nat → ℂ} (hg : Moves P g ε) {sort : Op → Option Op}
    {sgn : List (Char × Nat) → ℂ} (hs : Stable sort sgn) {o o' m m' r r' : Op} (ho : ∀ p ∈ letters o, P p) (ho' : ∀ p ∈ letters o', P p)
    (hl : o.str.length = o.indx.length) (hl' : o'.str.length = o'.indx.length)
    (so : (letters o).Pairwise fun a b => a.2 ≤ b.2) (so' : (letters o').Pairwise fun a b => a.2 ≤ b.2)
    (hm : Moved g ε o m) (hm' : Moved g ε o' m') (hr : sort m = some r) (hr' : sort m' = some r') (hrr : letters r = letters r') :
    letters o = letters o' ∧ (r.J = r'.J → o = o') := by
  have e : letters o = letters o' := by
    refine sorted_ext so so' fun j => ?_
    by_cases h : ∃ q, P q ∧ q.2 = j
    · obtain ⟨q, hq, rfl⟩ := h
      refine map_inj_on (g := g) (fun x hx y hy => hg.inj x y (ho x (List.mem_filter.1 hx).1) (ho' y (List.mem_filter.1 hy).1)) ?_
      rw [← line_map hg q hq _ ho, ← line_map hg q hq _ ho', ← hm.letters, ← hm'.letters, ← hs.line _ _ hr, ← hs.line _ _ hr', hrr]
    · push Not at h
      have : ∀ l : List (Char × Nat), (∀ p ∈ l, P p) → onLine j l = [] := by
        intro l hl
        rw [onLine, List.filter_eq_nil_iff]
        intro p hp
        simpa using h p (hl p hp)
      rw [this _ ho, this _ ho']
  refine ⟨e, fun hJ => op_ext hl hl' e ?_⟩
  rw [hs.coupling _ _ hr, hs.coupling _ _ hr', hm.coupling, hm'.coupling, hm.letters, hm'.letters, e] at hJ
  exact mul_right_cancel₀ (prod_ne fun p hp => hg.ne p (ho' p hp)) (mul_right_cancel₀ (hs.sgn_ne _) hJ)

/-! ### The value of a moved term -/

theorem moved_word {P : Char × Nat → Prop} {g : Char × Nat → Char × Nat} {ε : Char × Nat → ℂ} {w : Char → Nat → A} {U : A}
    (hU : ∀ p, P p → U * w p.1 p.2 = ε p • (w (g p).1 (g p).2 * U)) (l : List (Char × Nat)) (hl : ∀ p ∈ l, P p) :
    U * wordL w l = (l.map ε).prod • (wordL w (l.map g) * U) := by
  induction l with
  | nil => simp
  | cons x l ih =>
    have h1 : wordL w (x :: l) = w x.1 x.2 * wordL w l := by simp [wordL]
    have h2 : wordL w ((x :: l).map g) = w (g x).1 (g x).2 * wordL w (l.map g) := by simp [wordL]
    rw [h1, h2, ← mul_assoc, hU x (hl x (by simp)), smul_mul_assoc, mul_assoc, ih fun p hp => hl p (by simp [hp]), List.map_cons, List.prod_cons,
      mul_smul_comm, smul_smul, mul_assoc]

theorem moved_val {P : Char × Nat → Prop} {g : Char × Nat → Char × Nat} {ε : Char × Nat → ℂ} {w : Char → Nat → A} {U : A}
    (hU : ∀ p, P p → U * w p.1 p.2 = ε p • (w (g p).1 (g p).2 * U)) {o m : Op} (ho : ∀ p ∈ letters o, P p) (hm : Moved g ε o m) :
    U * val w o = val w m * U := by
  simp only [val, term, word_eq]
  change U * o.J • wordL w (letters o) = (m.J • wordL w (letters m)) * U
  rw [mul_smul_comm, moved_word hU _ ho, hm.letters, hm.coupling, smul_smul, smul_mul_assoc]

/-! ### Lists -/

/-- What the check has found for one transformation: a transformed and sorted term in the list for every term. -/
def Found {X : Type} (sort : Op → Option Op) (g : Char × Nat → Char × Nat) (ε : Char × Nat → ℂ) (l : List (Op × X)) : Prop :=
  ∀ p ∈ l, ∃ m r, Moved g ε p.1 m ∧ sort m = some r ∧ (r, p.2) ∈ l

theorem exists_image {α β : Type} {R : α → β → Prop} {l : List α} (h : ∀ a ∈ l, ∃ b, R a b) : ∃ r, List.Forall₂ R l r := by
  induction l with
  | nil => exact ⟨[], .nil⟩
  | cons a l ih =>
    obtain ⟨b, hb⟩ := h a (by simp)
    obtain ⟨r, hr⟩ := ih fun x hx => h x (by simp [hx])
    exact ⟨b :: r, .cons hb hr⟩

/-- A list without repetitions that contains all its transformed terms commutes with the transformation. -/
theorem found_commutes {X : Type} {P : Char × Nat → Prop} {g : Char × Nat → Char × Nat} {ε : Char × Nat → ℂ} {w : Char → Nat → A} {U : A}
    {sort : Op → Option Op} {sgn : List (Char × Nat) → ℂ} (hg : Moves P g ε) (hs : Stable sort sgn)
    (hU : ∀ p, P p → U * w p.1 p.2 = ε p • (w (g p).1 (g p).2 * U))
    {l : List (Op × X)} (hn : l.Nodup) (hP : ∀ p ∈ l, ∀ q ∈ letters p.1, P q) (hlen : ∀ p ∈ l, p.1.str.length = p.1.indx.length)
    (hsort : ∀ p ∈ l, (letters p.1).Pairwise fun a b => a.2 ≤ b.2)
    (hval : ∀ p ∈ l, ∀ m r, Moved g ε p.1 m → sort m = some r → val w r = val w m)
    (h : Found sort g ε l) (x : X → ℂ) : U * (l.map fun p => x p.2 • val w p.1).sum = (l.map fun p => x p.2 • val w p.1).sum * U := by
  obtain ⟨r, hr⟩ := exists_image (R := fun (p q : Op × X) => p ∈ l ∧ q ∈ l ∧ p.2 = q.2 ∧ ∃ m, Moved g ε p.1 m ∧ sort m = some q.1) (l := l) (by
    intro p hp
    obtain ⟨m, r, h1, h2, h3⟩ := h p hp
    exact ⟨(r, p.2), hp, h3, rfl, m, h1, h2⟩)
  have hrn : r.Nodup := by
    have := forall₂_nodup (f := fun p : Op × X => p) (g := fun p : Op × X => p) hr ?_ (by simpa using hn)
    · simpa using this
    rintro a - a' - b b' ⟨ha, -, e1, m, h1, h2⟩ ⟨ha', -, e2, m', h1', h2'⟩ rfl
    refine Prod.ext ?_ (e1.trans e2.symm)
    exact (moved_inj hg hs (hP a ha) (hP a' ha') (hlen a ha) (hlen a' ha') (hsort a ha) (hsort a' ha') h1 h1' h2 h2' rfl).2 rfl
  have hsub : ∀ q ∈ r, q ∈ l := by
    intro q hq
    obtain ⟨a, -, h⟩ := forall₂_mem hr hq
    exact h.2.1
  have e1 := subset_sum hrn hr.length_eq hsub fun p : Op × X => x p.2 • val w p.1
  have e2 : (r.map fun p => x p.2 • val w p.1 * U).sum = (l.map fun p => U * (x p.2 • val w p.1)).sum := by
    refine forall₂_sum ?_ hr
    rintro a b ⟨ha, -, e, m, h1, h2⟩
    rw [← e, mul_smul_comm, moved_val hU (hP a ha) h1, smul_mul_assoc, hval a ha m b.1 h1 h2]
  rw [← List.sum_map_mul_left, ← e2, List.sum_map_mul_right, e1]

/-! ### Moving sites -/

section Sites
variable {b N : Nat}

/-- What happens to the level of site `i`. -/
def turn (flip : Fin N → Bool) (i : Fin N) (a : Fin b) : Fin b := if flip i then a.rev else a

theorem turn_turn (flip : Fin N → Bool) (i : Fin N) (a : Fin b) : turn flip i (turn flip i a) = a := by
  unfold turn
  split <;> simp

/-- The configuration after the move. -/
def moveConf (σ : Equiv.Perm (Fin N)) (flip : Fin N → Bool) : Conf b N ≃ Conf b N where
  toFun s := fun j => turn flip (σ.symm j) (s (σ.symm j))
  invFun t := fun i => turn flip i (t (σ i))
  left_inv s := by funext i; simp [turn_turn]
  right_inv t := by funext j; simp [turn_turn]

theorem moveSites_eq (σ : Equiv.Perm (Fin N)) (flip : Fin N → Bool) (t s : Conf b N) :
    moveSites b N σ flip t s = if t = moveConf σ flip s then 1 else 0 := by
  unfold moveSites
  refine if_congr ?_ rfl rfl
  constructor
  · intro h
    funext j
    have := h (σ.symm j)
    rw [Equiv.apply_symm_apply] at this
    rw [this]
    rfl
  · rintro rfl i
    show turn flip (σ.symm (σ i)) (s (σ.symm (σ i))) = _
    rw [Equiv.symm_apply_apply]
    rfl

theorem mul_moveSites (σ : Equiv.Perm (Fin N)) (flip : Fin N → Bool) (M : Matrix (Conf b N) (Conf b N) ℂ) (t s : Conf b N) :
    (M * moveSites b N σ flip) t s = M t (moveConf σ flip s) := by
  rw [Matrix.mul_apply, Finset.sum_eq_single (moveConf σ flip s)]
  · rw [moveSites_eq, if_pos rfl, mul_one]
  · intro c _ hc
    rw [moveSites_eq, if_neg hc, mul_zero]
  · simp

theorem moveSites_mul (σ : Equiv.Perm (Fin N)) (flip : Fin N → Bool) (M : Matrix (Conf b N) (Conf b N) ℂ) (t s : Conf b N) :
    (moveSites b N σ flip * M) (moveConf σ flip t) s = M t s := by
  rw [Matrix.mul_apply, Finset.sum_eq_single t]
  · rw [moveSites_eq, if_pos rfl, one_mul]
  · intro c _ hc
    rw [moveSites_eq, if_neg fun h => hc ((moveConf σ flip).injective h.symm), zero_mul]
  · simp

/-- Nothing is lost: a matrix is determined by what it does after the move. -/
theorem moveSites_cancel (σ : Equiv.Perm (Fin N)) (flip : Fin N → Bool) {M M' : Matrix (Conf b N) (Conf b N) ℂ}
    (h : M * moveSites b N σ flip = M' * moveSites b N σ flip) : M = M' := by
  ext t s
  obtain ⟨s, rfl⟩ := (moveConf (b := b) σ flip).surjective s
  exact (mul_moveSites σ flip M t s).symm.trans ((congrFun (congrFun h t) s).trans (mul_moveSites σ flip M' t s))

theorem moveSites_onSite (σ : Equiv.Perm (Fin N)) (flip : Fin N → Bool) (v v' : Nat → Nat → ℂ) (e : ℂ) (i : Fin N)
    (h : ∀ a c : Fin b, v a c = e * v' (turn flip i a) (turn flip i c)) :
    moveSites b N σ flip * onSite v i = e • (onSite v' (σ i) * moveSites b N σ flip) := by
  ext t s
  obtain ⟨t, rfl⟩ := (moveConf (b := b) σ flip).surjective t
  rw [moveSites_mul, Matrix.smul_apply, mul_moveSites, smul_eq_mul]
  unfold onSite
  have hc : (∀ j, j ≠ σ i → moveConf σ flip t j = moveConf σ flip s j) ↔ ∀ j, j ≠ i → t j = s j := by
    constructor
    · intro h j hj
      have := h (σ j) fun h => hj (σ.injective h)
      have h2 : turn flip (σ.symm (σ j)) (t (σ.symm (σ j))) = turn flip (σ.symm (σ j)) (s (σ.symm (σ j))) := this
      rw [Equiv.symm_apply_apply] at h2
      rw [← turn_turn flip j (t j), h2, turn_turn]
    · intro h j hj
      show turn flip (σ.symm j) (t (σ.symm j)) = turn flip (σ.symm j) (s (σ.symm j))
      rw [h (σ.symm j) fun h => hj (by rw [← h, Equiv.apply_symm_apply])]
  by_cases h1 : ∀ j, j ≠ i → t j = s j
  · rw [if_pos h1, if_pos (hc.2 h1), h]
    have hm : ∀ r : Conf b N, moveConf σ flip r (σ i) = turn flip i (r i) := by
      intro r
      show turn flip (σ.symm (σ i)) (r (σ.symm (σ i))) = _
      rw [Equiv.symm_apply_apply]
    rw [hm, hm]
  · rw [if_neg h1, if_neg fun h => h1 (hc.1 h), mul_zero]

/-- The new letter and the new site. -/
def moveLetter (σ : Equiv.Perm (Fin N)) (flip : Fin N → Bool) (p : Char × Nat) : Char × Nat :=
  if h : p.2 < N then (if flip ⟨p.2, h⟩ then swapChar p.1 else p.1, σ ⟨p.2, h⟩) else p

/-- The sign of a letter. -/
def letterSign (flip : Fin N → Bool) (p : Char × Nat) : ℂ :=
  if h : p.2 < N then (if flip ⟨p.2, h⟩ = true ∧ (p.1 = 'z' ∨ p.1 = 'y') then -1 else 1) else 1

/-- The letters the moves are for. -/
def Movable (flip : Fin N → Bool) (p : Char × Nat) : Prop := p.2 < N ∧ ∀ h : p.2 < N, flip ⟨p.2, h⟩ = true → SpinLetter p.1

theorem swapChar_inj {c d : Char} (hc : SpinLetter c) (hd : SpinLetter d) (h : swapChar c = swapChar d) : c = d := by
  rcases hc with rfl | rfl | rfl | rfl | rfl | rfl <;> rcases hd with rfl | rfl | rfl | rfl | rfl | rfl <;> revert h <;> decide

theorem moves_sites (σ : Equiv.Perm (Fin N)) (flip : Fin N → Bool) : Moves (Movable flip) (moveLetter σ flip) (letterSign flip) where
  inj := by
    rintro ⟨c, i⟩ ⟨d, j⟩ ⟨hi, hc⟩ ⟨hj, hd⟩ h
    simp only [moveLetter] at hi hj hc hd h
    rw [dif_pos hi, dif_pos hj, Prod.ext_iff] at h
    obtain ⟨h1, h2⟩ := h
    have := σ.injective (Fin.ext h2)
    have e : i = j := by simpa using this
    subst e
    simp only at h1
    split at h1
    · rename_i hf
      rw [swapChar_inj (hc hi hf) (hd hi hf) h1]
    · rw [h1]
  site := by
    rintro ⟨c, i⟩ ⟨d, j⟩ ⟨hi, hc⟩ ⟨hj, hd⟩
    simp only at hi hj
    simp only [moveLetter, dif_pos hi, dif_pos hj]
    rw [← Fin.ext_iff, σ.injective.eq_iff, Fin.mk.injEq]
  ne := by
    intro p _
    unfold letterSign
    split
    · split <;> simp
    · simp

theorem swap_spin {u : Char → Nat → Nat → ℂ} (hu : InvertsSpins b u) {c : Char} (hc : SpinLetter c) (a d : Fin b) :
    u c a d = (if c = 'z' ∨ c = 'y' then -1 else 1) * u (swapChar c) a.rev d.rev := by
  have e : ∀ x : Fin b, (x.rev : Nat) = b - 1 - x := fun x => by rw [Fin.val_rev]; omega
  have e' : ∀ x : Fin b, b - 1 - (x.rev : Nat) = x := fun x => by rw [Fin.val_rev]; omega
  obtain ⟨h1, h2, h3, h4, h5⟩ := hu a a.2 d d.2
  obtain ⟨k1, -⟩ := hu a.rev a.rev.2 d.rev d.rev.2
  rw [e', e'] at k1
  rw [← e, ← e] at h1 h2 h3 h4 h5
  rcases hc with rfl | rfl | rfl | rfl | rfl | rfl
  · rw [show swapChar 'I' = 'I' by decide, h5]; simp
  · rw [show swapChar 'x' = 'x' by decide, h4]; simp
  · rw [show swapChar 'y' = 'y' by decide, h3]; simp
  · rw [show swapChar 'z' = 'z' by decide, h2]; simp
  · rw [show swapChar '+' = '-' by decide, k1]; simp
  · rw [show swapChar '-' = '+' by decide, h1]; simp

theorem moveSites_siteOp {u : Char → Nat → Nat → ℂ} (σ : Equiv.Perm (Fin N)) (flip : Fin N → Bool) (hu : (∃ i, flip i = true) → InvertsSpins b u)
    (p : Char × Nat) (hp : Movable flip p) :
    moveSites b N σ flip * siteOp b N u p.1 p.2 =
      letterSign flip p • (siteOp b N u (moveLetter σ flip p).1 (moveLetter σ flip p).2 * moveSites b N σ flip) := by
  obtain ⟨c, i⟩ := p
  obtain ⟨hi, hc⟩ := hp
  simp only at hi hc
  simp only [siteOp, moveLetter, letterSign, dif_pos hi, Fin.is_lt, dite_true]
  by_cases hf : flip ⟨i, hi⟩ = true
  · simp only [hf, if_true, true_and]
    refine moveSites_onSite σ flip (u c) (u (swapChar c)) _ _ fun a d => ?_
    simp only [turn, hf, if_true]
    exact swap_spin (hu ⟨_, hf⟩) (hc hi hf) a d
  · simp only [hf]
    refine moveSites_onSite σ flip (u c) (u c) _ _ fun a d => ?_
    simp [turn, hf]

end Sites

end Proof.CheckSymm
