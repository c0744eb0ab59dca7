import Verif.Model.UserBasis
import Verif.Props.C13

/-!
C94: user-defined bases.  The user gives functions for the operators, for the symmetries, for the next state of a sector and a criterion for the states.
If these functions do what the documentation asks, the basis consists of the symmetrised states that meet the criterion, and the matrices are the
restrictions of the operators to it.

C95: the order of the symmetries (`block_order`) changes neither the basis nor the matrices, in all bases of the general classes.
-/

namespace Props
open Model Spec Proof.Symmetry Proof.Assembly Model.UserBasis
open scoped BigOperators

/-! ### Operators -/

/-- `el c i t s` is the matrix element of the operator `c` on site `i`.  The user's function implements it: on every state `s` there is at most one
target, the matrix element is multiplied, the state replaced, and the code zero is returned. -/
def Implements (conf : Finset ℕ) (el : Char → ℤ → ℕ → ℕ → ℂ) (f : OpFunc) (c : Char) (i : ℤ) : Prop :=
  ∀ s ∈ conf, ∃ r ∈ conf, ∃ a, (∀ t, el c i t s = if t = r then a else 0) ∧ ∀ m, f (m, s) c i = (0, (m * a, r))

/-- Matrix elements of the product of the operators, the last one acting first. -/
noncomputable def productOf (conf : Finset ℕ) (el : Char → ℤ → ℕ → ℕ → ℂ) : List (Char × ℤ) → ℕ → ℕ → ℂ
  | [], t, s => if t = s then 1 else 0
  | (c, i) :: rest, t, s => ∑ u ∈ conf, el c i t u * productOf conf el rest u s

theorem productOf_append (conf : Finset ℕ) (el : Char → ℤ → ℕ → ℕ → ℂ) (l : List (Char × ℤ)) (c : Char) (i : ℤ) {t s : ℕ} (ht : t ∈ conf) (hs : s ∈ conf) :
    productOf conf el (l ++ [(c, i)]) t s = ∑ u ∈ conf, productOf conf el l t u * el c i u s := by
  induction l generalizing t with
  | nil =>
    simp only [List.nil_append, productOf]
    rw [Finset.sum_eq_single s (fun u _ hu => by rw [if_neg hu, mul_zero]) (fun h => absurd hs h), if_pos rfl, mul_one,
      Finset.sum_eq_single t (fun u _ hu => by rw [if_neg (Ne.symm hu), zero_mul]) (fun h => absurd ht h), if_pos rfl, one_mul]
  | cons a l ih =>
    obtain ⟨d, k⟩ := a
    simp only [List.cons_append, productOf]
    rw [Finset.sum_congr rfl fun u hu => by rw [ih hu, Finset.mul_sum], Finset.sum_comm]
    refine Finset.sum_congr rfl fun v _ => ?_
    rw [Finset.sum_mul]
    exact Finset.sum_congr rfl fun u _ => by ring

/-- An operator string is the product of its operators: `op` returns the only target and its matrix element (zero if there is none). -/
theorem C94_op (conf : Finset ℕ) (el : Char → ℤ → ℕ → ℕ → ℂ) (f : OpFunc) (ops : List (Char × ℤ)) (hf : ∀ o ∈ ops, Implements conf el f o.1 o.2) (J : ℂ) (s : ℕ)
    (hs : s ∈ conf) : ∃ m, ∃ r ∈ conf, op f ops J s = .ok (m, r) ∧ ∀ t ∈ conf, (if t = r then m else 0) = J * productOf conf el ops t s := by
  have key : ∀ (l : List (Char × ℤ)), (∀ o ∈ l, Implements conf el f o.1 o.2) → ∀ (J : ℂ) (r : ℕ), r ∈ conf → ∃ m, ∃ r' ∈ conf, UserBasis.opLoop f s l (J, r) = .ok (m, r') ∧
      ∀ t ∈ conf, (if t = r' then m else 0) = J * productOf conf el l.reverse t r := by
    intro l
    induction l with
    | nil =>
      intro _ J r hr
      refine ⟨J, r, hr, rfl, fun t _ => ?_⟩
      simp only [List.reverse_nil, productOf, mul_ite, mul_one, mul_zero]
    | cons o l ih =>
      intro h J r hr
      obtain ⟨c, i⟩ := o
      obtain ⟨r1, hr1, a, h1, h2⟩ := h (c, i) (by simp) r hr
      have hprod : ∀ t ∈ conf, productOf conf el ((c, i) :: l).reverse t r = productOf conf el l.reverse t r1 * a := by
        intro t ht
        rw [List.reverse_cons, productOf_append conf el _ c i ht hr]
        rw [Finset.sum_eq_single r1 (fun u _ hu => by rw [h1, if_neg hu, mul_zero]) (fun h => absurd hr1 h), h1, if_pos rfl]
      simp only [UserBasis.opLoop, h2 J, ne_eq, not_true_eq_false, if_false]
      by_cases h0 : J * a = 0
      · rw [if_pos h0]
        refine ⟨J * a, s, hs, rfl, fun t ht => ?_⟩
        rw [hprod t ht, h0, ite_self, mul_comm _ a, ← mul_assoc, h0, zero_mul]
      · rw [if_neg h0]
        obtain ⟨m, r', hr', e1, e2⟩ := ih (fun o ho => h o (by simp [ho])) (J * a) r1 hr1
        refine ⟨m, r', hr', e1, fun t ht => ?_⟩
        rw [e2 t ht, hprod t ht]
        ring
  obtain ⟨m, r, hr, e1, e2⟩ := key ops.reverse (fun o ho => hf o (List.mem_reverse.1 ho)) J s hs
  exact ⟨m, r, hr, e1, by simpa only [List.reverse_reverse] using e2⟩

/-! ### The basis -/

/-- The states that meet the criterion. -/
def Allowed (pre : Option (ℕ → Bool)) (s : ℕ) : Prop := ∀ p, pre = some p → p s = true

/-- The kept states among increasing configurations are the symmetrised states that meet the criterion. -/
theorem user_reduced (states : List ℕ) (hinc : states.Pairwise (· < ·)) (pre : Option (ℕ → Bool)) (ys : List Generator) (hlen : ys.length ≤ 32)
    (h : Acts (· ∈ states) ys) : ReducedBasis (fun s => s ∈ states ∧ Allowed pre s) ys (kept (check pre ys) states).reverse := by
  have hcheck : ∀ s n, check pre ys s = some n ↔ Allowed pre s ∧ checkKeep ys s = some n := by
    intro s n
    unfold check Allowed
    cases pre with
    | none => simp
    | some p => simp
  have hmem : ∀ s n, (s, n) ∈ kept (check pre ys) states ↔ s ∈ states ∧ check pre ys s = some n ∧ 0 < n := by
    intro s n
    unfold kept
    rw [List.mem_filterMap]
    constructor
    · rintro ⟨a, ha, he⟩
      obtain ⟨v, hv, he⟩ := Option.bind_eq_some_iff.1 he
      by_cases hp : v > 0
      · rw [if_pos hp, Option.some.injEq, Prod.mk.injEq] at he
        obtain ⟨rfl, rfl⟩ := he
        exact ⟨ha, hv, hp⟩
      · rw [if_neg hp] at he
        cases he
    · rintro ⟨ha, hv, hp⟩
      exact ⟨s, ha, by rw [hv, Option.bind_some, if_pos hp]⟩
  constructor
  · rw [List.map_reverse, List.pairwise_reverse]
    have hsub : ∀ l : List ℕ, ((kept (check pre ys) l).map (·.1)).Sublist l := by
      intro l
      induction l with
      | nil => exact List.Sublist.slnil
      | cons a l ih =>
        unfold kept at ih ⊢
        rw [List.filterMap_cons]
        split
        · exact ih.cons _
        · rename_i b hb
          obtain ⟨v, _, he⟩ := Option.bind_eq_some_iff.1 hb
          have : b.1 = a := by
            by_cases hp : v > 0
            · rw [if_pos hp, Option.some.injEq] at he
              rw [← he]
            · rw [if_neg hp] at he
              cases he
          rw [List.map_cons, this]
          exact ih.cons_cons _
    exact (hinc.sublist (hsub states)).imp (fun h => h)
  · intro s n
    rw [List.mem_reverse, hmem, hcheck]
    constructor
    · rintro ⟨hs, ⟨ha, hn⟩, hp⟩
      obtain ⟨h1, h2⟩ := (C08_kept_iff _ ys h hlen s hs).1 ⟨n, hn, hp⟩
      exact ⟨⟨hs, ha⟩, h1, h2, (C08_norm _ ys h hlen s hs n hn hp).1⟩
    · rintro ⟨⟨hs, ha⟩, h1, h2, h3⟩
      obtain ⟨n', hn', hp'⟩ := (C08_kept_iff _ ys h hlen s hs).2 ⟨h1, h2⟩
      have := (C08_norm _ ys h hlen s hs n' hn' hp').1
      rw [h3] at this
      have e : n = n' := by exact_mod_cast this
      subst e
      exact ⟨hs, ⟨ha, hn'⟩, hp'⟩

/-- All configurations, with a criterion and symmetries, for every number of threads and every order of their writes. -/
theorem C94_basis (w : ℕ) (sort : List (ℕ × ℤ) → List (ℕ × ℤ)) (hs : SortsDescending sort) (pre : Option (ℕ → Bool)) (ys : List Generator) (hlen : ys.length ≤ 32)
    (MAX mem T : ℕ) (hM : MAX ≤ 2 ^ w) (h : Acts (· < MAX) ys) (writes : List (ℕ × (ℕ × ℤ))) (hw : Props.Interleaving w (check pre ys) MAX T writes)
    (l : List (ℕ × ℤ)) (hl : makeBasis w sort (check pre ys) ys.length MAX mem T writes = .ok l) :
    ReducedBasis (fun s => s < MAX ∧ Allowed pre s) ys l := by
  rw [C14_unrestricted w sort hs _ _ MAX mem T hM writes hw l hl]
  have := user_reduced (List.range MAX) List.pairwise_lt_range pre ys hlen (by simpa only [List.mem_range] using h)
  simpa only [List.mem_range] using this

/-- A particle sector: the user's function enumerates the configurations of the sector in increasing order. -/
theorem C94_sector (next : ℕ → ℕ → ℕ) (sort : List (ℕ × ℤ) → List (ℕ × ℤ)) (hs : SortsDescending sort) (pre : Option (ℕ → Bool)) (ys : List Generator)
    (hlen : ys.length ≤ 32) (MAX mem s T : ℕ) (states : List ℕ) (hst : Proof.MakeBasis.visit next MAX s 0 = states) (hinc : states.Pairwise (· < ·))
    (h : Acts (· ∈ states) ys) (writes : List (ℕ × (ℕ × ℤ))) (hw : InterleavingPcon next (check pre ys) MAX s T writes) (l : List (ℕ × ℤ))
    (hl : makeBasisPcon next sort (check pre ys) ys.length MAX mem s T writes = .ok l) :
    ReducedBasis (fun s => s ∈ states ∧ Allowed pre s) ys l := by
  rw [C14_fixed_number next sort hs _ _ MAX mem s T states hst hinc writes hw l hl]
  exact user_reduced states hinc pre ys hlen h

/-! ### Matrices -/

/-- The matrix of a list of strings with couplings is the restriction of the operator to the symmetrised states that meet the criterion; the criterion
has to respect the symmetries, and the operator has to commute with them. -/
theorem C94_matrix (conf : Finset ℕ) (ys : List Generator) (h : Acts (· ∈ conf) ys) (hlen : ys.length ≤ 32) (pre : Option (ℕ → Bool))
    (hpre : ∀ y ∈ ys, ∀ s ∈ conf, Allowed pre s → Allowed pre (y.img s)) (l : List (ℕ × ℤ))
    (hl : ReducedBasis (fun s => s ∈ conf ∧ Allowed pre s) ys l) (lookup : ℕ → Option (ℤ × Best)) (hlook : SymLookup conf ys (l.map (·.1)) lookup)
    (el : Char → ℤ → ℕ → ℕ → ℂ) (f : OpFunc) (strings : List (ℂ × List (Char × ℤ))) (hf : ∀ x ∈ strings, ∀ o ∈ x.2, Implements conf el f o.1 o.2)
    (hinv : InvariantUnder (· ∈ conf) ys fun t s => (strings.map fun x => x.1 * productOf conf el x.2 t s).sum) :
    ∃ M, matrixOfColumns ((strings.map fun x => term f x.2 x.1).map (columnSym ys lookup l)) l.length = some M ∧
      ∀ i j : Fin l.length, M j i = ∑ t ∈ conf, ∑ u ∈ conf, (starRingEnd ℂ) (symState conf ys l[j].1 t) *
        (strings.map fun x => x.1 * productOf conf el x.2 t u).sum * symState conf ys l[i].1 u := by
  have hop : ∀ t ∈ conf, ∀ u ∈ conf, operatorOf (strings.map fun x => term f x.2 x.1) t u = (strings.map fun x => x.1 * productOf conf el x.2 t u).sum := by
    intro t ht u hu
    unfold operatorOf
    rw [List.map_map]
    congr 1
    refine List.map_congr_left fun x hx => ?_
    obtain ⟨m, r, hr, e1, e2⟩ := C94_op conf el f x.2 (hf x hx) x.1 u hu
    rw [← e2 t ht]
    simp only [Function.comp_apply, term, e1]
    simp only [eq_comm]
  obtain ⟨M, hM, hent⟩ := C13_restriction conf ys h hlen (fun s => s ∈ conf ∧ Allowed pre s) (fun s hs => hs.1)
    (fun y hy s hs => ⟨h.closed y hy s hs.1, hpre y hy s hs.1 hs.2⟩) l hl lookup hlook (strings.map fun x => term f x.2 x.1)
    (by
      intro g hg s hs
      obtain ⟨x, hx, rfl⟩ := List.mem_map.1 hg
      obtain ⟨m, r, hr, e1, _⟩ := C94_op conf el f x.2 (hf x hx) x.1 s hs
      exact ⟨r, hr, m, by simp only [term, e1]⟩)
    (by
      intro y hy s t hs ht
      rw [hop t ht s hs, hop _ (h.closed y hy t ht) _ (h.closed y hy s hs)]
      exact hinv y hy s t hs ht)
  refine ⟨M, hM, fun i j => ?_⟩
  rw [hent i j]
  exact Finset.sum_congr rfl fun t ht => Finset.sum_congr rfl fun u hu => by rw [hop t ht u hu]

/-! ### The order of the symmetries -/

/-- By default the symmetries are ordered by their periods, the largest first; none is lost. -/
theorem C94_default_order (blocks : List Block) : ∃ l, blockOrder none blocks = some l ∧ l.Perm blocks ∧ l.Pairwise fun a b => b.2.per ≤ a.2.per := by
  refine ⟨_, rfl, (List.reverse_perm _).trans (List.perm_insertionSort _ _), ?_⟩
  rw [List.pairwise_reverse]
  have : Std.Total fun (a b : Block) => a.2.per ≤ b.2.per := ⟨fun a b => le_total a.2.per b.2.per⟩
  have : IsTrans Block fun a b => a.2.per ≤ b.2.per := ⟨fun a b c h1 h2 => le_trans h1 h2⟩
  exact List.pairwise_insertionSort _ blocks

/-- With names, the blocks come in the order of the names; the names have to be those of the blocks. -/
theorem C94_named_order (names : List String) (blocks : List Block) : (∃ l, blockOrder (some names) blocks = some l ∧ List.Forall₂ (fun n b => b ∈ blocks ∧ b.1 = n) names l) ↔
    ∀ n, n ∈ names ↔ n ∈ blocks.map (·.1) := by
  unfold blockOrder
  constructor
  · rintro ⟨l, hl, _⟩ n
    by_cases h : (blocks.all (fun b => b.1 ∈ names) && names.all (fun n => n ∈ blocks.map (·.1))) = true
    · rw [Bool.and_eq_true, List.all_eq_true, List.all_eq_true] at h
      constructor
      · intro hn
        simpa using h.2 n hn
      · intro hn
        obtain ⟨b, hb, rfl⟩ := List.mem_map.1 hn
        simpa using h.1 b hb
    · simp only [if_neg h] at hl
      cases hl
  · intro h
    have h1 : (blocks.all (fun b => b.1 ∈ names) && names.all (fun n => n ∈ blocks.map (·.1))) = true := by
      rw [Bool.and_eq_true, List.all_eq_true, List.all_eq_true]
      refine ⟨fun b hb => by simpa using (h b.1).2 (List.mem_map.2 ⟨b, hb, rfl⟩), fun n hn => by simpa using (h n).1 hn⟩
    simp only [if_pos h1]
    have hex := Proof.Assembly.mapM_some (fun (n : String) => blocks.find? fun (b : Block) => decide (b.1 = n)) names fun n hn => by
      obtain ⟨b, hb, e⟩ := List.mem_map.1 ((h n).1 hn)
      have hsome : (blocks.find? fun b => decide (b.1 = n)).isSome = true := List.find?_isSome.2 ⟨b, hb, by simpa using e⟩
      exact hsome
    obtain ⟨l, e1, e2⟩ := hex
    exact ⟨l, e1, e2.imp fun n b e => ⟨List.mem_of_find?_eq_some e, by simpa using List.find?_some e⟩⟩

/-- The sum over the group of `conj χ(g) · a(U(g) x)`. -/
noncomputable def groupSum (ys : List Generator) (a : ℕ × ℤ → ℂ) (x : ℕ × ℤ) : ℂ :=
  ((exponents ys).map fun cs => (starRingEnd ℂ) (character ys cs) * a (word ys cs x)).sum

/-- The same for one symmetry. -/
noncomputable def cycleSum (y : Generator) (a : ℕ × ℤ → ℂ) (x : ℕ × ℤ) : ℂ :=
  ((List.range y.per).map fun (c : ℕ) => (starRingEnd ℂ) (Complex.exp (Complex.I * (2 * Real.pi * y.q / y.per * c : ℝ))) * a (y.U^[c] x)).sum

theorem groupSum_cons (y : Generator) (ys : List Generator) (a : ℕ × ℤ → ℂ) (x : ℕ × ℤ) : groupSum (y :: ys) a x = groupSum ys (cycleSum y a) x := by
  unfold groupSum
  rw [exponents, List.map_flatMap, List.flatMap_def, List.sum_flatten, List.map_map]
  congr 1
  refine List.map_congr_left fun cs _ => ?_
  rw [Function.comp_apply, List.map_map, cycleSum, ← List.sum_map_mul_left]
  congr 1
  refine List.map_congr_left fun c _ => ?_
  rw [Function.comp_apply, word]
  unfold character
  rw [angle, ← mul_assoc, ← map_mul, ← Complex.exp_add]
  congr 3
  push_cast
  ring

theorem groupSum_congr {S : ℕ → Prop} {all : List Generator} (h : Acts S all) (ys : List Generator) (hys : ∀ y ∈ ys, y ∈ all) (a b : ℕ × ℤ → ℂ)
    (hab : ∀ x : ℕ × ℤ, S x.1 → a x = b x) (x : ℕ × ℤ) (hx : S x.1) : groupSum ys a x = groupSum ys b x := by
  unfold groupSum
  congr 1
  refine List.map_congr_left fun cs _ => ?_
  rw [hab _ (word_closed h hys cs hx)]

theorem cycleSum_comm {S : ℕ → Prop} {all : List Generator} (h : Acts S all) {y z : Generator} (hy : y ∈ all) (hz : z ∈ all) (a : ℕ × ℤ → ℂ) (x : ℕ × ℤ)
    (hx : S x.1) : cycleSum z (cycleSum y a) x = cycleSum y (cycleSum z a) x := by
  have e : ∀ (u v : Generator), cycleSum u (cycleSum v a) x = ∑ c ∈ Finset.range u.per, ∑ d ∈ Finset.range v.per,
      (starRingEnd ℂ) (Complex.exp (Complex.I * (2 * Real.pi * u.q / u.per * c : ℝ))) *
        ((starRingEnd ℂ) (Complex.exp (Complex.I * (2 * Real.pi * v.q / v.per * d : ℝ))) * a (v.U^[d] (u.U^[c] x))) := by
    intro u v
    have r : ∀ (n : ℕ) (g : ℕ → ℂ), ((List.range n).map g).sum = ∑ c ∈ Finset.range n, g c := by
      intro n g
      induction n with
      | zero => simp
      | succ n ih => rw [List.range_succ, List.map_append, List.sum_append, ih, Finset.sum_range_succ, List.map_singleton, List.sum_singleton]
    unfold cycleSum
    rw [r]
    refine Finset.sum_congr rfl fun c _ => ?_
    rw [r, Finset.mul_sum]
  rw [e z y, e y z, Finset.sum_comm]
  refine Finset.sum_congr rfl fun c _ => Finset.sum_congr rfl fun d _ => ?_
  rw [iter_comm h hz hy d c hx]
  ring

theorem groupSum_perm {S : ℕ → Prop} {all : List Generator} (h : Acts S all) {ys zs : List Generator} (hp : ys.Perm zs) (hys : ∀ y ∈ ys, y ∈ all)
    (a : ℕ × ℤ → ℂ) (x : ℕ × ℤ) (hx : S x.1) : groupSum ys a x = groupSum zs a x := by
  induction hp generalizing a with
  | nil => rfl
  | cons y _ ih => rw [groupSum_cons, groupSum_cons, ih (fun z hz => hys z (by simp [hz]))]
  | swap y z l =>
    rw [groupSum_cons, groupSum_cons, groupSum_cons, groupSum_cons]
    exact groupSum_congr h l (fun u hu => hys u (by simp [hu])) _ _ (fun x hx => cycleSum_comm h (hys z (by simp)) (hys y (by simp)) a x hx) x hx
  | trans p _ ih1 ih2 => rw [ih1 hys, ih2 (fun z hz => hys z (p.symm.subset hz))]

/-- Projections do not depend on the order of the symmetries. -/
theorem projection_perm {S : ℕ → Prop} {ys zs : List Generator} (h : Acts S ys) (hp : ys.Perm zs) (s : ℕ) (hs : S s) (t : ℕ) :
    projection ys s t = projection zs s t := by
  have e : ∀ l, projection l s t = groupSum l (fun x => if x.1 = t then (x.2 : ℂ) else 0) (s, 1) := by
    intro l
    unfold projection groupSum
    congr 1
    refine List.map_congr_left fun cs _ => ?_
    rw [mul_ite, mul_zero]
  rw [e, e]
  exact groupSum_perm h hp (fun y hy => hy) _ _ hs

theorem related_perm {ys zs : List Generator} (hp : ys.Perm zs) {s t : ℕ} (h : Related ys s t) : Related zs s t :=
  Relation.ReflTransGen.mono (r := fun a b => ∃ y ∈ ys, b = y.img a) (fun _ _ ⟨y, hy, e⟩ => ⟨y, hp.subset hy, e⟩) _ _ h

/-- **C95.**  Two orders of the same symmetries give the same basis, with the same norms and the same symmetrised states. -/
theorem C95_order (conf : Finset ℕ) (S : ℕ → Prop) (hS : ∀ s, S s → s ∈ conf) (ys zs : List Generator) (h : Acts (· ∈ conf) ys) (hp : ys.Perm zs)
    (l l' : List (ℕ × ℤ)) (hl : ReducedBasis S ys l) (hl' : ReducedBasis S zs l') :
    l = l' ∧ ∀ s t, S s → symState conf ys s t = symState conf zs s t := by
  have hproj : ∀ s t, S s → projection ys s t = projection zs s t := fun s t hs => projection_perm h hp s (hS s hs) t
  have hmem : ∀ s n, (s, n) ∈ l ↔ (s, n) ∈ l' := by
    intro s n
    rw [hl.mem, hl'.mem]
    constructor
    · rintro ⟨h1, h2, ⟨t, h3⟩, h4⟩
      exact ⟨h1, fun t ht => h2 t (related_perm hp.symm ht), ⟨t, by rwa [← hproj s t h1]⟩, by rwa [← hproj s s h1]⟩
    · rintro ⟨h1, h2, ⟨t, h3⟩, h4⟩
      exact ⟨h1, fun t ht => h2 t (related_perm hp ht), ⟨t, by rwa [hproj s t h1]⟩, by rwa [hproj s s h1]⟩
  constructor
  · have hs : l.Pairwise (fun a b => b.1 < a.1) := List.pairwise_map.1 hl.sorted
    have hs' : l'.Pairwise (fun a b => b.1 < a.1) := List.pairwise_map.1 hl'.sorted
    have nd : ∀ m : List (ℕ × ℤ), m.Pairwise (fun a b => b.1 < a.1) → m.Nodup := fun m hm => hm.imp fun hab e => by rw [e] at hab; omega
    have : l.Perm l' := (List.perm_ext_iff_of_nodup (nd l hs) (nd l' hs')).2 fun x => hmem x.1 x.2
    exact this.eq_of_pairwise (fun a b _ _ h1 h2 => absurd h1 (by omega)) hs hs'
  · intro s t hs
    unfold symState
    rw [hproj s t hs, Finset.sum_congr rfl fun u _ => by rw [hproj s u hs]]

/-! ### Examples -/

/-- Two sites with two states each; the operator `x` flips a site. -/
noncomputable def flipFunc : OpFunc := fun res _ i => (0, (res.1, res.2 ^^^ 2 ^ i.toNat))

/-- The matrix elements of the flips. -/
noncomputable def flipElement (_ : Char) (i : ℤ) (t s : ℕ) : ℂ := if t = s ^^^ 2 ^ i.toNat then 1 else 0

example : ∀ o ∈ [('x', (0 : ℤ)), ('x', 1)], Implements (Finset.range 4) flipElement flipFunc o.1 o.2 := by
  intro o ho s hs
  have hi : o.2.toNat < 2 := by
    simp only [List.mem_cons, List.not_mem_nil, or_false] at ho
    rcases ho with rfl | rfl <;> decide
  refine ⟨s ^^^ 2 ^ o.2.toNat, ?_, 1, fun t => rfl, fun m => by rw [mul_one]; rfl⟩
  rw [Finset.mem_range] at hs ⊢
  exact Nat.xor_lt_two_pow (n := 2) (by omega) (by calc 2 ^ o.2.toNat < 2 ^ 2 := Nat.pow_lt_pow_right (by norm_num) hi)

/-- The exchange of the two sites. -/
def swapSites94 : Generator := generator (fun s => (s % 2 * 2 + s / 2 % 2, 1)) 2 0

/-- The flip of both sites. -/
def flipBoth : Generator := generator (fun s => (3 - s, 1)) 2 1

/-- They meet the hypotheses on symmetries. -/
example : Acts (· ∈ Finset.range 4) [swapSites94, flipBoth] where
  per_pos := by simp [swapSites94, flipBoth, generator]
  closed := by decide
  sign := by
    intro y hy t _
    simp only [List.mem_cons, List.not_mem_nil, or_false] at hy
    rcases hy with rfl | rfl <;> exact Or.inl rfl
  period := by decide
  commute := by decide

/-! ### Defects -/

/-- Without `allowed_ops`, which is documented as optional, the constructor always raises. -/
theorem C94_fails_allowed (pcon : Option (Option ℕ × Sectors)) (makeBasis : Bool) : construct pcon none makeBasis = none := by
  unfold construct
  simp only [Option.bind_none, Option.bind_fun_none]

/-- A list of two or more particle sectors, documented for `Np`, always raises. -/
theorem C94_fails_list (given : Option ℕ) (a b : Sector) (rest : List Sector) (allowed : Option (List Char)) (makeBasis : Bool) :
    construct (some (given, .list (a :: b :: rest))) allowed makeBasis = none := by
  have h : listLoop given (a :: b :: rest) = none := by
    cases given <;> cases a <;> cases b <;> simp [listLoop]
  simp only [construct, sectorNumber, h, Option.bind_none]

/-- With all eight keys a list of sectors always raises, even of one sector. -/
theorem C94_fails_count (k : ℕ) (a : Sector) (rest : List Sector) (allowed : Option (List Char)) (makeBasis : Bool) :
    construct (some (some k, .list (a :: rest))) allowed makeBasis = none := by
  have h : listLoop (some k) (a :: rest) = none := by cases a <;> simp [listLoop]
  simp only [construct, sectorNumber, h, Option.bind_none]

/-- With five keys and `Np=None` the constructor raises, although it prepares the full space. -/
theorem C94_fails_none (allowed : Option (List Char)) (makeBasis : Bool) : construct (some (none, .none)) allowed makeBasis = none := rfl

/-- What works: one sector, or a list of one sector with five keys, or no sectors. -/
theorem C94_construct (ops : List Char) : construct none (some ops) true = some (-1, ops) ∧
    (∀ given, (given = none ∨ given = some 1) → construct (some (given, .single .int)) (some ops) true = some (1, ops)) ∧
    (∀ given k, (given = none ∨ given = some k) → construct (some (given, .single (.tuple k))) (some ops) true = some ((k : ℤ), ops)) ∧
    construct (some (none, .list [.int])) (some ops) true = some (1, ops) := by
  refine ⟨rfl, ?_, ?_, rfl⟩
  · rintro given (rfl | rfl) <;> rfl
  · rintro given k (rfl | rfl)
    · rfl
    · simp [construct, sectorNumber]

end Props
