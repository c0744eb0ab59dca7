import Verif.Proof.ChainVecBlocks
import Verif.Proof.Reduced
/-! `project_from` and `get_proj` for each kind of block. -/
namespace Proof.Chain
open Spec Model.Chain Proof.Symmetry Proof.Maps
open Spec.Chain (Fits HasFlip)
open scoped BigOperators

variable {S : ℕ → Prop}

theorem acts_mono {S' : ℕ → Prop} {ys : List Generator} (h : Acts S ys) (hS : ∀ t, S' t → S t) (hc : ∀ y ∈ ys, ∀ t, S' t → S' (y.img t)) :
    Acts S' ys :=
  ⟨h.per_pos, hc, fun y hy t ht => h.sign y hy t (hS t ht), fun y hy t ht => h.period y hy t (hS t ht),
    fun y hy z hz t ht => h.commute y hy z hz t (hS t ht)⟩

theorem Agree.mono {S' : ℕ → Prop} {y y' : Generator} (h : Agree S y y') (hS : ∀ t, S' t → S t) : Agree S' y y' :=
  ⟨h.per, h.q, fun t ht => h.img t (hS t ht), fun t ht => h.sgn t (hS t ht)⟩

/-- A block of the basis: on every set of configurations closed under `ops` the loop makes up the projections. -/
def Makes (w : Option ℕ) (B : Blocks) (c : Spec.Chain) (ops ys : List Generator) : Prop :=
  ∀ S : ℕ → Prop, (∀ t, S t → t < c.size) → (∀ y ∈ ops, ∀ t, S t → S (y.img t)) → BlockSum S w B c ys

/-! ### the kinds of blocks -/

theorem makes_none {w : Option ℕ} {c : Spec.Chain} (h : Fits w c) (a : ℕ) : Makes w { a := a } c [] [] := by
  intro S hS _
  refine block_static h hS rfl ?_ ?_
  · intro sp g hg
    simp [sections] at hg
    rw [hg]; exact undone_id
  · intro sp s t _
    simp [sections, part, applyOps, projection, exponents, word, character, angle]

theorem makes_two {w : Option ℕ} {c : Spec.Chain} (h : Fits w c) {m : List Int} (hm : SiteSymm c m 2) (f : BitOp)
    (hf : ∀ q, c.IsSymmetry m (gen f 2 q)) {y : Generator} (hy : c.IsSymmetry m y) {p : Int} (hp : HasParity y p) (B : Blocks)
    (hk : B.k = none) (hB : ∀ sp, sections sp B (bitopsOf w c.length c) = [⟨[], [], 1⟩, ⟨[f], [f], p⟩]) : Makes w B c [y] [y] := by
  intro S hS hc
  obtain ⟨hq, hp'⟩ := parity_q hp
  have hag : Agree (· < c.size) (gen f 2 (parityQ p)) y := isSymmetry_agree hm (hf _) hy hp.1.symm hq.symm
  have hcl : ∀ y' ∈ [gen f 2 (parityQ p)], ∀ t, S t → S (y'.img t) := by
    intro y' hy' t ht
    rw [List.mem_singleton] at hy'
    subst hy'
    rw [hag.img t (hS t ht)]
    exact hc y (by simp) t ht
  have ha : Acts S [gen f 2 (parityQ p)] := acts_mono (order_two_acts h hm (hf _) rfl) hS hcl
  refine BlockSum.congr (ys := [gen f 2 (parityQ p)]) ?_ (.cons (hag.mono hS) .nil) hcl
  refine block_static h hS hk ?_ ?_
  · intro sp g hg
    rw [hB] at hg
    simp only [List.mem_cons, List.not_mem_nil, or_false] at hg
    rcases hg with rfl | rfl
    · exact undone_id
    · exact undone_one ha hp'
  · intro sp s t _
    rw [hB, proj_two f p hp']
    simp [part, applyOps, step]

theorem makes_product {w : Option ℕ} {c : Spec.Chain} (h : Fits w c) (hF : HasFlip c) {yP yZ : Generator} (hP : c.IsSymmetry c.parity yP)
    (hZ : c.IsSymmetry c.flip yZ) (hpP : yP.per = 2) (hpZ : yZ.per = 2) {q p : Int} (hp : HasParity (both yZ yP q) p) (a : ℕ) :
    Makes w { a := a, pz := some p } c [yP, yZ] [both yZ yP q] := by
  intro S hS hc
  obtain ⟨hq, hp'⟩ := parity_q hp
  have aP := isSymmetry_agree (parity_site c) (parity_isSymmetry (w := w) h 2 yP.q) hP hpP.symm rfl
  have aZ := isSymmetry_agree (flip_site c hF) (flip_isSymmetry (w := w) h hF 2 yZ.q) hZ hpZ.symm rfl
  have hPc : ∀ t, S t → S (flipLROf w c t).1 := fun t ht => by
    have := aP.img t (hS t ht)
    rw [show (flipLROf w c t).1 = (gen (flipLROf w c) 2 yP.q).img t from rfl, this]
    exact hc yP (by simp) t ht
  have hZc : ∀ t, S t → S (flipAllOf w c t).1 := fun t ht => by
    have := aZ.img t (hS t ht)
    rw [show (flipAllOf w c t).1 = (gen (flipAllOf w c) 2 yZ.q).img t from rfl, this]
    exact hc yZ (by simp) t ht
  have ha : Acts S [gen (flipLROf w c) 2 yP.q, gen (flipAllOf w c) 2 yZ.q] := by
    refine acts_mono (pair_acts h (y := gen (flipLROf w c) 2 yP.q) (y' := gen (flipAllOf w c) 2 yZ.q) (parity_site c) (flip_site c hF)
      (parity_isSymmetry h 2 yP.q) (flip_isSymmetry h hF 2 yZ.q) (parity_flip c)) hS ?_
    intro y hy t ht
    simp only [List.mem_cons, List.not_mem_nil, or_false] at hy
    rcases hy with rfl | rfl
    · exact hPc t ht
    · exact hZc t ht
  have hag : Agree S (gen (fun s => step (flipAllOf w c) (step (flipLROf w c) (s, 1))) 2 (parityQ p)) (both yZ yP q) := by
    refine ⟨rfl, hq.symm, fun t ht => ?_, fun t ht => ?_⟩
    · have h1 := aP.img t (hS t ht)
      have h2 := aZ.img _ (hS _ (hPc t ht))
      show (flipAllOf w c ((flipLROf w c t).1)).1 = yZ.img (yP.img t)
      rw [← h1]; exact h2
    · have h1 := aP.img t (hS t ht)
      have h1' := aP.sgn t (hS t ht)
      have h2 := aZ.sgn _ (hS _ (hPc t ht))
      show 1 * (flipLROf w c t).2 * (flipAllOf w c ((flipLROf w c t).1)).2 = yP.sgn t * yZ.sgn (yP.img t)
      rw [one_mul, ← h1, ← h1']
      show _ = (flipLROf w c t).2 * yZ.sgn (flipLROf w c t).1
      rw [← h2]; rfl
  refine BlockSum.congr (ys := [gen (fun s => step (flipAllOf w c) (step (flipLROf w c) (s, 1))) 2 (parityQ p)]) ?_ (.cons hag .nil) ?_
  · refine block_static h hS rfl ?_ ?_
    · intro sp g hg
      simp only [sections, bitopsOf, List.append_nil, List.mem_append, List.mem_cons, List.not_mem_nil, or_false] at hg
      rcases hg with rfl | rfl
      · exact undone_id
      · exact undone_two ha hp' sp
    · intro sp s t hs
      rw [proj_two _ p hp']
      have key : applyOps (if sp = true then [flipAllOf w c, flipLROf w c] else [flipLROf w c, flipAllOf w c]) (s, 1)
          = step (flipAllOf w c) (step (flipLROf w c) (s, 1)) := by
        cases sp
        · rfl
        · exact step_comm ha (s, 1) hs
      simp only [sections, bitopsOf, List.append_nil, List.singleton_append, List.map_cons, List.map_nil, List.sum_cons, List.sum_nil, add_zero, part, key]
      simp [applyOps]
  · intro y hy t ht
    rw [List.mem_singleton] at hy
    subst hy
    exact hZc _ (hPc t ht)

/-- two operations of order two, and their product in the third section -/
theorem makes_pair {w : Option ℕ} {c : Spec.Chain} (h : Fits w c) {m m' : List Int} (hm : SiteSymm c m 2) (hm' : SiteSymm c m' 2)
    (hc : SitesCommute c.sites m m') (f g : BitOp) (hf : ∀ q, c.IsSymmetry m (gen f 2 q)) (hg : ∀ q, c.IsSymmetry m' (gen g 2 q))
    {y z : Generator} (hy : c.IsSymmetry m y) (hz : c.IsSymmetry m' z) {p q : Int} (hp : HasParity y p) (hq : HasParity z q) (B : Blocks)
    (hk : B.k = none) (third : Bool → Section) (hq3 : ∀ sp, (third sp).q = p * q)
    (hB : ∀ sp, List.Perm (sections sp B (bitopsOf w c.length c)) [⟨[], [], 1⟩, ⟨[f], [f], p⟩, ⟨[g], [g], q⟩, third sp])
    (hu : ∀ sp S, (∀ t, S t → t < c.size) → Acts S [gen f 2 (parityQ p), gen g 2 (parityQ q)] → Undone S (third sp))
    (h3 : ∀ sp s, s < c.size → applyOps (third sp).apply (s, 1) = step f (step g (s, 1))) : Makes w B c [y, z] [y, z] := by
  intro S hS hcl0
  obtain ⟨hp1, hp2⟩ := parity_q hp
  obtain ⟨hq1, hq2⟩ := parity_q hq
  have hag1 : Agree (· < c.size) (gen f 2 (parityQ p)) y := isSymmetry_agree hm (hf _) hy hp.1.symm hp1.symm
  have hag2 : Agree (· < c.size) (gen g 2 (parityQ q)) z := isSymmetry_agree hm' (hg _) hz hq.1.symm hq1.symm
  have hcl : ∀ y' ∈ [gen f 2 (parityQ p), gen g 2 (parityQ q)], ∀ t, S t → S (y'.img t) := by
    intro y' hy' t ht
    simp only [List.mem_cons, List.not_mem_nil, or_false] at hy'
    rcases hy' with rfl | rfl
    · rw [hag1.img t (hS t ht)]; exact hcl0 y (by simp) t ht
    · rw [hag2.img t (hS t ht)]; exact hcl0 z (by simp) t ht
  have ha : Acts S [gen f 2 (parityQ p), gen g 2 (parityQ q)] := acts_mono (pair_acts h hm hm' (hf _) (hg _) hc) hS hcl
  refine BlockSum.congr (ys := [gen f 2 (parityQ p), gen g 2 (parityQ q)]) ?_ (.cons (hag1.mono hS) (.cons (hag2.mono hS) .nil)) hcl
  refine block_static h hS hk ?_ ?_
  · intro sp s hs
    rw [(hB sp).mem_iff] at hs
    simp only [List.mem_cons, List.not_mem_nil, or_false] at hs
    rcases hs with rfl | rfl | rfl | rfl
    · exact undone_id
    · exact undone_one (acts_left ha) hp2
    · exact undone_one (acts_right ha) hq2
    · exact hu sp S hS ha
  · intro sp s t hs
    rw [((hB sp).map _).sum_eq, proj_pair f g p q hp2 hq2]
    simp only [List.map_cons, List.map_nil, List.sum_cons, List.sum_nil, add_zero, part, h3 sp s (hS s hs), hq3]
    simp [applyOps, step, add_assoc]

theorem makes_momentum {w : Option ℕ} {c : Spec.Chain} (h : Fits w c) (T n k : ℕ) (hT : 0 < T) (hn : 0 < n) (hL : c.length = T * n)
    {y : Generator} (hy : c.IsSymmetry (c.shift T) y) (hp : y.per = n) (hq : y.q = k) : Makes w { a := T, k := some k } c [y] [y] := by
  intro S hS hc
  have hTL : T ≤ c.length := by rw [hL]; exact Nat.le_mul_of_pos_right _ hn
  have hf := shift_isSymmetry h T hT hTL n k
  have hag : Agree (· < c.size) (gen (shiftOf w T c) n k) y := isSymmetry_agree (shift_site c T n hT hn hL) hf hy hp.symm hq.symm
  have hcl : ∀ t, S t → S (shiftOf w T c t).1 := fun t ht => by
    rw [show (shiftOf w T c t).1 = (gen (shiftOf w T c) n k).img t from rfl, hag.img t (hS t ht)]
    exact hc y (by simp) t ht
  refine BlockSum.congr (ys := [gen (shiftOf w T c) n k]) ?_ (.cons (hag.mono hS) .nil) (by
    intro y' hy' t ht
    rw [List.mem_singleton] at hy'
    subst hy'
    exact hcl t ht)
  refine block_momentum h hS k T n hT hn hL rfl rfl rfl rfl hcl ?_ ?_
  · intro sp g hg
    simp [sections] at hg
    rw [hg]; exact undone_id
  · intro sp s t _
    rw [proj_tr]
    refine Finset.sum_congr rfl fun r _ => ?_
    simp [sections, part, applyOps]

theorem makes_momentum_two {w : Option ℕ} {c : Spec.Chain} (h : Fits w c) {m : List Int} (hm : SiteSymm c m 2) (T n k : ℕ) (hT : 0 < T)
    (hn : 0 < n) (hL : c.length = T * n) (hc : SitesCommute c.sites (c.shift T) m) (g : BitOp) (hg : ∀ q, c.IsSymmetry m (gen g 2 q))
    {y z : Generator} (hy : c.IsSymmetry (c.shift T) y) (hyp : y.per = n) (hyq : y.q = k) (hz : c.IsSymmetry m z) {p : Int} (hp : HasParity z p)
    (B : Blocks) (hk : B.k = some k) (haT : B.a = T) (hBp : B.p = none) (hBpz : B.pz = none)
    (hB : ∀ sp, sections sp B (bitopsOf w T c) = [⟨[], [], 1⟩, ⟨[g], [g], p⟩]) : Makes w B c [y, z] [y, z] := by
  intro S hS hcl0
  have hTL : T ≤ c.length := by rw [hL]; exact Nat.le_mul_of_pos_right _ hn
  obtain ⟨hq, hp'⟩ := parity_q hp
  have hf := shift_isSymmetry h T hT hTL n k
  have hag1 : Agree (· < c.size) (gen (shiftOf w T c) n k) y := isSymmetry_agree (shift_site c T n hT hn hL) hf hy hyp.symm hyq.symm
  have hag2 : Agree (· < c.size) (gen g 2 (parityQ p)) z := isSymmetry_agree hm (hg _) hz hp.1.symm hq.symm
  have hcl : ∀ y' ∈ [gen (shiftOf w T c) n k, gen g 2 (parityQ p)], ∀ t, S t → S (y'.img t) := by
    intro y' hy' t ht
    simp only [List.mem_cons, List.not_mem_nil, or_false] at hy'
    rcases hy' with rfl | rfl
    · rw [hag1.img t (hS t ht)]; exact hcl0 y (by simp) t ht
    · rw [hag2.img t (hS t ht)]; exact hcl0 z (by simp) t ht
  have ha : Acts S [gen (shiftOf w T c) n k, gen g 2 (parityQ p)] :=
    acts_mono (pair_acts h (shift_site c T n hT hn hL) hm hf (hg _) hc) hS hcl
  refine BlockSum.congr (ys := [gen (shiftOf w T c) n k, gen g 2 (parityQ p)]) ?_ (.cons (hag1.mono hS) (.cons (hag2.mono hS) .nil)) hcl
  refine block_momentum h hS k T n hT hn hL hk haT hBp hBpz (fun t ht => hcl (gen (shiftOf w T c) n k) (by simp) t ht) ?_ ?_
  · intro sp s hs
    rw [hB] at hs
    simp only [List.mem_cons, List.not_mem_nil, or_false] at hs
    rcases hs with rfl | rfl
    · exact undone_id
    · exact undone_one (acts_right ha) hp'
  · intro sp s t hs
    rw [proj_tr_two _ _ n k p hp' ha s t hs]
    refine Finset.sum_congr rfl fun r _ => ?_
    rw [hB]
    congr 1
    simp [part, applyOps, step]

/-! ### norms -/

theorem norm_real {c : Spec.Chain} {ys : List Generator} (h : Acts (· < c.size) ys) (s : ℕ) (hs : s < c.size) (x : ℝ) (hx : projection ys s s = x) :
    ∑ u ∈ Finset.range c.size, ‖projection ys s u‖ ^ 2 = (exponents ys).length * x := by
  have h' : Acts (· ∈ Finset.range c.size) ys := by simpa [Finset.mem_range] using h
  have := inner_projection h' s s (Finset.mem_range.2 hs) (Finset.mem_range.2 hs)
  rw [hx] at this
  have e : ∀ u, (starRingEnd ℂ) (projection ys s u) * projection ys s u = ((‖projection ys s u‖ ^ 2 : ℝ) : ℂ) := by
    intro u
    rw [Complex.conj_mul', Complex.ofReal_pow]
  rw [Finset.sum_congr rfl fun u _ => e u, ← Complex.ofReal_sum] at this
  exact_mod_cast this

/-! ### the results of the methods -/

theorem sum_unit (l : List ℕ) (f : ℕ → ℂ) (i : ℕ) (hi : i < l.length) :
    (List.zipWith (fun s a => a * f s) l ((List.range l.length).map fun j => if j = i then (1 : ℂ) else 0)).sum = f l[i] := by
  have e : List.zipWith (fun s a => a * f s) l ((List.range l.length).map fun j => if j = i then (1 : ℂ) else 0)
      = (List.range l.length).map fun j => if j = i then f (l.getD j 0) else 0 := by
    apply List.ext_getElem
    · simp
    · intro j h1 h2
      simp at h1 h2
      simp [h1]
  rw [e, ← List.sum_toFinset _ List.nodup_range, List.toFinset_range, Finset.sum_ite_eq' , if_pos (Finset.mem_range.2 hi)]
  simp [hi]

theorem row_inj (N : ℕ) : ∀ t u, t < N → u < N → N - 1 - t = N - 1 - u → t = u := by intro t u h1 h2 h3; omega

theorem sorted_rank {l : List ℕ} (h : l.Pairwise (· < ·)) (j : ℕ) (hj : j < l.length) : (l.filter fun y => y < l[j]).length = j := by
  induction l generalizing j with
  | nil => simp at hj
  | cons a l ih =>
    rw [List.pairwise_cons] at h
    cases j with
    | zero =>
      rw [List.getElem_cons_zero, List.length_eq_zero_iff, List.filter_eq_nil_iff]
      intro y hy
      rw [List.mem_cons] at hy
      rcases hy with rfl | hy
      · simp
      · have := h.1 y hy; simp; omega
    | succ j =>
      have hj' : j < l.length := by simpa using hj
      have := h.1 l[j] (List.getElem_mem hj')
      rw [List.getElem_cons_succ, List.filter_cons, if_pos (by simpa using this), List.length_cons, ih h.2 j hj']

theorem dense_result {w : Option ℕ} {B : Blocks} {c : Spec.Chain} {ops ys : List Generator} (hm : Makes w B c ops ys)
    (hops : ∀ y ∈ ops, ∀ t < c.size, y.img t < c.size) (basis : List (ℕ × Int × ℕ)) (hS : ∀ x ∈ basis, x.1 < c.size)
    (hn : (basis.map (·.1)).Nodup)
    (hnorm : ∀ x ∈ basis, normSq B c.length x.2.1 x.2.2 = ∑ u ∈ Finset.range c.size, ‖projection ys x.1 u‖ ^ 2)
    (v0 : List ℂ) (hl : v0.length = basis.length) :
    ((projectDense w B c basis v0).1 = basis.map (·.1) ∧ IsExpansion c.size ys (basis.map (·.1)) v0 (projectDense w B c basis v0).2) ∧
    ((projectSparse w B c basis v0).1 = basis.map (·.1) ∧ IsExpansion c.size ys (basis.map (·.1)) v0 (projectSparse w B c basis v0).2) := by
  have hd := hm (· < c.size) (fun _ h => h) hops
  exact ⟨run_expand hd dense_adds (row := fun x => c.size - 1 - x) (row_inj c.size) false basis v0 hl hS hn hnorm,
    run_expand hd sparse_adds (row := fun x => c.size - 1 - x) (row_inj c.size) true basis v0 hl hS hn hnorm⟩

theorem column_result {w : Option ℕ} {B : Blocks} {c : Spec.Chain} {ops ys : List Generator} (hm : Makes w B c ops ys)
    (hops : ∀ y ∈ ops, ∀ t < c.size, y.img t < c.size) (basis : List (ℕ × Int × ℕ)) (hS : ∀ x ∈ basis, x.1 < c.size)
    (hn : (basis.map (·.1)).Nodup)
    (hnorm : ∀ x ∈ basis, normSq B c.length x.2.1 x.2.2 = ∑ u ∈ Finset.range c.size, ‖projection ys x.1 u‖ ^ 2)
    (i : ℕ) (hi : i < basis.length) :
    (∀ t < c.size, projColumn w B c none basis i (c.size - 1 - t) = symState (Finset.range c.size) ys basis[i].1 t) ∧
    ∀ l, IsSectorOf c.size ops l → (∀ x ∈ basis, x.1 ∈ l) → ∀ j (hj : j < l.length),
      projColumn w B c (some l) basis i (l.length - 1 - j) = symState (Finset.range c.size) ys basis[i].1 l[j] := by
  have hu := sum_unit (basis.map (·.1)) (i := i)
  simp only [List.length_map, List.getElem_map] at hu
  constructor
  · intro t ht
    have hd := hm (· < c.size) (fun _ h => h) hops
    have := (run_expand hd sparse_adds (row := fun x => c.size - 1 - x) (row_inj c.size) false basis
      ((List.range basis.length).map fun j => if j = i then 1 else 0) (by simp) hS hn hnorm).2 t ht
    rw [hu _ hi] at this
    exact this
  · intro l hl hb j hj
    have hd := hm (· ∈ l) hl.below hl.closed
    have hrank : ∀ t ∈ l, ∃ m, ∃ h : m < l.length, l[m] = t ∧ (l.filter fun y => y < t).length = m := by
      intro t ht
      obtain ⟨m, h1, h2⟩ := List.mem_iff_getElem.1 ht
      exact ⟨m, h1, h2, by rw [← h2]; exact sorted_rank hl.increasing m h1⟩
    have := (run_expand hd sparse_adds (row := fun x => l.length - (l.filter fun y => y < x).length - 1) (by
        intro t u ht hu e
        obtain ⟨m, h1, h2, h3⟩ := hrank t ht
        obtain ⟨m', h1', h2', h3'⟩ := hrank u hu
        rw [h3, h3'] at e
        have : m = m' := by omega
        subst this
        exact h2.symm.trans h2') false basis
      ((List.range basis.length).map fun j => if j = i then 1 else 0) (by simp) hb hn hnorm).2 l[j] (List.getElem_mem hj)
    rw [hu _ hi, sorted_rank hl.increasing j hj] at this
    have e : l.length - 1 - j = l.length - j - 1 := by omega
    rw [e]
    exact this

end Proof.Chain
