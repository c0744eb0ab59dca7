import Verif.Proof.ChainVecNorms
/-!
C70: `project_from` (`get_vec`) and `get_proj` of a one-dimensional basis take a vector of a symmetry block to the vector of the full space it
stands for: the combination of the normalised projections of the representatives onto the quantum numbers.  The map keeps inner products, the
dense and the sparse version agree, and the states of the basis, which are moved about in place, are restored.

`yP`, `yZ`, … are any signed maps of configurations that do the geometric operation.  The basis is any list of different configurations with the
numbers stored by the constructor; C63 says that these are the representatives.
-/
namespace Props
open Spec Model.Chain Proof.Chain Proof.Symmetry
open Spec.Chain (Fits HasFlip)
open scoped BigOperators

/-- `project_from`, dense and sparse, gives the expansion in the projected states and restores the basis; the dense result keeps inner products;
each column of `get_proj` is the projected state, in the full space or in the sector `l` listed in decreasing order. -/
structure Projects (w : Option ℕ) (B : Blocks) (c : Spec.Chain) (ops ys : List Generator) (basis : List (ℕ × Int × ℕ)) : Prop where
  dense : ∀ v0 : List ℂ, v0.length = basis.length → IsExpansion c.size ys (basis.map (·.1)) v0 (projectDense w B c basis v0).2
  sparse : ∀ v0 : List ℂ, v0.length = basis.length → IsExpansion c.size ys (basis.map (·.1)) v0 (projectSparse w B c basis v0).2
  restored : ∀ v0 : List ℂ, v0.length = basis.length →
    (projectDense w B c basis v0).1 = basis.map (·.1) ∧ (projectSparse w B c basis v0).1 = basis.map (·.1)
  inner : ∀ u v : List ℂ, u.length = basis.length → v.length = basis.length →
    ∑ j ∈ Finset.range c.size, (starRingEnd ℂ) ((projectDense w B c basis u).2 j) * (projectDense w B c basis v).2 j
      = (List.zipWith (fun x y => (starRingEnd ℂ) x * y) u v).sum
  column : ∀ i (hi : i < basis.length), ∀ t < c.size,
    projColumn w B c none basis i (c.size - 1 - t) = symState (Finset.range c.size) ys basis[i].1 t
  columnIn : ∀ i (hi : i < basis.length), ∀ l, IsSectorOf c.size ops l → (∀ x ∈ basis, x.1 ∈ l) → ∀ j (hj : j < l.length),
    projColumn w B c (some l) basis i (l.length - 1 - j) = symState (Finset.range c.size) ys basis[i].1 l[j]

/-- Different configurations, each accepted by the check of the constructor, which gives `N`. -/
def Stored (c : Spec.Chain) (check : ℕ → Int) (basis : List (ℕ × Int × ℕ)) : Prop :=
  (basis.map (·.1)).Nodup ∧ ∀ x ∈ basis, x.1 < c.size ∧ 0 < check x.1 ∧ x.2.1 = check x.1

/-- Different configurations, each kept by the constructor with the entries `N` and `M`. -/
def StoredWith (c : Spec.Chain) (keep : ℕ → Option (ℕ × ℕ)) (basis : List (ℕ × Int × ℕ)) : Prop :=
  (basis.map (·.1)).Nodup ∧ ∀ x ∈ basis, x.1 < c.size ∧ ∃ Nm, keep x.1 = some Nm ∧ x.2.1 = Nm.1 ∧ x.2.2 = Nm.2

theorem projects_of {w : Option ℕ} {B : Blocks} {c : Spec.Chain} {ops ys : List Generator} (hm : Makes w B c ops ys)
    (hops : ∀ y ∈ ops, ∀ t < c.size, y.img t < c.size) (ha : Acts (· < c.size) ys) (basis : List (ℕ × Int × ℕ)) (hn : (basis.map (·.1)).Nodup)
    (hx : ∀ x ∈ basis, x.1 < c.size ∧ IsRepresentative ys x.1 ∧
      normSq B c.length x.2.1 x.2.2 = ∑ u ∈ Finset.range c.size, ‖projection ys x.1 u‖ ^ 2) : Projects w B c ops ys basis := by
  have hd := dense_result hm hops basis (fun x h => (hx x h).1) hn (fun x h => (hx x h).2.2)
  have hc := column_result hm hops basis (fun x h => (hx x h).1) hn (fun x h => (hx x h).2.2)
  refine ⟨fun v h => (hd v h).1.2, fun v h => (hd v h).2.2, fun v h => ⟨(hd v h).1.1, (hd v h).2.1⟩, ?_, fun i hi => (hc i hi).1, fun i hi => (hc i hi).2⟩
  intro u v hu hv
  refine expansion_inner ha (basis.map (·.1)) hn ?_ u v (by simpa using hu) (by simpa using hv) _ _ (hd u hu).1.2 (hd v hv).1.2
  intro s hs
  rw [List.mem_map] at hs
  obtain ⟨x, h1, rfl⟩ := hs
  exact ⟨(hx x h1).1, (hx x h1).2.1⟩

theorem acts_swap {S : ℕ → Prop} {y z : Generator} (h : Acts S [y, z]) : Acts S [z, y] :=
  ⟨fun x hx => h.per_pos x (by simp at hx ⊢; tauto), fun x hx => h.closed x (by simp at hx ⊢; tauto), fun x hx => h.sign x (by simp at hx ⊢; tauto),
    fun x hx => h.period x (by simp at hx ⊢; tauto), fun x hx x' hx' => h.commute x (by simp at hx ⊢; tauto) x' (by simp at hx' ⊢; tauto)⟩

/-- one operation of order two -/
theorem projects_two {w : Option ℕ} {c : Spec.Chain} (h : Fits w c) {m : List Int} (hm : SiteSymm c m 2) (f : BitOp)
    (hf : ∀ q, c.IsSymmetry m (gen f 2 q)) {y : Generator} (hy : c.IsSymmetry m y) {p : Int} (hp : HasParity y p) (B : Blocks) (hk : B.k = none)
    (hB : ∀ sp, sections sp B (bitopsOf w c.length c) = [⟨[], [], 1⟩, ⟨[f], [f], p⟩]) (hN : ∀ N M, normSq B c.length N M = N)
    (basis : List (ℕ × Int × ℕ)) (hb : Stored c (fun s => checkOne p s (step f (s, 1))) basis) : Projects w B c [y] [y] basis := by
  have ha := order_two_acts h hm hy hp.1
  refine projects_of (makes_two h hm f hf hy hp B hk hB) ha.closed ha basis hb.1 ?_
  intro x hx
  obtain ⟨h1, h2, h3⟩ := hb.2 x hx
  have key := order_two h hm f hf hy hp x.1 h1
  refine ⟨h1, key.1.1 h2, ?_⟩
  rw [hN]
  refine norm_static ha x.1 h1 _ 2 (by norm_num) ?_ ?_
  · rw [Proof.Projector.exponents_length]; simp [hp.1]
  · rw [h3]; exact key.2 h2

/-- two operations of order two -/
theorem projects_pair {w : Option ℕ} {c : Spec.Chain} {B : Blocks} {y z : Generator} (hm : Makes w B c [y, z] [y, z])
    (ha : Acts (· < c.size) [y, z]) (hy : y.per = 2) (hz : z.per = 2) (hN : ∀ N M, normSq B c.length N M = N) (check : ℕ → Int)
    (hc : ∀ s < c.size, (0 < check s ↔ IsRepresentative [y, z] s) ∧ (0 < check s → (check s : ℂ) = 4 * projection [y, z] s s))
    (basis : List (ℕ × Int × ℕ)) (hb : Stored c check basis) : Projects w B c [y, z] [y, z] basis := by
  refine projects_of hm ha.closed ha basis hb.1 ?_
  intro x hx
  obtain ⟨h1, h2, h3⟩ := hb.2 x hx
  refine ⟨h1, (hc x.1 h1).1.1 h2, ?_⟩
  rw [hN]
  refine norm_static ha x.1 h1 _ 4 (by norm_num) ?_ ?_
  · rw [Proof.Projector.exponents_length]; simp [hy, hz]
  · rw [h3]; exact (hc x.1 h1).2 h2

/-- No symmetries: all configurations have norm one. -/
theorem C70_no_symmetry (w : Option ℕ) (c : Spec.Chain) (h : Fits w c) (a : ℕ) (basis : List (ℕ × Int × ℕ)) (hn : (basis.map (·.1)).Nodup)
    (hb : ∀ x ∈ basis, x.1 < c.size) : Projects w { a := a } c [] [] basis := by
  have ha : Acts (· < c.size) [] := ⟨by simp, by simp, by simp, by simp, by simp⟩
  have hpr : ∀ s, projection [] s s = ((1 : ℝ) : ℂ) := by intro s; simp [projection, exponents, word, character, angle]
  refine projects_of (makes_none h a) (by simp) ha basis hn ?_
  intro x hx
  refine ⟨hb x hx, ⟨?_, x.1, by rw [hpr]; norm_num⟩, ?_⟩
  · intro t ht
    induction ht with
    | refl => exact le_refl _
    | tail _ h2 _ => obtain ⟨y, hy, _⟩ := h2; simp at hy
  · rw [norm_real ha x.1 (hb x hx) 1 (hpr _)]
    simp [normSq, exponents]

/-- Parity blocks. -/
theorem C70_parity (w : Option ℕ) (c : Spec.Chain) (h : Fits w c) (yP : Generator) (hP : c.IsSymmetry c.parity yP) (p : Int) (hp : HasParity yP p)
    (a : ℕ) (basis : List (ℕ × Int × ℕ)) (hb : Stored c (checkP (flipLROf w c) p) basis) : Projects w { a := a, p := some p } c [yP] [yP] basis :=
  projects_two h (parity_site c) _ (parity_isSymmetry h 2) hP hp _ rfl (fun sp => by simp [sections, bitopsOf]) (fun N M => by simp [normSq]) basis hb

/-- Inversion blocks. -/
theorem C70_inversion (w : Option ℕ) (c : Spec.Chain) (h : Fits w c) (hF : HasFlip c) (yZ : Generator) (hZ : c.IsSymmetry c.flip yZ) (z : Int)
    (hz : HasParity yZ z) (a : ℕ) (basis : List (ℕ × Int × ℕ)) (hb : Stored c (checkZ (flipAllOf w c) z) basis) :
    Projects w { a := a, z := some z } c [yZ] [yZ] basis :=
  projects_two h (flip_site c hF) _ (flip_isSymmetry h hF 2) hZ hz _ rfl (fun sp => by simp [sections, bitopsOf]) (fun N M => by simp [normSq]) basis hb

/-- Inversion of sublattice A. -/
theorem C70_sublattice_A (w : Option ℕ) (c : Spec.Chain) (h : Fits w c) (hf : c.fermions = false) (yA : Generator)
    (hA : c.IsSymmetry (c.flipOf ((c.length + 1) % 2)) yA) (z : Int) (hz : HasParity yA z) (a : ℕ) (basis : List (ℕ × Int × ℕ))
    (hb : Stored c (checkZ (flipAOf c) z) basis) : Projects w { a := a, zA := some z } c [yA] [yA] basis :=
  projects_two h (sub_site c _ hf) _ (subA_isSymmetry h hf 2) hA hz _ rfl (fun sp => by simp [sections, bitopsOf]) (fun N M => by simp [normSq]) basis hb

/-- Inversion of sublattice B. -/
theorem C70_sublattice_B (w : Option ℕ) (c : Spec.Chain) (h : Fits w c) (hf : c.fermions = false) (yB : Generator)
    (hB : c.IsSymmetry (c.flipOf (c.length % 2)) yB) (z : Int) (hz : HasParity yB z) (a : ℕ) (basis : List (ℕ × Int × ℕ))
    (hb : Stored c (checkZ (flipBOf c) z) basis) : Projects w { a := a, zB := some z } c [yB] [yB] basis :=
  projects_two h (sub_site c _ hf) _ (subB_isSymmetry h hf 2) hB hz _ rfl (fun sp => by simp [sections, bitopsOf]) (fun N M => by simp [normSq]) basis hb

/-- Blocks of the product of reflection and inversion. -/
theorem C70_product (w : Option ℕ) (c : Spec.Chain) (h : Fits w c) (hF : HasFlip c) (yP yZ : Generator) (hP : c.IsSymmetry c.parity yP)
    (hZ : c.IsSymmetry c.flip yZ) (hpP : yP.per = 2) (hpZ : yZ.per = 2) (q p : Int) (hp : HasParity (both yZ yP q) p) (a : ℕ)
    (basis : List (ℕ × Int × ℕ)) (hb : Stored c (checkPZ (flipLROf w c) (flipAllOf w c) p) basis) :
    Projects w { a := a, pz := some p } c [yP, yZ] [both yZ yP q] basis := by
  have ha : Acts (· < c.size) [yP, yZ] := pair_acts h (hpP ▸ parity_site c) (hpZ ▸ flip_site c hF) hP hZ (parity_flip c)
  have hb' := both_acts ha hpZ hpP q
  refine projects_of (makes_product h hF hP hZ hpP hpZ hp a) ha.closed hb' basis hb.1 ?_
  intro x hx
  obtain ⟨h1, h2, h3⟩ := hb.2 x hx
  have key := product_block (w := w) h hF hP hZ hpP hpZ hp x.1 h1
  refine ⟨h1, key.1.1 h2, ?_⟩
  rw [show normSq { a := a, pz := some p } c.length x.2.1 x.2.2 = x.2.1 by simp [normSq]]
  refine norm_static hb' x.1 h1 _ 2 (by norm_num) ?_ ?_
  · rw [Proof.Projector.exponents_length]; simp [both]
  · rw [h3]; exact key.2 h2

/-- Blocks of reflection and inversion; the constructor adds the block of their product. -/
theorem C70_parity_inversion (w : Option ℕ) (c : Spec.Chain) (h : Fits w c) (hF : HasFlip c) (yP yZ : Generator) (hP : c.IsSymmetry c.parity yP)
    (hZ : c.IsSymmetry c.flip yZ) (p z : Int) (hp : HasParity yP p) (hz : HasParity yZ z) (a : ℕ) (basis : List (ℕ × Int × ℕ))
    (hb : Stored c (checkP_Z (flipLROf w c) (flipAllOf w c) p z) basis) :
    Projects w { a := a, p := some p, z := some z, pz := some (p * z) } c [yZ, yP] [yZ, yP] basis := by
  have ha : Acts (· < c.size) [yZ, yP] := pair_acts h (hz.1 ▸ flip_site c hF) (hp.1 ▸ parity_site c) hZ hP (parity_flip c).symm
  have hpp := (parity_q hp).2
  have hzz := (parity_q hz).2
  refine projects_pair (makes_pair h (flip_site c hF) (parity_site c) (parity_flip c).symm _ _ (flip_isSymmetry h hF 2) (parity_isSymmetry h 2) hZ hP hz hp _
    rfl (fun sp => ⟨if sp then [flipAllOf w c, flipLROf w c] else [flipLROf w c, flipAllOf w c], [flipLROf w c, flipAllOf w c], p * z⟩)
    (fun _ => mul_comm _ _) (fun sp => by simp [sections, bitopsOf]) ?_ ?_) ha hz.1 hp.1 (fun N M => by simp [normSq]) _
    (fun s hs => two_block h (flip_site c hF) (parity_site c) (parity_flip c).symm _ _ (flip_isSymmetry h hF 2) (parity_isSymmetry h 2) hZ hP hz hp s hs _ rfl)
    basis hb
  · intro sp S _ hA
    exact undone_two (acts_swap hA) (pm_mul hpp hzz) sp
  · intro sp s hs
    have hA : Acts (· < c.size) [gen (flipLROf w c) 2 0, gen (flipAllOf w c) 2 0] :=
      pair_acts h (parity_site c) (flip_site c hF) (parity_isSymmetry h 2 0) (flip_isSymmetry h hF 2 0) (parity_flip c)
    cases sp
    · rfl
    · exact step_comm hA (s, 1) hs

/-- Blocks of both sublattice inversions; the constructor adds the block of their product. -/
theorem C70_sublattices (w : Option ℕ) (c : Spec.Chain) (h : Fits w c) (hf : c.fermions = false) (yA yB : Generator)
    (hA : c.IsSymmetry (c.flipOf ((c.length + 1) % 2)) yA) (hB : c.IsSymmetry (c.flipOf (c.length % 2)) yB) (zA zB : Int) (hzA : HasParity yA zA)
    (hzB : HasParity yB zB) (a : ℕ) (basis : List (ℕ × Int × ℕ))
    (hb : Stored c (checkZA_ZB (flipAOf c) (flipBOf c) (flipAllOf w c) zA zB) basis) :
    Projects w { a := a, zA := some zA, zB := some zB, z := some (zA * zB) } c [yA, yB] [yA, yB] basis := by
  have ha : Acts (· < c.size) [yA, yB] := pair_acts h (by rw [hzA.1]; exact sub_site c _ hf) (by rw [hzB.1]; exact sub_site c _ hf) hA hB (sub_sub c _ _ hf)
  have hF : HasFlip c := by cases c <;> trivial
  refine projects_pair (makes_pair h (sub_site c _ hf) (sub_site c _ hf) (sub_sub c _ _ hf) _ _ (subA_isSymmetry h hf 2) (subB_isSymmetry h hf 2) hA hB hzA hzB _
    rfl (fun _ => ⟨[flipAllOf w c], [flipAllOf w c], zA * zB⟩) (fun _ => rfl) (fun sp => by simp [sections, bitopsOf]) ?_ ?_)
    ha hzA.1 hzB.1 (fun N M => by simp [normSq]) _
    (fun s hs => two_block h (sub_site c _ hf) (sub_site c _ hf) (sub_sub c _ _ hf) _ _ (subA_isSymmetry h hf 2) (subB_isSymmetry h hf 2) hA hB hzA hzB s hs
      _ (sublattices h hf s hs)) basis hb
  · intro sp S hS hAB
    refine undone_one (q := 0) (acts_mono (order_two_acts h (flip_site c hF) (flip_isSymmetry h hF 2 0) rfl) hS ?_)
      (pm_mul (parity_q hzA).2 (parity_q hzB).2)
    intro y hy t ht
    rw [List.mem_singleton] at hy
    subst hy
    have e := congrArg Prod.fst (sublattices (w := w) h hf t (hS t ht))
    show S (step (flipAllOf w c) (t, 1)).1
    rw [e]
    exact hAB.closed (gen (flipAOf c) 2 (parityQ zA)) (by simp) _ (hAB.closed (gen (flipBOf c) 2 (parityQ zB)) (by simp) t ht)
  · intro sp s hs
    exact sublattices h hf s hs

/-- Momentum blocks, `L = T n`. -/
theorem C70_momentum (w : Option ℕ) (c : Spec.Chain) (h : Fits w c) (T n k : ℕ) (hT : 0 < T) (hn : 0 < n) (hL : c.length = T * n) (yT : Generator)
    (hyT : c.IsSymmetry (c.shift T) yT) (hper : yT.per = n) (hq : yT.q = k) (basis : List (ℕ × Int × ℕ))
    (hb : Stored c (checkT (shiftOf w T c) k c.length T) basis) : Projects w { a := T, k := some k } c [yT] [yT] basis := by
  have ha := shift_acts h T n hT hn hL hyT hper
  refine projects_of (makes_momentum h T n k hT hn hL hyT hper hq) ha.closed ha basis hb.1 ?_
  intro x hx
  obtain ⟨h1, h2, h3⟩ := hb.2 x hx
  have key := momentum_block h T n k hT hn hL hyT hper hq x.1 h1
  obtain ⟨r, e, hr, _, _, hpr⟩ := key.2.1 h2
  refine ⟨h1, key.1.1 h2, ?_⟩
  rw [h3, e]
  exact norm_tr ha x.1 h1 T n k r hT hr hL hper hpr _

/-- momentum and inversion, as long as the stored codes are below 128 -/
theorem projects_momentum_inversion (w : Option ℕ) (c : Spec.Chain) (h : Fits w c) (hF : HasFlip c) (T n k : ℕ) (hT : 0 < T) (hn : 0 < n)
    (hL : c.length = T * n) (yT yZ : Generator) (hyT : c.IsSymmetry (c.shift T) yT) (hper : yT.per = n) (hq : yT.q = k)
    (hZ : c.IsSymmetry c.flip yZ) (z : Int) (hz : HasParity yZ z) (basis : List (ℕ × Int × ℕ))
    (hb : StoredWith c (keepT_Z (shiftOf w T c) (flipAllOf w c) z k c.length T) basis) (hM : ∀ x ∈ basis, x.2.2 < 128) :
    Projects w { a := T, k := some k, z := some z } c [yT, yZ] [yT, yZ] basis := by
  have hcom := shift_flip c T (by rw [hL]; exact Nat.le_mul_of_pos_right _ hn)
  have ha : Acts (· < c.size) [yT, yZ] := pair_acts h (hper ▸ shift_site c T n hT hn hL) (hz.1 ▸ flip_site c hF) hyT hZ hcom
  refine projects_of (makes_momentum_two h (flip_site c hF) T n k hT hn hL hcom _ (flip_isSymmetry h hF 2) hyT hper hq hZ hz _ rfl rfl rfl rfl
    (fun sp => by simp [sections, bitopsOf])) ha.closed ha basis hb.1 ?_
  intro x hx
  obtain ⟨h1, Nm, h2, h3, h4⟩ := hb.2 x hx
  have key := momentum_two_block h (flip_site c hF) T n k hT hn hL hcom _ (flip_isSymmetry h hF 2) hyT hper hq hZ hz x.1 h1
  refine ⟨h1, key.1.1 (by rw [h2]; rfl), ?_⟩
  rw [h3, h4]
  exact norm_tr_z ha x.1 h1 T n k z hT hL hper hz.1 Nm (h4 ▸ hM x hx) (key.2.1 Nm h2).2.2.2

/-- momentum and inversion of a sublattice, as long as the stored codes are at most 128 -/
theorem projects_momentum_sublattice (w : Option ℕ) (c : Spec.Chain) (h : Fits w c) (hf : c.fermions = false) (T n k : ℕ) (hT : 0 < T)
    (heven : T % 2 = 0) (hn : 0 < n) (hL : c.length = T * n) (yT yA yB : Generator) (hyT : c.IsSymmetry (c.shift T) yT) (hper : yT.per = n)
    (hq : yT.q = k) (hA : c.IsSymmetry (c.flipOf ((c.length + 1) % 2)) yA) (hB : c.IsSymmetry (c.flipOf (c.length % 2)) yB) (zA zB : Int)
    (hzA : HasParity yA zA) (hzB : HasParity yB zB) (basis : List (ℕ × Int × ℕ)) (hM : ∀ x ∈ basis, x.2.2 ≤ 128) :
    (StoredWith c (keepT_ZA (shiftOf w T c) (flipAOf c) zA k c.length T) basis →
      Projects w { a := T, k := some k, zA := some zA } c [yT, yA] [yT, yA] basis) ∧
    (StoredWith c (keepT_ZA (shiftOf w T c) (flipBOf c) zB k c.length T) basis →
      Projects w { a := T, k := some k, zB := some zB } c [yT, yB] [yT, yB] basis) := by
  constructor
  · intro hb
    have hcom := shift_sub c T n ((c.length + 1) % 2) hf heven hn hL
    have ha : Acts (· < c.size) [yT, yA] := pair_acts h (hper ▸ shift_site c T n hT hn hL) (by rw [hzA.1]; exact sub_site c _ hf) hyT hA hcom
    refine projects_of (makes_momentum_two h (sub_site c _ hf) T n k hT hn hL hcom _ (subA_isSymmetry h hf 2) hyT hper hq hA hzA _ rfl rfl rfl rfl
      (fun sp => by simp [sections, bitopsOf])) ha.closed ha basis hb.1 ?_
    intro x hx
    obtain ⟨h1, Nm, h2, h3, h4⟩ := hb.2 x hx
    have key := momentum_sub_block h T n k hT hn hL hcom hf _ _ (subA_isSymmetry h hf 2) hyT hper hq hA hzA x.1 h1
    refine ⟨h1, key.1.1 (by rw [h2]; rfl), ?_⟩
    rw [h3, h4]
    exact (norm_tr_sub ha x.1 h1 T n k zA hT hL hper hzA.1 Nm (h4 ▸ hM x hx) (key.2 Nm h2).2.2.2).1
  · intro hb
    have hcom := shift_sub c T n (c.length % 2) hf heven hn hL
    have ha : Acts (· < c.size) [yT, yB] := pair_acts h (hper ▸ shift_site c T n hT hn hL) (by rw [hzB.1]; exact sub_site c _ hf) hyT hB hcom
    refine projects_of (makes_momentum_two h (sub_site c _ hf) T n k hT hn hL hcom _ (subB_isSymmetry h hf 2) hyT hper hq hB hzB _ rfl rfl rfl rfl
      (fun sp => by simp [sections, bitopsOf])) ha.closed ha basis hb.1 ?_
    intro x hx
    obtain ⟨h1, Nm, h2, h3, h4⟩ := hb.2 x hx
    have key := momentum_sub_block h T n k hT hn hL hcom hf _ _ (subB_isSymmetry h hf 2) hyT hper hq hB hzB x.1 h1
    refine ⟨h1, key.1.1 (by rw [h2]; rfl), ?_⟩
    rw [h3, h4]
    exact (norm_tr_sub ha x.1 h1 T n k zB hT hL hper hzB.1 Nm (h4 ▸ hM x hx) (key.2 Nm h2).2.2.2).2

/-- Momentum and inversion, in chains of up to 63 sites.  Missing: longer chains, where it fails (`C70_fails_int8`). -/
theorem C70_momentum_inversion_partial (w : Option ℕ) (c : Spec.Chain) (h : Fits w c) (hF : HasFlip c) (T n k : ℕ) (hT : 0 < T) (hn : 0 < n)
    (hL : c.length = T * n) (h63 : c.length ≤ 63) (yT yZ : Generator) (hyT : c.IsSymmetry (c.shift T) yT) (hper : yT.per = n) (hq : yT.q = k)
    (hZ : c.IsSymmetry c.flip yZ) (z : Int) (hz : HasParity yZ z) (basis : List (ℕ × Int × ℕ))
    (hb : StoredWith c (keepT_Z (shiftOf w T c) (flipAllOf w c) z k c.length T) basis) :
    Projects w { a := T, k := some k, z := some z } c [yT, yZ] [yT, yZ] basis := by
  refine projects_momentum_inversion w c h hF T n k hT hn hL yT yZ hyT hper hq hZ z hz basis hb ?_
  intro x hx
  obtain ⟨h1, Nm, h2, _, h4⟩ := hb.2 x hx
  have hTL : T ≤ c.length := by rw [hL]; exact Nat.le_mul_of_pos_right _ hn
  have ha : Acts (· < c.size) [gen (shiftOf w T c) n k, gen (flipAllOf w c) 2 0] :=
    pair_acts h (shift_site c T n hT hn hL) (flip_site c hF) (shift_isSymmetry h T hT hTL n k) (flip_isSymmetry h hF 2 0) (shift_flip c T hTL)
  have := code_small (S := (· < c.size)) (ha.closed (gen (shiftOf w T c) n k) (by simp)) (ha.sign (gen (shiftOf w T c) n k) (by simp))
    (ha.closed (gen (flipAllOf w c) 2 0) (by simp)) (ha.sign (gen (flipAllOf w c) 2 0) (by simp)) h1 h2
  omega

/-- Momentum and inversion of sublattice A or B, in chains of up to 128 unit cells.  Missing: longer chains. -/
theorem C70_momentum_sublattice_partial (w : Option ℕ) (c : Spec.Chain) (h : Fits w c) (hf : c.fermions = false) (T n k : ℕ) (hT : 0 < T)
    (heven : T % 2 = 0) (hn : 0 < n) (hL : c.length = T * n) (h128 : n ≤ 128) (yT yA yB : Generator) (hyT : c.IsSymmetry (c.shift T) yT)
    (hper : yT.per = n) (hq : yT.q = k) (hA : c.IsSymmetry (c.flipOf ((c.length + 1) % 2)) yA) (hB : c.IsSymmetry (c.flipOf (c.length % 2)) yB)
    (zA zB : Int) (hzA : HasParity yA zA) (hzB : HasParity yB zB) (basis : List (ℕ × Int × ℕ)) :
    (StoredWith c (keepT_ZA (shiftOf w T c) (flipAOf c) zA k c.length T) basis →
      Projects w { a := T, k := some k, zA := some zA } c [yT, yA] [yT, yA] basis) ∧
    (StoredWith c (keepT_ZA (shiftOf w T c) (flipBOf c) zB k c.length T) basis →
      Projects w { a := T, k := some k, zB := some zB } c [yT, yB] [yT, yB] basis) := by
  have hdiv : c.length / T = n := by rw [hL, Nat.mul_div_cancel_left _ hT]
  have hM : ∀ {Z : BitOp} {z : Int}, StoredWith c (keepT_ZA (shiftOf w T c) Z z k c.length T) basis → ∀ x ∈ basis, x.2.2 ≤ 128 := by
    intro Z z hb x hx
    obtain ⟨_, Nm, h2, _, h4⟩ := hb.2 x hx
    have := sub_code_small h2
    omega
  exact ⟨fun hb => (projects_momentum_sublattice w c h hf T n k hT heven hn hL yT yA yB hyT hper hq hA hB zA zB hzA hzB basis (hM hb)).1 hb,
    fun hb => (projects_momentum_sublattice w c h hf T n k hT heven hn hL yT yA yB hyT hper hq hA hB zA zB hzA hzB basis (hM hb)).2 hb⟩

/-! ### the hypotheses are met -/

/-- two spins with reflection: the three symmetric states, and the antisymmetric one -/
example : Stored (.twoLevel 2) (checkP (flipLROf none (.twoLevel 2)) 1) [(3, 4, 0), (2, 2, 0), (0, 4, 0)] ∧
    Stored (.twoLevel 2) (checkP (flipLROf none (.twoLevel 2)) (-1)) [(2, 2, 0)] := by
  unfold Stored; decide +kernel

/-- three spins with momentum one: the states with one and with two particles -/
example : Stored (.twoLevel 3) (checkT (shiftOf none 1 (.twoLevel 3)) 1 3 1) [(6, 3, 0), (4, 3, 0)] := by
  unfold Stored; decide +kernel

/-- four spins with momentum zero and `z = 1`: the state `1000`, whose translates do not meet those of `0111` … -/
example : StoredWith (.twoLevel 4) (keepT_Z (shiftOf none 1 (.twoLevel 4)) (flipAllOf none (.twoLevel 4)) 1 0 4 1) [(14, 4, 0)] := by
  refine ⟨by decide, ?_⟩
  intro x hx
  rw [List.mem_singleton] at hx
  subst hx
  refine ⟨by decide, (4, 0), ?_, rfl, rfl⟩
  have e : checkT_Z (shiftOf none 1 (.twoLevel 4)) (flipAllOf none (.twoLevel 4)) 0 4 1 14 = (4, -1, 1) := by decide +kernel
  unfold keepT_Z
  rw [e]
  simp

/-! ### defects -/

/-- Giving `pblock` and `pzblock` together: the states are those of the parity block alone, but the vectors are made with both operations.
With two spins and `p = pz = 1` the state `11` is given amplitude 1 and the state `00` amplitude 1/2: the vector is not normalised. -/
theorem C70_fails_combination :
    Stored (.twoLevel 2) (checkP (flipLROf none (.twoLevel 2)) 1) [(3, 4, 0)] ∧
    (projectDense none { p := some 1, pz := some 1 } (.twoLevel 2) [(3, 4, 0)] [1]).2 0 = 1 ∧
    (projectDense none { p := some 1, pz := some 1 } (.twoLevel 2) [(3, 4, 0)] [1]).2 3 = 1 / 2 := by
  have e1 : flipLROf none (.twoLevel 2) 3 = (3, 1) := by decide +kernel
  have e2 : flipAllOf none (.twoLevel 2) 3 = (0, 1) := by decide +kernel
  have e3 : flipLROf none (.twoLevel 2) 0 = (0, 1) := by decide +kernel
  have e4 : flipAllOf none (.twoLevel 2) 0 = (3, 1) := by decide +kernel
  have hn : Real.sqrt 4 = 2 := by
    rw [show (4 : ℝ) = 2 ^ 2 by norm_num]
    exact Real.sqrt_sq (by norm_num)
  refine ⟨by unfold Stored; decide +kernel, ?_, ?_⟩
  all_goals
    simp [projectDense, runRounds, runRound, runSection, sections, bitopsOf, columnsOf, rounds, phaseC, normSq, fancyAdd, applyOps, step, e1, e2, e3, e4,
      Spec.Chain.size, Spec.Chain.length, Spec.Chain.base, Spec.Chain.sites, hn, Function.update_apply]
    try norm_num

/-- Chains of 84 and more sites with momentum and inversion: the stored code is read as a signed byte.  For fermions with spin on 84 sites, two
of each spin, `kblock = 1`, `sblock = -1`, the state with neighbouring up fermions and the same with spin down half a chain away is stored with the code 128, and
the squared norm of its projection is not what the vectors are divided by. -/
theorem C70_fails_int8 :
    let c : Spec.Chain := .spinful 84
    let s : ℕ := 2 ^ 167 + 2 ^ 166 + 2 ^ 41 + 2 ^ 40
    keepT_Z (shiftOf none 1 c) (flipAllOf none c) (-1) 1 84 1 s = some (84, 128) ∧
    normSq { a := 1, k := some 1, z := some (-1) } 84 84 128 <
      ∑ u ∈ Finset.range c.size, ‖projection [gen (shiftOf none 1 c) 84 1, gen (flipAllOf none c) 2 1] s u‖ ^ 2 := by
  intro c s
  have hFit : Fits none c := ⟨by norm_num, by simp⟩
  have hF : HasFlip c := trivial
  have hlen : c.length = 84 := rfl
  have hs : s < c.size := by decide +kernel
  have hw : ∀ m : ℕ, wave 1 84 1 * m = Real.pi * m / 42 := by intro m; unfold wave; push_cast; ring
  have e : checkT_Z (shiftOf none 1 c) (flipAllOf none c) 1 84 1 s = (84, 42, 1) := by decide +kernel
  have hw42 : wave 1 84 1 * 42 = Real.pi := by have := hw 42; push_cast at this; rw [this]; ring
  have hk : keepT_Z (shiftOf none 1 c) (flipAllOf none c) (-1) 1 84 1 s = some (84, 128) := by
    unfold keepT_Z
    rw [e]
    simp [hw42]
  refine ⟨hk, ?_⟩
  have hyT := shift_isSymmetry hFit 1 (by norm_num) (by norm_num [hlen]) 84 1
  have hyZ := flip_isSymmetry hFit hF 2 1
  have ha := pair_acts hFit (shift_site c 1 84 (by norm_num) (by norm_num) rfl) (flip_site c hF) hyT hyZ (shift_flip c 1 (by norm_num [hlen]))
  have key := (momentum_two_block hFit (flip_site c hF) 1 84 1 (by norm_num) (by norm_num) rfl (shift_flip c 1 (by norm_num [hlen])) _ (flip_isSymmetry hFit hF 2) hyT rfl rfl hyZ
    (p := -1) ⟨rfl, Or.inr ⟨rfl, rfl⟩⟩ s hs).2.1 (84, 128) hk
  rw [norm_real ha s hs _ key.2.2.2, Proof.Projector.exponents_length]
  have h1 : int8 128 = -128 := by decide
  have hlt : Real.cos Real.pi < Real.cos (wave 1 84 1 * 41) := by
    have h41 := hw 41
    push_cast at h41
    rw [h41]
    apply Real.cos_lt_cos_of_nonneg_of_le_pi
    · positivity
    · exact le_refl _
    · have := Real.pi_pos; linarith
  rw [Real.cos_pi] at hlt
  simp only [normSq, weightT_Z, hlen, gen]
  norm_num [h1, hw42]
  linarith

end Props
