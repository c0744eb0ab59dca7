import Verif.Proof.ChainKinds
/-! From the loops over bit operations to the blocks of the chains. -/
namespace Proof.Chain
open Spec Model.Chain Proof.Symmetry Proof.Maps
open Spec.Chain (Fits HasFlip)

variable {S : ℕ → Prop}

theorem rep_congr {ys ys' : List Generator} (h : List.Forall₂ (Agree S) ys ys') (ha : Acts S ys) (s : ℕ) (hs : S s) :
    IsRepresentative ys s ↔ IsRepresentative ys' s := by
  unfold IsRepresentative
  constructor
  · rintro ⟨h1, t, h2⟩
    exact ⟨fun t ht => h1 t ((related_congr h ha s t hs).2 ht), t, by rw [← projection_congr h ha.closed s t hs]; exact h2⟩
  · rintro ⟨h1, t, h2⟩
    exact ⟨fun t ht => h1 t ((related_congr h ha s t hs).1 ht), t, by rw [projection_congr h ha.closed s t hs]; exact h2⟩

theorem parity_q {y : Generator} {p : Int} (h : HasParity y p) : y.q = parityQ p ∧ (p = 1 ∨ p = -1) := by
  obtain ⟨_, ⟨rfl, hq⟩ | ⟨rfl, hq⟩⟩ := h
  · exact ⟨hq, Or.inl rfl⟩
  · exact ⟨hq, Or.inr rfl⟩

theorem iter_agree {y : Generator} {f : BitOp} {per : ℕ} {q : Int} (h : Agree S (gen f per q) y) (ha : Acts S [gen f per q])
    (s : ℕ) (hs : S s) (i : ℕ) : y.U^[i] (s, 1) = tr f s i :=
  ((h.iter (ha.closed _ (by simp)) i (s, 1) hs).1).symm

/-! ### one symmetry -/

theorem shift_acts {w : Option ℕ} {c : Spec.Chain} (h : Fits w c) (T n : ℕ) (hT : 0 < T) (hn : 0 < n) (hL : c.length = T * n) {y : Generator}
    (hy : c.IsSymmetry (c.shift T) y) (hp : y.per = n) : Acts (· < c.size) [y] :=
  acts_of_maps (fits_base h) [(c.shift T, y)] (by simp only [List.mem_singleton, forall_eq]; exact ⟨hp ▸ shift_site c T n hT hn hL, hy⟩)
    (by simp only [List.mem_singleton, forall_eq]; exact SitesCommute.refl _ _)

theorem order_two_acts {w : Option ℕ} {c : Spec.Chain} (h : Fits w c) {m : List Int} (hm : SiteSymm c m 2) {y : Generator} (hy : c.IsSymmetry m y)
    (hp : y.per = 2) : Acts (· < c.size) [y] :=
  acts_of_maps (fits_base h) [(m, y)] (by simp only [List.mem_singleton, forall_eq]; exact ⟨hp ▸ hm, hy⟩)
    (by simp only [List.mem_singleton, forall_eq]; exact SitesCommute.refl _ _)

theorem pair_acts {w : Option ℕ} {c : Spec.Chain} (h : Fits w c) {m m' : List Int} {y y' : Generator} (hm : SiteSymm c m y.per)
    (hm' : SiteSymm c m' y'.per) (hy : c.IsSymmetry m y) (hy' : c.IsSymmetry m' y') (hc : SitesCommute c.sites m m') :
    Acts (· < c.size) [y, y'] :=
  acts_of_maps (fits_base h) [(m, y), (m', y')] (by
    intro x hx
    rw [List.mem_cons, List.mem_singleton] at hx
    rcases hx with rfl | rfl
    · exact ⟨hm, hy⟩
    · exact ⟨hm', hy'⟩) (by
    intro x hx x' hx'
    rw [List.mem_cons, List.mem_singleton] at hx hx'
    rcases hx with rfl | rfl <;> rcases hx' with rfl | rfl
    · exact SitesCommute.refl _ _
    · exact hc
    · exact hc.symm
    · exact SitesCommute.refl _ _)

/-- the test of one operation of order two -/
theorem order_two {w : Option ℕ} {c : Spec.Chain} (h : Fits w c) {m : List Int} (hm : SiteSymm c m 2) (f : BitOp)
    (hf : ∀ q, c.IsSymmetry m (gen f 2 q)) {y : Generator} (hy : c.IsSymmetry m y) {p : Int} (hp : HasParity y p) (s : ℕ) (hs : s < c.size) :
    (0 < checkOne p s (step f (s, 1)) ↔ IsRepresentative [y] s) ∧
    (0 < checkOne p s (step f (s, 1)) → (checkOne p s (step f (s, 1)) : ℂ) = 2 * projection [y] s s) := by
  obtain ⟨hq, hp'⟩ := parity_q hp
  have ha : Acts (· < c.size) [gen f 2 (parityQ p)] := order_two_acts h hm (hf _) rfl
  have hag : List.Forall₂ (Agree (· < c.size)) [gen f 2 (parityQ p)] [y] :=
    .cons (isSymmetry_agree hm (hf _) hy hp.1.symm hq.symm) .nil
  obtain ⟨h1, h2⟩ := check_two f p hp' ha s hs
  rw [← rep_congr hag ha s hs, ← projection_congr hag ha.closed s s hs]
  exact ⟨h1, h2⟩

theorem momentum_block {w : Option ℕ} {c : Spec.Chain} (h : Fits w c) (T n k : ℕ) (hT : 0 < T) (hn : 0 < n) (hL : c.length = T * n)
    {y : Generator} (hy : c.IsSymmetry (c.shift T) y) (hp : y.per = n) (hq : y.q = k) (s : ℕ) (hs : s < c.size) :
    (0 < checkT (shiftOf w T c) k c.length T s ↔ IsRepresentative [y] s) ∧
    (0 < checkT (shiftOf w T c) k c.length T s → ∃ r : ℕ, checkT (shiftOf w T c) k c.length T s = r ∧ 0 < r ∧
      (y.U^[r] (s, 1)).1 = s ∧ (∀ j, 0 < j → j < r → (y.U^[j] (s, 1)).1 ≠ s) ∧ projection [y] s s * r = n) ∧
    (0 < checkT (shiftOf w T c) k c.length T s ↔ (∀ j, (y.U^[j] (s, 1)).1 ≤ s) ∧
      ∀ r, (y.U^[r] (s, 1)).1 = s → root n k r = (y.U^[r] (s, 1)).2) := by
  have hTL : T ≤ c.length := by rw [hL]; exact Nat.le_mul_of_pos_right _ hn
  have hf := shift_isSymmetry h T hT hTL n k
  have ha : Acts (· < c.size) [gen (shiftOf w T c) n k] := shift_acts h T n hT hn hL hf rfl
  have hag1 : Agree (· < c.size) (gen (shiftOf w T c) n k) y := isSymmetry_agree (shift_site c T n hT hn hL) hf hy hp.symm hq.symm
  have hag : List.Forall₂ (Agree (· < c.size)) [gen (shiftOf w T c) n k] [y] := .cons hag1 .nil
  have hdiv : c.length / T = n := by rw [hL, Nat.mul_div_cancel_left _ hT]
  have key := check_t T k c.length hT ⟨n, hL⟩ (S := (· < c.size)) (Tr := shiftOf w T c) (by rw [hdiv]; exact ha) s hs
  rw [hdiv] at key
  obtain ⟨h1, h2⟩ := key
  have hit : ∀ i, y.U^[i] (s, 1) = tr (shiftOf w T c) s i := iter_agree hag1 ha s hs
  rw [← rep_congr hag ha s hs, ← projection_congr hag ha.closed s s hs]
  simp only [hit]
  refine ⟨h1, ?_, ?_⟩
  · intro hpos
    obtain ⟨r, hr, e1, e2⟩ := h2 hpos
    exact ⟨r, e1, hr.pos, hr.back, hr.least, e2⟩
  · have hcy : Cyclic (· < c.size) (shiftOf w T c) n := Cyclic.of_acts ha (k := k) (by simp)
    obtain ⟨r, hr, hrn⟩ := exists_least hcy hs
    have hfit := momentumFits_iff n T k r hn hT _ (hcy.sign_iter hs r)
    rw [Nat.mul_comm n T] at hfit
    have hval : checkT (shiftOf w T c) k c.length T s =
        if (∀ j, j < r → (tr (shiftOf w T c) s j).1 ≤ s) ∧ momentumFits k (T * n) T r (tr (shiftOf w T c) s r).2 = true then (r : Int) else -1 := by
      unfold checkT
      rw [hdiv, hL, translates_least hcy hs hr]
      split_ifs <;> rfl
    rw [hval]
    constructor
    · intro hpos
      by_cases hc : (∀ j, j < r → (tr (shiftOf w T c) s j).1 ≤ s) ∧ momentumFits k (T * n) T r (tr (shiftOf w T c) s r).2 = true
      · refine ⟨fun j => by rw [hr.mod]; exact hc.1 _ (Nat.mod_lt _ hr.pos), fun i hi => ?_⟩
        exact conj_real (chi_returns hr k (hfit.1 hc.2) i hi) (hcy.sign_iter hs i)
      · rw [if_neg hc] at hpos; omega
    · rintro ⟨a1, a2⟩
      rw [if_pos]
      · have := hr.pos; omega
      · refine ⟨fun j _ => a1 j, hfit.2 ?_⟩
        rw [a2 r hr.back]
        rcases hcy.sign_iter hs r with e | e <;> rw [e] <;> simp

/-! ### two symmetries -/

/-- product of two commuting symmetries of order two -/
theorem both_acts {y z : Generator} (h : Acts S [z, y]) (hy : y.per = 2) (hz : z.per = 2) (q : Int) : Acts S [both y z q] := by
  have hyS := h.closed y (by simp)
  have hzS := h.closed z (by simp)
  have hcomm : ∀ t, S t → y.U (z.U (t, 1)) = z.U (y.U (t, 1)) := h.commute y (by simp) z (by simp)
  have scale : ∀ (x : Generator) (t : ℕ) (a : Int), x.U (t, a) = ((x.U (t, 1)).1, a * (x.U (t, 1)).2) := by
    intro x t a; simp [Generator.U]
  have hyp : ∀ t, S t → y.U (y.U (t, 1)) = (t, 1) := fun t ht => by have := h.period y (by simp) t ht; rwa [hy] at this
  have hzp : ∀ t, S t → z.U (z.U (t, 1)) = (t, 1) := fun t ht => by have := h.period z (by simp) t ht; rwa [hz] at this
  have hU : ∀ x, (both y z q).U x = y.U (z.U x) := by intro x; simp [Generator.U, both, mul_assoc]
  have hsign := h.sign
  refine ⟨?_, ?_, ?_, ?_, ?_⟩
  · simp [both]
  · intro x hx t ht
    rw [List.mem_singleton] at hx
    subst hx
    exact hyS _ (hzS t ht)
  · intro x hx t ht
    rw [List.mem_singleton] at hx
    subst hx
    exact pm_mul (hsign z (by simp) t ht) (hsign y (by simp) _ (hzS t ht))
  · intro x hx t ht
    rw [List.mem_singleton] at hx
    subst hx
    show (both y z q).U ((both y z q).U (t, 1)) = (t, 1)
    rw [hU, hU]
    -- y z y z = y y z z
    have e1 : z.U (y.U (z.U (t, 1))) = y.U (z.U (z.U (t, 1))) := by
      have c1 := hcomm (z.img t) (hzS t ht)
      have : z.U (t, 1) = (z.img t, (z.U (t, 1)).2) := rfl
      rw [this, scale y, scale z, scale z, scale y]
      have p1 := congrArg Prod.fst c1
      have p2 := congrArg Prod.snd c1
      simp only [Generator.U, one_mul] at p1 p2 ⊢
      refine Prod.ext p1.symm ?_
      simp only
      rw [mul_assoc, mul_assoc, p2]
    rw [e1, hzp t ht, hyp t ht]
  · intro x hx x' hx' t ht
    rw [List.mem_singleton] at hx hx'
    subst hx; subst hx'
    rfl

/-- the test of reflection times inversion -/
theorem product_block {w : Option ℕ} {c : Spec.Chain} (h : Fits w c) (hF : HasFlip c) {yP yZ : Generator}
    (hP : c.IsSymmetry c.parity yP) (hZ : c.IsSymmetry c.flip yZ) (hpP : yP.per = 2) (hpZ : yZ.per = 2) {q p : Int}
    (hp : HasParity (both yZ yP q) p) (s : ℕ) (hs : s < c.size) :
    (0 < checkPZ (flipLROf w c) (flipAllOf w c) p s ↔ IsRepresentative [both yZ yP q] s) ∧
    (0 < checkPZ (flipLROf w c) (flipAllOf w c) p s →
      (checkPZ (flipLROf w c) (flipAllOf w c) p s : ℂ) = 2 * projection [both yZ yP q] s s) := by
  obtain ⟨hq, hp'⟩ := parity_q hp
  have ha : Acts (· < c.size) [yP, yZ] := pair_acts h (hpP ▸ parity_site c) (hpZ ▸ flip_site c hF) hP hZ (parity_flip c)
  have hb := both_acts ha hpZ hpP q
  have aP' := isSymmetry_agree (parity_site c) hP (parity_isSymmetry h yP.per yP.q) rfl rfl
  have aZ' := isSymmetry_agree (flip_site c hF) hZ (flip_isSymmetry h hF yZ.per yZ.q) rfl rfl
  have hag : List.Forall₂ (Agree (· < c.size)) [both yZ yP q] [gen (fun s => step (flipAllOf w c) (step (flipLROf w c) (s, 1))) 2 (parityQ p)] := by
    refine .cons ⟨rfl, hq, fun t ht => ?_, fun t ht => ?_⟩ .nil
    · have h1 := aP'.img t ht
      have h2 := aZ'.img _ (ha.closed yP (by simp) t ht)
      show yZ.img (yP.img t) = (flipAllOf w c ((flipLROf w c t).1)).1
      rw [h2, h1]; rfl
    · have h1 := aP'.img t ht
      have h1' := aP'.sgn t ht
      have h2 := aZ'.sgn _ (ha.closed yP (by simp) t ht)
      show yP.sgn t * yZ.sgn (yP.img t) = 1 * (flipLROf w c t).2 * (flipAllOf w c ((flipLROf w c t).1)).2
      rw [h2, h1, h1', one_mul]; rfl
  obtain ⟨h1, h2⟩ := check_two _ p hp' (acts_congr hag hb) s hs
  rw [rep_congr hag hb s hs, projection_congr hag hb.closed s s hs]
  have e : checkPZ (flipLROf w c) (flipAllOf w c) p s
      = checkOne p s (step (fun s => step (flipAllOf w c) (step (flipLROf w c) (s, 1))) (s, 1)) := by
    unfold checkPZ step; simp
  rw [e]
  exact ⟨h1, h2⟩

/-- two operations of order two -/
theorem two_block {w : Option ℕ} {c : Spec.Chain} (h : Fits w c) {m m' : List Int} (hm : SiteSymm c m 2) (hm' : SiteSymm c m' 2)
    (hc : SitesCommute c.sites m m') (f g : BitOp) (hf : ∀ q, c.IsSymmetry m (gen f 2 q)) (hg : ∀ q, c.IsSymmetry m' (gen g 2 q))
    {y z : Generator} (hy : c.IsSymmetry m y) (hz : c.IsSymmetry m' z) {p q : Int} (hp : HasParity y p) (hq : HasParity z q)
    (s : ℕ) (hs : s < c.size) (x : ℕ × Int) (hx : x = step f (step g (s, 1))) :
    (0 < combine (checkOne p s (step f (s, 1))) (checkOne q s (step g (s, 1))) (checkOne (p * q) s x) ↔ IsRepresentative [y, z] s) ∧
    (0 < combine (checkOne p s (step f (s, 1))) (checkOne q s (step g (s, 1))) (checkOne (p * q) s x) →
      (combine (checkOne p s (step f (s, 1))) (checkOne q s (step g (s, 1))) (checkOne (p * q) s x) : ℂ) = 4 * projection [y, z] s s) := by
  obtain ⟨hp1, hp2⟩ := parity_q hp
  obtain ⟨hq1, hq2⟩ := parity_q hq
  have ha : Acts (· < c.size) [gen f 2 (parityQ p), gen g 2 (parityQ q)] := pair_acts h hm hm' (hf _) (hg _) hc
  have hag : List.Forall₂ (Agree (· < c.size)) [gen f 2 (parityQ p), gen g 2 (parityQ q)] [y, z] :=
    .cons (isSymmetry_agree hm (hf _) hy hp.1.symm hp1.symm) (.cons (isSymmetry_agree hm' (hg _) hz hq.1.symm hq1.symm) .nil)
  obtain ⟨h1, h2⟩ := check_pair f g p q hp2 hq2 ha s hs x hx
  rw [← rep_congr hag ha s hs, ← projection_congr hag ha.closed s s hs]
  exact ⟨h1, h2⟩

/-- inverting both sublattices is inverting all sites -/
theorem sublattices {w : Option ℕ} {c : Spec.Chain} (h : Fits w c) (hf : c.fermions = false) (s : ℕ) (hs : s < c.size) :
    step (flipAllOf w c) (s, 1) = step (flipAOf c) (step (flipBOf c) (s, 1)) := by
  have hF : HasFlip c := by cases c <;> trivial
  have hsl : c.sites = c.length := by cases c <;> first | rfl | cases hf
  have hfl : c.flip = inversion c.length := by cases c <;> first | rfl | cases hf
  have hB := (sub_site c (c.length % 2) hf).symm (y := gen (flipBOf c) 2 0) (subB_isSymmetry h hf 2 0)
  have hA := (sub_site c ((c.length + 1) % 2) hf).symm (y := gen (flipAOf c) 2 0) (subA_isSymmetry h hf 2 0)
  have hZ := (flip_site c hF).symm (y := gen (flipAllOf w c) 2 0) (flip_isSymmetry h hF 2 0)
  have a := hB.sends s hs
  have b := hA.sends _ a.lt
  have e := Sends.comp (fits_base h) (fun h0 => by rw [hf] at h0; cases h0) hB.site hA.site a b
  have := Sends.unique (τ := dest c.flip) (κ := inverts c.flip) (hB.site.comp hA.site) (fun i hi => by
      rw [hsl] at hi
      unfold Chain.flipOf
      rw [dest_inversionOf _ _ i hi, dest_inversionOf _ _ i hi, hfl, dest_inversion _ i hi]) (fun i hi => by
      rw [hsl] at hi
      unfold Chain.flipOf
      rw [dest_inversionOf _ _ i hi, inverts_inversionOf _ _ i hi, inverts_inversionOf _ _ i hi, hfl, inverts_inversion _ i hi]
      rcases Nat.mod_two_eq_zero_or_one i with e1 | e1 <;> rcases Nat.mod_two_eq_zero_or_one c.length with e2 | e2 <;>
        · rw [e1, e2, Nat.add_mod, e2]; rfl) e (hZ.sends s hs)
  unfold step
  simp only [one_mul]
  exact this.symm

/-- translations and an operation of order two -/
theorem momentum_two_block {w : Option ℕ} {c : Spec.Chain} (h : Fits w c) {m : List Int} (hm : SiteSymm c m 2) (T n k : ℕ) (hT : 0 < T)
    (hn : 0 < n) (hL : c.length = T * n) (hc : SitesCommute c.sites (c.shift T) m) (g : BitOp) (hg : ∀ q, c.IsSymmetry m (gen g 2 q))
    {y z : Generator} (hy : c.IsSymmetry (c.shift T) y) (hyp : y.per = n) (hyq : y.q = k) (hz : c.IsSymmetry m z) {p : Int} (hp : HasParity z p)
    (s : ℕ) (hs : s < c.size) :
    ((keepT_Z (shiftOf w T c) g p k c.length T s).isSome ↔ IsRepresentative [y, z] s) ∧
    (∀ Nm, keepT_Z (shiftOf w T c) g p k c.length T s = some Nm → 0 < Nm.1 ∧ (y.U^[Nm.1] (s, 1)).1 = s ∧
      (∀ j, 0 < j → j < Nm.1 → (y.U^[j] (s, 1)).1 ≠ s) ∧ projection [y, z] s s = (weightT_Z p k c.length T Nm * n : ℝ)) ∧
    Acts (· < c.size) [gen (shiftOf w T c) n k, gen g 2 (parityQ p)] := by
  have hTL : T ≤ c.length := by rw [hL]; exact Nat.le_mul_of_pos_right _ hn
  obtain ⟨hq, hp'⟩ := parity_q hp
  have hf := shift_isSymmetry h T hT hTL n k
  have ha : Acts (· < c.size) [gen (shiftOf w T c) n k, gen g 2 (parityQ p)] := pair_acts h (shift_site c T n hT hn hL) hm hf (hg _) hc
  have hag1 : Agree (· < c.size) (gen (shiftOf w T c) n k) y := isSymmetry_agree (shift_site c T n hT hn hL) hf hy hyp.symm hyq.symm
  have hag : List.Forall₂ (Agree (· < c.size)) [gen (shiftOf w T c) n k, gen g 2 (parityQ p)] [y, z] :=
    .cons hag1 (.cons (isSymmetry_agree hm (hg _) hz hp.1.symm hq.symm) .nil)
  obtain ⟨h1, h2⟩ := keep_tz p hp' k T n hT ha s hs
  rw [← hL] at h1 h2
  have hit : ∀ i, y.U^[i] (s, 1) = tr (shiftOf w T c) s i :=
    fun i => ((hag1.iter (ha.closed _ (by simp)) i (s, 1) hs).1).symm
  rw [← rep_congr hag ha s hs, ← projection_congr hag ha.closed s s hs]
  simp only [hit]
  refine ⟨h1, fun Nm hNm => ?_, ha⟩
  obtain ⟨e1, e2⟩ := h2 Nm hNm
  exact ⟨e1.pos, e1.back, e1.least, e2⟩

/-- translations and the inversion of a sublattice -/
theorem momentum_sub_block {w : Option ℕ} {c : Spec.Chain} (h : Fits w c) (T n k : ℕ) (hT : 0 < T) (hn : 0 < n) (hL : c.length = T * n)
    {r : ℕ} (hc : SitesCommute c.sites (c.shift T) (c.flipOf r)) (hf : c.fermions = false) (g : BitOp) (p : Int)
    (hg : ∀ q, c.IsSymmetry (c.flipOf r) (gen g 2 q)) {y z : Generator} (hy : c.IsSymmetry (c.shift T) y) (hyp : y.per = n) (hyq : y.q = k)
    (hz : c.IsSymmetry (c.flipOf r) z) (hp : HasParity z p) (s : ℕ) (hs : s < c.size) :
    ((keepT_ZA (shiftOf w T c) g p k c.length T s).isSome ↔ IsRepresentative [y, z] s) ∧
    (∀ Nm, keepT_ZA (shiftOf w T c) g p k c.length T s = some Nm → 0 < Nm.1 ∧ (y.U^[Nm.1] (s, 1)).1 = s ∧
      (∀ j, 0 < j → j < Nm.1 → (y.U^[j] (s, 1)).1 ≠ s) ∧ projection [y, z] s s = (weightT_ZA p k c.length T Nm * n : ℝ)) := by
  obtain ⟨h1, h2, ha⟩ := momentum_two_block h (sub_site c r hf) T n k hT hn hL hc g hg hy hyp hyq hz hp s hs
  have hTL : T ≤ c.length := by rw [hL]; exact Nat.le_mul_of_pos_right _ hn
  have s1 : ∀ t, t < c.size → (shiftOf w T c t).2 = 1 := fun t ht => by
    have := (shift_isSymmetry h T hT hTL n k).sgn t ht
    rw [hf] at this; exact this
  have s2 : ∀ t, t < c.size → (g t).2 = 1 := fun t ht => by
    have := (hg 0).sgn t ht
    rw [hf] at this; exact this
  have e := keepT_ZA_eq p (parity_q hp).2 k T n hT ha s1 s2 s hs
  rw [← hL] at e
  rw [← h1]
  constructor
  · have := congrArg Option.isSome e
    simpa using congrArg (· = true) this
  · intro Nm hNm
    rw [hNm, Option.map_some] at e
    cases hz : keepT_Z (shiftOf w T c) g p k c.length T s with
    | none => rw [hz] at e; cases e
    | some Nm' =>
      rw [hz, Option.map_some, Option.some.injEq, Prod.mk.injEq] at e
      have := h2 Nm' hz
      rw [← e.1, ← e.2] at this
      exact this

end Proof.Chain
