import Verif.Proof.SemiBasis
import Verif.Proof.ChainBlocks
/-! Translation and reflection of the chains; the product of reflection and inversion. -/
namespace Proof.Semi
open Spec Spec.Semi Model.Chain Proof.Chain Proof.Symmetry Proof.Maps
open Spec.Chain (Fits HasFlip)
open scoped BigOperators Matrix

/-- reflection reverses translation -/
theorem reflect_sites (L T i : ℕ) (hT : T ≤ L) (hi : i < L) :
    dest (translation L T) (dest (reflection L) (dest (translation L T) i)) = dest (reflection L) i := by
  have hm : (i + T) % L < L := Nat.mod_lt _ (by omega)
  rw [dest_translation L T i hi, dest_reflection L _ hm, dest_reflection L i hi, dest_translation L T _ (by omega)]
  by_cases h : i + T < L
  · rw [Nat.mod_eq_of_lt h, Nat.mod_eq_of_lt (by omega)]; omega
  · have e : (i + T) % L = i + T - L := by
      rw [Nat.mod_eq_sub_mod (by omega), Nat.mod_eq_of_lt (by omega)]
    rw [e, show L - 1 - (i + T - L) + T = (L - 1 - i) + L by omega, Nat.add_mod_right, Nat.mod_eq_of_lt (by omega)]

theorem reflect_chain (c : Spec.Chain) (T : ℕ) (hT : T ≤ c.length) (i : ℕ) (hi : i < c.sites) :
    dest (c.shift T) (dest c.parity (dest (c.shift T) i)) = dest c.parity i := by
  cases c with
  | spinful L =>
    have hT' : T ≤ L := hT
    have hi' : i < 2 * L := hi
    have s1 := siteMap_translation L T hT'
    have s2 := siteMap_reflection L
    have e1 := fun j hj => (dest_bothSpins L _ s1 (inverts_translation L T) j hj).1
    have e2 := fun j hj => (dest_bothSpins L _ s2 (inverts_reflection L) j hj).1
    have r1 := s1.range
    have r2 := s2.range
    show dest (bothSpins L (translation L T)) (dest (bothSpins L (reflection L)) (dest (bothSpins L (translation L T)) i)) = dest (bothSpins L (reflection L)) i
    by_cases h : i < L
    · have a1 := r1 i h
      have a2 := r2 _ a1
      rw [e1 i hi', if_pos h, e2 _ (by omega), if_pos a1, e1 _ (by omega), if_pos a2, e2 i hi', if_pos h]
      exact reflect_sites L T i hT' h
    · have hj : i - L < L := by omega
      have a1 := r1 _ hj
      have a2 := r2 _ a1
      rw [e1 i hi', if_neg h, e2 _ (by omega), if_neg (by omega), Nat.add_sub_cancel, e1 _ (by omega), if_neg (by omega), Nat.add_sub_cancel,
        e2 i hi', if_neg h, reflect_sites L T _ hT' hj]
  | twoLevel L => exact reflect_sites L T i hT hi
  | levels b L => exact reflect_sites L T i hT hi
  | spinless L => exact reflect_sites L T i hT hi

theorem shift_inverts (c : Spec.Chain) (T : ℕ) (hT : T ≤ c.length) (i : ℕ) (hi : i < c.sites) : inverts (c.shift T) i = false := by
  cases c with
  | spinful L => exact (dest_bothSpins L _ (siteMap_translation L T hT) (inverts_translation L T) i hi).2
  | twoLevel L => exact inverts_translation L T i hi
  | levels b L => exact inverts_translation L T i hi
  | spinless L => exact inverts_translation L T i hi

theorem parity_inverts (c : Spec.Chain) (i : ℕ) (hi : i < c.sites) : inverts c.parity i = false := by
  cases c with
  | spinful L => exact (dest_bothSpins L _ (siteMap_reflection L) (inverts_reflection L) i hi).2
  | twoLevel L => exact inverts_reflection L i hi
  | levels b L => exact inverts_reflection L i hi
  | spinless L => exact inverts_reflection L i hi

variable {w : Option ℕ} {c : Spec.Chain}

theorem dihedral_chain (h : Fits w c) (T n : ℕ) (hT : 0 < T) (hn : 0 < n) (hL : c.length = T * n) :
    Dihedral (· < c.size) (shiftOf w T c) (flipLROf w c) n := by
  have hTL : T ≤ c.length := by rw [hL]; exact Nat.le_mul_of_pos_right _ hn
  have sT := shift_isSymmetry h T hT hTL n 0
  have sP := parity_isSymmetry h 2 0
  have aT := Proof.Chain.acts_of_maps (fits_base h) [(c.shift T, gen (shiftOf w T c) n 0)]
    (by rintro x hx; rw [List.mem_singleton] at hx; subst hx; exact ⟨shift_site c T n hT hn hL, sT⟩)
    (by rintro x hx x' hx'; rw [List.mem_singleton] at hx hx'; subst hx; subst hx'; exact SitesCommute.refl _ _)
  have aP := Proof.Chain.acts_of_maps (fits_base h) [(c.parity, gen (flipLROf w c) 2 0)]
    (by rintro x hx; rw [List.mem_singleton] at hx; subst hx; exact ⟨parity_site c, sP⟩)
    (by rintro x hx x' hx'; rw [List.mem_singleton] at hx hx'; subst hx; subst hx'; exact SitesCommute.refl _ _)
  refine ⟨Cyclic.of_acts (k := 0) aT (by simp), fun s hs => aP.closed (gen (flipLROf w c) 2 0) (by simp) s hs,
    fun s hs => aP.sign (gen (flipLROf w c) 2 0) (by simp) s hs, fun s hs => aP.period (gen (flipLROf w c) 2 0) (by simp) s hs, ?_⟩
  intro s hs
  have fT := (shift_site c T n hT hn hL).site
  have fP := (parity_site c).site
  have hF : c.fermions = true → c.base = 2 := fun e => fermions_base e
  have hb := fits_base h
  have x1 := sends_isSymmetry sT fT.pure s hs
  have x2 := sends_isSymmetry sP fP.pure _ x1.lt
  have x12 := Sends.comp hb hF fT fP x1 x2
  have x3 := sends_isSymmetry sT fT.pure _ x12.lt
  have x123 := Sends.comp hb hF (fT.comp fP) fT x12 x3
  have y1 := sends_isSymmetry sP fP.pure s hs
  have key := Sends.unique ((fT.comp fP).comp fT) (fun i hi => reflect_chain c T hTL i hi) (fun i hi => by
    rw [shift_inverts c T hTL i hi, parity_inverts c _ (fT.range i hi), parity_inverts c i hi,
      shift_inverts c T hTL _ (fP.range _ (fT.range i hi))]
    rfl) x123 y1
  simp only [gen] at key
  unfold step
  simp only [one_mul]
  exact key

/-- an inversion that commutes with both -/
theorem dihedral_comp {S : ℕ → Prop} {Tr P Z : BitOp} {n : ℕ} (h : Dihedral S Tr P n) (hc : ∀ s, S s → S (Z s).1)
    (hs : ∀ s, S s → (Z s).2 = 1 ∨ (Z s).2 = -1) (hsq : ∀ s, S s → step Z (step Z (s, 1)) = (s, 1))
    (hT : ∀ s, S s → step Tr (step Z (s, 1)) = step Z (step Tr (s, 1)))
    (hP : ∀ s, S s → step P (step Z (s, 1)) = step Z (step P (s, 1))) : Dihedral S Tr (andThen P Z) n := by
  have sc : ∀ (f g : BitOp) (t : ℕ) (a : Int), step f (step g (t, a)) = ((step f (step g (t, 1))).1, a * (step f (step g (t, 1))).2) := by
    intro f g t a; unfold step; simp [mul_assoc]
  have cT : ∀ x : ℕ × Int, S x.1 → step Tr (step Z x) = step Z (step Tr x) := by
    rintro ⟨t, a⟩ hx; rw [sc, hT t hx, ← sc]
  have cP : ∀ x : ℕ × Int, S x.1 → step P (step Z x) = step Z (step P x) := by
    rintro ⟨t, a⟩ hx; rw [sc, hP t hx, ← sc]
  have cS : ∀ x : ℕ × Int, S x.1 → step Z (step Z x) = x := by
    rintro ⟨t, a⟩ hx; rw [sc, hsq t hx]; simp
  have pS : ∀ x : ℕ × Int, S x.1 → step P (step P x) = x := by
    rintro ⟨t, a⟩ hx; rw [sc, h.square t hx]; simp
  have hA : ∀ x : ℕ × Int, step (andThen P Z) x = step Z (step P x) := by
    rintro ⟨t, a⟩; unfold andThen step; simp [mul_assoc]
  have rT : ∀ x : ℕ × Int, S x.1 → step Tr (step P (step Tr x)) = step P x := by
    rintro ⟨t, a⟩ hx
    have := h.reflect t hx
    unfold step at this ⊢
    simp only [Prod.mk.injEq, one_mul] at this ⊢
    exact ⟨this.1, by rw [mul_assoc, mul_assoc, ← mul_assoc (Tr t).2, this.2]⟩
  refine ⟨h.cyc, ?_, ?_, ?_, ?_⟩
  · intro s hs'; exact hc _ (h.closed s hs')
  · intro s hs'
    show (P s).2 * (Z (P s).1).2 = 1 ∨ (P s).2 * (Z (P s).1).2 = -1
    rcases h.sign s hs' with e | e <;> rcases hs _ (h.closed s hs') with e' | e' <;> rw [e, e'] <;> simp
  · intro s hs'
    rw [hA, hA, cP (step P (s, 1)) (h.closed s hs'), pS _ (by exact hs'), hsq s hs']
  · intro s hs'
    rw [hA, hA, cT _ (by exact h.closed _ (h.cyc.closed s hs')), rT _ (by exact hs')]

/-- the test of the code is the one for the composite -/
theorem keep_product {Tr P Z : BitOp} {p : Int} {k L T s : ℕ} (hP : step P (step Z (s, 1)) = step Z (step P (s, 1))) :
    keepT_P (checkT_PZ Tr P Z k L T) p k L T s = keepT_P (checkT_Z Tr (andThen P Z) k L T) p k L T s := by
  have e : step (andThen P Z) (s, 1) = step Z (step P (s, 1)) := by unfold andThen step; simp
  unfold keepT_P checkT_PZ checkT_Z checkPZ checkZ
  rw [e, hP]
  by_cases hc : checkOne 1 s (step Z (step P (s, 1))) < 0 ∧ checkOne (-1) s (step Z (step P (s, 1))) < 0
  · rw [if_pos hc, if_pos hc]
  · rw [if_neg hc, if_neg hc]
    cases translates Tr (momentumFits k L T) s (L / T) 1 (s, 1) with
    | reject => rfl
    | found r x => rfl
    | exhausted =>
      cases transformed Tr s L 0 (step Z (step P (s, 1))) with
      | reject => rfl
      | found m sg => simp
      | exhausted => rfl

theorem matrixOf_agree {N : ℕ} {y y' : Generator} (h : Agree (· < N) y y') : matrixOf N y = matrixOf N y' := by
  ext t s
  unfold matrixOf
  rw [h.img s s.2, h.sgn s s.2]

theorem matrixOf_isSymmetry {map : List Int} {per : ℕ} (hs : SiteSymm c map per) {y : Generator} (hy : c.IsSymmetry map y)
    {F : BitOp} (hF : ∀ per q, c.IsSymmetry map (gen F per q)) : matrixOf c.size y = opMat c.size F ∧ ∀ s < c.size, y.img s = (F s).1 := by
  have ha := isSymmetry_agree hs hy (hF y.per y.q) rfl rfl
  exact ⟨(matrixOf_agree ha).trans (matrixOf_gen F _ _), fun s hs' => ha.img s hs'⟩

/-- the matrix of the composite -/
theorem opMat_comp {N : ℕ} {P Z : BitOp} (hP : ∀ s, s < N → (P s).1 < N) : opMat N (andThen P Z) = opMat N Z * opMat N P := by
  apply Matrix.ext_of_mulVec_single
  intro u
  have e : (Pi.single u 1 : Fin N → ℂ) = vec N (u, 1) := by
    rw [vec_one]; funext t; unfold basisVec; rw [Pi.single_apply]; simp [Fin.ext_iff]
  rw [e, opMat_vec _ _ (by exact u.2), ← Matrix.mulVec_mulVec, opMat_vec _ _ (by exact u.2), opMat_vec _ (step P (u, 1)) (hP u u.2)]
  unfold andThen step
  simp

theorem state_sign {N n : ℕ} (hn : 0 < n) {Tr Z : BitOp} {k : ℕ} {p : Int} (x : ℕ × (Int × ℕ)) :
    normalized (state (opMat N Tr) (opMat N Z) n (2 * Real.pi * k / n) p x.2.1 x.1) = ent N Tr Z n k p x := by
  unfold ent
  rw [← state_eq hn]
  unfold state sigmaOf
  by_cases h : 0 < x.2.1
  · rw [if_pos (show x.2.1 > 0 from h)]
    simp only [if_pos h, zero_lt_one, if_true]
  · rw [if_neg (show ¬ x.2.1 > 0 from h)]
    simp only [if_neg h]
    rfl

/-- a block of translation and reflection, for the model -/
theorem semi_block {N : ℕ} {Tr Z : BitOp} {n T k : ℕ} {p : Int} (h : Dihedral (· < N) Tr Z n) (hT : 0 < T) (hp : p = 1 ∨ p = -1)
    {keep : ℕ → List (Int × ℕ)} (hkeep : ∀ s < N, keep s = keepT_P (checkT_Z Tr Z k (T * n) T) p k (T * n) T s)
    {next : ℕ → ℕ} {nosymm : ℕ → Bool} {MAX s0 : ℕ} (hinc : (visited next MAX s0).Pairwise (· < ·))
    (hbelow : ∀ s ∈ (visited next MAX s0).filter nosymm, s < N)
    (hclT : ∀ s ∈ (visited next MAX s0).filter nosymm, (Tr s).1 ∈ (visited next MAX s0).filter nosymm)
    (hclZ : ∀ s ∈ (visited next MAX s0).filter nosymm, (Z s).1 ∈ (visited next MAX s0).filter nosymm)
    {basis : List (ℕ × (Int × ℕ))} (hb : basis = blockBasisList next nosymm keep MAX s0) :
    IsBasisOf (InBlock (opMat N Tr) (opMat N Z) (2 * Real.pi * k / n) p) ((visited next MAX s0).filter nosymm)
      (fun i : Fin basis.length => normalized (state (opMat N Tr) (opMat N Z) n (2 * Real.pi * k / n) p basis[i].2.1 basis[i].1)) ∧
    ∀ terms : List (ℕ → Option (ℕ × ℂ)), TermsWithin N terms →
      Commute (restrict N (operatorOf terms)) (opMat N Tr) → Commute (restrict N (operatorOf terms)) (opMat N Z) →
      ∃ M, matrixT_P k (T * n) T (refT_Z Tr Z (T * n) T) (factorT_P p k (T * n) T) basis terms = some M ∧
        IsMatrixIn (fun i : Fin basis.length => normalized (state (opMat N Tr) (opMat N Z) n (2 * Real.pi * k / n) p basis[i].2.1 basis[i].1))
          (restrict N (operatorOf terms)) M := by
  have hl : Listed (keepT_P (checkT_Z Tr Z k (T * n) T) p k (T * n) T) ((visited next MAX s0).filter nosymm) basis := by
    have := listed_block keep next nosymm MAX s0 hinc (fun s hs => by
      rw [hkeep s (hbelow s hs)]; exact (keep_list (k := k) h hT hp (hbelow s hs)).1)
    rw [← hb] at this
    refine ⟨this.sorted, this.nodup, fun s d => (this.mem s d).trans ?_⟩
    constructor
    · rintro ⟨h1, h2⟩; exact ⟨h1, by rw [← hkeep s (hbelow s h1)]; exact h2⟩
    · rintro ⟨h1, h2⟩; exact ⟨h1, by rw [hkeep s (hbelow s h1)]; exact h2⟩
  have e : (fun i : Fin basis.length => normalized (state (opMat N Tr) (opMat N Z) n (2 * Real.pi * k / n) p basis[i].2.1 basis[i].1))
      = fun i : Fin basis.length => ent N Tr Z n k p basis[i] := by
    funext i
    exact state_sign h.cyc.pos basis[i]
  rw [e]
  exact ⟨semi_basis h hT hp hbelow hclT hclZ hl, fun terms h1 h2 h3 => semi_matrix h hT hp hbelow hl terms h1 h2 h3⟩

end Proof.Semi
