import Verif.Proof.ChainBlocks
/-!
C63: in every block of a one-dimensional basis given by a reflection, an inversion, the inversion of a sublattice,
their products, or a translation together with an inversion, exactly the representatives of the symmetry sectors
are stored, one for every orbit with a non-vanishing projection, with the norm of the projection.

`yP`, `yZ`, … are any signed maps of configurations that do the geometric operation; `IsRepresentative` and
`projection` are those of `Spec/Symmetry.lean`, with the quantum numbers of the block.
-/
namespace Props
open Spec Model.Chain Proof.Chain
open Spec.Chain (Fits HasFlip)

/-- Parity blocks. -/
theorem C63_parity (w : Option ℕ) (c : Spec.Chain) (h : Fits w c) (yP : Generator) (hP : c.IsSymmetry c.parity yP) (p : Int)
    (hp : HasParity yP p) (s : ℕ) (hs : s < c.size) :
    (0 < checkP (flipLROf w c) p s ↔ IsRepresentative [yP] s) ∧
    (0 < checkP (flipLROf w c) p s → (checkP (flipLROf w c) p s : ℂ) = 2 * projection [yP] s s) :=
  order_two h (parity_site c) _ (parity_isSymmetry h 2) hP hp s hs

/-- Inversion blocks (exchange of the spins for fermions with spin). -/
theorem C63_inversion (w : Option ℕ) (c : Spec.Chain) (h : Fits w c) (hF : HasFlip c) (yZ : Generator) (hZ : c.IsSymmetry c.flip yZ)
    (z : Int) (hz : HasParity yZ z) (s : ℕ) (hs : s < c.size) :
    (0 < checkZ (flipAllOf w c) z s ↔ IsRepresentative [yZ] s) ∧
    (0 < checkZ (flipAllOf w c) z s → (checkZ (flipAllOf w c) z s : ℂ) = 2 * projection [yZ] s s) :=
  order_two h (flip_site c hF) _ (flip_isSymmetry h hF 2) hZ hz s hs

/-- Inversion of one sublattice. -/
theorem C63_sublattice (w : Option ℕ) (c : Spec.Chain) (h : Fits w c) (hf : c.fermions = false) (yA yB : Generator)
    (hA : c.IsSymmetry (c.flipOf ((c.length + 1) % 2)) yA) (hB : c.IsSymmetry (c.flipOf (c.length % 2)) yB)
    (zA zB : Int) (hzA : HasParity yA zA) (hzB : HasParity yB zB) (s : ℕ) (hs : s < c.size) :
    ((0 < checkZ (flipAOf c) zA s ↔ IsRepresentative [yA] s) ∧
      (0 < checkZ (flipAOf c) zA s → (checkZ (flipAOf c) zA s : ℂ) = 2 * projection [yA] s s)) ∧
    ((0 < checkZ (flipBOf c) zB s ↔ IsRepresentative [yB] s) ∧
      (0 < checkZ (flipBOf c) zB s → (checkZ (flipBOf c) zB s : ℂ) = 2 * projection [yB] s s)) :=
  ⟨order_two h (sub_site c _ hf) _ (subA_isSymmetry h hf 2) hA hzA s hs,
    order_two h (sub_site c _ hf) _ (subB_isSymmetry h hf 2) hB hzB s hs⟩

/-- Blocks of the product of reflection and inversion. -/
theorem C63_product (w : Option ℕ) (c : Spec.Chain) (h : Fits w c) (hF : HasFlip c) (yP yZ : Generator)
    (hP : c.IsSymmetry c.parity yP) (hZ : c.IsSymmetry c.flip yZ) (hpP : yP.per = 2) (hpZ : yZ.per = 2) (q p : Int)
    (hp : HasParity (both yZ yP q) p) (s : ℕ) (hs : s < c.size) :
    (0 < checkPZ (flipLROf w c) (flipAllOf w c) p s ↔ IsRepresentative [both yZ yP q] s) ∧
    (0 < checkPZ (flipLROf w c) (flipAllOf w c) p s →
      (checkPZ (flipLROf w c) (flipAllOf w c) p s : ℂ) = 2 * projection [both yZ yP q] s s) :=
  product_block h hF hP hZ hpP hpZ hp s hs

/-- Blocks of reflection and inversion. -/
theorem C63_parity_inversion (w : Option ℕ) (c : Spec.Chain) (h : Fits w c) (hF : HasFlip c) (yP yZ : Generator)
    (hP : c.IsSymmetry c.parity yP) (hZ : c.IsSymmetry c.flip yZ) (p z : Int) (hp : HasParity yP p) (hz : HasParity yZ z)
    (s : ℕ) (hs : s < c.size) :
    (0 < checkP_Z (flipLROf w c) (flipAllOf w c) p z s ↔ IsRepresentative [yZ, yP] s) ∧
    (0 < checkP_Z (flipLROf w c) (flipAllOf w c) p z s →
      (checkP_Z (flipLROf w c) (flipAllOf w c) p z s : ℂ) = 4 * projection [yZ, yP] s s) :=
  two_block h (flip_site c hF) (parity_site c) (parity_flip c).symm _ _ (flip_isSymmetry h hF 2) (parity_isSymmetry h 2) hZ hP hz hp s hs
    _ rfl

/-- Blocks of both sublattice inversions. -/
theorem C63_sublattices (w : Option ℕ) (c : Spec.Chain) (h : Fits w c) (hf : c.fermions = false) (yA yB : Generator)
    (hA : c.IsSymmetry (c.flipOf ((c.length + 1) % 2)) yA) (hB : c.IsSymmetry (c.flipOf (c.length % 2)) yB)
    (zA zB : Int) (hzA : HasParity yA zA) (hzB : HasParity yB zB) (s : ℕ) (hs : s < c.size) :
    (0 < checkZA_ZB (flipAOf c) (flipBOf c) (flipAllOf w c) zA zB s ↔ IsRepresentative [yA, yB] s) ∧
    (0 < checkZA_ZB (flipAOf c) (flipBOf c) (flipAllOf w c) zA zB s →
      (checkZA_ZB (flipAOf c) (flipBOf c) (flipAllOf w c) zA zB s : ℂ) = 4 * projection [yA, yB] s s) :=
  two_block h (sub_site c _ hf) (sub_site c _ hf) (sub_sub c _ _ hf) _ _ (subA_isSymmetry h hf 2) (subB_isSymmetry h hf 2) hA hB hzA hzB s hs
    _ (sublattices h hf s hs)

/-- Blocks of momentum and inversion, `L = T n`: what is stored for a state is its period under the translation and
a code from which `weightT_Z` recovers the norm of the projection. -/
theorem C63_momentum_inversion (w : Option ℕ) (c : Spec.Chain) (h : Fits w c) (hF : HasFlip c) (T n k : ℕ) (hT : 0 < T) (hn : 0 < n)
    (hL : c.length = T * n) (yT yZ : Generator) (hyT : c.IsSymmetry (c.shift T) yT) (hper : yT.per = n) (hq : yT.q = k)
    (hZ : c.IsSymmetry c.flip yZ) (z : Int) (hz : HasParity yZ z) (s : ℕ) (hs : s < c.size) :
    ((keepT_Z (shiftOf w T c) (flipAllOf w c) z k c.length T s).isSome ↔ IsRepresentative [yT, yZ] s) ∧
    (∀ Nm, keepT_Z (shiftOf w T c) (flipAllOf w c) z k c.length T s = some Nm → 0 < Nm.1 ∧ (yT.U^[Nm.1] (s, 1)).1 = s ∧
      (∀ j, 0 < j → j < Nm.1 → (yT.U^[j] (s, 1)).1 ≠ s) ∧ projection [yT, yZ] s s = (weightT_Z z k c.length T Nm * n : ℝ)) :=
  have := momentum_two_block h (flip_site c hF) T n k hT hn hL (shift_flip c T (by rw [hL]; exact Nat.le_mul_of_pos_right _ hn)) _
    (flip_isSymmetry h hF 2) hyT hper hq hZ hz s hs
  ⟨this.1, this.2.1⟩

/-- Blocks of momentum and inversion of sublattice A, with a unit cell of an even number of sites. -/
theorem C63_momentum_sublattice_A (w : Option ℕ) (c : Spec.Chain) (h : Fits w c) (hf : c.fermions = false) (T n k : ℕ) (hT : 0 < T) (heven : T % 2 = 0)
    (hn : 0 < n) (hL : c.length = T * n) (yT yA : Generator) (hyT : c.IsSymmetry (c.shift T) yT) (hper : yT.per = n) (hq : yT.q = k)
    (hA : c.IsSymmetry (c.flipOf ((c.length + 1) % 2)) yA) (z : Int) (hz : HasParity yA z) (s : ℕ) (hs : s < c.size) :
    ((keepT_ZA (shiftOf w T c) (flipAOf c) z k c.length T s).isSome ↔ IsRepresentative [yT, yA] s) ∧
    (∀ Nm, keepT_ZA (shiftOf w T c) (flipAOf c) z k c.length T s = some Nm → 0 < Nm.1 ∧ (yT.U^[Nm.1] (s, 1)).1 = s ∧
      (∀ j, 0 < j → j < Nm.1 → (yT.U^[j] (s, 1)).1 ≠ s) ∧ projection [yT, yA] s s = (weightT_ZA z k c.length T Nm * n : ℝ)) :=
  momentum_sub_block h T n k hT hn hL (shift_sub c T n _ hf heven hn hL) hf _ _ (subA_isSymmetry h hf 2) hyT hper hq hA hz s hs

/-- Blocks of momentum and inversion of sublattice B. -/
theorem C63_momentum_sublattice_B (w : Option ℕ) (c : Spec.Chain) (h : Fits w c) (hf : c.fermions = false) (T n k : ℕ) (hT : 0 < T) (heven : T % 2 = 0)
    (hn : 0 < n) (hL : c.length = T * n) (yT yB : Generator) (hyT : c.IsSymmetry (c.shift T) yT) (hper : yT.per = n) (hq : yT.q = k)
    (hB : c.IsSymmetry (c.flipOf (c.length % 2)) yB) (z : Int) (hz : HasParity yB z) (s : ℕ) (hs : s < c.size) :
    ((keepT_ZA (shiftOf w T c) (flipBOf c) z k c.length T s).isSome ↔ IsRepresentative [yT, yB] s) ∧
    (∀ Nm, keepT_ZA (shiftOf w T c) (flipBOf c) z k c.length T s = some Nm → 0 < Nm.1 ∧ (yT.U^[Nm.1] (s, 1)).1 = s ∧
      (∀ j, 0 < j → j < Nm.1 → (yT.U^[j] (s, 1)).1 ≠ s) ∧ projection [yT, yB] s s = (weightT_ZA z k c.length T Nm * n : ℝ)) :=
  momentum_sub_block h T n k hT hn hL (shift_sub c T n _ hf heven hn hL) hf _ _ (subB_isSymmetry h hf 2) hyT hper hq hB hz s hs

/-! ### the hypotheses are met -/

/-- The operations of the code satisfy the hypotheses on `yP`, `yZ`, `yA`, `yB`, `yT`, for all kinds of chains. -/
example (w : Option ℕ) (c : Spec.Chain) (h : Fits w c) (hF : HasFlip c) :
    c.IsSymmetry c.parity (gen (flipLROf w c) 2 1) ∧ HasParity (gen (flipLROf w c) 2 1) (-1) ∧
    c.IsSymmetry c.flip (gen (flipAllOf w c) 2 0) ∧ HasParity (gen (flipAllOf w c) 2 0) 1 :=
  ⟨parity_isSymmetry h 2 1, ⟨rfl, Or.inr ⟨rfl, rfl⟩⟩, flip_isSymmetry h hF 2 0, ⟨rfl, Or.inl ⟨rfl, rfl⟩⟩⟩

example (w : Option ℕ) (c : Spec.Chain) (h : Fits w c) (hf : c.fermions = false) (hL : c.length = 2 * 3) :
    c.IsSymmetry (c.flipOf ((c.length + 1) % 2)) (gen (flipAOf c) 2 0) ∧ c.IsSymmetry (c.shift 2) (gen (shiftOf w 2 c) 3 1) :=
  ⟨subA_isSymmetry h hf 2 0, shift_isSymmetry h 2 (by omega) (by rw [hL]; omega) 3 1⟩

/-- four spins: the state `1100` is kept with `p = z = ±1` and refused for `p = -z`; `1000` is kept in all four blocks -/
example : checkP_Z (flipLROf none (.twoLevel 4)) (flipAllOf none (.twoLevel 4)) 1 1 12 = 8 ∧
    checkP_Z (flipLROf none (.twoLevel 4)) (flipAllOf none (.twoLevel 4)) (-1) 1 12 = -1 ∧
    checkP_Z (flipLROf none (.twoLevel 4)) (flipAllOf none (.twoLevel 4)) (-1) 1 14 = 4 := by decide +kernel

/-! ### defect: momentum with both sublattice inversions drops states -/

/-- Two sites with three levels each, a unit cell of two sites, `k = 0`, `zA = zB = 1`: the configuration with both
sites in the middle level is invariant under all symmetries, hence a representative, but it is not stored. -/
theorem C63_fails_both_sublattices :
    keepT_ZA_ZB (shiftOf none 2 (.levels 3 2)) (flipAOf (.levels 3 2)) (flipBOf (.levels 3 2)) (flipAllOf none (.levels 3 2)) 1 1 0 2 2 4 = none ∧
    IsRepresentative [gen (shiftOf none 2 (.levels 3 2)) 1 0, gen (flipAOf (.levels 3 2)) 2 0, gen (flipBOf (.levels 3 2)) 2 0] 4 := by
  have hfix : ∀ y ∈ [gen (shiftOf none 2 (.levels 3 2)) 1 0, gen (flipAOf (.levels 3 2)) 2 0, gen (flipBOf (.levels 3 2)) 2 0],
      y.img 4 = 4 := by
    intro y hy
    simp only [List.mem_cons, List.not_mem_nil, or_false] at hy
    rcases hy with rfl | rfl | rfl <;> decide
  refine ⟨?_, ?_, 4, ?_⟩
  · have e : checkT_ZA_ZB (shiftOf none 2 (.levels 3 2)) (flipAOf (.levels 3 2)) (flipBOf (.levels 3 2)) (flipAllOf none (.levels 3 2)) 0 2 2 4
        = some (1, 0, 0, 0) := by decide +kernel
    unfold keepT_ZA_ZB
    rw [e]
    simp
  · intro t ht
    have : t = 4 := by
      induction ht with
      | refl => rfl
      | tail _ h2 ih =>
        obtain ⟨y, hy, rfl⟩ := h2
        rw [ih]; exact hfix y hy
    omega
  · have e : ∀ cs ∈ exponents [gen (shiftOf none 2 (.levels 3 2)) 1 0, gen (flipAOf (.levels 3 2)) 2 0, gen (flipBOf (.levels 3 2)) 2 0],
        word [gen (shiftOf none 2 (.levels 3 2)) 1 0, gen (flipAOf (.levels 3 2)) 2 0, gen (flipBOf (.levels 3 2)) 2 0] cs (4, 1) = (4, 1) ∧
        cs.length = 3 := by decide
    have hone : projection [gen (shiftOf none 2 (.levels 3 2)) 1 0, gen (flipAOf (.levels 3 2)) 2 0, gen (flipBOf (.levels 3 2)) 2 0] 4 4
        = ((exponents [gen (shiftOf none 2 (.levels 3 2)) 1 0, gen (flipAOf (.levels 3 2)) 2 0, gen (flipBOf (.levels 3 2)) 2 0]).map
            fun _ => (1 : ℂ)).sum := by
      unfold projection
      congr 1
      apply List.map_congr_left
      intro cs hcs
      obtain ⟨e1, e2⟩ := e cs hcs
      rw [e1]
      have hch : character [gen (shiftOf none 2 (.levels 3 2)) 1 0, gen (flipAOf (.levels 3 2)) 2 0, gen (flipBOf (.levels 3 2)) 2 0] cs = 1 := by
        match cs, e2 with
        | [a, b, d], _ => simp [character, angle, gen]
      rw [hch]
      simp
    rw [hone]
    have hl : (exponents [gen (shiftOf none 2 (.levels 3 2)) 1 0, gen (flipAOf (.levels 3 2)) 2 0, gen (flipBOf (.levels 3 2)) 2 0]).length = 4 := by
      decide
    rw [List.map_const', List.sum_replicate, hl]
    norm_num

end Props
