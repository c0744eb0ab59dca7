import Verif.Proof.ChainRef
/-!
C64: the search for the representative of a state in a one-dimensional basis returns the largest state of the
orbit, together with exponents of the symmetry operations and a sign such that the operations take the state to
sign times the representative.

`Spec.IsReference ys s cs r sign` says this without reference to the code.
-/
namespace Props
open Spec Model.Chain Proof.Chain
open Spec.Chain (Fits HasFlip)

/-- Reflection. -/
theorem C64_parity (w : Option ℕ) (c : Spec.Chain) (h : Fits w c) (yP : Generator) (hP : c.IsSymmetry c.parity yP) (hp : yP.per = 2)
    (s : ℕ) (hs : s < c.size) :
    let b := refP (flipLROf w c) s
    IsReference [yP] s [b.g] b.r b.sign :=
  order_two_ref h (parity_site c) _ (parity_isSymmetry h 2) hP hp s hs

/-- Inversion (exchange of the spins for fermions with spin). -/
theorem C64_inversion (w : Option ℕ) (c : Spec.Chain) (h : Fits w c) (hF : HasFlip c) (yZ : Generator) (hZ : c.IsSymmetry c.flip yZ)
    (hp : yZ.per = 2) (s : ℕ) (hs : s < c.size) :
    let b := refP (flipAllOf w c) s
    IsReference [yZ] s [b.g] b.r b.sign :=
  order_two_ref h (flip_site c hF) _ (flip_isSymmetry h hF 2) hZ hp s hs

/-- Inversion of one sublattice. -/
theorem C64_sublattice (w : Option ℕ) (c : Spec.Chain) (h : Fits w c) (hf : c.fermions = false) (yA yB : Generator)
    (hA : c.IsSymmetry (c.flipOf ((c.length + 1) % 2)) yA) (hB : c.IsSymmetry (c.flipOf (c.length % 2)) yB)
    (hpA : yA.per = 2) (hpB : yB.per = 2) (s : ℕ) (hs : s < c.size) :
    IsReference [yA] s [(refP (flipAOf c) s).g] (refP (flipAOf c) s).r (refP (flipAOf c) s).sign ∧
    IsReference [yB] s [(refP (flipBOf c) s).g] (refP (flipBOf c) s).r (refP (flipBOf c) s).sign :=
  ⟨order_two_ref h (sub_site c _ hf) _ (subA_isSymmetry h hf 2) hA hpA s hs,
    order_two_ref h (sub_site c _ hf) _ (subB_isSymmetry h hf 2) hB hpB s hs⟩

/-- Reflection and inversion. -/
theorem C64_parity_inversion (w : Option ℕ) (c : Spec.Chain) (h : Fits w c) (hF : HasFlip c) (yP yZ : Generator)
    (hP : c.IsSymmetry c.parity yP) (hZ : c.IsSymmetry c.flip yZ) (hpP : yP.per = 2) (hpZ : yZ.per = 2)
    (s : ℕ) (hs : s < c.size) :
    let b := refP_Z (flipLROf w c) (flipAllOf w c) s
    IsReference [yZ, yP] s [b.g, b.l] b.r b.sign :=
  pair_ref h (flip_site c hF) (parity_site c) (parity_flip c).symm _ _ (flip_isSymmetry h hF 2) (parity_isSymmetry h 2) hZ hP hpZ hpP s hs

/-- Both sublattice inversions. -/
theorem C64_sublattices (w : Option ℕ) (c : Spec.Chain) (h : Fits w c) (hf : c.fermions = false) (yA yB : Generator)
    (hA : c.IsSymmetry (c.flipOf ((c.length + 1) % 2)) yA) (hB : c.IsSymmetry (c.flipOf (c.length % 2)) yB)
    (hpA : yA.per = 2) (hpB : yB.per = 2) (s : ℕ) (hs : s < c.size) :
    let b := refZA_ZB (flipAOf c) (flipBOf c) (flipAllOf w c) s
    IsReference [yA, yB] s [b.l, b.g] b.r b.sign :=
  sublattices_ref h hf hA hB hpA hpB s hs

/-- Translations. -/
theorem C64_momentum (w : Option ℕ) (c : Spec.Chain) (h : Fits w c) (T n : ℕ) (hT : 0 < T) (hn : 0 < n) (hL : c.length = T * n)
    (yT : Generator) (hy : c.IsSymmetry (c.shift T) yT) (hp : yT.per = n) (s : ℕ) (hs : s < c.size) :
    let b := refT (shiftOf w T c) c.length T s
    IsReference [yT] s [b.l % n] b.r b.sign :=
  momentum_ref h T n hT hn hL hy hp s hs

/-- Translations and inversion. -/
theorem C64_momentum_inversion (w : Option ℕ) (c : Spec.Chain) (h : Fits w c) (hF : HasFlip c) (T n : ℕ) (hT : 0 < T) (hn : 0 < n)
    (hL : c.length = T * n) (yT yZ : Generator) (hyT : c.IsSymmetry (c.shift T) yT) (hper : yT.per = n)
    (hZ : c.IsSymmetry c.flip yZ) (hz : yZ.per = 2) (s : ℕ) (hs : s < c.size) :
    let b := refT_Z (shiftOf w T c) (flipAllOf w c) c.length T s
    IsReference [yT, yZ] s [b.l % n, b.g] b.r b.sign :=
  momentum_two_ref h (flip_site c hF) T n hT hn hL (shift_flip c T (by rw [hL]; exact Nat.le_mul_of_pos_right _ hn)) _
    (flip_isSymmetry h hF 2) hyT hper hZ hz s hs

/-- Translations and the inversion of one sublattice. -/
theorem C64_momentum_sublattice (w : Option ℕ) (c : Spec.Chain) (h : Fits w c) (hf : c.fermions = false) (T n : ℕ) (hT : 0 < T)
    (heven : T % 2 = 0) (hn : 0 < n) (hL : c.length = T * n) (yT yA yB : Generator) (hyT : c.IsSymmetry (c.shift T) yT) (hper : yT.per = n)
    (hA : c.IsSymmetry (c.flipOf ((c.length + 1) % 2)) yA) (hB : c.IsSymmetry (c.flipOf (c.length % 2)) yB)
    (hpA : yA.per = 2) (hpB : yB.per = 2) (s : ℕ) (hs : s < c.size) :
    (let b := refT_Z (shiftOf w T c) (flipAOf c) c.length T s
     IsReference [yT, yA] s [b.l % n, b.g] b.r b.sign) ∧
    (let b := refT_Z (shiftOf w T c) (flipBOf c) c.length T s
     IsReference [yT, yB] s [b.l % n, b.g] b.r b.sign) :=
  ⟨momentum_two_ref h (sub_site c _ hf) T n hT hn hL (shift_sub c T n _ hf heven hn hL) _ (subA_isSymmetry h hf 2) hyT hper hA hpA s hs,
   momentum_two_ref h (sub_site c _ hf) T n hT hn hL (shift_sub c T n _ hf heven hn hL) _ (subB_isSymmetry h hf 2) hyT hper hB hpB s hs⟩

/-- Translations and both sublattice inversions. -/
theorem C64_momentum_sublattices (w : Option ℕ) (c : Spec.Chain) (h : Fits w c) (hf : c.fermions = false) (T n : ℕ) (hT : 0 < T)
    (heven : T % 2 = 0) (hn : 0 < n) (hL : c.length = T * n) (yT yA yB : Generator) (hyT : c.IsSymmetry (c.shift T) yT) (hper : yT.per = n)
    (hA : c.IsSymmetry (c.flipOf ((c.length + 1) % 2)) yA) (hB : c.IsSymmetry (c.flipOf (c.length % 2)) yB)
    (hpA : yA.per = 2) (hpB : yB.per = 2) (s : ℕ) (hs : s < c.size) :
    let b := refT_ZA_ZB (shiftOf w T c) (flipAOf c) (flipBOf c) (flipAllOf w c) c.length T s
    IsReference [yT, yA, yB] s [b.l % n, b.g % 2, b.g / 2] b.r b.sign :=
  momentum_sublattices_ref h hf T n hT heven hn hL hyT hper hA hB hpA hpB s hs

/-- Reflection times inversion: right for particles that are not fermions.  Missing: fermions with spin, for which
the statement is false (`C64_fails_product`). -/
theorem C64_product_partial (w : Option ℕ) (c : Spec.Chain) (h : Fits w c) (hf : c.fermions = false) (yP yZ : Generator)
    (hP : c.IsSymmetry c.parity yP) (hZ : c.IsSymmetry c.flip yZ) (hpP : yP.per = 2) (hpZ : yZ.per = 2) (q : Int) (s : ℕ) (hs : s < c.size) :
    let b := refPZ (flipLROf w c) (flipAllOf w c) s
    IsReference [both yZ yP q] s [b.g] b.r b.sign :=
  product_ref h hf hP hZ hpP hpZ q s hs

/-! ### the hypotheses are met -/

example (w : Option ℕ) (c : Spec.Chain) (h : Fits w c) (hF : HasFlip c) (hL : c.length = 2 * 3) :
    c.IsSymmetry c.parity (gen (flipLROf w c) 2 1) ∧ c.IsSymmetry c.flip (gen (flipAllOf w c) 2 0) ∧
    c.IsSymmetry (c.shift 2) (gen (shiftOf w 2 c) 3 1) :=
  ⟨parity_isSymmetry h 2 1, flip_isSymmetry h hF 2 0, shift_isSymmetry h 2 (by omega) (by rw [hL]; omega) 3 1⟩

/-- four sites with two spinless fermions: `0110` goes to `1100` by three translations without sign, `0101` to `1010`
by one translation with the sign of the particle that crosses the end; spinful fermions with a spin exchange -/
example : refT (shiftOf none 1 (.spinless 4)) 4 1 0b0110 = ⟨0b1100, 1, 3, 0⟩ ∧
    refT (shiftOf none 1 (.spinless 4)) 4 1 0b0101 = ⟨0b1010, -1, 1, 0⟩ ∧
    refT_Z (shiftOf none 1 (.spinful 2)) (flipAllOf none (.spinful 2)) 2 1 0b0111 = ⟨0b1110, -1, 1, 1⟩ := by decide +kernel

/-! ### defect: reflection times exchange of the spins loses the fermionic sign -/

/-- Two sites with spinful fermions, both with spin up or both with spin down (in the basis integer: `0011`).
Reflection and exchange of the spins take this state to minus the representative `1100`; the code reports plus. -/
theorem C64_fails_product :
    let c : Spec.Chain := .spinful 2
    let y := both (gen (flipAllOf (some 32) c) 2 0) (gen (flipLROf (some 32) c) 2 0) 0
    let b := refPZ (flipLROf (some 32) c) (flipAllOf (some 32) c) 3
    b = ⟨12, 1, 0, 1⟩ ∧ word [y] [1] (3, 1) = (12, -1) ∧ ¬ IsReference [y] 3 [b.g] b.r b.sign := by
  refine ⟨by decide +kernel, by decide +kernel, fun h => ?_⟩
  have := h.word
  revert this
  decide +kernel

end Props
