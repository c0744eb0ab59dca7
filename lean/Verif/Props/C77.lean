import Verif.Proof.ThreeVec
import Verif.Props.C75
import Verif.Props.C76
/-!
C77: `project_from` (`get_vec`) and `get_proj` of a one-dimensional basis in the blocks of momentum, reflection and inversion: a vector of the block is taken to the
combination of the normalised states of C76, the dense and the sparse version agree, inner products are kept, and the basis is restored.

The norms are computed from the integers stored with the states.  The one for the return under inversion is put into a signed byte before it is reduced, so for
chains of more than ten sites it may be read wrongly (`C77_fails_signed_byte`).
-/
namespace Props
open Spec Spec.Semi Model Model.Chain Proof.Chain Proof.Semi
open Spec.Chain (Fits HasFlip)
open scoped BigOperators Matrix

/-- the loop in a block of momentum, reflection and inversion -/
theorem three_loop {w : Option ℕ} {c : Spec.Chain} (h : Fits w c) (hF : HasFlip c) {T n : ℕ} (k : ℕ) (hT : 0 < T) (hn : 0 < n) (hL : c.length = T * n)
    {p z : Int} (hp : p = 1 ∨ p = -1) (hz : z = 1 ∨ z = -1) {S : ℕ → Prop} (hS : ∀ t, S t → t < c.size)
    (cT : ∀ t, S t → S (shiftOf w T c t).1) (cP : ∀ t, S t → S (flipLROf w c t).1) (cZ : ∀ t, S t → S (flipAllOf w c t).1) :
    LoopSum S w { a := T, k := some k, p := some p, z := some z, pz := some (p * z) } c fun neg s t => if ht : t < c.size then
      st3 c.size (shiftOf w T c) (flipLROf w c) (flipAllOf w c) n k p z (if neg then -1 else 1) s ⟨t, ht⟩ else 0 := by
  have hd := triad_chain h hF T n hT hn hL
  have aP := order_two_acts h (parity_site c) (parity_isSymmetry h 2 0) rfl
  have aZ := order_two_acts h (flip_site c hF) (flip_isSymmetry h hF 2 0) rfl
  have aPZ : Acts (· < c.size) [gen (flipLROf w c) 2 0, gen (flipAllOf w c) 2 0] := pair_acts h (parity_site c) (flip_site c hF)
    (parity_isSymmetry h 2 0) (flip_isSymmetry h hF 2 0) (Proof.Chain.parity_flip c)
  have hpm : p * z = 1 ∨ p * z = -1 := by rcases hp with rfl | rfl <;> rcases hz with rfl | rfl <;> simp
  refine loop_three h hS k T n hT hn hL rfl rfl (Or.inl rfl) p z hd cT
    (fun sp => if sp then [flipAllOf w c, flipLROf w c] else [flipLROf w c, flipAllOf w c]) [flipLROf w c, flipAllOf w c] ?_
    (fun sp => by simp [sections, bitopsOf]) ?_
  · intro sp x hx
    cases sp
    · rfl
    · exact step_comm aPZ x hx
  · intro sp g hg
    simp only [List.mem_cons, List.not_mem_nil, or_false] at hg
    rcases hg with rfl | rfl | rfl
    · exact (undone_one aZ hz).mono hS cZ
    · exact (undone_one aP hp).mono hS cP
    · refine (undone_two aPZ hpm sp).mono hS ?_
      intro t ht
      cases sp
      · exact cZ _ (cP t ht)
      · exact cP _ (cZ t ht)

section
variable (w : Option ℕ) (c : Spec.Chain) (h : Fits w c) (hF : HasFlip c) (next : ℕ → ℕ) (nosymm : ℕ → Bool) (MAX s0 : ℕ)
  (hinc : (visited next MAX s0).Pairwise (· < ·)) (T n k : ℕ) (hT : 0 < T) (hn : 0 < n) (hL : c.length = T * n) (hk : k < n)
  (p z : Int) (hp : p = 1 ∨ p = -1) (hz : z = 1 ∨ z = -1)
  (yT yP yZ : Generator) (hyT : c.IsSymmetry (c.shift T) yT) (hyP : c.IsSymmetry c.parity yP) (hyZ : c.IsSymmetry c.flip yZ)
  (hs : IsSectorOf c.size [yT, yP, yZ] ((visited next MAX s0).filter nosymm))

include h hF hinc hT hn hL hk hp hz hyT hyP hyZ hs

/-- Chains of up to 127 sites, when the integer stored with each state is below `128 (L+1)`, or its code (`m / (L+1)^2`) tells that only reflection, only the product, or
none of the operations takes the configuration to a translate.  Missing: larger integers, where it fails (`C77_fails_signed_byte`). -/
theorem C77_vectors_partial (h127 : c.length ≤ 127) :
    let U := matrixOf c.size yT
    let R := matrixOf c.size yP
    let I := matrixOf c.size yZ
    let basis := blockBasisList next nosymm (keepT_P_Z (shiftOf w T c) (flipLROf w c) (flipAllOf w c) p z k c.length T) MAX s0
    (∀ x ∈ basis, x.2.2 / (c.length + 1) < 128 ∨ x.2.2 / (c.length + 1) / (c.length + 1) ∈ [0, 1, 2, 5, 6]) →
    GivesVectors w { a := T, k := some k, p := some p, z := some z, pz := some (p * z) } c [yT, yP, yZ] basis (semiState3 c.size U R I n k p z basis) := by
  have hTL : T ≤ c.length := by rw [hL]; exact Nat.le_mul_of_pos_right _ hn
  obtain ⟨e1, i1⟩ := matrixOf_isSymmetry (shift_site c T n hT hn hL) hyT (shift_isSymmetry h T hT hTL)
  obtain ⟨e2, i2⟩ := matrixOf_isSymmetry (parity_site c) hyP (parity_isSymmetry h)
  obtain ⟨e3, i3⟩ := matrixOf_isSymmetry (flip_site c hF) hyZ (flip_isSymmetry h hF)
  have ht := triad_chain h hF T n hT hn hL
  simp only [e1, e2, e3]
  have hL' : c.length = T * n := hL
  generalize hb : blockBasisList next nosymm (keepT_P_Z (shiftOf w T c) (flipLROf w c) (flipAllOf w c) p z k c.length T) MAX s0 = basis
  rw [hL] at hb
  intro hfit
  have hl : Listed (keepT_P_Z (shiftOf w T c) (flipLROf w c) (flipAllOf w c) p z k (T * n) T) ((visited next MAX s0).filter nosymm) basis := by
    rw [← hb]
    exact listed_block _ next nosymm MAX s0 hinc (fun s hs' => (keep3_list (k := k) ht hp hz hT (hs.below s hs')).1)
  have hneg : ∀ x, negOf { a := T, k := some k, p := some p, z := some z, pz := some (p * z) } x = decide (x.2.1 < 0) := by
    intro x
    unfold negOf
    simp
  have hsig : ∀ x ∈ basis, x.2.1 ≠ 0 ∧
      sigmaOf x.2 = if negOf { a := T, k := some k, p := some p, z := some z, pz := some (p * z) } x then -1 else 1 := by
    intro x hx
    obtain ⟨_, _, hk3⟩ := entry3 ht hT hp hz hs.below hl hx
    obtain ⟨R, pR, cc, d, r, γ, δ, hR, hc0, hkept, hag, hc, hw⟩ := hk3.ex
    have h0 : x.2.1 ≠ 0 := by
      rw [hag.num, hkept.num]
      have := hkept.least.pos
      rcases hkept.sig with e | e <;> rw [e] <;> omega
    refine ⟨h0, ?_⟩
    rw [hneg]
    unfold sigmaOf
    by_cases h1 : x.2.1 > 0
    · simp [h1]; omega
    · have : x.2.1 < 0 := by omega
      simp [h1, this]
  refine gives_of (target := fun neg s t => if ht : t < c.size then
      st3 c.size (shiftOf w T c) (flipLROf w c) (flipAllOf w c) n k p z (if neg then -1 else 1) s ⟨t, ht⟩ else 0) ?_ ?_ ?_ ?_ ?_ ?_
  · intro S hS hcl
    exact three_loop h hF k hT hn hL hp hz hS
      (fun t h' => by rw [← i1 t (hS t h')]; exact hcl yT (by simp) t h')
      (fun t h' => by rw [← i2 t (hS t h')]; exact hcl yP (by simp) t h')
      (fun t h' => by rw [← i3 t (hS t h')]; exact hcl yZ (by simp) t h')
  · intro y hy t h'
    simp only [List.mem_cons, List.not_mem_nil, or_false] at hy
    rcases hy with rfl | rfl | rfl
    · rw [i1 t h']; exact ht.dih.cyc.closed t h'
    · rw [i2 t h']; exact ht.dih.closed t h'
    · rw [i3 t h']; exact ht.closed t h'
  · rintro ⟨s, d⟩ hx
    exact hs.below s ((hl.mem s d).1 hx).1
  · have hnd := hl.nodup
    rw [List.nodup_iff_pairwise_ne] at hnd
    refine hnd.imp_of_mem ?_
    rintro ⟨s, d⟩ ⟨s', d'⟩ hx hy hne hnn hss
    simp only at hss
    subst hss
    obtain ⟨m1, m2⟩ := (hl.mem s d).1 hx
    obtain ⟨m3, m4⟩ := (hl.mem s d').1 hy
    have hdd : d ≠ d' := fun e => hne (by rw [e])
    have h3 := (keep3_list (k := k) ht hp hz hT (hs.below s m1)).2.2.2 d m2 d' m4 hdd 0 rfl
    have h4 := (hsig _ hx).2
    have h5 := (hsig _ hy).2
    simp only at h4 h5
    rw [h4, hnn, ← h5] at h3
    obtain ⟨_, _, hk3⟩ := entry3 ht hT hp hz hs.below hl hy
    rw [(self3 ht hp hz hT hk3).2.1] at h3
    exact one_ne_zero h3
  · intro i t
    have hx : basis[i] ∈ basis := List.getElem_mem _
    obtain ⟨m1, m2, _⟩ := entry3 ht hT hp hz hs.below hl hx
    have hw := three_widths ht hT (hs.below _ m1) m2
    rw [dif_pos t.2, norm_three hT hn hk p z hL h127 (by rw [hL]; exact hw.2) (hfit _ hx) (hsig _ hx).1, ← (hsig _ hx).2, hL,
      ← ent3_norm ht hT hp hz hs.below hl hx]
    unfold semiState3
    rw [state3_sign hn]
    unfold ent3 normalized
    rw [Pi.smul_apply, smul_eq_mul, div_eq_inv_mul]
    push_cast
    rfl
  · intro i j
    have := ent3_orthonormal ht hT hp hz hs.below hl i j
    unfold semiState3
    simp only [state3_sign hn]
    exact this

/-- Chains of up to ten sites. -/
theorem C77_short_chains (h10 : c.length ≤ 10) :
    let basis := blockBasisList next nosymm (keepT_P_Z (shiftOf w T c) (flipLROf w c) (flipAllOf w c) p z k c.length T) MAX s0
    GivesVectors w { a := T, k := some k, p := some p, z := some z, pz := some (p * z) } c [yT, yP, yZ] basis
      (semiState3 c.size (matrixOf c.size yT) (matrixOf c.size yP) (matrixOf c.size yZ) n k p z basis) := by
  refine C77_vectors_partial w c h hF next nosymm MAX s0 hinc T n k hT hn hL hk p z hp hz yT yP yZ hyT hyP hyZ hs (by omega) ?_
  intro x hx
  left
  have ht := triad_chain h hF T n hT hn hL
  have hl := listed_block (keepT_P_Z (shiftOf w T c) (flipLROf w c) (flipAllOf w c) p z k c.length T) next nosymm MAX s0 hinc (fun s hs' => by
    rw [hL]; exact (keep3_list (k := k) ht hp hz hT (hs.below s hs')).1)
  obtain ⟨m1, m2⟩ := (hl.mem x.1 x.2).1 hx
  rw [hL] at m2
  have hw := (three_widths ht hT (hs.below _ m1) m2).2
  rw [← hL] at hw
  apply Nat.div_lt_of_lt_mul
  nlinarith

end

/-- the vector returned for a single state -/
theorem single_three {w : Option ℕ} {c : Spec.Chain} (h : Fits w c) (hF : HasFlip c) {T n : ℕ} (k : ℕ) (hT : 0 < T) (hn : 0 < n) (hL : c.length = T * n)
    {p z : Int} (hp : p = 1 ∨ p = -1) (hz : z = 1 ∨ z = -1) {s : ℕ} (hs : s < c.size) {d : Int × ℕ} (hd : 0 < d.1)
    (hkeep : keepT_P_Z (shiftOf w T c) (flipLROf w c) (flipAllOf w c) p z k (T * n) T s = [d]) {D : ℝ} (hD : 0 ≤ D)
    (hsq : normSq { a := T, k := some k, p := some p, z := some z, pz := some (p * z) } c.length d.1 d.2 = D) :
    ∑ j ∈ Finset.range c.size, ‖(projectDense w { a := T, k := some k, p := some p, z := some z, pz := some (p * z) } c [(s, d)] [1]).2 j‖ ^ 2
      = 2 * (kappa n k * n ^ 2) * weightT_P_Z p z k (T * n) T d / D := by
  have ht := triad_chain h hF T n hT hn hL
  have hloop := three_loop h hF k hT hn hL hp hz (S := (· < c.size)) (fun _ hs => hs) ht.dih.cyc.closed ht.dih.closed ht.closed
  have hv := (loop_expand hloop (fun _ hs => hs) dense_adds (row := fun x => c.size - 1 - x) (row_inj c.size) false [(s, d)] [1] rfl
    (by intro x hx; rw [List.mem_singleton.1 hx]; exact hs) (List.pairwise_singleton _ _)).2
  have hl : Listed (keepT_P_Z (shiftOf w T c) (flipLROf w c) (flipAllOf w c) p z k (T * n) T) [s] [(s, d)] := by
    refine ⟨List.pairwise_singleton _ _, List.nodup_singleton _, fun s' d' => ?_⟩
    simp only [List.mem_singleton, Prod.mk.injEq]
    constructor
    · rintro ⟨rfl, rfl⟩
      exact ⟨rfl, by rw [hkeep]; simp⟩
    · rintro ⟨rfl, hm⟩
      rw [hkeep] at hm
      exact ⟨rfl, List.mem_singleton.1 hm⟩
  have hN := ent3_norm ht (k := k) hT hp hz (by intro s' hs'; rw [List.mem_singleton.1 hs']; exact hs) hl (x := (s, d)) (by simp)
  have hs1 : sigmaOf d = 1 := by unfold sigmaOf; rw [if_pos hd]
  rw [hs1] at hN
  have hneg : negOf { a := T, k := some k, p := some p, z := some z, pz := some (p * z) } (s, d) = false := by
    unfold negOf; simp; omega
  have hval : ∀ t : Fin c.size, (projectDense w { a := T, k := some k, p := some p, z := some z, pz := some (p * z) } c [(s, d)] [1]).2 (c.size - 1 - t)
      = st3 c.size (shiftOf w T c) (flipLROf w c) (flipAllOf w c) n k p z 1 s t / (Real.sqrt D : ℝ) := by
    intro t
    refine (hv t t.2).trans ?_
    simp only [List.zipWith_cons_cons, List.zipWith_nil_left, List.sum_cons, List.sum_nil, add_zero, one_mul, hneg]
    rw [hsq, dif_pos t.2]
    rfl
  rw [← Fin.sum_univ_eq_sum_range (fun j => ‖(projectDense w { a := T, k := some k, p := some p, z := some z, pz := some (p * z) } c [(s, d)] [1]).2 j‖ ^ 2),
    ← Equiv.sum_comp Fin.revPerm]
  have hrev : ∀ t : Fin c.size, ((Fin.revPerm t : Fin c.size) : ℕ) = c.size - 1 - t := by
    intro t
    rw [Fin.revPerm_apply, Fin.val_rev]; omega
  simp only [hrev, hval]
  have : ∀ t : Fin c.size, ‖st3 c.size (shiftOf w T c) (flipLROf w c) (flipAllOf w c) n k p z 1 s t / (Real.sqrt D : ℝ)‖ ^ 2
      = ‖st3 c.size (shiftOf w T c) (flipLROf w c) (flipAllOf w c) n k p z 1 s t‖ ^ 2 * D⁻¹ := by
    intro t
    rw [norm_div, div_pow, Complex.norm_real, Real.norm_eq_abs, sq_abs, Real.sq_sqrt hD, div_eq_mul_inv]
  simp only [this]
  rw [← Finset.sum_mul, hN, div_eq_mul_inv]

/-- cosines of the momentum 1 on twelve sites -/
theorem cos_twelve : wave 1 12 1 * (6 : ℝ) = Real.pi ∧ Real.cos (wave 1 12 1 * (10 : ℝ)) = 1 / 2 := by
  refine ⟨by unfold wave; push_cast; ring, ?_⟩
  have : wave 1 12 1 * (10 : ℝ) = 2 * Real.pi - Real.pi / 3 := by unfold wave; push_cast; ring
  rw [this, Real.cos_two_pi_sub, Real.cos_pi_div_three]

theorem norm_twelve : normSq { a := 1, k := some 1, p := some (-1), z := some (-1), pz := some (-1 * -1) } 12 12 1774 = 24 := by
  obtain ⟨hw6, hw10⟩ := cos_twelve
  have hsin : ¬ |Real.sin (wave 1 12 1)| < 1 / (12 : ℕ) := by
    have := sin_small (n := 12) (k := 1) (L := 12) (by omega) (by omega) (le_refl _)
    have e := wave_eq (n := 12) (k := 1) (T := 1) (by omega) (by omega)
    rw [show 1 * 12 = 12 from rfl] at e
    rw [e, this]
    omega
  have a1 : int8 ((1774 / (12 + 1) ^ 2 : ℕ) : Int) = 10 := by decide
  have a2 : int8 ((1774 / (12 + 1) : ℕ) : Int) % (((12 : ℕ) : Int) + 1) = 10 := by decide
  have a3 : int8 ((1774 % (12 + 1) : ℕ) : Int) = 6 := by decide
  unfold normSq
  simp only [Option.isSome_some, Option.getD_some, and_self, if_true, a1, a2, a3, hsin, if_false, show Int.sign 12 = 1 from rfl]
  push_cast
  rw [hw6, hw10, Real.cos_pi]
  norm_num

/-- Twelve sites, momentum 1, `pblock=-1` and `zblock=-1`.  All operations take `111111000000` to a translate, the inversion to the one by six sites, and the integer
stored is 1774 = 6 + 13·6 + 169·10.  `base_1d.py:821-823` puts 1774 // 13 = 136 into a signed byte, where it becomes -120, and reduces that to 10 instead of 6.  The vector
returned for this state of the basis has squared norm 4. -/
theorem C77_fails_signed_byte : let c : Spec.Chain := .twoLevel 12
    keepT_P_Z (shiftOf (some 32) 1 c) (flipLROf (some 32) c) (flipAllOf (some 32) c) (-1) (-1) 1 c.length 1 4032 = [(12, 1774)] ∧
    ∑ j ∈ Finset.range c.size,
      ‖(projectDense (some 32) { a := 1, k := some 1, p := some (-1), z := some (-1), pz := some (-1 * -1) } c [(4032, (12, 1774))] [1]).2 j‖ ^ 2 = 4 := by
  intro c
  have h : Fits (some 32) c := ⟨by show 0 < 12; omega, fun v hv => by cases hv; show 12 ≤ 32; omega⟩
  have hm : (-1 : Int) = 1 ∨ (-1 : Int) = -1 := Or.inr rfl
  obtain ⟨hw6, _⟩ := cos_twelve
  have e1 : checkT_P_Z (shiftOf (some 32) 1 c) (flipLROf (some 32) c) (flipAllOf (some 32) c) 1 12 1 4032 = some ⟨12, 6, 6, 0, 1, 1, 1⟩ := by decide +kernel
  have hkp : keepT_P_Z (shiftOf (some 32) 1 c) (flipLROf (some 32) c) (flipAllOf (some 32) c) (-1) (-1) 1 12 1 4032 = [(12, 1774)] := by
    have hs : sigmas 1 12 1 = [-1, 1] := by decide
    have hw6' : (6 : ℝ) * wave 1 12 1 = Real.pi := by rw [mul_comm]; exact hw6
    unfold keepT_P_Z keptSigmas
    simp only [e1, hs]
    simp [hw6']
  refine ⟨hkp, ?_⟩
  have hs : 4032 < c.size := by show 4032 < 2 ^ 12; norm_num
  refine (single_three (w := some 32) h trivial (T := 1) (n := 12) 1 (by omega) (by omega) rfl hm hm hs (d := (12, 1774)) (by norm_num) hkp
    (D := 24) (by norm_num) norm_twelve).trans ?_
  rw [kappa_eq (T := 1) (by omega) (by omega) (by omega)]
  have hs1 : sigmaOf ((12 : Int), 1774) = 1 := by decide
  have hc1 : codeOf3 (1 * 12) ((12 : Int), 1774) = 10 := by decide
  have hm1 : mmOf3 (1 * 12) ((12 : Int), 1774) = 6 := by decide
  have hn1 : nnOf3 (1 * 12) ((12 : Int), 1774) = 6 := by decide
  unfold weightT_P_Z fOf3 gOf3
  rw [hs1, hm1, hn1, hc1]
  have hw6'' : wave 1 (1 * 12) 1 * ((6 : ℕ) : ℝ) = Real.pi := by push_cast; exact hw6
  simp only [hw6'', Real.cos_pi]
  norm_num

/-- The six-site chain of the example of C76 meets the hypotheses with momentum 1; all its stored integers are below 128·7, among them 514 with code 10. -/
example : (1 : ℕ) < 6 ∧ (Spec.Chain.twoLevel 6).length ≤ 10 ∧ 514 / ((Spec.Chain.twoLevel 6).length + 1) < 128 ∧
    514 / ((Spec.Chain.twoLevel 6).length + 1) / ((Spec.Chain.twoLevel 6).length + 1) = 10 := by
  refine ⟨by omega, by show 6 ≤ 10; omega, by decide, by decide⟩

end Props
