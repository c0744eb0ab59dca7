import Verif.Proof.SemiChain
import Verif.Proof.ChainVecKinds
import Verif.Proof.ChainVecNorms
import Mathlib.Analysis.SpecialFunctions.Trigonometric.Bounds
import Mathlib.Analysis.Convex.SpecificFunctions.Deriv
/-! The loop of `project_from` for blocks in which a configuration may appear twice. -/
namespace Proof.Chain
open Spec Model.Chain Proof.Symmetry Proof.Maps
open Spec.Chain (Fits HasFlip)
open scoped BigOperators

variable {S : ℕ → Prop}

/-- the column belongs to `ind_neg` -/
def negOf (B : Blocks) (x : ℕ × Int × ℕ) : Bool := decide (B.k.isSome ∧ (B.p.isSome ∨ B.pz.isSome) ∧ x.2.1 < 0)

/-- what the loop adds up for a configuration -/
structure LoopSum (S : ℕ → Prop) (w : Option ℕ) (B : Blocks) (c : Spec.Chain) (target : Bool → ℕ → ℕ → ℂ) : Prop where
  undone : ∀ sp, ∀ g ∈ sections sp B (bitopsOf w (stepOf B c) c), Undone S g
  moves : Moves S (shiftOf w (c.length - stepOf B c) c)
  back : ∀ t, S t → (step (shiftOf w (c.length - stepOf B c) c))^[rounds B c.length] (t, 1) = (t, 1)
  sums : ∀ sp neg s t, S s → t < c.size → ∑ r ∈ Finset.range (rounds B c.length), phaseC B c.length r neg *
    ((sections sp B (bitopsOf w (stepOf B c) c)).map fun g => part (fun x => x) t g ((step (shiftOf w (c.length - stepOf B c) c))^[r] (s, 1))).sum
      = target neg s t

theorem loop_expand {w : Option ℕ} {B : Blocks} {c : Spec.Chain} {target : Bool → ℕ → ℕ → ℂ} (hd : LoopSum S w B c target) (hSc : ∀ t, S t → t < c.size)
    {add : (ℕ → ℂ) → List (ℕ × ℂ) → ℕ → ℂ} (ha : AddsUp add) {row : ℕ → ℕ} (hrow : ∀ t u, S t → S u → row t = row u → t = u) (sp : Bool)
    (basis : List (ℕ × Int × ℕ)) (v0 : List ℂ) (hl : v0.length = basis.length) (hS : ∀ x ∈ basis, S x.1)
    (hn : basis.Pairwise fun x y => negOf B x = negOf B y → x.1 ≠ y.1) :
    ((runRounds add row (sections sp B (bitopsOf w (stepOf B c) c)) (shiftOf w (c.length - stepOf B c) c) (phaseC B c.length)
      (rounds B c.length) (columnsOf B c.length basis v0, fun _ => 0)).1.map (·.x.1)) = basis.map (·.1) ∧
    ∀ t, S t → (runRounds add row (sections sp B (bitopsOf w (stepOf B c) c)) (shiftOf w (c.length - stepOf B c) c) (phaseC B c.length)
      (rounds B c.length) (columnsOf B c.length basis v0, fun _ => 0)).2 (row t)
      = (List.zipWith (fun x a => a * (target (negOf B x) x.1 t / (Real.sqrt (normSq B c.length x.2.1 x.2.2) : ℝ))) basis v0).sum := by
  have hcols : columnsOf B c.length basis v0
      = (basis.zip v0).map fun y => ⟨(y.1.1, 1), negOf B y.1, Real.sqrt (normSq B c.length y.1.2.1 y.1.2.2), y.2, 0⟩ := by
    unfold columnsOf
    rw [← List.map_uncurry_zip_eq_zipWith]
    rfl
  have hfst : (basis.zip v0).map (·.1) = basis := List.map_fst_zip (by omega)
  have hmem : ∀ y ∈ basis.zip v0, y.1 ∈ basis := fun y hy => (List.of_mem_zip hy).1
  have hc : Cols S (columnsOf B c.length basis v0) := by
    rw [hcols]
    refine ⟨?_, ?_, ?_⟩
    · intro d hd
      rw [List.mem_map] at hd
      obtain ⟨y, hy, rfl⟩ := hd
      exact hS _ (hmem y hy)
    · intro d hd
      rw [List.mem_map] at hd
      obtain ⟨y, hy, rfl⟩ := hd
      exact Or.inl rfl
    · rw [List.pairwise_map]
      have : (basis.zip v0).Pairwise fun x y => negOf B x.1 = negOf B y.1 → x.1.1 ≠ y.1.1 := by
        rw [← hfst, List.pairwise_map] at hn
        exact hn
      exact this
  obtain ⟨f, h1, h2⟩ := runRounds_eq ha hrow (hd.undone sp) hd.moves (phaseC B c.length) hc (fun _ => 0) (rounds B c.length)
  rw [h2]
  constructor
  · rw [List.map_map, hcols, List.map_map]
    conv_rhs => rw [← hfst, List.map_map]
    apply List.map_congr_left
    intro y hy
    simp only [Function.comp_apply]
    rw [hd.back _ (hS _ (hmem y hy))]
  · intro t ht
    simp only [zero_add]
    rw [hcols, ← List.map_uncurry_zip_eq_zipWith, List.map_map]
    congr 1
    apply List.map_congr_left
    intro y hy
    simp only [Function.comp_apply, Function.uncurry]
    have hy1 := hS _ (hmem y hy)
    have e : ∀ r, ((sections sp B (bitopsOf w (stepOf B c) c)).map fun g =>
        part row (row t) g ((step (shiftOf w (c.length - stepOf B c) c))^[r] (y.1.1, 1))).sum
        = ((sections sp B (bitopsOf w (stepOf B c) c)).map fun g =>
        part (fun x => x) t g ((step (shiftOf w (c.length - stepOf B c) c))^[r] (y.1.1, 1))).sum := by
      intro r
      congr 1
      apply List.map_congr_left
      intro g hg
      have hx := hd.moves.iter r y.1.1 hy1
      generalize (step (shiftOf w (c.length - stepOf B c) c))^[r] (y.1.1, 1) = x at hx ⊢
      have hgx : S (applyOps g.apply x).1 := by
        rw [show x = (x.1, x.2) from rfl, applyOps_scale]
        exact (hd.undone sp g hg).closed _ hx
      unfold part
      by_cases h0 : (applyOps g.apply x).1 = t
      · rw [if_pos h0, if_pos (by rw [h0])]
      · rw [if_neg h0, if_neg fun h => h0 (hrow _ _ hgx ht h)]
    simp only [e]
    rw [hd.sums sp _ _ _ hy1 (hSc t ht)]
    ring

theorem zip_ofFn {α : Type} (basis : List α) (f : α → ℂ → ℂ) (v : Fin basis.length → ℂ) :
    (List.zipWith f basis (List.ofFn v)).sum = ∑ i, f basis[i] (v i) := by
  rw [← List.sum_ofFn]
  congr 1
  apply List.ext_getElem
  · simp
  · intro i h1 h2
    simp

/-- summing over inverse translations -/
theorem sum_reverse {Tr : BitOp} {n : ℕ} (hcy : Cyclic S Tr n) (s : ℕ) (hs : S s) (f f' : ℕ → ℂ) (hf : ∀ r, f r = f' ((n - 1) * r % n)) (F : ℕ × Int → ℂ) :
    ∑ r ∈ Finset.range n, f r * F (tr Tr s ((n - 1) * r)) = ∑ r ∈ Finset.range n, f' r * F (tr Tr s r) := by
  have hn := hcy.pos
  have hmod : ∀ r, tr Tr s r = tr Tr s (r % n) := fun r => by
    conv_lhs => rw [← Nat.mod_add_div r n, tr_add, tr_multiple (hcy.period s hs)]
    simp
  have hinv : ∀ r < n, (n - 1) * ((n - 1) * r % n) % n = r := fun r hr => by
    obtain ⟨m, rfl⟩ : ∃ m, n = m + 1 := ⟨n - 1, by omega⟩
    rw [Nat.add_sub_cancel, Nat.mul_mod, Nat.mod_mod, ← Nat.mul_mod, ← Nat.mul_assoc]
    have e : (m * m * r + (m + 1) * r) % (m + 1) = (r + (m + 1) * (r * m)) % (m + 1) := by congr 1; ring
    rw [Nat.add_mul_mod_self_left, Nat.add_mul_mod_self_left, Nat.mod_eq_of_lt hr] at e
    exact e
  refine Finset.sum_nbij' (fun r => (n - 1) * r % n) (fun r => (n - 1) * r % n) ?_ ?_ ?_ ?_ ?_
  · intro r _; exact Finset.mem_range.2 (Nat.mod_lt _ hn)
  · intro r _; exact Finset.mem_range.2 (Nat.mod_lt _ hn)
  · intro r hr; exact hinv r (Finset.mem_range.1 hr)
  · intro r hr; exact hinv r (Finset.mem_range.1 hr)
  · intro r _
    rw [hf, ← hmod]

/-- waves of the inverse translation -/
theorem angle_back (n k r : ℕ) (hn : 0 < n) : Real.cos (2 * Real.pi * k / n * ((n - 1) * r % n : ℕ)) = Real.cos (2 * Real.pi * k / n * r) ∧
    Real.sin (2 * Real.pi * k / n * ((n - 1) * r % n : ℕ)) = -Real.sin (2 * Real.pi * k / n * r) := by
  have hn' : (n : ℝ) ≠ 0 := by exact_mod_cast Nat.pos_iff_ne_zero.1 hn
  have e : (((n - 1) * r % n : ℕ) : ℝ) = n * (r - ((n - 1) * r / n : ℕ)) - r := by
    have h1 := Nat.mod_add_div ((n - 1) * r) n
    have h2 : (((n - 1) * r : ℕ) : ℝ) = n * r - r := by
      rw [Nat.cast_mul, Nat.cast_sub hn]; push_cast; ring
    have h3 : (((n - 1) * r % n : ℕ) : ℝ) + n * ((n - 1) * r / n : ℕ) = (((n - 1) * r : ℕ) : ℝ) := by exact_mod_cast h1
    rw [h2] at h3
    linear_combination h3
  generalize (n - 1) * r / n = q at e
  have a : 2 * Real.pi * k / n * ((n - 1) * r % n : ℕ) = -(2 * Real.pi * k / n * r) + ((k * (r - q) : ℤ) : ℝ) * (2 * Real.pi) := by
    rw [e]
    push_cast
    field_simp
    ring
  rw [a, Real.cos_add_int_mul_two_pi, Real.sin_add_int_mul_two_pi, Real.cos_neg, Real.sin_neg]
  exact ⟨rfl, rfl⟩

theorem Undone.mono {S' : ℕ → Prop} {g : Section} (h : Undone S g) (hS : ∀ t, S' t → S t) (hc : ∀ t, S' t → S' (applyOps g.apply (t, 1)).1) : Undone S' g :=
  ⟨hc, fun t ht => h.sign t (hS t ht), fun t ht => h.undo t (hS t ht), h.q⟩

end Proof.Chain

namespace Proof.Semi
open Spec Spec.Semi Model.Chain Proof.Chain
open Spec.Chain (Fits HasFlip)
open scoped BigOperators Matrix

variable {S : ℕ → Prop}

theorem part_vec {N : ℕ} (t : Fin N) (fs us : List BitOp) (q : Int) (x : ℕ × Int) :
    part (fun x => x) t ⟨fs, us, q⟩ x = (q : ℂ) * vec N (applyOps fs x) t := by
  unfold part vec basisVec
  simp only [Pi.smul_apply, smul_eq_mul]
  by_cases h : (applyOps fs x).1 = (t : ℕ)
  · rw [if_pos h, if_pos h.symm, mul_one]
  · rw [if_neg h, if_neg (Ne.symm h)]; simp

/-- what the loop adds up for translation and reflection -/
theorem loop_semi {w : Option ℕ} {B : Blocks} {c : Spec.Chain} (h : Fits w c) (hS : ∀ t, S t → t < c.size) (k T n : ℕ) (hT : 0 < T) (hn : 0 < n)
    (hL : c.length = T * n) (hk : B.k = some k) (ha : B.a = T) (hpz : B.p.isSome ∨ B.pz.isSome) (p : Int) {R : BitOp}
    (hd : Dihedral (· < c.size) (shiftOf w T c) R n) (hcl : ∀ t, S t → S (shiftOf w T c t).1)
    (fs : Bool → List BitOp) (us : List BitOp) (hfs : ∀ sp, ∀ x : ℕ × Int, x.1 < c.size → applyOps (fs sp) x = step R x)
    (hsec : ∀ sp, sections sp B (bitopsOf w T c) = [⟨[], [], 1⟩, ⟨fs sp, us, p⟩]) (hu : ∀ sp, Undone S ⟨fs sp, us, p⟩) :
    LoopSum S w B c fun neg s t => if ht : t < c.size then st c.size (shiftOf w T c) R n k p (if neg then -1 else 1) s ⟨t, ht⟩ else 0 := by
  have hTL : T ≤ c.length := by rw [hL]; exact Nat.le_mul_of_pos_right _ hn
  have hstep : stepOf B c = T := by simp [stepOf, hk, ha]
  have hr : rounds B c.length = n := by simp [rounds, hk, ha, hL, Nat.mul_div_cancel_left _ hT]
  have hcy0 : Cyclic (· < c.size) (shiftOf w T c) n := hd.cyc
  have hcy : Cyclic S (shiftOf w T c) n :=
    ⟨hn, hcl, fun s hs => hcy0.sign s (hS s hs), fun s hs => hcy0.period s (hS s hs)⟩
  have hb : ∀ t, S t → step (shiftOf w (c.length - T) c) (t, 1) = tr (shiftOf w T c) t (n - 1) := fun t ht =>
    back_tr h T n hT hn hL t (hS t ht)
  refine ⟨?_, ?_, ?_, ?_⟩
  · intro sp g hg
    rw [hstep, hsec] at hg
    simp only [List.mem_cons, List.not_mem_nil, or_false] at hg
    rcases hg with rfl | rfl
    · exact undone_id
    · exact hu sp
  · rw [hstep]; exact back_moves hcy hb
  · intro t ht
    rw [hr, hstep]
    exact back_period hcy hb t ht
  · intro sp neg s t hs ht
    rw [hr, hstep, hsec, dif_pos ht]
    have hph : ∀ r : ℕ, phaseC B c.length r neg
        = (((if (0 : Int) < (if neg then -1 else 1) then Real.cos (2 * Real.pi * k / n * ((n - 1) * r % n : ℕ)) else Real.sin (2 * Real.pi * k / n * ((n - 1) * r % n : ℕ)) : ℝ)) : ℂ) := by
      intro r
      obtain ⟨a1, a2⟩ := angle_back n k r hn
      rw [a1, a2]
      unfold phaseC
      rw [if_pos ⟨by rw [hk]; rfl, hpz⟩]
      simp only [hk, ha]
      rw [hL, wave_eq hT hn]
      cases neg <;> simp
    have hsum : ∀ x : ℕ × Int, x.1 < c.size → (([⟨[], [], 1⟩, ⟨fs sp, us, p⟩] : List Section).map fun g => part (fun x => x) t g x).sum
        = ((1 + (p : ℂ) • opMat c.size R) *ᵥ vec c.size x) ⟨t, ht⟩ := by
      intro x hx
      simp only [List.map_cons, List.map_nil, List.sum_cons, List.sum_nil, add_zero]
      have e1 := part_vec (N := c.size) ⟨t, ht⟩ [] [] 1 x
      have e2 := part_vec (N := c.size) ⟨t, ht⟩ (fs sp) us p x
      rw [hfs sp x hx] at e2
      simp only at e1 e2
      rw [e1, e2, Matrix.add_mulVec, Matrix.one_mulVec, Matrix.smul_mulVec, opMat_vec _ _ hx]
      simp [applyOps]
    obtain ⟨F, hF⟩ : ∃ F : ℕ × Int → ℂ, ∀ x, F x = ((1 + (p : ℂ) • opMat c.size R) *ᵥ vec c.size x) ⟨t, ht⟩ := ⟨_, fun _ => rfl⟩
    have e3 : ∀ r ∈ Finset.range n, phaseC B c.length r neg * (([⟨[], [], 1⟩, ⟨fs sp, us, p⟩] : List Section).map fun g =>
        part (fun x => x) t g ((step (shiftOf w (c.length - T) c))^[r] (s, 1))).sum
        = phaseC B c.length r neg * F (tr (shiftOf w T c) s ((n - 1) * r)) := by
      intro r _
      rw [back_iter hcy hb r s hs, hsum _ (hcy0.closed_iter (hS s hs) _), hF]
    have e5 := sum_reverse hcy s hs (fun r => phaseC B c.length r neg)
      (fun r => (((if (0 : Int) < (if neg then -1 else 1) then Real.cos (2 * Real.pi * k / n * r) else Real.sin (2 * Real.pi * k / n * r) : ℝ)) : ℂ)) hph F
    rw [Finset.sum_congr rfl e3, e5]
    rw [← state_eq hn]
    unfold state
    have e4 : ∀ r, vec c.size (tr (shiftOf w T c) s r) = opMat c.size (shiftOf w T c) ^ r *ᵥ basisVec c.size s := by
      intro r
      rw [← vec_one, pow_vec hcy0 _ _ (by exact hS s hs)]
    simp only [hF, e4]
    rw [Matrix.mulVec_mulVec, Finset.mul_sum, Matrix.sum_mulVec, Finset.sum_apply]
    refine Finset.sum_congr rfl fun r _ => ?_
    rw [Matrix.mul_smul, Matrix.smul_mulVec, Matrix.mulVec_mulVec]
    rfl

/-! ### the numbers stored and the norms -/

theorem semi_code {Tr Z : BitOp} {n : ℕ} (h : Dihedral S Tr Z n) {p : Int} {k L T s : ℕ} (hs : S s) {d : Int × ℕ}
    (hd : d ∈ keepT_P (checkT_Z Tr Z k L T) p k L T s) : d.2 ≤ L / T + L + 1 ∧ d.2 / (L + 1) ≤ 1 := by
  have hLT : L / T ≤ L := Nat.div_le_self _ _
  have hb : (checkT_Z Tr Z k L T s).1 ≤ 0 ∨ (checkT_Z Tr Z k L T s).2.1 < (L / T : ℕ) ∧ (checkT_Z Tr Z k L T s).2.2 ≤ 1 := by
    unfold checkT_Z
    split
    · left; norm_num
    · split
      · left; norm_num
      · rename_i r sg hr
        have h1 := translates_lt _ _ _ hr
        split
        · left; norm_num
        · rename_i m sg' hm
          right
          have h2 := transformed_lt _ _ _ hm
          have h3 := transformed_pm h.cyc.closed h.cyc.sign _ _ _ (show S (step Z (s, 1)).1 from h.closed s hs) (by
            show 1 * (Z s).2 = 1 ∨ 1 * (Z s).2 = -1
            rw [one_mul]; exact h.sign s hs) hm
          simp only
          omega
        · right; simp only; omega
      · split
        · left; norm_num
        · left; norm_num
        · left; norm_num
  have key : d.2 ≤ L / T + L + 1 := by
    unfold keepT_P at hd
    simp only at hd
    generalize checkT_Z Tr Z k L T s = R at hd hb
    by_cases hR : R.1 > 0
    swap
    · rw [if_neg hR] at hd; simp at hd
    rw [if_pos hR] at hd
    obtain ⟨h1, h2⟩ := hb.resolve_left (by omega)
    by_cases hm : R.2.1 ≠ -1
    · rw [if_pos hm, List.mem_filterMap] at hd
      obtain ⟨σ, _, hσ⟩ := hd
      split at hσ
      · cases hσ
      · cases hσ
        simp only
        have h3 : (R.2.2 + 1) / 2 ≤ 1 := by omega
        generalize L / T = q at *
        have h4 : ((L : Int) + 1) * ((R.2.2 + 1) / 2) ≤ ((L : Int) + 1) * 1 := by
          apply mul_le_mul_of_nonneg_left h3; omega
        omega
    · rw [if_neg hm, List.mem_map] at hd
      obtain ⟨σ, _, hσ⟩ := hd
      cases hσ
      simp
  refine ⟨key, ?_⟩
  have : d.2 < (L + 1) * 2 := by omega
  have := Nat.div_lt_of_lt_mul this
  omega

/-- the sign of the code -/
theorem code_sign {L : ℕ} {d : Int × ℕ} (h1 : d.2 / (L + 1) ≤ 1) (hm : 0 ≤ mmOf L d) (hd : d.1 ≠ 0) :
    ((2 * ((d.2 / (L + 1) : ℕ) : Int) - 1) * d.1).sign = fOf L d * sigmaOf d := by
  unfold fOf sigmaOf
  rw [if_pos hm]
  generalize d.2 / (L + 1) = q at h1 ⊢
  have : (q : Int) = 0 ∨ (q : Int) = 1 := by omega
  rcases this with e | e <;> rw [e]
  · rw [show (2 * 0 - 1 : Int) * d.1 = -d.1 by ring, Int.sign_neg]
    by_cases h : d.1 > 0
    · rw [if_pos h, Int.sign_eq_one_of_pos h]; rfl
    · rw [if_neg h, Int.sign_eq_neg_one_of_neg (by omega)]; rfl
  · rw [show (2 * 1 - 1 : Int) * d.1 = d.1 by ring]
    by_cases h : d.1 > 0
    · rw [if_pos h, Int.sign_eq_one_of_pos h]; rfl
    · rw [if_neg h, Int.sign_eq_neg_one_of_neg (by omega)]; rfl

theorem sign_sigma {d : Int × ℕ} (hd : d.1 ≠ 0) : d.1.sign = sigmaOf d := by
  unfold sigmaOf
  by_cases h : d.1 > 0
  · rw [if_pos h, Int.sign_eq_one_of_pos h]
  · rw [if_neg h, Int.sign_eq_neg_one_of_neg (by omega)]

/-- momenta 0 and π -/
theorem kappa_eq {n k T : ℕ} (hT : 0 < T) (hn : 0 < n) (hk : k < n) : kappa n k = if 2 * k = n ∨ k = 0 then 2 else 1 := by
  unfold kappa
  have : om n k ^ 2 = 1 ↔ 2 * k = n ∨ k = 0 := by
    rw [om_real (T := T) hT hn, show 2 * k * T = T * (2 * k) by ring]
    constructor
    · intro h
      have h1 : n ∣ 2 * k := by
        have := Nat.dvd_of_mod_eq_zero h
        exact (Nat.mul_dvd_mul_iff_left hT).1 this
      obtain ⟨j, hj⟩ := h1
      have : j = 0 ∨ j = 1 := by
        rcases Nat.lt_or_ge j 2 with h | h
        · omega
        · have : n * 2 ≤ n * j := Nat.mul_le_mul_left n h
          omega
      rcases this with rfl | rfl
      · right; omega
      · left; omega
    · rintro (h | h)
      · rw [h, Nat.mod_self]
      · rw [h]; simp
  simp only [this]

theorem norm_common {n k T : ℕ} (hT : 0 < T) (p : Int) {L : ℕ} (hL : L = T * n) {d : Int × ℕ} (h1 : d.2 / (L + 1) ≤ 1) (hd : d.1 ≠ 0) (A : ℝ) :
    A * ((L : ℝ) / T) ^ 2 * d.1.sign / d.1 * (if mmOf L d ≥ 0 then 1 + (((2 * ((d.2 / (L + 1) : ℕ) : Int) - 1) * d.1).sign : ℝ) * p * Real.cos (wave k L T * mmOf L d) else 1)
      = A * n ^ 2 * weightT_P p k L T d := by
  have hT' : (T : ℝ) ≠ 0 := by exact_mod_cast Nat.pos_iff_ne_zero.1 hT
  have hd' : (d.1 : ℝ) ≠ 0 := by exact_mod_cast hd
  have e : (L : ℝ) / T = n := by rw [hL]; push_cast; field_simp
  rw [e, sign_sigma hd]
  unfold weightT_P
  by_cases hm : mmOf L d ≥ 0
  · rw [if_pos hm, if_pos hm, code_sign h1 hm hd]
    push_cast
    field_simp
  · rw [if_neg hm, if_neg hm]
    field_simp

/-- `_get_norms` for momentum and reflection -/
theorem norm_reflection {n k T : ℕ} (hT : 0 < T) (hn : 0 < n) (hk : k < n) (ha : T = 1 ∨ 2 * k ≠ n) (p : Int) {L : ℕ} (hL : L = T * n) {d : Int × ℕ}
    (h1 : d.2 / (L + 1) ≤ 1) (hd : d.1 ≠ 0) : normSq { a := T, k := some k, p := some p } L d.1 d.2 = kappa n k * n ^ 2 * weightT_P p k L T d := by
  rw [← norm_common hT p hL h1 hd, kappa_eq hT hn hk]
  have hc : (2 * k = L ∨ k = 0) ↔ (2 * k = n ∨ k = 0) := by
    rw [hL]
    rcases ha with rfl | ha
    · rw [one_mul]
    · constructor
      · rintro (h | h)
        · exfalso
          rcases Nat.lt_or_ge T 2 with h2 | h2
          · obtain rfl : T = 1 := by omega
            omega
          · have : 2 * n ≤ T * n := Nat.mul_le_mul_right n h2
            omega
        · exact Or.inr h
      · rintro (h | h)
        · exact absurd h ha
        · exact Or.inr h
  unfold normSq
  simp only [Option.isSome_some, Option.isSome_none, Option.getD_some, Bool.false_eq_true, and_false, and_self, if_false, if_true, hc]
  have hm : (((d.2 % (L + 1) : ℕ) : Int) - 1) = mmOf L d := rfl
  simp only [hm]
  congr 3
  split_ifs <;> ring

theorem sin_small {n k : ℕ} (hn : 0 < n) (hk : k < n) {L : ℕ} (hL : n ≤ L) : |Real.sin (2 * Real.pi * k / n)| < 1 / L ↔ 2 * k = n ∨ k = 0 := by
  have hn' : (0 : ℝ) < n := by exact_mod_cast hn
  have hL' : (0 : ℝ) < L := by exact_mod_cast lt_of_lt_of_le hn hL
  have hpi := Real.pi_pos
  constructor
  · intro h
    by_contra hne
    push Not at hne
    obtain ⟨h1, h2⟩ := hne
    have low : ∀ j : ℕ, 0 < j → 2 * j < n → (1 : ℝ) / L < Real.sin (2 * Real.pi * j / n) := by
      intro j hj hjn
      have hj1 : (1 : ℝ) ≤ j := by exact_mod_cast hj
      have hjn1 : (2 : ℝ) * j + 1 ≤ n := by exact_mod_cast hjn
      have hLn : (1 : ℝ) / L ≤ 1 / n := one_div_le_one_div_of_le hn' (by exact_mod_cast hL)
      refine lt_of_le_of_lt hLn ?_
      rcases le_total (4 * j) n with h4 | h4
      · have h4' : (4 : ℝ) * j ≤ n := by exact_mod_cast h4
        have hx : 2 * Real.pi * j / n ≤ Real.pi / 2 := by rw [div_le_div_iff₀ hn' two_pos]; nlinarith
        have := Real.mul_le_sin (x := 2 * Real.pi * j / n) (by positivity) hx
        refine lt_of_lt_of_le ?_ this
        have e : 2 / Real.pi * (2 * Real.pi * j / n) = 4 * j / n := by field_simp; ring
        rw [e, div_lt_div_iff_of_pos_right hn']
        linarith
      · have h4' : (n : ℝ) ≤ 4 * j := by exact_mod_cast h4
        have e : Real.sin (2 * Real.pi * j / n) = Real.sin (Real.pi * (n - 2 * j) / n) := by
          rw [← Real.sin_pi_sub]; congr 1; field_simp
        have hx : Real.pi * (n - 2 * j) / n ≤ Real.pi / 2 := by rw [div_le_div_iff₀ hn' two_pos]; nlinarith
        have := Real.mul_le_sin (x := Real.pi * (n - 2 * j) / n) (by
          apply div_nonneg _ hn'.le
          apply mul_nonneg hpi.le
          linarith) hx
        rw [e]
        refine lt_of_lt_of_le ?_ this
        have e : 2 / Real.pi * (Real.pi * (n - 2 * j) / n) = 2 * (n - 2 * j) / n := by field_simp
        rw [e, div_lt_div_iff_of_pos_right hn']
        linarith
    rcases Nat.lt_or_ge (2 * k) n with h3 | h3
    · have := low k (by omega) h3
      have := le_abs_self (Real.sin (2 * Real.pi * k / n))
      linarith
    · have := low (n - k) (by omega) (by omega)
      have e : Real.sin (2 * Real.pi * (n - k : ℕ) / n) = -Real.sin (2 * Real.pi * k / n) := by
        rw [Nat.cast_sub hk.le, ← Real.sin_neg, ← Real.sin_add_two_pi (-(2 * Real.pi * k / n))]
        congr 1
        field_simp
        ring
      rw [e] at this
      have := neg_le_abs (Real.sin (2 * Real.pi * k / n))
      linarith
  · rintro (h | h)
    · have e : 2 * Real.pi * k / n = Real.pi := by
        have : (2 : ℝ) * k = n := by exact_mod_cast h
        rw [div_eq_iff hn'.ne', ← this]; ring
      rw [e, Real.sin_pi, abs_zero]; positivity
    · rw [h]; simp; exact_mod_cast lt_of_lt_of_le hn hL

/-- `_get_norms` for momentum and the product -/
theorem norm_product {n k T : ℕ} (hT : 0 < T) (hn : 0 < n) (hk : k < n) (p : Int) {L : ℕ} (hL : L = T * n) {d : Int × ℕ}
    (h1 : d.2 / (L + 1) ≤ 1) (h2 : d.2 < 128) (hd : d.1 ≠ 0) :
    normSq { a := T, k := some k, pz := some p } L d.1 d.2 = kappa n k * n ^ 2 * weightT_P p k L T d := by
  rw [← norm_common hT p hL h1 hd, kappa_eq hT hn hk]
  have hc : |Real.sin (wave k L T)| < 1 / L ↔ (2 * k = n ∨ k = 0) := by
    rw [hL, wave_eq hT hn]
    exact sin_small hn hk (Nat.le_mul_of_pos_left _ hT)
  have h8 : int8 (d.2 : Int) = d.2 := by unfold int8; omega
  have hm : int8 (d.2 : Int) % ((L : Int) + 1) - 1 = mmOf L d := by
    rw [h8]; unfold mmOf; push_cast; rfl
  unfold normSq
  simp only [Option.isSome_some, Option.isSome_none, Option.getD_some, Bool.false_eq_true, and_false, and_self, if_false, if_true, hc, hm]
  congr 3
  split_ifs <;> ring

end Proof.Semi
