import Verif.Proof.SemiVec
import Verif.Proof.ThreeBasis
/-! The loop of `project_from` and the norms for blocks of momentum, reflection and inversion. -/
namespace Proof.Semi
open Spec Spec.Semi Model.Chain Proof.Chain
open Spec.Chain (Fits HasFlip)
open scoped BigOperators Matrix

variable {S : ℕ → Prop}

/-- what the loop adds up for translation, reflection and inversion -/
theorem loop_three {w : Option ℕ} {B : Blocks} {c : Spec.Chain} (h : Fits w c) (hS : ∀ t, S t → t < c.size) (k T n : ℕ) (hT : 0 < T) (hn : 0 < n)
    (hL : c.length = T * n) (hk : B.k = some k) (ha : B.a = T) (hpz : B.p.isSome ∨ B.pz.isSome) (p z : Int) {P Z : BitOp}
    (hd : Triad (· < c.size) (shiftOf w T c) P Z n) (hcl : ∀ t, S t → S (shiftOf w T c t).1)
    (fs : Bool → List BitOp) (us : List BitOp) (hfs : ∀ sp, ∀ x : ℕ × Int, x.1 < c.size → applyOps (fs sp) x = step Z (step P x))
    (hsec : ∀ sp, sections sp B (bitopsOf w T c) = [⟨[], [], 1⟩, ⟨[Z], [Z], z⟩, ⟨[P], [P], p⟩, ⟨fs sp, us, p * z⟩])
    (hu : ∀ sp, ∀ g ∈ ([⟨[Z], [Z], z⟩, ⟨[P], [P], p⟩, ⟨fs sp, us, p * z⟩] : List Section), Undone S g) :
    LoopSum S w B c fun neg s t => if ht : t < c.size then st3 c.size (shiftOf w T c) P Z n k p z (if neg then -1 else 1) s ⟨t, ht⟩ else 0 := by
  have hTL : T ≤ c.length := by rw [hL]; exact Nat.le_mul_of_pos_right _ hn
  have hstep : stepOf B c = T := by simp [stepOf, hk, ha]
  have hr : rounds B c.length = n := by simp [rounds, hk, ha, hL, Nat.mul_div_cancel_left _ hT]
  have hcy0 : Cyclic (· < c.size) (shiftOf w T c) n := hd.dih.cyc
  have hcy : Cyclic S (shiftOf w T c) n :=
    ⟨hn, hcl, fun s hs => hcy0.sign s (hS s hs), fun s hs => hcy0.period s (hS s hs)⟩
  have hb : ∀ t, S t → step (shiftOf w (c.length - T) c) (t, 1) = tr (shiftOf w T c) t (n - 1) := fun t ht =>
    back_tr h T n hT hn hL t (hS t ht)
  refine ⟨?_, ?_, ?_, ?_⟩
  · intro sp g hg
    rw [hstep, hsec] at hg
    rcases List.mem_cons.1 hg with rfl | hg
    · exact undone_id
    · exact hu sp g hg
  · rw [hstep]; exact back_moves hcy hb
  · intro t ht
    rw [hr, hstep]
    exact back_period hcy hb t ht
  · intro sp neg s t hs ht
    rw [hr, hstep, hsec, dif_pos ht]
    have hph : ∀ r : ℕ, phaseC B c.length r neg
        = (((if (0 : Int) < (if neg then -1 else 1) then Real.cos (2 * Real.pi * k / n * ((n - 1) * r % n : ℕ)) else Real.sin (2 * Real.pi * k / n * ((n - 1) * r % n : ℕ)) : ℝ)) : ℂ) := by
      intro r
      obtain ⟨a1, a2⟩ := angle_back n k r hn
      rw [a1, a2]
      unfold phaseC
      rw [if_pos ⟨by rw [hk]; rfl, hpz⟩]
      simp only [hk, ha]
      rw [hL, wave_eq hT hn]
      cases neg <;> simp
    have hsum : ∀ x : ℕ × Int, x.1 < c.size → (([⟨[], [], 1⟩, ⟨[Z], [Z], z⟩, ⟨[P], [P], p⟩, ⟨fs sp, us, p * z⟩] : List Section).map fun g => part (fun x => x) t g x).sum
        = ((kMat c.size Z z * (1 + (p : ℂ) • opMat c.size P)) *ᵥ vec c.size x) ⟨t, ht⟩ := by
      intro x hx
      simp only [List.map_cons, List.map_nil, List.sum_cons, List.sum_nil, add_zero]
      have e1 := part_vec (N := c.size) ⟨t, ht⟩ [] [] 1 x
      have e2 := part_vec (N := c.size) ⟨t, ht⟩ [Z] [Z] z x
      have e3 := part_vec (N := c.size) ⟨t, ht⟩ [P] [P] p x
      have e4 := part_vec (N := c.size) ⟨t, ht⟩ (fs sp) us (p * z) x
      rw [hfs sp x hx] at e4
      simp only at e1 e2 e3 e4
      have hPx : (step P x).1 < c.size := hd.dih.closed x.1 hx
      rw [e1, e2, e3, e4, ← Matrix.mulVec_mulVec, kMat, Matrix.add_mulVec, Matrix.add_mulVec, Matrix.one_mulVec, Matrix.one_mulVec, Matrix.smul_mulVec, Matrix.smul_mulVec,
        opMat_vec _ x hx, Matrix.mulVec_add, Matrix.mulVec_smul, opMat_vec _ x hx, opMat_vec _ (step P x) hPx]
      simp [applyOps]
      ring
    obtain ⟨F, hF⟩ : ∃ F : ℕ × Int → ℂ, ∀ x, F x = ((kMat c.size Z z * (1 + (p : ℂ) • opMat c.size P)) *ᵥ vec c.size x) ⟨t, ht⟩ := ⟨_, fun _ => rfl⟩
    have e3 : ∀ r ∈ Finset.range n, phaseC B c.length r neg * (([⟨[], [], 1⟩, ⟨[Z], [Z], z⟩, ⟨[P], [P], p⟩, ⟨fs sp, us, p * z⟩] : List Section).map fun g =>
        part (fun x => x) t g ((step (shiftOf w (c.length - T) c))^[r] (s, 1))).sum
        = phaseC B c.length r neg * F (tr (shiftOf w T c) s ((n - 1) * r)) := by
      intro r _
      rw [back_iter hcy hb r s hs, hsum _ (hcy0.closed_iter (hS s hs) _), hF]
    have e5 := sum_reverse hcy s hs (fun r => phaseC B c.length r neg)
      (fun r => (((if (0 : Int) < (if neg then -1 else 1) then Real.cos (2 * Real.pi * k / n * r) else Real.sin (2 * Real.pi * k / n * r) : ℝ)) : ℂ)) hph F
    rw [Finset.sum_congr rfl e3, e5]
    unfold st3
    rw [← state_eq hn]
    unfold state
    have e4 : ∀ r, vec c.size (tr (shiftOf w T c) s r) = opMat c.size (shiftOf w T c) ^ r *ᵥ basisVec c.size s := by
      intro r
      rw [← vec_one, pow_vec hcy0 _ _ (by exact hS s hs)]
    simp only [hF, e4]
    rw [Matrix.mulVec_mulVec, Matrix.mulVec_mulVec, Finset.mul_sum, Matrix.sum_mulVec, Finset.sum_apply]
    refine Finset.sum_congr rfl fun r _ => ?_
    rw [Matrix.mul_smul, Matrix.smul_mulVec, Matrix.mulVec_mulVec]
    rfl

/-- `_get_norms` for momentum, reflection and inversion, while the number of the return under inversion can be read from the code -/
theorem norm_three {n k T : ℕ} (hT : 0 < T) (hn : 0 < n) (hk : k < n) (p z : Int) {L : ℕ} (hL : L = T * n) (h127 : L ≤ 127) {d : Int × ℕ}
    (h1 : d.2 < 11 * (L + 1) ^ 2) (h2 : d.2 / (L + 1) < 128 ∨ codeOf3 L d ∈ [0, 1, 2, 5, 6]) (hd : d.1 ≠ 0) :
    normSq { a := T, k := some k, p := some p, z := some z, pz := some (p * z) } L d.1 d.2 = 2 * (kappa n k * n ^ 2) * weightT_P_Z p z k L T d := by
  have hT' : (T : ℝ) ≠ 0 := by exact_mod_cast Nat.pos_iff_ne_zero.1 hT
  have hd' : (d.1 : ℝ) ≠ 0 := by exact_mod_cast hd
  have e : (L : ℝ) / T = n := by rw [hL]; push_cast; field_simp
  have hc : |Real.sin (wave k L T)| < 1 / L ↔ (2 * k = n ∨ k = 0) := by
    rw [hL, wave_eq hT hn]
    exact sin_small hn hk (Nat.le_mul_of_pos_left _ hT)
  have hcode : d.2 / (L + 1) ^ 2 = codeOf3 L d := by unfold codeOf3; rw [Nat.div_div_eq_div_mul, sq]
  have hc11 : codeOf3 L d < 11 := by rw [← hcode]; exact Nat.div_lt_of_lt_mul (by rw [Nat.mul_comm]; exact h1)
  have h8c : int8 ((d.2 / (L + 1) ^ 2 : ℕ) : Int) = (codeOf3 L d : ℕ) := by rw [hcode]; unfold int8; omega
  have hmm : d.2 % (L + 1) = mmOf3 L d := rfl
  have hlt : mmOf3 L d < L + 1 := Nat.mod_lt _ (Nat.succ_pos _)
  have h8m : int8 ((d.2 % (L + 1) : ℕ) : Int) = (mmOf3 L d : ℕ) := by rw [hmm]; unfold int8; omega
  have h8n : d.2 / (L + 1) < 128 → int8 ((d.2 / (L + 1) : ℕ) : Int) % ((L : Int) + 1) = (nnOf3 L d : ℕ) := by
    intro h
    unfold nnOf3
    generalize d.2 / (L + 1) = x at h
    have : int8 (x : Int) = x := by unfold int8; omega
    rw [this]; push_cast; rfl
  rw [kappa_eq hT hn hk]
  unfold normSq weightT_P_Z fOf3 gOf3
  simp only [Option.isSome_some, Option.getD_some, and_self, if_true, hc, h8c, h8m, sign_sigma hd, e]
  have hpre : (if 2 * k = n ∨ k = 0 then 4 * (n : ℝ) ^ 2 else 2 * (n : ℝ) ^ 2) = 2 * ((if 2 * k = n ∨ k = 0 then 2 else 1) * (n : ℝ) ^ 2) := by
    split_ifs <;> ring
  rw [hpre]
  generalize hA : 2 * ((if 2 * k = n ∨ k = 0 then (2 : ℝ) else 1) * (n : ℝ) ^ 2) = A
  generalize int8 ((d.2 / (L + 1) : ℕ) : Int) % ((L : Int) + 1) = ν at h8n ⊢
  generalize d.2 / (L + 1) = y at h2 h8n
  have hcs : codeOf3 L d = 0 ∨ codeOf3 L d = 1 ∨ codeOf3 L d = 2 ∨ codeOf3 L d = 3 ∨ codeOf3 L d = 4 ∨ codeOf3 L d = 5 ∨ codeOf3 L d = 6 ∨ codeOf3 L d = 7 ∨
      codeOf3 L d = 8 ∨ codeOf3 L d = 9 ∨ codeOf3 L d = 10 := by omega
  rcases hcs with h | h | h | h | h | h | h | h | h | h | h <;> simp only [h] at h2 ⊢ <;> norm_num at h2 ⊢ <;> (try rw [h8n h2]) <;> push_cast <;> field_simp <;> (try ring)

end Proof.Semi
