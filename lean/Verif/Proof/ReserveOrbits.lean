import Verif.Proof.ThreeKeep
/-! The states that are kept in blocks of momentum and reflections: their translates, and those of the reflected state if two entries are kept, do not meet. -/
namespace Proof.Semi
open Spec Spec.Semi Model.Chain Proof.Chain
open scoped ComplexConjugate

variable {N : ℕ} {Tr P Z : BitOp} {n k T : ℕ} {p z : Int}

theorem hit_zero (h : Dihedral (· < N) Tr Z n) {s r : ℕ} (hs : s < N) (hh : Hit Tr Z (om n k) s r 0 0) : ∀ c, (tr Tr (Z s).1 c).1 ≠ s := by
  rcases hh.cases with ⟨m, f, _, _, hf, e⟩ | ⟨h1, _⟩
  · exfalso
    have hf0 : f ≠ 0 := by
      rw [hf]
      rcases h.sign s hs with a | a <;> rcases h.cyc.sign_iter (h.closed s hs) m with b | b <;> rw [a, b] <;> norm_num
    have ho : om n k ≠ 0 := by unfold om; exact Complex.exp_ne_zero _
    have : (f : ℂ) * om n k ^ m = 0 := by rw [← e]; simp
    rcases mul_eq_zero.1 this with e' | e'
    · exact hf0 (by exact_mod_cast e')
    · exact pow_ne_zero _ ho e'
  · exact h1

/-- at most two entries, for the largest state of an orbit, and two only if the reflected state is not a translate -/
theorem two_entries (h : Dihedral (· < N) Tr Z n) (hT : 0 < T) (hp : p = 1 ∨ p = -1) {s : ℕ} (hs : s < N) :
    let keep := keepT_P (checkT_Z Tr Z k (T * n) T) p k (T * n) T s
    (keep ≠ [] → Top Tr Z s) ∧ keep.length ≤ 2 ∧ (1 < keep.length → ∀ c, (tr Tr (Z s).1 c).1 ≠ s) := by
  intro keep
  obtain ⟨r, hr, _⟩ := exists_least h.cyc hs
  obtain ⟨a1, a2⟩ := keep_cases (k := k) h hT hp hs hr
  by_cases hg : Top Tr Z s ∧ (conj (om n k)) ^ r * (tr Tr s r).2 = 1
  swap
  · have e : keep = [] := a1 hg
    rw [e]
    simp
  refine ⟨fun _ => hg.1, ?_⟩
  rcases a2 hg with ⟨γ, δ, _, _, e, _, _, _, _, _, hk⟩ | ⟨hh, hk⟩
  · have hl : keep.length ≤ 1 := by
      rcases hk with ⟨_, hk⟩ | ⟨_, hk⟩
      · have hk' : keep = _ := hk
        rw [hk']; split_ifs <;> simp
      · have hk' : keep = _ := hk
        rw [hk']; simp
    exact ⟨by omega, fun h => by omega⟩
  · refine ⟨?_, fun _ => hit_zero h hs hh⟩
    have hk' : keep = _ := hk
    rw [hk']; split_ifs <;> simp

/-- reachable with translations, the reflection and the inversion -/
def Orb3 (Tr P Z : BitOp) (s x : ℕ) : Prop :=
  ∃ j, (tr Tr s j).1 = x ∨ (tr Tr (P s).1 j).1 = x ∨ (tr Tr (Z s).1 j).1 = x ∨ (tr Tr (andThen P Z s).1 j).1 = x

section
variable {S : ℕ → Prop} (h : Triad S Tr P Z n)
include h

omit h in
theorem triad_orb_tr {s x : ℕ} (ho : Orb3 Tr P Z s x) (c : ℕ) : Orb3 Tr P Z s (tr Tr x c).1 := by
  obtain ⟨j, e | e | e | e⟩ := ho <;> subst e <;> refine ⟨c + j, ?_⟩
  · left; exact Proof.Chain.Triad.tr_join _ _ _
  · right; left; exact Proof.Chain.Triad.tr_join _ _ _
  · right; right; left; exact Proof.Chain.Triad.tr_join _ _ _
  · right; right; right; exact Proof.Chain.Triad.tr_join _ _ _

theorem _root_.Proof.Chain.Triad.refl_tr {y : ℕ} (hy : S y) (j : ℕ) : (P (tr Tr y j).1).1 = (tr Tr (P y).1 (n * j - j)).1 := by
  have := congrArg Prod.fst (h.dih.reflect_tr (y, 1) hy j)
  rw [iter_fst] at this
  exact this

theorem _root_.Proof.Chain.Triad.refl_refl {y : ℕ} (hy : S y) : (P (P y).1).1 = y := congrArg Prod.fst (h.dih.square y hy)

theorem _root_.Proof.Chain.Triad.refl_inv {y : ℕ} (hy : S y) : (P (Z y).1).1 = (Z (P y).1).1 := by
  have := congrArg Prod.fst (h.commP y hy)
  exact this

theorem _root_.Proof.Chain.Triad.orb_refl {s x : ℕ} (hs : S s) (ho : Orb3 Tr P Z s x) : Orb3 Tr P Z s (P x).1 := by
  have hP := h.dih.closed s hs
  have hZ := h.closed s hs
  obtain ⟨j, e | e | e | e⟩ := ho <;> subst e <;> refine ⟨n * j - j, ?_⟩
  · right; left; exact (h.refl_tr hs j).symm
  · left; rw [h.refl_tr hP j, h.refl_refl hs]
  · right; right; right; rw [h.refl_tr hZ j, h.refl_inv hs]; rfl
  · right; right; left
    have : (andThen P Z s).1 = (Z (P s).1).1 := rfl
    rw [this, h.refl_tr (h.closed _ hP) j, h.refl_inv hP, h.refl_refl hs]

theorem _root_.Proof.Chain.Triad.orb_inv {s x : ℕ} (hs : S s) (ho : Orb3 Tr P Z s x) : Orb3 Tr P Z s (Z x).1 := by
  have hP := h.dih.closed s hs
  have hZ := h.closed s hs
  obtain ⟨j, e | e | e | e⟩ := ho <;> subst e <;> refine ⟨j, ?_⟩
  · right; right; left; exact h.tr_inv hs j
  · right; right; right; exact h.tr_prod hs j
  · left; rw [← h.tr_inv hZ, h.inv_inv hs]
  · right; left
    have : (andThen P Z s).1 = (Z (P s).1).1 := rfl
    rw [this, ← h.tr_inv (h.closed _ hP), h.inv_inv hP]

end

/-- the entries for a block with all three symmetries: the reflection, or its product with the inversion, gives the second one -/
theorem three_entries (h : Triad (· < N) Tr P Z n) (hT : 0 < T) (hp : p = 1 ∨ p = -1) (hz : z = 1 ∨ z = -1) {s : ℕ} (hs : s < N) :
    let keep := keepT_P_Z Tr P Z p z k (T * n) T s
    (keep ≠ [] → Top3 Tr P Z s) ∧ keep.length ≤ 2 ∧
      ∃ R : BitOp, (R = P ∨ R = andThen P Z) ∧ (1 < keep.length → ∀ c, (tr Tr (R s).1 c).1 ≠ s) := by
  intro keep
  obtain ⟨r, hr, _⟩ := exists_least h.dih.cyc hs
  obtain ⟨a1, a2⟩ := three_cases (k := k) (p := p) h hT hz hs hr
  by_cases hg : Top3 Tr P Z s ∧ (conj (om n k)) ^ r * (tr Tr s r).2 = 1
  swap
  · have e : keep = [] := a1 hg
    rw [e]
    exact ⟨fun h => absurd rfl h, by simp, P, Or.inl rfl, by simp⟩
  refine ⟨fun _ => hg.1, ?_⟩
  obtain ⟨R, pR, M, hR, hk⟩ := a2 hg
  have hpR : pR = 1 ∨ pR = -1 := by
    rcases hR with ⟨_, e⟩ | ⟨_, e⟩ <;> rw [e]
    · exact hp
    · rcases hp with rfl | rfl <;> rcases hz with rfl | rfl <;> simp
  have hd : Dihedral (· < N) Tr R n := by
    rcases hR with ⟨e, _⟩ | ⟨e, _⟩ <;> rw [e]
    · exact h.dih
    · exact h.prodDih
  have ht := two_entries (k := k) (T := T) hd hT hpR hs
  have hcases : keep = [] ∨ keep = (keepT_P (checkT_Z Tr R k (T * n) T) pR k (T * n) T s).map (fun d => (d.1, M)) := by
    rcases hk with ⟨_, e, _⟩ | ⟨_, _, _, _, ⟨_, e⟩ | ⟨_, e, _⟩⟩
    · exact Or.inr e
    · exact Or.inl e
    · exact Or.inr e
  rcases hcases with e | e
  · rw [e]
    exact ⟨by simp, P, Or.inl rfl, by simp⟩
  · rw [e, List.length_map]
    exact ⟨ht.2.1, R, hR.imp (·.1) (·.1), ht.2.2⟩

end Proof.Semi
