import Verif.Proof.SemiChain
import Verif.Model.SemiThree
/-! Translations, a reflection and an inversion: orbits, representatives and the test of the code. -/
namespace Proof.Chain
open Spec Model.Chain Proof.Symmetry

variable {S : ℕ → Prop} {Tr P Z : BitOp} {n : ℕ}

/-- a translation, a reflection that turns it into its inverse, and an inversion that commutes with both -/
structure Triad (S : ℕ → Prop) (Tr P Z : BitOp) (n : ℕ) : Prop where
  dih : Dihedral S Tr P n
  closed : ∀ s, S s → S (Z s).1
  sign : ∀ s, S s → (Z s).2 = 1 ∨ (Z s).2 = -1
  square : ∀ s, S s → step Z (step Z (s, 1)) = (s, 1)
  commT : ∀ s, S s → step Tr (step Z (s, 1)) = step Z (step Tr (s, 1))
  commP : ∀ s, S s → step P (step Z (s, 1)) = step Z (step P (s, 1))

theorem step_andThen (f g : BitOp) (x : ℕ × Int) : step (andThen f g) x = step g (step f x) := by
  obtain ⟨t, a⟩ := x
  unfold andThen step; simp [mul_assoc]

theorem step_comm_of {f g : BitOp} {t : ℕ} (h : step f (step g (t, 1)) = step g (step f (t, 1))) (a : Int) :
    step f (step g (t, a)) = step g (step f (t, a)) := by
  have sc : ∀ f g : BitOp, step f (step g (t, a)) = ((step f (step g (t, 1))).1, a * (step f (step g (t, 1))).2) := by
    intro f g; unfold step; simp [mul_assoc]
  rw [sc, h, ← sc]

/-- the translates of `Q s` contain `s` -/
def Returning (Tr Q : BitOp) (s : ℕ) : Prop := ∃ c, (tr Tr (Q s).1 c).1 = s

/-- the largest of the translates of `s`, `P s`, `Z s` and `Z (P s)` -/
structure Top3 (Tr P Z : BitOp) (s : ℕ) : Prop where
  self : ∀ j, (tr Tr s j).1 ≤ s
  refl : ∀ j, (tr Tr (P s).1 j).1 ≤ s
  inv : ∀ j, (tr Tr (Z s).1 j).1 ≤ s
  prod : ∀ j, (tr Tr (andThen P Z s).1 j).1 ≤ s

namespace Triad
variable (h : Triad S Tr P Z n)
include h

theorem prodDih : Dihedral S Tr (andThen P Z) n := Proof.Semi.dihedral_comp h.dih h.closed h.sign h.square h.commT h.commP

theorem commT' (x : ℕ × Int) (hx : S x.1) (c : ℕ) : (step Tr)^[c] (step Z x) = step Z ((step Tr)^[c] x) := by
  induction c with
  | zero => rfl
  | succ c ih =>
    rw [Function.iterate_succ_apply', ih, Function.iterate_succ_apply']
    exact step_comm_of (h.commT _ (iter_closed h.dih.cyc x hx c)) _

theorem commP' (x : ℕ × Int) (hx : S x.1) : step P (step Z x) = step Z (step P x) := step_comm_of (h.commP _ hx) _

theorem invol (x : ℕ × Int) (hx : S x.1) : step Z (step Z x) = x := by
  have := h.square x.1 hx
  rw [semi_step_scale, semi_step_scale, Prod.mk.injEq] at this
  rw [show x = (x.1, x.2) from rfl, semi_step_scale, semi_step_scale]
  simp only [one_mul] at this
  refine Prod.ext this.1 ?_
  simp only
  rw [mul_assoc, this.2, mul_one]

theorem pair : Pair S Tr Z n where
  cyc := h.dih.cyc
  closed := h.closed
  sign := h.sign
  square := h.square
  commute := fun s hs c => h.commT' (s, 1) hs c

/-- `Z` of the translates -/
theorem tr_inv {s : ℕ} (hs : S s) (c : ℕ) : (tr Tr (Z s).1 c).1 = (Z (tr Tr s c).1).1 := h.pair.tr_fst hs c

theorem inv_inv {s : ℕ} (hs : S s) : (Z (Z s).1).1 = s := congrArg Prod.fst (h.square s hs)

theorem tr_prod {s : ℕ} (hs : S s) (c : ℕ) : (tr Tr (andThen P Z s).1 c).1 = (Z (tr Tr (P s).1 c).1).1 :=
  h.tr_inv (h.dih.closed s hs) c

omit h in
theorem tr_join (t c c' : ℕ) : (tr Tr t (c' + c)).1 = (tr Tr (tr Tr t c).1 c').1 := by
  rw [tr_add]

theorem returning_prod {s : ℕ} (hs : S s) (h1 : Returning Tr P s) (h2 : Returning Tr Z s) : Returning Tr (andThen P Z) s := by
  obtain ⟨c, h1⟩ := h1
  obtain ⟨d, h2⟩ := h2
  exact ⟨d + c, by rw [tr_join, h.tr_prod hs, h1]; exact h2⟩

theorem returning_refl {s : ℕ} (hs : S s) (h1 : Returning Tr (andThen P Z) s) (h2 : Returning Tr Z s) : Returning Tr P s := by
  obtain ⟨c, h1⟩ := h1
  obtain ⟨d, h2⟩ := h2
  rw [h.tr_prod hs] at h1
  have e := h.inv_inv (h.dih.cyc.closed_iter (h.dih.closed s hs) c)
  rw [h1] at e
  exact ⟨d + c, by rw [tr_join, ← e]; exact h2⟩

theorem returning_inv {s : ℕ} (hs : S s) (h1 : Returning Tr (andThen P Z) s) (h2 : Returning Tr P s) : Returning Tr Z s := by
  obtain ⟨c, h1⟩ := h1
  obtain ⟨d, h2⟩ := h2
  rw [h.tr_prod hs] at h1
  have e := h.inv_inv (h.dih.cyc.closed_iter (h.dih.closed s hs) c)
  rw [h1] at e
  refine ⟨d + (n * c - c), ?_⟩
  rw [tr_join, e]
  have := congrArg Prod.fst (iter_back h.dih.cyc ((P s).1, 1) (h.dih.closed s hs) c)
  rw [iter_fst, iter_fst] at this
  simp only at this
  rw [this, h2]

theorem prod_step (x : ℕ × Int) (hx : S x.1) : step P (step Z x) = step (andThen P Z) x := by
  rw [step_andThen, h.commP' x hx]

/-! ### the test of the code -/

/-- a state that is largest is not refused by the first test -/
theorem guard_of {s : ℕ} (hs : S s) (ht : Top3 Tr P Z s) :
    ¬ (checkP_Z P Z 1 1 s < 0 ∧ checkP_Z P Z (-1) 1 s < 0 ∧ checkP_Z P Z 1 (-1) s < 0 ∧ checkP_Z P Z (-1) (-1) s < 0) := by
  have hP : (P s).1 ≤ s := ht.refl 0
  have hZ : (Z s).1 ≤ s := ht.inv 0
  have hQ : (andThen P Z s).1 ≤ s := ht.prod 0
  have c1 := h.commP s hs
  have eQ : step Z (step P (s, 1)) = ((andThen P Z s).1, (andThen P Z s).2) := by
    rw [← step_andThen]; unfold step; simp
  have eP : step P (s, 1) = ((P s).1, (P s).2) := by unfold step; simp
  have eZ : step Z (s, 1) = ((Z s).1, (Z s).2) := by unfold step; simp
  have hboth : (P s).1 = s → (Z s).1 = s → (andThen P Z s).2 = (P s).2 * (Z s).2 := by
    intro a b
    unfold andThen step
    simp only [a]
  have sP := h.dih.sign s hs
  have sZ := h.sign s hs
  have sQ := h.prodDih.sign s hs
  have hPQ : (P s).1 = s → (andThen P Z s).1 = s → (Z s).1 = s := by
    intro a b
    unfold andThen step at b
    rwa [a] at b
  have hZQ : (Z s).1 = s → (andThen P Z s).1 = s → (P s).1 = s := by
    intro a b
    rw [eQ, eZ, semi_step_scale, a, Prod.mk.injEq] at c1
    rw [c1.1, b]
  unfold checkP_Z combine checkZ checkP checkPZ checkOne
  rw [eQ, eP, eZ]
  simp only
  generalize (P s).1 = xP at *
  generalize (Z s).1 = xZ at *
  generalize (andThen P Z s).1 = xQ at *
  generalize (P s).2 = aP at *
  generalize (Z s).2 = aZ at *
  generalize (andThen P Z s).2 = aQ at *
  clear eQ eP eZ c1
  rcases Nat.lt_or_eq_of_le hP with l1 | l1 <;> rcases Nat.lt_or_eq_of_le hZ with l2 | l2 <;> rcases Nat.lt_or_eq_of_le hQ with l3 | l3
  · simp [l1, l2, l3]
  · simp only [l1, l2, l3, if_true, lt_irrefl, if_false]
    rcases sQ with rfl | rfl <;> simp
  · simp only [l1, l2, l3, if_true, lt_irrefl, if_false]
    rcases sZ with rfl | rfl <;> simp
  · have := hZQ l2 l3; omega
  · simp only [l1, l2, l3, if_true, lt_irrefl, if_false]
    rcases sP with rfl | rfl <;> simp
  · have := hPQ l1 l3; omega
  · simp only [l1, l2, l3, if_true, lt_irrefl, if_false]
    rcases sP with rfl | rfl <;> rcases sZ with rfl | rfl <;> simp
  · have := hboth l1 l2
    subst this
    simp only [l1, l2, l3, if_true, lt_irrefl, if_false]
    rcases sP with rfl | rfl <;> rcases sZ with rfl | rfl <;> simp

end Triad

/-- what a loop over the translates of `Q s` reports -/
def Scanned (Tr Q : BitOp) (s r : ℕ) (m f : Int) : Prop :=
  (∃ i : ℕ, i < r ∧ (tr Tr (Q s).1 i).1 = s ∧ m = i ∧ f = (Q s).2 * (tr Tr (Q s).1 i).2) ∨ ((∀ c, (tr Tr (Q s).1 c).1 ≠ s) ∧ m = -1 ∧ f = 1)

theorem Scanned.none_iff {Q : BitOp} {s r : ℕ} {m f : Int} (h : Scanned Tr Q s r m f) : m = -1 ↔ ¬ Returning Tr Q s := by
  rcases h with ⟨i, _, e, rfl, _⟩ | ⟨e, rfl, _⟩
  · constructor
    · intro hx; omega
    · intro hx; exact absurd ⟨i, e⟩ hx
  · simp only [true_iff]
    rintro ⟨c, hc⟩
    exact e c hc

namespace Triad
variable (h : Triad S Tr P Z n)
include h

theorem least_inv {s r : ℕ} (hs : S s) (hr : Least Tr s r) : Least Tr (Z s).1 r := h.pair.least hs hr

/-- value of `CheckState_T_P_Z` -/
theorem check_of {s r : ℕ} (hs : S s) (hr : Least Tr s r) (T k : ℕ) (hT : 0 < T) :
    let good := Top3 Tr P Z s ∧ momentumFits k (T * n) T r (tr Tr s r).2 = true
    (¬ good → checkT_P_Z Tr P Z k (T * n) T s = none) ∧
    (good → ∃ R, checkT_P_Z Tr P Z k (T * n) T s = some R ∧ R.r = r ∧ Scanned Tr P s r R.mp R.signp ∧ Scanned Tr Z s r R.mz R.signz ∧
      Scanned Tr (andThen P Z) s r R.mpz R.signpz) := by
  intro good
  have lP := h.dih.least hs hr
  have lZ := h.least_inv hs hr
  have lQ := h.prodDih.least hs hr
  unfold checkT_P_Z
  rw [Nat.mul_div_cancel_left _ hT, translates_least h.dih.cyc hs hr]
  by_cases hg : checkP_Z P Z 1 1 s < 0 ∧ checkP_Z P Z (-1) 1 s < 0 ∧ checkP_Z P Z 1 (-1) s < 0 ∧ checkP_Z P Z (-1) (-1) s < 0
  · rw [if_pos hg]
    exact ⟨fun _ => rfl, fun hgood => absurd hg (h.guard_of hs hgood.1)⟩
  rw [if_neg hg]
  have full : ∀ t, Least Tr t r → (∀ j, j < r → (tr Tr t j).1 ≤ s) → ∀ j, (tr Tr t j).1 ≤ s := by
    intro t ht hj j
    rw [ht.mod]
    exact hj _ (Nat.mod_lt _ hr.pos)
  by_cases hA : (∀ j, j < r → (tr Tr s j).1 ≤ s) ∧ momentumFits k (T * n) T r (tr Tr s r).2 = true
  swap
  · rw [if_neg hA]
    exact ⟨fun _ => rfl, fun hgood => absurd ⟨fun j _ => hgood.1.self j, hgood.2⟩ hA⟩
  rw [if_pos hA]
  dsimp only
  rw [h.prod_step _ (by exact hs)]
  have one : ∀ Q : BitOp, Least Tr (Q s).1 r →
      (transformed Tr s r 0 (step Q (s, 1)) = .reject ∧ ¬ ∀ j, (tr Tr (Q s).1 j).1 ≤ s) ∨
      (transformed Tr s r 0 (step Q (s, 1)) ≠ .reject ∧ (∀ j, (tr Tr (Q s).1 j).1 ≤ s) ∧
        Scanned Tr Q s r (transformed Tr s r 0 (step Q (s, 1))).index (transformed Tr s r 0 (step Q (s, 1))).signOf) := by
    intro Q lq
    rcases scan_of lq hr hA.1 with ⟨h1, h2⟩ | ⟨h1, ⟨m, h2, h3, h4⟩ | ⟨h2, h3⟩⟩
    · exact Or.inl ⟨h1, fun hx => h2 fun j _ => hx j⟩
    · right
      rw [h4]
      exact ⟨by simp, full _ lq h1, Or.inl ⟨m, h2, h3, rfl, rfl⟩⟩
    · right
      rw [h3]
      exact ⟨by simp, full _ lq h1, Or.inr ⟨h2, rfl, rfl⟩⟩
  rcases one P lP with ⟨a1, a2⟩ | ⟨a1, a2, a3⟩
  · rw [if_pos (Or.inl a1)]
    exact ⟨fun _ => rfl, fun hgood => absurd hgood.1.refl a2⟩
  rcases one Z lZ with ⟨b1, b2⟩ | ⟨b1, b2, b3⟩
  · rw [if_pos (Or.inr (Or.inl b1))]
    exact ⟨fun _ => rfl, fun hgood => absurd hgood.1.inv b2⟩
  rcases one (andThen P Z) lQ with ⟨c1, c2⟩ | ⟨c1, c2, c3⟩
  · rw [if_pos (Or.inr (Or.inr c1))]
    exact ⟨fun _ => rfl, fun hgood => absurd hgood.1.prod c2⟩
  rw [if_neg (by rintro (e | e | e); exacts [a1 e, b1 e, c1 e])]
  exact ⟨fun hn => absurd ⟨⟨full s hr hA.1, a2, b2, c2⟩, hA.2⟩ hn, fun _ => ⟨_, rfl, rfl, a3, b3, c3⟩⟩

/-! ### representatives -/

/-- one representative of every orbit -/
theorem top_unique {s t : ℕ} (ht : S t) (h1 : Top3 Tr P Z s) (h2 : Top3 Tr P Z t) (j : ℕ)
    (hr : (tr Tr t j).1 = s ∨ (tr Tr (P t).1 j).1 = s ∨ (tr Tr (Z t).1 j).1 = s ∨ (tr Tr (andThen P Z t).1 j).1 = s) : s = t := by
  have a : s ≤ t := by
    rcases hr with e | e | e | e
    · rw [← e]; exact h2.self j
    · rw [← e]; exact h2.refl j
    · rw [← e]; exact h2.inv j
    · rw [← e]; exact h2.prod j
  have b : t ≤ s := by
    have orb : ∀ Q : BitOp, Dihedral S Tr Q n → (∀ j, (tr Tr (Q s).1 j).1 ≤ s) → InOrbit Tr Q t s → t ≤ s := by
      intro Q hQ hle ho
      rcases hQ.inOrbit_symm ht ho with ⟨i, e⟩ | ⟨i, e⟩
      · rw [← e]; exact h1.self i
      · rw [← e]; exact hle i
    rcases hr with e | e | e | e
    · exact orb P h.dih h1.refl (Or.inl ⟨j, e⟩)
    · exact orb P h.dih h1.refl (Or.inr ⟨j, e⟩)
    · rw [h.tr_inv ht] at e
      have e2 := h.inv_inv (h.dih.cyc.closed_iter ht j)
      rw [e] at e2
      have := congrArg Prod.fst (iter_back h.dih.cyc (t, 1) ht j)
      rw [iter_fst] at this
      change (tr Tr (tr Tr t j).1 _).1 = t at this
      rw [← e2] at this
      rw [← this]
      exact h1.inv _
    · exact orb _ h.prodDih h1.prod (Or.inr ⟨j, e⟩)
  exact le_antisymm a b

end Triad

theorem refLoop_top (Tr : BitOp) (g : ℕ) : ∀ (n i : ℕ) (x : ℕ × Int) (b : Ref), (∀ j, ((step Tr)^[j] x).1 ≤ b.r) → refLoop Tr g n i x b = b
  | 0, _, _, _, _ => rfl
  | n + 1, i, x, b, h => by
    have e : better (step Tr x) i g b = b := by
      unfold better
      rw [if_neg (by have := h 1; simp only [Function.iterate_one] at this; omega)]
    simp only [refLoop]
    rw [e]
    exact refLoop_top Tr g n (i + 1) (step Tr x) b fun j => by
      have := h (j + 1)
      rwa [Function.iterate_succ_apply] at this

/-- the representative of a state that is largest is the state itself -/
theorem Top3.ref {L T s : ℕ} (ht : Top3 Tr P Z s) : refT_P_Z Tr P Z L T s = ⟨s, 1, 0, 0⟩ := by
  unfold refT_P_Z refT_ZA_ZB refT
  have key : ∀ (Q : BitOp), (∀ j, (tr Tr (Q s).1 j).1 ≤ s) → ∀ j, ((step Tr)^[j] (step Q (s, 1))).1 ≤ s := by
    intro Q hQ j
    rw [iter_fst]
    exact hQ j
  rw [refLoop_top Tr 0 _ _ (s, 1) ⟨s, 1, 0, 0⟩ (fun j => ht.self j), refLoop_top Tr 1 _ _ _ _ (key P ht.refl), refLoop_top Tr 2 _ _ _ _ (key Z ht.inv),
    refLoop_top Tr 3 _ _ _ _ (key _ ht.prod)]

namespace Triad
variable (h : Triad S Tr P Z n)
include h

/-- the representative found by the code: `x` or `Z x`, reflected or not, translated -/
theorem ref_spec {L T : ℕ} (hL : L / T = n) (x : ℕ) (hx : S x) :
    let b := refT_P_Z Tr P Z L T x
    (∃ y : ℕ × Int, (b.g / 2 = 0 ∧ y = (x, 1) ∨ b.g / 2 = 1 ∧ y = step Z (x, 1)) ∧
      (b.g % 2 = 0 ∧ (step Tr)^[b.l] y = (b.r, b.sign) ∨ b.g % 2 = 1 ∧ (step Tr)^[b.l] (step P y) = (b.r, b.sign))) ∧
    S b.r ∧ Top3 Tr P Z b.r := by
  intro b
  have hb : b = refT_P_Z Tr P Z L T x := rfl
  unfold refT_P_Z refT_ZA_ZB refT at hb
  rw [hL] at hb
  have hper : ∀ y : ℕ × Int, S y.1 → ∀ B, (∀ j, j < n → ((step Tr)^[j + 1] y).1 ≤ B) → ∀ j, ((step Tr)^[j] y).1 ≤ B := by
    intro y hy B hB j
    rw [iter_mod h.dih.cyc y hy]
    have hj := Nat.mod_lt j h.dih.cyc.pos
    generalize j % n = i at hj
    cases i with
    | zero =>
      have := hB (n - 1) (by have := h.dih.cyc.pos; omega)
      rw [Nat.sub_add_cancel h.dih.cyc.pos, iter_period h.dih.cyc _ hy] at this
      exact this
    | succ i => exact hB i (by omega)
  obtain ⟨a1, a2, a3⟩ := refLoop_spec Tr 0 n 1 (x, 1) ⟨x, 1, 0, 0⟩
  generalize hb0 : refLoop Tr 0 n 1 (x, 1) ⟨x, 1, 0, 0⟩ = b0 at a1 a2 a3 hb
  obtain ⟨c1, c2, c3⟩ := refLoop_spec Tr 1 n 1 (step P (x, 1)) b0
  generalize hb1 : refLoop Tr 1 n 1 (step P (x, 1)) b0 = b1 at c1 c2 c3 hb
  obtain ⟨d1, d2, d3⟩ := refLoop_spec Tr 2 n 1 (step Z (x, 1)) b1
  generalize hb2 : refLoop Tr 2 n 1 (step Z (x, 1)) b1 = b2 at d1 d2 d3 hb
  obtain ⟨e1, e2, e3⟩ := refLoop_spec Tr 3 n 1 (step (andThen P Z) (x, 1)) b2
  rw [← hb] at e1 e2 e3
  have xP : S (step P (x, 1)).1 := h.dih.closed x hx
  have xZ : S (step Z (x, 1)).1 := h.closed x hx
  have xQ : S (step (andThen P Z) (x, 1)).1 := h.prodDih.closed x hx
  have m0 := hper (x, 1) hx b.r fun j hj => (a3 j hj).trans (c2.trans (d2.trans e2))
  have m1 := hper _ xP b.r fun j hj => (c3 j hj).trans (d2.trans e2)
  have m2 := hper _ xZ b.r fun j hj => (d3 j hj).trans e2
  have m3 := hper _ xQ b.r e3
  have hfound : (b.g = 0 ∧ (step Tr)^[b.l] (x, 1) = (b.r, b.sign)) ∨ (b.g = 1 ∧ (step Tr)^[b.l] (step P (x, 1)) = (b.r, b.sign)) ∨
      (b.g = 2 ∧ (step Tr)^[b.l] (step Z (x, 1)) = (b.r, b.sign)) ∨ (b.g = 3 ∧ (step Tr)^[b.l] (step P (step Z (x, 1))) = (b.r, b.sign)) := by
    rcases e1 with e1 | ⟨j, hj, e1⟩
    · rw [e1]
      rcases d1 with d1 | ⟨j, hj, d1⟩
      · rw [d1]
        rcases c1 with c1 | ⟨j, hj, c1⟩
        · rw [c1]
          left
          rcases a1 with a1 | ⟨j, hj, a1⟩
          · rw [a1]; exact ⟨rfl, rfl⟩
          · rw [a1]; exact ⟨rfl, by rw [Nat.add_comm]⟩
        · right; left; rw [c1]; exact ⟨rfl, by rw [Nat.add_comm]⟩
      · right; right; left; rw [d1]; exact ⟨rfl, by rw [Nat.add_comm]⟩
    · right; right; right; rw [e1, h.prod_step _ (by exact hx)]; exact ⟨rfl, by rw [Nat.add_comm]⟩
  have hshape : ∃ y : ℕ × Int, (b.g / 2 = 0 ∧ y = (x, 1) ∨ b.g / 2 = 1 ∧ y = step Z (x, 1)) ∧
      (b.g % 2 = 0 ∧ (step Tr)^[b.l] y = (b.r, b.sign) ∨ b.g % 2 = 1 ∧ (step Tr)^[b.l] (step P y) = (b.r, b.sign)) := by
    rcases hfound with ⟨e, e'⟩ | ⟨e, e'⟩ | ⟨e, e'⟩ | ⟨e, e'⟩ <;> rw [e]
    · exact ⟨_, Or.inl ⟨rfl, rfl⟩, Or.inl ⟨rfl, e'⟩⟩
    · exact ⟨_, Or.inl ⟨rfl, rfl⟩, Or.inr ⟨rfl, e'⟩⟩
    · exact ⟨_, Or.inr ⟨rfl, rfl⟩, Or.inl ⟨rfl, e'⟩⟩
    · exact ⟨_, Or.inr ⟨rfl, rfl⟩, Or.inr ⟨rfl, e'⟩⟩
  -- everything that can be reached from the representative is reached from `x`
  have hreach : ∃ (c : ℕ) (Q : ℕ × Int → ℕ × Int), (Q = id ∨ Q = step P ∨ Q = step Z ∨ Q = step (andThen P Z)) ∧ (step Tr)^[c] (Q (x, 1)) = (b.r, b.sign) := by
    rcases hfound with ⟨_, e⟩ | ⟨_, e⟩ | ⟨_, e⟩ | ⟨_, e⟩
    · exact ⟨b.l, id, by simp, e⟩
    · exact ⟨b.l, step P, by simp, e⟩
    · exact ⟨b.l, step Z, by simp, e⟩
    · exact ⟨b.l, step (andThen P Z), by simp, by rw [← h.prod_step _ (by exact hx)]; exact e⟩
  obtain ⟨c, Q, hQ, hc⟩ := hreach
  have hSQ : S (Q (x, 1)).1 := by
    rcases hQ with rfl | rfl | rfl | rfl
    exacts [hx, xP, xZ, xQ]
  have hS : S b.r := by
    have := iter_closed h.dih.cyc _ hSQ c
    rw [hc] at this; exact this
  have r0 : ∀ j, ((step Tr)^[j] (Q (x, 1))).1 ≤ b.r := by
    intro j
    rcases hQ with rfl | rfl | rfl | rfl
    exacts [m0 j, m1 j, m2 j, m3 j]
  have pzz : step P (step Z (step P (x, 1))) = step Z (x, 1) := by
    rw [h.commP' _ xP, h.dih.invol _ (by exact hx)]
  have r1 : ∀ j, ((step Tr)^[j] (step P (Q (x, 1)))).1 ≤ b.r := by
    intro j
    rcases hQ with rfl | rfl | rfl | rfl
    · exact m1 j
    · rw [h.dih.invol _ (by exact hx)]; exact m0 j
    · rw [h.prod_step _ (by exact hx)]; exact m3 j
    · rw [step_andThen, pzz]; exact m2 j
  have r2 : ∀ j, ((step Tr)^[j] (step Z (Q (x, 1)))).1 ≤ b.r := by
    intro j
    rcases hQ with rfl | rfl | rfl | rfl
    · exact m2 j
    · rw [← step_andThen]; exact m3 j
    · rw [h.invol _ (by exact hx)]; exact m0 j
    · rw [step_andThen, h.invol _ xP]; exact m1 j
  have r3 : ∀ j, ((step Tr)^[j] (step (andThen P Z) (Q (x, 1)))).1 ≤ b.r := by
    intro j
    rcases hQ with rfl | rfl | rfl | rfl
    · exact m3 j
    · rw [step_andThen, h.dih.invol _ (by exact hx)]; exact m2 j
    · rw [step_andThen, h.commP' _ (by exact hx), h.invol _ xP]; exact m1 j
    · rw [h.prodDih.invol _ (by exact hx)]; exact m0 j
  have top : ∀ (Q' : BitOp), (∀ j, ((step Tr)^[j] (step Q' ((step Tr)^[c] (Q (x, 1))))).1 ≤ b.r) → ∀ j, (tr Tr (Q' b.r).1 j).1 ≤ b.r := by
    intro Q' hQ' j
    have e1 : (tr Tr (Q' b.r).1 j).1 = ((step Tr)^[j] (step Q' (b.r, b.sign))).1 := (iter_fst Tr j (step Q' (b.r, b.sign))).symm
    rw [e1, ← hc]
    exact hQ' j
  refine ⟨hshape, hS, ⟨?_, top P ?_, top Z ?_, top _ ?_⟩⟩
  · intro j
    have e1 : (tr Tr b.r j).1 = ((step Tr)^[j] (b.r, b.sign)).1 := (iter_fst Tr j (b.r, b.sign)).symm
    rw [e1, ← hc, ← Function.iterate_add_apply]
    exact r0 _
  · intro j
    rw [h.dih.reflect_tr _ hSQ, ← Function.iterate_add_apply]
    exact r1 _
  · intro j
    rw [← h.commT' _ hSQ, ← Function.iterate_add_apply]
    exact r2 _
  · intro j
    rw [h.prodDih.reflect_tr _ hSQ, ← Function.iterate_add_apply]
    exact r3 _

end Triad
end Proof.Chain
