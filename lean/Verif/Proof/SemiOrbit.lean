import Verif.Proof.ChainRef
import Verif.Model.SemiMomentum
/-! Translations and a reflection: orbits and representatives. -/
namespace Proof.Chain
open Spec Model.Chain Proof.Symmetry

variable {S : ℕ → Prop} {Tr Z : BitOp} {n : ℕ}

/-- a translation and a reflection that turns it into its inverse -/
structure Dihedral (S : ℕ → Prop) (Tr Z : BitOp) (n : ℕ) : Prop where
  cyc : Cyclic S Tr n
  closed : ∀ s, S s → S (Z s).1
  sign : ∀ s, S s → (Z s).2 = 1 ∨ (Z s).2 = -1
  square : ∀ s, S s → step Z (step Z (s, 1)) = (s, 1)
  reflect : ∀ s, S s → step Tr (step Z (step Tr (s, 1))) = step Z (s, 1)

/-- the sign in front goes through -/
theorem semi_step_scale (f : BitOp) (t : ℕ) (a : Int) : step f (t, a) = ((f t).1, a * (f t).2) := rfl

theorem iter_period (h : Cyclic S Tr n) (x : ℕ × Int) (hx : S x.1) : (step Tr)^[n] x = x := by
  have := iter_step_scale Tr n x.1 x.2
  rw [show (x.1, x.2) = x from rfl, h.period x.1 hx] at this
  rw [this]; simp

theorem iter_closed (h : Cyclic S Tr n) (x : ℕ × Int) (hx : S x.1) (c : ℕ) : S ((step Tr)^[c] x).1 := by
  have := iter_step_scale Tr c x.1 x.2
  rw [show (x.1, x.2) = x from rfl] at this
  rw [this]; exact h.closed_iter hx c

theorem iter_mod (h : Cyclic S Tr n) (x : ℕ × Int) (hx : S x.1) (c : ℕ) : (step Tr)^[c] x = (step Tr)^[c % n] x := by
  conv_lhs => rw [← Nat.mod_add_div c n, Function.iterate_add_apply]
  congr 1
  generalize c / n = j
  induction j with
  | zero => rfl
  | succ j ih => rw [Nat.mul_succ, Function.iterate_add_apply, iter_period h x hx, ih]

/-- the inverse of a translation -/
theorem iter_back (h : Cyclic S Tr n) (x : ℕ × Int) (hx : S x.1) (c : ℕ) : (step Tr)^[n * c - c] ((step Tr)^[c] x) = x := by
  rw [← Function.iterate_add_apply, Nat.sub_add_cancel (Nat.le_mul_of_pos_left _ h.pos), iter_mod h x hx, Nat.mul_mod_right]
  rfl

namespace Dihedral
variable (h : Dihedral S Tr Z n)
include h

theorem step_closed (x : ℕ × Int) (hx : S x.1) : S (step Z x).1 := h.closed _ hx

theorem invol (x : ℕ × Int) (hx : S x.1) : step Z (step Z x) = x := by
  have := h.square x.1 hx
  rw [semi_step_scale, semi_step_scale, Prod.mk.injEq] at this
  rw [show x = (x.1, x.2) from rfl, semi_step_scale, semi_step_scale]
  simp only [one_mul] at this
  refine Prod.ext this.1 ?_
  simp only
  rw [mul_assoc, this.2, mul_one]

theorem reflect_one (x : ℕ × Int) (hx : S x.1) : step Tr (step Z (step Tr x)) = step Z x := by
  have := h.reflect x.1 hx
  rw [semi_step_scale, semi_step_scale, semi_step_scale, semi_step_scale, Prod.mk.injEq] at this
  rw [show x = (x.1, x.2) from rfl, semi_step_scale, semi_step_scale, semi_step_scale, semi_step_scale]
  simp only [one_mul] at this
  refine Prod.ext this.1 ?_
  simp only
  rw [mul_assoc, mul_assoc, ← mul_assoc (Tr x.1).2, this.2]

theorem reflect_iter (x : ℕ × Int) (hx : S x.1) (c : ℕ) : (step Tr)^[c] (step Z ((step Tr)^[c] x)) = step Z x := by
  induction c with
  | zero => rfl
  | succ c ih =>
    rw [Function.iterate_succ_apply' (step Tr) c x, Function.iterate_succ_apply (step Tr), h.reflect_one _ (iter_closed h.cyc x hx c), ih]

/-- the reflection of a translate is a translate of the reflection -/
theorem reflect_tr (x : ℕ × Int) (hx : S x.1) (c : ℕ) : step Z ((step Tr)^[c] x) = (step Tr)^[n * c - c] (step Z x) := by
  have h1 := h.reflect_iter x hx c
  have h2 := iter_back h.cyc (step Z ((step Tr)^[c] x)) (h.step_closed _ (iter_closed h.cyc x hx c)) c
  rw [h1] at h2
  exact h2.symm

theorem least {s r : ℕ} (hs : S s) (hr : Least Tr s r) : Least Tr (Z s).1 r := by
  have key : ∀ t, S t → ∀ c, (tr Tr t c).1 = t → (tr Tr (Z t).1 c).1 = (Z t).1 := by
    intro t ht c hc
    have := h.reflect_iter (t, 1) ht c
    have e : (step Tr)^[c] (t, 1) = (t, (tr Tr t c).2) := Prod.ext hc rfl
    rw [e, semi_step_scale, semi_step_scale, iter_step_scale] at this
    exact (Prod.ext_iff.1 this).1
  refine ⟨hr.pos, key s hs r hr.back, ?_⟩
  intro j h1 h2 e
  have := key _ (h.closed s hs) j e
  have hi : (Z (Z s).1).1 = s := congrArg Prod.fst (h.square s hs)
  rw [hi] at this
  exact hr.least j h1 h2 this

end Dihedral

/-- the largest state of its orbit -/
def Top (Tr Z : BitOp) (s : ℕ) : Prop := (∀ j, (tr Tr s j).1 ≤ s) ∧ ∀ j, (tr Tr (Z s).1 j).1 ≤ s

/-- `s'` is in the orbit of `s` -/
def InOrbit (Tr Z : BitOp) (s s' : ℕ) : Prop := (∃ j, (tr Tr s j).1 = s') ∨ ∃ j, (tr Tr (Z s).1 j).1 = s'

theorem iter_fst (Tr : BitOp) (c : ℕ) (x : ℕ × Int) : ((step Tr)^[c] x).1 = (tr Tr x.1 c).1 := by
  have := iter_step_scale Tr c x.1 x.2
  rw [show (x.1, x.2) = x from rfl] at this
  rw [this]

namespace Dihedral
variable (h : Dihedral S Tr Z n)
include h

theorem inOrbit_symm {s s' : ℕ} (hs : S s) (ho : InOrbit Tr Z s s') : InOrbit Tr Z s' s := by
  rcases ho with ⟨j, rfl⟩ | ⟨j, rfl⟩
  · left
    refine ⟨n * j - j, ?_⟩
    have := congrArg Prod.fst (iter_back h.cyc (s, 1) hs j)
    rw [iter_fst] at this
    exact this
  · right
    have hz := h.closed s hs
    refine ⟨j, ?_⟩
    have h1 := h.reflect_iter ((Z s).1, 1) hz j
    have h2 := congrArg Prod.fst h1
    rw [iter_fst] at h2
    have hi : (Z (Z s).1).1 = s := congrArg Prod.fst (h.square s hs)
    have h3 : (step Z ((step Tr)^[j] ((Z s).1, 1))).1 = (Z (tr Tr (Z s).1 j).1).1 := rfl
    rw [h3] at h2
    rw [h2]
    exact hi

theorem top_unique {s s' : ℕ} (hs : S s) (h1 : Top Tr Z s) (h2 : Top Tr Z s') (ho : InOrbit Tr Z s s') : s = s' := by
  have a : s' ≤ s := by
    rcases ho with ⟨j, rfl⟩ | ⟨j, rfl⟩
    · exact h1.1 j
    · exact h1.2 j
  have b : s ≤ s' := by
    rcases h.inOrbit_symm hs ho with ⟨j, e⟩ | ⟨j, e⟩
    · rw [← e]; exact h2.1 j
    · rw [← e]; exact h2.2 j
  exact le_antisymm b a

/-- the representative found by the code -/
theorem ref_spec {L T : ℕ} (hL : L / T = n) (x : ℕ) (hx : S x) :
    let b := refT_Z Tr Z L T x
    (b.g = 0 ∧ (step Tr)^[b.l] (x, 1) = (b.r, b.sign) ∨ b.g = 1 ∧ (step Tr)^[b.l] (step Z (x, 1)) = (b.r, b.sign)) ∧
    S b.r ∧ Top Tr Z b.r := by
  intro b
  have hb : b = refT_Z Tr Z L T x := rfl
  unfold refT_Z at hb
  have hb1 : refT Tr L T x = refLoop Tr 0 n 1 (x, 1) ⟨x, 1, 0, 0⟩ := by unfold refT; rw [hL]
  obtain ⟨a1, a2, a3⟩ := refLoop_spec Tr 0 n 1 (x, 1) ⟨x, 1, 0, 0⟩
  rw [← hb1] at a1 a2 a3
  obtain ⟨c1, c2, c3⟩ := refLoop_spec Tr 1 n 1 (step Z (x, 1)) (refT Tr L T x)
  rw [← hL, ← hb] at c1 c2 c3
  have hz := h.step_closed (x, 1) hx
  have ha : (refT Tr L T x).g = 0 ∧ (step Tr)^[(refT Tr L T x).l] (x, 1) = ((refT Tr L T x).r, (refT Tr L T x).sign) := by
    rcases a1 with a1 | ⟨j, hj, a1⟩
    · rw [a1]; exact ⟨rfl, rfl⟩
    · rw [a1]; refine ⟨rfl, ?_⟩; rw [Nat.add_comm]
  have hc : b.g = 0 ∧ (step Tr)^[b.l] (x, 1) = (b.r, b.sign) ∨ b.g = 1 ∧ (step Tr)^[b.l] (step Z (x, 1)) = (b.r, b.sign) := by
    rcases c1 with c1 | ⟨j, hj, c1⟩
    · left; rw [c1]; exact ha
    · right; rw [c1]; refine ⟨rfl, ?_⟩; rw [Nat.add_comm]
  have hS : S b.r := by
    rcases hc with ⟨_, e⟩ | ⟨_, e⟩
    · have := iter_closed h.cyc (x, 1) hx b.l
      rw [e] at this; exact this
    · have := iter_closed h.cyc (step Z (x, 1)) hz b.l
      rw [e] at this; exact this
  have m1 : ∀ j, ((step Tr)^[j] (x, 1)).1 ≤ b.r := by
    intro j
    rw [iter_mod h.cyc _ (by exact hx)]
    have hj := Nat.mod_lt j h.cyc.pos
    generalize j % n = i at hj
    cases i with
    | zero => exact a2.trans c2
    | succ i => exact (a3 i (by omega)).trans c2
  have m2 : ∀ j, ((step Tr)^[j] (step Z (x, 1))).1 ≤ b.r := by
    intro j
    rw [iter_mod h.cyc _ hz]
    have hj := Nat.mod_lt j h.cyc.pos
    generalize j % n = i at hj
    rw [hL] at c3
    cases i with
    | zero =>
      have := c3 (n - 1) (by have := h.cyc.pos; omega)
      rw [Nat.sub_add_cancel h.cyc.pos, iter_period h.cyc _ hz] at this
      exact this
    | succ i => exact c3 i (by omega)
  refine ⟨hc, hS, ?_, ?_⟩
  · intro j
    have e1 : (tr Tr b.r j).1 = ((step Tr)^[j] (b.r, b.sign)).1 := (iter_fst Tr j (b.r, b.sign)).symm
    rw [e1]
    rcases hc with ⟨_, e⟩ | ⟨_, e⟩
    · rw [← e, ← Function.iterate_add_apply]; exact m1 _
    · rw [← e, ← Function.iterate_add_apply]; exact m2 _
  · intro j
    have e1 : (tr Tr (Z b.r).1 j).1 = ((step Tr)^[j] (step Z (b.r, b.sign))).1 :=
      (iter_fst Tr j (step Z (b.r, b.sign))).symm
    rw [e1]
    rcases hc with ⟨_, e⟩ | ⟨_, e⟩
    · rw [← e, h.reflect_tr _ (by exact hx), ← Function.iterate_add_apply]; exact m2 _
    · rw [← e, h.reflect_tr _ hz, ← Function.iterate_add_apply, h.invol _ (by exact hx)]; exact m1 _

end Dihedral
end Proof.Chain
