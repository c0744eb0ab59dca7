import Verif.Proof.CheckState
import Verif.Spec.Reduced
import Verif.Model.Reduced
import Mathlib.Algebra.BigOperators.Ring.Finset
/-! Orthonormality of the projected states and exchange of projection and invariant operators. -/
namespace Proof.Symmetry
open Model Spec
open scoped BigOperators

variable {conf : Finset Nat} {ys : List Generator}

theorem word_inj (h : Acts S ys) (cs : List Nat) (hc : InRange ys cs) {s t : Nat} (hs : S s) (ht : S t)
    (he : (word ys cs (s, 1)).1 = (word ys cs (t, 1)).1) : s = t := by
  -- the inverse exponents
  have key : ∃ ds, InRange ys ds ∧ addMod ys ds cs = ys.map (fun _ => 0) := by
    have := (exponents_shift h cs hc).mem_iff (a := ys.map fun _ => 0)
    have h2 := this.2 ((mem_exponents _ _).2 (zero_inRange h fun _ h => h))
    rw [List.mem_map] at h2
    obtain ⟨ds, hd, e⟩ := h2
    exact ⟨ds, (mem_exponents _ _).1 hd, e⟩
  obtain ⟨ds, hd, e⟩ := key
  have a := word_add h (fun _ h => h) ds cs hd hc (x := (s, 1)) hs
  have b := word_add h (fun _ h => h) ds cs hd hc (x := (t, 1)) ht
  rw [e, word_zero, word_split_sign] at a b
  rw [he] at a
  have a1 := congrArg Prod.fst a
  have b1 := congrArg Prod.fst b
  simp only at a1 b1
  exact a1.trans b1.symm

/-- covariance in the second argument -/
theorem projection_shift_right (h : Acts S ys) (s t : Nat) (hs : S s) (ht : S t) (ds : List Nat)
    (hd : InRange ys ds) :
    projection ys s (word ys ds (t, 1)).1 = chi ys t ds * projection ys s t := by
  unfold projection
  rw [sum_shift h ds hd, ← List.sum_map_mul_left]
  congr 1
  apply List.map_congr_left
  intro cs hcs
  have hc := (mem_exponents _ _).1 hcs
  have hsw : S (word ys cs (s, 1)).1 := word_closed h (fun _ h => h) cs hs
  have e : word ys (addMod ys cs ds) (s, 1) = word ys ds (word ys cs (s, 1)) := by
    have comm : addMod ys cs ds = addMod ys ds cs := by
      clear h hs ht hcs hsw
      induction ys generalizing cs ds with
      | nil => cases hc; cases hd; rfl
      | cons y ys ih =>
        cases hc with
        | cons hc1 hc2 => cases hd with
          | cons hd1 hd2 => simp only [addMod]; rw [Nat.add_comm, ih _ hd2 _ hc2]
    rw [comm]
    exact word_add h (fun _ h => h) ds cs hd hc (x := (s, 1)) hs
  rw [e, word_split_sign, character_add h.per_pos cs ds hc hd]
  by_cases h1 : (word ys cs (s, 1)).1 = t
  · rw [if_pos (by simp only; rw [h1]), if_pos h1, h1]
    unfold chi
    simp only [map_mul]
    push_cast
    ring
  · rw [if_neg (fun e => h1 (word_inj h ds hd hsw ht e)), if_neg h1, mul_zero]

theorem chi_normSq (h : Acts S ys) (s : Nat) (hs : S s) (cs : List Nat) :
    (starRingEnd ℂ) (chi ys s cs) * chi ys s cs = 1 := by
  have h1 : (starRingEnd ℂ) (character ys cs) * character ys cs = 1 := by
    unfold character
    rw [← Complex.exp_conj, ← Complex.exp_add]
    simp
  unfold chi
  rcases word_sign h (fun _ h => h) cs s hs with e | e <;> rw [e] <;>
    simp [mul_comm]
  · rw [mul_comm]; exact h1
  · rw [mul_comm]; exact h1

/-- sum over configurations against a projected state -/
theorem sum_projection (h : Acts (· ∈ conf) ys) (s : Nat) (hs : s ∈ conf) (f : Nat → ℂ) :
    ∑ u ∈ conf, f u * projection ys s u
      = ((exponents ys).map fun cs => f (word ys cs (s, 1)).1 * chi ys s cs).sum := by
  unfold projection
  have : ∀ l : List (List Nat), (∑ u ∈ conf, f u * (l.map fun cs => if (word ys cs (s, 1)).1 = u then
      (starRingEnd ℂ) (character ys cs) * ((word ys cs (s, 1)).2 : ℂ) else 0).sum)
      = (l.map fun cs => f (word ys cs (s, 1)).1 * chi ys s cs).sum := by
    intro l
    induction l with
    | nil => simp
    | cons cs l ih =>
      simp only [List.map_cons, List.sum_cons, mul_add, Finset.sum_add_distrib]
      rw [ih]
      congr 1
      simp only [mul_ite, mul_zero]
      rw [Finset.sum_ite_eq, if_pos (word_closed h (fun _ h => h) cs hs)]
      rfl
  exact this _

/-- inner product of projected states -/
theorem inner_projection (h : Acts (· ∈ conf) ys) (s t : Nat) (hs : s ∈ conf) (ht : t ∈ conf) :
    ∑ u ∈ conf, (starRingEnd ℂ) (projection ys s u) * projection ys t u
      = (exponents ys).length * projection ys t s := by
  have e : ∀ u, (starRingEnd ℂ) (projection ys s u) * projection ys t u
      = (starRingEnd ℂ) ((starRingEnd ℂ) (projection ys t u) * projection ys s u) := by
    intro u; rw [map_mul, Complex.conj_conj, mul_comm]
  rw [Finset.sum_congr rfl fun u _ => e u, ← map_sum, sum_projection h s hs, map_list_sum, List.map_map]
  have : ∀ cs ∈ exponents ys, ((starRingEnd ℂ) ∘ fun cs => (starRingEnd ℂ) (projection ys t (word ys cs (s, 1)).1) * chi ys s cs) cs
      = projection ys t s := by
    intro cs hcs
    simp only [Function.comp]
    rw [projection_shift_right h t s ht hs cs ((mem_exponents _ _).1 hcs)]
    simp only [map_mul, Complex.conj_conj]
    linear_combination (projection ys t s) * chi_normSq h s hs cs
  rw [List.map_congr_left this, List.map_const', List.sum_replicate, nsmul_eq_mul]

/-- P and an invariant operator commute -/
theorem invariant_word (h : Acts S ys) (O : Nat → Nat → ℂ) (hO : InvariantUnder S ys O)
    {zs : List Generator} (hz : ∀ z ∈ zs, z ∈ ys) (cs : List Nat) (s t : Nat) (hs : S s) (ht : S t) :
    ((word zs cs (t, 1)).2 : ℂ) * O t s
      = O (word zs cs (t, 1)).1 (word zs cs (s, 1)).1 * ((word zs cs (s, 1)).2 : ℂ) := by
  induction zs generalizing cs with
  | nil => simp [word]
  | cons y zs ih =>
    cases cs with
    | nil => simp [word]
    | cons c cs =>
      have hz' : ∀ z ∈ zs, z ∈ ys := fun z h => hz z (by simp [h])
      have ih := ih hz' cs
      have hy : y ∈ ys := hz y (by simp)
      rw [word, word]
      have ha := word_closed h hz' cs (x := (t, 1)) ht
      have hb := word_closed h hz' cs (x := (s, 1)) hs
      revert ih ha hb
      generalize word zs cs (t, 1) = a
      generalize word zs cs (s, 1) = b
      intro ih ha hb
      induction c with
      | zero => exact ih
      | succ c ihc =>
        rw [Function.iterate_succ_apply', Function.iterate_succ_apply']
        have hxa := iter_closed h hy c (x := a) ha
        have hxb := iter_closed h hy c (x := b) hb
        revert ihc hxa hxb
        generalize y.U^[c] a = x
        generalize y.U^[c] b = z
        intro ihc hxa hxb
        simp only [Generator.U]
        push_cast
        have := hO y hy z.1 x.1 hxb hxa
        rw [mul_right_comm, ihc, mul_comm (z.2 : ℂ), ← mul_assoc, ← this]
        ring

theorem sum_exponents_comm (f : Nat → List Nat → ℂ) (l : List (List Nat)) :
    ∑ v ∈ conf, (l.map (f v)).sum = (l.map fun cs => ∑ v ∈ conf, f v cs).sum := by
  induction l with
  | nil => simp
  | cons a l ih => simp [Finset.sum_add_distrib, ih]

theorem projection_operator (h : Acts (· ∈ conf) ys) (O : Nat → Nat → ℂ)
    (hO : InvariantUnder (· ∈ conf) ys O) (s t : Nat) (hs : s ∈ conf) (ht : t ∈ conf) :
    ∑ u ∈ conf, O t u * projection ys s u = ∑ v ∈ conf, O v s * projection ys v t := by
  rw [sum_projection h s hs]
  unfold projection
  simp only [← List.sum_map_mul_left]
  rw [sum_exponents_comm]
  congr 1
  apply List.map_congr_left
  intro cs hcs
  have hc := (mem_exponents _ _).1 hcs
  -- the preimage of t
  obtain ⟨v, hv, hvt⟩ : ∃ v ∈ conf, (word ys cs (v, 1)).1 = t := by
    have := Finset.surj_on_of_inj_on_of_card_le (s := conf) (t := conf) (fun a _ => (word ys cs (a, 1)).1)
      (fun a ha => word_closed h (fun _ h => h) cs ha)
      (fun a b ha hb e => word_inj h cs hc ha hb e) (Nat.le_refl _) t ht
    obtain ⟨a, ha, e⟩ := this
    exact ⟨a, ha, e.symm⟩
  rw [Finset.sum_eq_single v]
  · rw [if_pos hvt, chi]
    have := invariant_word h O hO (fun _ h => h) cs s v hs hv
    rw [hvt] at this
    rw [mul_left_comm, ← this]
    ring
  · intro b hb hbv
    rw [if_neg, mul_zero]
    intro e
    exact hbv (word_inj h cs hc hb hv (e.trans hvt.symm))
  · intro hn; exact absurd hv hn

/-- no overlap without relation -/
theorem projection_unrelated (h : Acts S ys) (s t : Nat) (hs : S s) (hn : ¬ Related ys s t) :
    projection ys s t = 0 := by
  unfold projection
  apply List.sum_eq_zero
  intro x hx
  rw [List.mem_map] at hx
  obtain ⟨cs, hcs, rfl⟩ := hx
  rw [if_neg]
  intro e
  exact hn ((related_iff h s t hs).2 ⟨cs, (mem_exponents _ _).1 hcs, e⟩)

theorem norm_projection (h : Acts (· ∈ conf) ys) (s : Nat) (hs : s ∈ conf) (n : Int)
    (hn : projection ys s s = n) :
    ∑ u ∈ conf, ‖projection ys s u‖ ^ 2 = (exponents ys).length * (n : ℝ) := by
  have := inner_projection h s s hs hs
  rw [hn] at this
  have e : ∀ u, (starRingEnd ℂ) (projection ys s u) * projection ys s u = ((‖projection ys s u‖ ^ 2 : ℝ) : ℂ) := by
    intro u
    rw [Complex.conj_mul', Complex.ofReal_pow]
  rw [Finset.sum_congr rfl fun u _ => e u, ← Complex.ofReal_sum] at this
  exact_mod_cast this

theorem exponents_pos (h : Acts S ys) : 0 < (exponents ys).length :=
  List.length_pos_of_mem ((mem_exponents _ _).2 (zero_inRange h fun _ h => h))

theorem phaseAngle_eq (ys : List Generator) (g : List Nat) : phaseAngle ys g = angle ys g := by
  unfold phaseAngle
  induction ys generalizing g with
  | nil => cases g <;> simp [angle]
  | cons y ys ih =>
    cases g with
    | nil => simp [angle]
    | cons c g => simp only [List.zipWith_cons_cons, List.sum_cons, angle]; rw [ih]

end Proof.Symmetry
