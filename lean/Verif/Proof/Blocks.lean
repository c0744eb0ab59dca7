import Verif.Proof.CheckState
import Verif.Spec.Blocks
import Mathlib.Algebra.Field.GeomSum
import Mathlib.Algebra.BigOperators.Ring.Finset
namespace Proof.Symmetry
open Spec Model

variable {S : Nat → Prop} {all : List Generator}

theorem word_withQ (ys : List Generator) (qs cs : List Nat) (hq : qs.length = ys.length) (x : Nat × Int) :
    word (withQ ys qs) cs x = word ys cs x := by
  induction ys generalizing qs cs with
  | nil => cases qs <;> rfl
  | cons y ys ih =>
    cases qs with
    | nil => simp at hq
    | cons q qs =>
      cases cs with
      | nil => rfl
      | cons c cs =>
        change ({ y with q := (q : Int) } : Generator).U^[c] (word (withQ ys qs) cs x) = y.U^[c] (word ys cs x)
        rw [ih qs cs (by simpa using hq)]
        rfl

theorem exponents_withQ (ys : List Generator) (qs : List Nat) (hq : qs.length = ys.length) :
    exponents (withQ ys qs) = exponents ys := by
  induction ys generalizing qs with
  | nil => cases qs <;> rfl
  | cons y ys ih =>
    cases qs with
    | nil => simp at hq
    | cons q qs =>
      change (exponents (withQ ys qs)).flatMap _ = _
      rw [ih qs (by simpa using hq)]
      rfl

theorem mem_withQ (ys : List Generator) (qs : List Nat) (y : Generator) (hy : y ∈ withQ ys qs) :
    ∃ z ∈ ys, y.img = z.img ∧ y.sgn = z.sgn ∧ y.per = z.per := by
  induction ys generalizing qs with
  | nil => cases qs <;> simp [withQ] at hy
  | cons z ys ih =>
    cases qs with
    | nil => simp [withQ] at hy
    | cons q qs =>
      rw [withQ, List.zipWith_cons_cons, List.mem_cons] at hy
      rcases hy with rfl | hy
      · exact ⟨z, by simp, rfl, rfl, rfl⟩
      · obtain ⟨z', h1, h2⟩ := ih qs hy
        exact ⟨z', by simp [h1], h2⟩

theorem U_eq {y z : Generator} (h1 : y.img = z.img) (h2 : y.sgn = z.sgn) : y.U = z.U := by
  funext x; simp [Generator.U, h1, h2]

theorem acts_withQ (h : Acts S all) (qs : List Nat) : Acts S (withQ all qs) where
  per_pos := fun y hy => by
    obtain ⟨z, hz, _, _, e⟩ := mem_withQ _ _ _ hy; rw [e]; exact h.per_pos z hz
  closed := fun y hy t ht => by
    obtain ⟨z, hz, e, _⟩ := mem_withQ _ _ _ hy; rw [e]; exact h.closed z hz t ht
  sign := fun y hy t ht => by
    obtain ⟨z, hz, _, e, _⟩ := mem_withQ _ _ _ hy; rw [e]; exact h.sign z hz t ht
  period := fun y hy t ht => by
    obtain ⟨z, hz, e1, e2, e⟩ := mem_withQ _ _ _ hy
    rw [e, U_eq e1 e2]; exact h.period z hz t ht
  commute := fun y hy y' hy' t ht => by
    obtain ⟨z, hz, e1, e2, _⟩ := mem_withQ _ _ _ hy
    obtain ⟨z', hz', e1', e2', _⟩ := mem_withQ _ _ _ hy'
    rw [U_eq e1 e2, U_eq e1' e2']; exact h.commute z hz z' hz' t ht

theorem geom_root (p g : Nat) (hp : 0 < p) (hg : g < p) :
    ((List.range p).map (fun c : Nat => (starRingEnd ℂ) (Complex.exp (Complex.I * ((2 * Real.pi * (c : Int) / p * g : ℝ)))))).sum
      = if g = 0 then (p : ℂ) else 0 := by
  have hpC : (p : ℂ) ≠ 0 := by exact_mod_cast Nat.pos_iff_ne_zero.1 hp
  have e : ∀ c : Nat, (starRingEnd ℂ) (Complex.exp (Complex.I * ((2 * Real.pi * (c : Int) / p * g : ℝ))))
      = Complex.exp (-(2 * Real.pi * Complex.I * g / p)) ^ c := by
    intro c
    rw [← Complex.exp_conj, ← Complex.exp_nat_mul]
    congr 1
    simp only [map_mul, Complex.conj_I, Complex.conj_ofReal]
    push_cast
    field_simp
  simp only [e]
  generalize hx : Complex.exp (-(2 * Real.pi * Complex.I * g / p)) = x
  rw [← List.sum_toFinset (fun c => x ^ c) (List.nodup_range), List.toFinset_range]
  split
  · rename_i h0
    subst h0
    have : x = 1 := by rw [← hx]; simp
    rw [this]; simp
  · rename_i h0
    have hx1 : x ≠ 1 := by
      rw [← hx, Ne, Complex.exp_eq_one_iff]
      rintro ⟨n, hn⟩
      have h2 : (2 * (Real.pi : ℂ) * Complex.I) ≠ 0 := Complex.two_pi_I_ne_zero
      have h3 : -(g : ℂ) = n * p := by
        field_simp at hn
        have h4 : (2 * (Real.pi : ℂ) * Complex.I) * (-(g : ℂ)) = (2 * (Real.pi : ℂ) * Complex.I) * (n * p) := by
          linear_combination 2 * (Real.pi : ℂ) * Complex.I * hn
        exact mul_left_cancel₀ h2 h4
      have h5 : -(g : ℤ) = n * p := by exact_mod_cast h3
      have h6 : (p : ℤ) ∣ g := ⟨-n, by linarith⟩
      have h7 := Int.natCast_dvd_natCast.1 h6
      exact absurd (Nat.le_of_dvd (Nat.pos_of_ne_zero h0) h7) (by omega)
    have hxp : x ^ p = 1 := by
      rw [← hx, ← Complex.exp_nat_mul]
      rw [show (p : ℂ) * -(2 * Real.pi * Complex.I * g / p) = (-(g : ℤ) : ℤ) * (2 * Real.pi * Complex.I) by
        push_cast; field_simp]
      exact Complex.exp_int_mul_two_pi_mul_I _
    rw [geom_sum_eq hx1, hxp]; simp

theorem sum_flatMap {α β R : Type} [AddCommMonoid R] (l : List α) (f : α → List β) (F : β → R) :
    ((l.flatMap f).map F).sum = (l.map fun a => ((f a).map F).sum).sum := by
  induction l with
  | nil => simp
  | cons a l ih => simp [ih]

theorem character_ortho (ys : List Generator) (hp : ∀ y ∈ ys, 0 < y.per) (cs : List Nat) (hc : InRange ys cs) :
    ((exponents ys).map fun qs => (starRingEnd ℂ) (character (withQ ys qs) cs)).sum
      = if cs = ys.map (fun _ => 0) then (total ys : ℂ) else 0 := by
  induction ys generalizing cs with
  | nil => cases hc; simp [exponents, character, angle, withQ, total]
  | cons y ys ih =>
    cases hc with
    | cons hc1 hc2 =>
      rename_i c cs
      have ih := ih (fun z hz => hp z (by simp [hz])) cs hc2
      rw [exponents, sum_flatMap]
      have e : ∀ qs : List Nat, (((List.range y.per).map fun q => q :: qs).map
          fun qs => (starRingEnd ℂ) (character (withQ (y :: ys) qs) (c :: cs))).sum
          = (if c = 0 then (y.per : ℂ) else 0) * (starRingEnd ℂ) (character (withQ ys qs) cs) := by
        intro qs
        rw [← geom_root y.per c (hp y (by simp)) hc1, ← List.sum_map_mul_right, List.map_map]
        congr 1
        apply List.map_congr_left
        intro q _
        simp only [Function.comp]
        rw [← map_mul]
        congr 1
        unfold character
        rw [← Complex.exp_add, ← mul_add]
        congr 2
        change ((2 * Real.pi * ((q : Int) : ℝ) / y.per * c + angle (withQ ys qs) cs : ℝ) : ℂ) = _
        push_cast
        ring
      simp only [e]
      rw [List.sum_map_mul_left, ih, total_cons]
      simp only [List.map_cons, List.cons.injEq]
      by_cases h1 : c = 0 <;> by_cases h2 : cs = ys.map (fun _ => 0) <;> simp [h1, h2]

/-- number of group elements taking `s` to `t` -/
def hits (ys : List Generator) (s t : Nat) : Nat :=
  ((exponents ys).filter (fun cs => decide ((word ys cs (s, 1)).1 = t))).length

theorem hits_eq_sum (ys : List Generator) (s t : Nat) : hits ys s t
    = ((exponents ys).map (fun cs => if (word ys cs (s, 1)).1 = t then 1 else 0)).sum := by
  unfold hits
  generalize exponents ys = l
  induction l with
  | nil => rfl
  | cons a l ih =>
    rw [List.filter_cons, List.map_cons, List.sum_cons, ← ih]
    by_cases h : (word ys a (s, 1)).1 = t <;> simp [h, Nat.add_comm]

theorem word_fst (ys : List Generator) (cs : List Nat) (x : Nat × Int) : (word ys cs x).1 = (word ys cs (x.1, 1)).1 := by
  conv_lhs => rw [eq_scale x, word_scale]
  rfl

theorem hits_shift (h : Acts S all) (s t : Nat) (hs : S s) (ds : List Nat) (hd : InRange all ds) :
    hits all s t = hits all (word all ds (s, 1)).1 t := by
  rw [hits_eq_sum, hits_eq_sum, sum_shift h ds hd]
  congr 1
  apply List.map_congr_left
  intro cs hcs
  have hc := (mem_exponents _ _).1 hcs
  rw [word_add h (fun _ h => h) cs ds hc hd (x := (s, 1)) hs, word_fst]

theorem addMod_comm (ys : List Generator) (cs ds : List Nat) : addMod ys cs ds = addMod ys ds cs := by
  induction ys generalizing cs ds with
  | nil => cases cs <;> cases ds <;> rfl
  | cons y ys ih =>
    cases cs <;> cases ds <;> simp only [addMod]
    rw [ih, Nat.add_comm]

theorem stab_sub (h : Acts S all) (s : Nat) (hs : S s) (ds : List Nat) (hd : InRange all ds) :
    hits all s s ≤ hits all (word all ds (s, 1)).1 (word all ds (s, 1)).1 := by
  unfold hits
  rw [← List.countP_eq_length_filter, ← List.countP_eq_length_filter]
  apply List.countP_mono_left
  intro cs hcs hfix
  have hc := (mem_exponents _ _).1 hcs
  simp only [decide_eq_true_eq] at hfix ⊢
  rw [← word_fst, ← word_add h (fun _ h => h) cs ds hc hd (x := (s, 1)) hs, addMod_comm,
    word_add h (fun _ h => h) ds cs hd hc (x := (s, 1)) hs, word_fst, hfix]

theorem hits_related (h : Acts S all) (s t : Nat) (hs : S s) (hr : Related all s t) :
    hits all s t = hits all s s := by
  have ht := related_closed h hs hr
  obtain ⟨ds, hd, e⟩ := (related_iff h s t hs).1 hr
  obtain ⟨ds', hd', e'⟩ := (related_iff h t s ht).1 (related_symm h hs hr)
  have h1 := hits_shift h s t hs ds hd
  have h2 := stab_sub h s hs ds hd
  have h3 := stab_sub h t ht ds' hd'
  rw [e] at h1 h2
  rw [e'] at h3
  omega

theorem hits_unrelated (h : Acts S all) (s t : Nat) (hs : S s) (hr : ¬ Related all s t) :
    hits all s t = 0 := by
  unfold hits
  rw [List.length_eq_zero_iff, List.filter_eq_nil_iff]
  intro cs hcs
  simp only [decide_eq_true_eq]
  intro e
  exact hr ((related_iff h s t hs).2 ⟨cs, (mem_exponents _ _).1 hcs, e⟩)

theorem exponents_length (ys : List Generator) (hp : ∀ y ∈ ys, 0 < y.per) : (exponents ys).length = total ys := by
  rw [exponents_eq ys hp]; simp

open Classical in
theorem orbit_stabiliser (states : List Nat) (hnd : states.Nodup) (h : Acts (· ∈ states) all) (s : Nat)
    (hs : s ∈ states) :
    hits all s s * (states.filter (fun t => decide (Related all s t))).length = total all := by
  have h1 : (states.map (fun t => hits all s t)).sum = total all := by
    rw [← exponents_length all h.per_pos]
    have : ∀ l : List (List Nat), (∀ cs ∈ l, (word all cs (s, 1)).1 ∈ states) →
        (states.map (fun t => (l.filter (fun cs => decide ((word all cs (s, 1)).1 = t))).length)).sum = l.length := by
      intro l
      induction l with
      | nil => intro _; simp
      | cons a l ih =>
        intro hl
        rw [List.length_cons, ← ih (fun c hc => hl c (by simp [hc]))]
        have ha := hl a (by simp)
        have e : states.map (fun t => ((a :: l).filter (fun cs => decide ((word all cs (s, 1)).1 = t))).length)
            = states.map (fun t => (l.filter (fun cs => decide ((word all cs (s, 1)).1 = t))).length
              + if t = (word all a (s, 1)).1 then 1 else 0) := by
          apply List.map_congr_left
          intro t _
          rw [List.filter_cons]
          by_cases h2 : (word all a (s, 1)).1 = t
          · simp [h2]
          · simp [h2, Ne.symm h2]
        rw [e, List.sum_map_add]
        congr 1
        rw [← List.sum_toFinset _ hnd, Finset.sum_ite_eq']
        simp [ha]
    exact this _ (fun cs hcs => word_closed h (fun _ h => h) cs hs)
  rw [← h1]
  have : ∀ l : List Nat, (l.map (fun t => hits all s t)).sum
      = hits all s s * (l.filter (fun t => decide (Related all s t))).length := by
    intro l
    induction l with
    | nil => simp
    | cons a l ih =>
      rw [List.map_cons, List.sum_cons, ih, List.filter_cons]
      by_cases h2 : Related all s a
      · rw [hits_related h s a hs h2]; simp [h2]; ring
      · rw [hits_unrelated h s a hs h2]; simp [h2]
  exact (this states).symm

end Proof.Symmetry
