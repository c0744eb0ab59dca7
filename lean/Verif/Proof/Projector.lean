import Verif.Model.Projector
import Verif.Proof.Reduced
/-! The visits of the projection recursions are the group elements. -/
namespace Proof.Projector
open Model Spec Proof.Symmetry

/-- sum of a function over visits -/
noncomputable def vsum (F : Nat → ℂ) (l : List Visit) : ℂ := (l.map fun x => (x.2.1 : ℂ) * x.2.2 * F x.1).sum

theorem vsum_append (F : Nat → ℂ) (a b : List Visit) : vsum F (a ++ b) = vsum F a + vsum F b := by
  simp [vsum]

/-- phase factor of exponents -/
noncomputable def fac (sg : ℝ) (ys : List Generator) (cs : List Nat) : ℂ :=
  Complex.exp (Complex.I * ((sg * angle ys cs : ℝ) : ℂ))

variable {S : Nat → Prop} {all : List Generator}

theorem exponents_sum_cons (y : Generator) (ys : List Generator) (f : List Nat → ℂ) :
    ((exponents (y :: ys)).map f).sum
      = ((List.range y.per).map fun j => ((exponents ys).map fun cs => f (j :: cs)).sum).sum := by
  rw [exponents]
  generalize exponents ys = l
  induction l with
  | nil => simp
  | cons cs l ih =>
    simp only [List.flatMap_cons, List.map_append, List.sum_append, ih, List.map_map, List.map_cons,
      List.sum_cons]
    generalize List.range y.per = r
    induction r with
    | nil => simp
    | cons a r ih => simp only [List.map_cons, List.sum_cons, Function.comp] at ih ⊢; rw [← sub_eq_zero] at ih ⊢; rw [← ih]; ring

theorem visits_spec (h : Acts S all) (sg : ℝ) (F : Nat → ℂ) {ys : List Generator} (hys : ∀ y ∈ ys, y ∈ all)
    (s : Nat) (hs : S s) (phase : Int) (c : ℂ) :
    (visits sg ys s phase c).2 = phase ∧
    vsum F (visits sg ys s phase c).1
      = ((exponents ys).map fun cs => ((word ys cs (s, phase)).2 : ℂ) * (c * fac sg ys cs) * F (word ys cs (s, phase)).1).sum := by
  induction ys generalizing s phase c with
  | nil => simp [visits, vsum, exponents, word, fac, angle]
  | cons y ys ih =>
    have hy : y ∈ all := hys y (by simp)
    have hys' : ∀ y ∈ ys, y ∈ all := fun z hz => hys z (by simp [hz])
    have ih := fun s hs phase c => ih hys' s hs phase c
    rw [visits]
    -- the loop started at U^j
    have loop : ∀ (m j : Nat),
        let x := y.U^[j] (s, phase)
        let cj := c * Complex.exp (Complex.I * (sg * (2 * Real.pi * y.q / y.per) : ℝ)) ^ j
        let out := visitLoop y (Complex.exp (Complex.I * (sg * (2 * Real.pi * y.q / y.per) : ℝ))) (visits sg ys) m x.1 x.2 cj
        out.2 = (y.U^[j + m] (s, phase)).2 ∧
        vsum F out.1 = ((List.range' j m).map fun i => ((exponents ys).map fun cs =>
          ((word ys cs (y.U^[i] (s, phase))).2 : ℂ) * (c * Complex.exp (Complex.I * (sg * (2 * Real.pi * y.q / y.per) : ℝ)) ^ i * fac sg ys cs)
            * F (word ys cs (y.U^[i] (s, phase))).1).sum).sum := by
      intro m
      induction m with
      | zero => intro j; simp [visitLoop, vsum]
      | succ m ihm =>
        intro j
        have hx : S (y.U^[j] (s, phase)).1 := iter_closed h hy j (x := (s, phase)) hs
        obtain ⟨i1, i2⟩ := ih _ hx (y.U^[j] (s, phase)).2
          (c * Complex.exp (Complex.I * (sg * (2 * Real.pi * y.q / y.per) : ℝ)) ^ j)
        have hm := ihm (j + 1)
        simp only [visitLoop]
        simp only at hm
        rw [i1]
        have hU : y.U ((y.U^[j] (s, phase)).1, (y.U^[j] (s, phase)).2) = y.U^[j + 1] (s, phase) := by
          rw [Function.iterate_succ_apply']
        rw [hU, mul_assoc c, ← pow_succ]
        refine ⟨?_, ?_⟩
        · rw [hm.1]; congr 2; omega
        · rw [vsum_append, i2, hm.2, List.range'_succ, List.map_cons, List.sum_cons]
    have h0 := loop y.per 0
    simp only [Function.iterate_zero, id, pow_zero, mul_one, zero_add] at h0
    refine ⟨?_, ?_⟩
    · rw [h0.1, iter_per h hy (x := (s, phase)) hs]
    · rw [h0.2, exponents_sum_cons, ← List.range_eq_range']
      congr 1
      apply List.map_congr_left
      intro j hj
      congr 1
      apply List.map_congr_left
      intro cs _
      have e1 : word (y :: ys) (j :: cs) (s, phase) = word ys cs (y.U^[j] (s, phase)) := by
        rw [word, word_comm h hys' hy cs j (x := (s, phase)) hs]
      have e2 : fac sg (y :: ys) (j :: cs)
          = Complex.exp (Complex.I * (sg * (2 * Real.pi * y.q / y.per) : ℝ)) ^ j * fac sg ys cs := by
        unfold fac
        rw [← Complex.exp_nat_mul, ← Complex.exp_add]
        congr 1
        simp only [angle]
        push_cast
        ring
      rw [e1, e2]
      ring

theorem fac_neg (ys : List Generator) (cs : List Nat) :
    fac (-1) ys cs = (starRingEnd ℂ) (character ys cs) := by
  unfold fac character
  rw [← Complex.exp_conj]
  congr 1
  simp

theorem fac_pos (ys : List Generator) (cs : List Nat) : fac 1 ys cs = character ys cs := by
  unfold fac character
  simp

/-- visits downward: the projection -/
theorem visits_neg (h : Acts S all) (F : Nat → ℂ) (s : Nat) (hs : S s) (c : ℂ) :
    vsum F (visits (-1) all s 1 c).1
      = c * ((exponents all).map fun cs => F (word all cs (s, 1)).1 * chi all s cs).sum := by
  rw [(visits_spec h (-1) F (fun _ h => h) s hs 1 c).2, ← List.sum_map_mul_left]
  congr 1
  apply List.map_congr_left
  intro cs _
  rw [fac_neg, chi]; ring

theorem visits_pos (h : Acts S all) (F : Nat → ℂ) (s : Nat) (hs : S s) (c : ℂ) :
    vsum F (visits 1 all s 1 c).1
      = c * ((exponents all).map fun cs => F (word all cs (s, 1)).1 * (starRingEnd ℂ) (chi all s cs)).sum := by
  rw [(visits_spec h 1 F (fun _ h => h) s hs 1 c).2, ← List.sum_map_mul_left]
  congr 1
  apply List.map_congr_left
  intro cs _
  rw [fac_pos, chi, map_mul, Complex.conj_conj]
  simp
  ring

theorem exponents_length (ys : List Generator) : (exponents ys).length = (ys.map fun y => y.per).prod := by
  induction ys with
  | nil => rfl
  | cons y ys ih =>
    rw [exponents, List.length_flatMap]
    simp [ih, mul_comm]

theorem scatter_eq (NsFull : Nat) (a : ℂ) (vs : List Visit) (out : Nat → ℂ) (t : Nat) (ht : t < NsFull)
    (hvs : ∀ x ∈ vs, x.1 < NsFull) :
    scatter NsFull a vs out (NsFull - t - 1) = out (NsFull - t - 1) + vsum (fun u => if u = t then 1 else 0) vs * a := by
  induction vs generalizing out with
  | nil => simp [scatter, vsum]
  | cons x vs ih =>
    obtain ⟨u, p, c⟩ := x
    have hu := hvs (u, p, c) (by simp)
    rw [scatter, ih _ fun y hy => hvs y (by simp [hy])]
    simp only [vsum, List.map_cons, List.sum_cons]
    have : ((NsFull - t - 1 : Nat) : Int) = (NsFull : Int) - u - 1 ↔ u = t := by simp only at hu; omega
    by_cases hut : u = t
    · rw [if_pos (this.2 hut), if_pos hut]; ring
    · rw [if_neg fun e => hut (this.1 e), if_neg hut]; ring

theorem gather_eq (NsFull : Nat) (v : Nat → ℂ) (vs : List Visit) (a : ℂ) :
    gather NsFull v vs a = a + vsum (fun t => v ((NsFull : Int) - t - 1).toNat) vs := by
  induction vs generalizing a with
  | nil => simp [gather, vsum]
  | cons x vs ih =>
    obtain ⟨u, p, c⟩ := x
    rw [gather, ih]
    simp only [vsum, List.map_cons, List.sum_cons]
    ring

/-- the visited configurations stay in `S` -/
theorem visits_closed (h : Acts S all) (sg : ℝ) {ys : List Generator} (hys : ∀ y ∈ ys, y ∈ all)
    (s : Nat) (hs : S s) (phase : Int) (c : ℂ) : ∀ x ∈ (visits sg ys s phase c).1, S x.1 := by
  induction ys generalizing s phase c with
  | nil => intro x hx; simp [visits] at hx; rw [hx]; exact hs
  | cons y ys ih =>
    have hy : y ∈ all := hys y (by simp)
    have hys' : ∀ y ∈ ys, y ∈ all := fun z hz => hys z (by simp [hz])
    rw [visits]
    generalize Complex.exp _ = cc
    have : ∀ m s phase c, S s → ∀ x ∈ (visitLoop y cc (visits sg ys) m s phase c).1, S x.1 := by
      intro m
      induction m with
      | zero => intro s phase c _ x hx; simp [visitLoop] at hx
      | succ m ihm =>
        intro s phase c hs x hx
        rw [visitLoop] at hx
        simp only [List.mem_append] at hx
        rcases hx with hx | hx
        · exact ih hys' s hs phase c x hx
        · exact ihm _ _ _ (h.closed y hy s hs) x hx
    exact this _ s phase c hs

end Proof.Projector
