import Verif.Proof.Projector
import Verif.Props.C13
/-!
C42  Projectors to and from the full space.

`Model.projectFromDense`, `projectToDense`, `getProj`, `projectToSparse`, `projectToPcon` are
`project_from(sparse=False)`, `project_to(sparse=False)`, `get_proj`, `project_to(sparse=True)` and
`project_to(pcon=True, sparse=False)`.  Full vectors are indexed as in the library: configuration `t`
sits at `NsFull - t - 1`.  `Spec.symState` is the normalised projection of a configuration.
-/
namespace Props
open Model Spec Proof.Symmetry Proof.Projector
open scoped BigOperators

theorem unit_exp (x : ℝ) :
    Complex.exp (Complex.I * x) * (starRingEnd ℂ) (Complex.exp (Complex.I * x)) = 1 := by
  rw [← Complex.exp_conj, ← Complex.exp_add, map_mul, Complex.conj_I, Complex.conj_ofReal]
  simp

section
variable {NsFull : Nat} {ys : List Generator} {S : Nat → Prop} {l : List (Nat × Int)}

theorem acts_range (h : Acts (· < NsFull) ys) : Acts (· ∈ Finset.range NsFull) ys := by
  simpa [Finset.mem_range] using h

theorem startCoef_eq (ys : List Generator) (n : Int) :
    startCoef ys n = 1 / ((Real.sqrt ((exponents ys).length * (n : ℝ)) : ℝ) : ℂ) := by
  unfold startCoef
  rw [exponents_length, mul_comm]
  push_cast
  rfl

theorem symState_eq (h : Acts (· < NsFull) ys) (hS : ∀ s, S s → s < NsFull) (hl : ReducedBasis S ys l)
    {s : Nat} {n : Int} (hm : (s, n) ∈ l) (t : Nat) :
    symState (Finset.range NsFull) ys s t = startCoef ys n * projection ys s t := by
  have hs := (hl.mem s n).1 hm
  unfold symState
  rw [norm_projection (acts_range h) s (by simpa using hS s hs.1) n hs.2.2.2, startCoef_eq]
  ring

/-- a column of the expansion -/
theorem column_from (h : Acts (· < NsFull) ys) (hS : ∀ s, S s → s < NsFull) (hl : ReducedBasis S ys l)
    {s : Nat} {n : Int} (hm : (s, n) ∈ l) (a : ℂ) (out : Nat → ℂ) (t : Nat) (ht : t < NsFull) :
    scatter NsFull a (visits (-1) ys s 1 (startCoef ys n)).1 out (NsFull - t - 1)
      = out (NsFull - t - 1) + symState (Finset.range NsFull) ys s t * a := by
  have hs := (hl.mem s n).1 hm
  rw [scatter_eq _ _ _ _ _ ht (visits_closed h (-1) (fun _ h => h) s (hS s hs.1) 1 _),
    visits_neg h _ s (hS s hs.1), symState_eq h hS hl hm]
  congr 3
  rw [← sum_projection (acts_range h) s (by simpa using hS s hs.1) (fun u => if u = t then (1 : ℂ) else 0)]
  simp only [ite_mul, one_mul, zero_mul]
  rw [Finset.sum_ite_eq', if_pos (by simpa using ht)]

end

/-- Expanding a reduced vector gives the corresponding combination of the normalised projected
states, for every order in which the parallel loop handles the basis states. -/
theorem C42_project_from (NsFull : Nat) (ys : List Generator) (h : Acts (· < NsFull) ys) (S : Nat → Prop)
    (hS : ∀ s, S s → s < NsFull) (l : List (Nat × Int)) (hl : ReducedBasis S ys l) (v : Nat → ℂ)
    (order : List Nat) (horder : order.Perm (List.range l.length)) (t : Nat) (ht : t < NsFull) :
    projectFromDense ys l NsFull v order (fun _ => 0) (NsFull - t - 1)
      = ∑ k : Fin l.length, symState (Finset.range NsFull) ys l[k].1 t * v k := by
  have key : ∀ (order : List Nat) (out : Nat → ℂ), (∀ k ∈ order, k < l.length) →
      projectFromDense ys l NsFull v order out (NsFull - t - 1) = out (NsFull - t - 1)
        + (order.map fun k => if hk : k < l.length then symState (Finset.range NsFull) ys l[k].1 t * v k else 0).sum := by
    intro order
    induction order with
    | nil => intro out _; simp [projectFromDense]
    | cons k order ih =>
      intro out hk
      have hk0 := hk k (by simp)
      have hg : l[k]? = some (l[k].1, l[k].2) := List.getElem?_eq_getElem hk0
      rw [projectFromDense, hg]
      simp only
      rw [ih _ fun j hj => hk j (by simp [hj]), column_from h hS hl (List.mem_of_getElem? hg) _ _ _ ht,
        List.map_cons, List.sum_cons, dif_pos hk0, add_assoc]
  rw [key order _ fun k hk => by simpa using horder.mem_iff.1 hk, zero_add, (horder.map _).sum_eq,
    ← List.sum_toFinset _ List.nodup_range, List.toFinset_range, Finset.sum_range]
  apply Finset.sum_congr rfl
  intro k _
  rw [dif_pos k.2]; rfl

/-- No two basis states write the same entry, so the unsynchronised `+=` of the threads do not race. -/
theorem C42_race_free (NsFull : Nat) (ys : List Generator) (h : Acts (· < NsFull) ys) (S : Nat → Prop)
    (hS : ∀ s, S s → s < NsFull) (l : List (Nat × Int)) (hl : ReducedBasis S ys l) (i j : Nat) (hij : i ≠ j)
    (a b : Nat × Int) (ha : l[i]? = some a) (hb : l[j]? = some b) (c d : ℂ)
    (x y : Visit) (hx : x ∈ (visits (-1) ys a.1 1 c).1) (hy : y ∈ (visits (-1) ys b.1 1 d).1) :
    (NsFull : Int) - x.1 - 1 ≠ (NsFull : Int) - y.1 - 1 := by
  intro he
  have hxy : x.1 = y.1 := by omega
  have hsa := (hl.mem _ _).1 (List.mem_of_getElem? ha)
  have hsb := (hl.mem _ _).1 (List.mem_of_getElem? hb)
  have rel : ∀ (s : Nat), s < NsFull → ∀ (c : ℂ) (x : Visit), x ∈ (visits (-1) ys s 1 c).1 → Related ys s x.1 := by
    intro s hs c x hx
    have hA : Acts (fun u => u < NsFull ∧ Related ys s u) ys :=
      { per_pos := h.per_pos
        closed := fun y hy u hu => ⟨h.closed y hy u hu.1, hu.2.tail ⟨y, hy, rfl⟩⟩
        sign := fun y hy u hu => h.sign y hy u hu.1
        period := fun y hy u hu => h.period y hy u hu.1
        commute := fun y hy z hz u hu => h.commute y hy z hz u hu.1 }
    exact (visits_closed hA (-1) (fun _ h => h) s ⟨hs, Relation.ReflTransGen.refl⟩ 1 c x hx).2
  have r1 := rel a.1 (hS _ hsa.1) c x hx
  have r2 := rel b.1 (hS _ hsb.1) d y hy
  rw [hxy] at r1
  have r3 := r1.trans (related_symm h (hS _ hsb.1) r2)
  have h1 := hsa.2.1 _ r3
  have h2 := hsb.2.1 _ (related_symm h (hS _ hsa.1) r3)
  have e : a.1 = b.1 := by omega
  have g1 : (l.map (·.1))[i]? = some a.1 := by simp [ha]
  have g2 : (l.map (·.1))[j]? = some b.1 := by simp [hb]
  rcases Nat.lt_or_gt_of_ne hij with hlt | hlt
  · have := decreasing_get hl.sorted g1 g2 hlt; omega
  · have := decreasing_get hl.sorted g2 g1 hlt; omega

/-- Projecting a full vector (dense variant) takes the overlaps with the projected states: it is the
adjoint of the expansion. -/
theorem C42_project_to (NsFull : Nat) (ys : List Generator) (h : Acts (· < NsFull) ys) (S : Nat → Prop)
    (hS : ∀ s, S s → s < NsFull) (l : List (Nat × Int)) (hl : ReducedBasis S ys l) (v : Nat → ℂ)
    (k : Fin l.length) :
    projectToDense ys l NsFull v k = ∑ t ∈ Finset.range NsFull,
      (starRingEnd ℂ) (symState (Finset.range NsFull) ys l[k].1 t) * v (NsFull - t - 1) := by
  have hg : l[k.1]? = some (l[k].1, l[k].2) := List.getElem?_eq_getElem k.2
  have hm := List.mem_of_getElem? hg
  have hs := (hl.mem _ _).1 hm
  have hconf : l[k].1 ∈ Finset.range NsFull := by simpa using hS _ hs.1
  unfold projectToDense
  rw [hg]
  simp only
  rw [gather_eq, zero_add, visits_pos h _ _ (hS _ hs.1)]
  have e : ∀ t ∈ Finset.range NsFull,
      (starRingEnd ℂ) (symState (Finset.range NsFull) ys l[k].1 t) * v (NsFull - t - 1)
        = startCoef ys l[k].2 * (starRingEnd ℂ) ((starRingEnd ℂ) (v ((NsFull : Int) - t - 1).toNat) * projection ys l[k].1 t) := by
    intro t ht
    rw [symState_eq h hS hl hm, map_mul, map_mul, Complex.conj_conj]
    have hc : (starRingEnd ℂ) (startCoef ys l[k].2) = startCoef ys l[k].2 := by
      unfold startCoef; rw [Complex.conj_ofReal]
    have ht : t < NsFull := by simpa using ht
    rw [hc, show ((NsFull : Int) - t - 1).toNat = NsFull - t - 1 by omega]
    ring
  rw [Finset.sum_congr rfl e, ← Finset.mul_sum, ← map_sum, sum_projection (acts_range h) _ hconf, map_list_sum,
    List.map_map]
  congr 2
  apply List.map_congr_left
  intro cs _
  simp only [Function.comp, map_mul, Complex.conj_conj]

/-- Expanding and projecting back gives the vector back. -/
theorem C42_round_trip (NsFull : Nat) (ys : List Generator) (h : Acts (· < NsFull) ys) (S : Nat → Prop)
    (hS : ∀ s, S s → s < NsFull) (l : List (Nat × Int)) (hl : ReducedBasis S ys l) (v : Nat → ℂ)
    (order : List Nat) (horder : order.Perm (List.range l.length)) (k : Fin l.length) :
    projectToDense ys l NsFull (projectFromDense ys l NsFull v order fun _ => 0) k = v k := by
  rw [C42_project_to NsFull ys h S hS l hl]
  have e : ∀ t ∈ Finset.range NsFull,
      (starRingEnd ℂ) (symState (Finset.range NsFull) ys l[k].1 t) * projectFromDense ys l NsFull v order (fun _ => 0) (NsFull - t - 1)
        = ∑ i : Fin l.length, (starRingEnd ℂ) (symState (Finset.range NsFull) ys l[k].1 t) * symState (Finset.range NsFull) ys l[i].1 t * v i := by
    intro t ht
    rw [C42_project_from NsFull ys h S hS l hl v order horder t (by simpa using ht), Finset.mul_sum]
    apply Finset.sum_congr rfl
    intro i _
    ring
  rw [Finset.sum_congr rfl e, Finset.sum_comm]
  simp only [← Finset.sum_mul]
  have o := fun i => C13_orthonormal (Finset.range NsFull) ys (acts_range h) S (fun s hs => by simpa using hS s hs) l hl i k
  simp only [o, ite_mul, one_mul, zero_mul]
  rw [Finset.sum_ite_eq', if_pos (Finset.mem_univ _)]

/-- A full vector is symmetric: `U w = exp(2πi q/per) w` for every symmetry, amplitude by amplitude
(`(U w)(img t) = sgn(t) w(t)`). -/
def Symmetric (NsFull : Nat) (ys : List Generator) (w : Nat → ℂ) : Prop :=
  ∀ y ∈ ys, ∀ t < NsFull,
    (y.sgn t : ℂ) * w t = Complex.exp (Complex.I * (2 * Real.pi * y.q / y.per : ℝ)) * w (y.img t)

theorem gen_exponent {y : Generator} (hy : y ∈ ys) (hall : ∀ z ∈ ys, z ∈ all) (hA : Acts S all) :
    ∃ cs, InRange ys cs ∧ (∀ x : Nat × Int, S x.1 → word ys cs x = y.U x) ∧
      character ys cs = Complex.exp (Complex.I * (2 * Real.pi * y.q / y.per : ℝ)) := by
  induction ys with
  | nil => simp at hy
  | cons z ys ih =>
    have hz : z ∈ all := hall z (by simp)
    have hall' : ∀ z ∈ ys, z ∈ all := fun a ha => hall a (by simp [ha])
    rcases List.mem_cons.1 hy with rfl | hy'
    · -- exponent 1 % per at the head
      have hp := hA.per_pos y hz
      refine ⟨(1 % y.per) :: ys.map (fun _ => 0), List.Forall₂.cons (Nat.mod_lt _ hp)
        (zero_inRange hA hall'), ?_, ?_⟩
      · intro x hx
        rw [word, word_zero, iter_mod hA hz 1 hx]; rfl
      · have hzero : ∀ zs : List Generator, angle zs (zs.map fun _ => 0) = 0 := by
          intro zs
          induction zs with
          | nil => rfl
          | cons a zs ih => rw [List.map_cons, angle, ih]; simp
        unfold character
        simp only [angle]
        rw [hzero, add_zero]
        by_cases h1 : y.per = 1
        · rw [h1]
          simp only [Nat.mod_self, Nat.cast_zero, mul_zero, Complex.ofReal_zero, Complex.exp_zero]
          symm
          have := Complex.exp_int_mul_two_pi_mul_I y.q
          rw [← this]
          congr 1
          push_cast
          ring
        · rw [Nat.mod_eq_of_lt (by omega)]
          simp
    · obtain ⟨cs, h1, h2, h3⟩ := ih hy' hall'
      refine ⟨0 :: cs, List.Forall₂.cons (hA.per_pos z hz) h1, ?_, ?_⟩
      · intro x hx; rw [word]; exact h2 x hx
      · rw [← h3]; simp [character, angle]

/-- Expanded vectors are symmetric. -/
theorem C42_image_symmetric (NsFull : Nat) (ys : List Generator) (h : Acts (· < NsFull) ys) (S : Nat → Prop)
    (hS : ∀ s, S s → s < NsFull) (l : List (Nat × Int)) (hl : ReducedBasis S ys l) (v : Nat → ℂ)
    (order : List Nat) (horder : order.Perm (List.range l.length)) :
    Symmetric NsFull ys fun t => projectFromDense ys l NsFull v order (fun _ => 0) (NsFull - t - 1) := by
  intro y hy t ht
  have him := h.closed y hy t ht
  simp only
  rw [C42_project_from NsFull ys h S hS l hl v order horder t ht,
    C42_project_from NsFull ys h S hS l hl v order horder _ him, Finset.mul_sum, Finset.mul_sum]
  apply Finset.sum_congr rfl
  intro k _
  have hg : l[k.1]? = some (l[k].1, l[k].2) := List.getElem?_eq_getElem k.2
  have hm := List.mem_of_getElem? hg
  have hs := (hl.mem _ _).1 hm
  rw [symState_eq h hS hl hm, symState_eq h hS hl hm]
  obtain ⟨cs, h1, h2, h3⟩ := gen_exponent hy (fun _ h => h) h
  have hsh := projection_shift_right h l[k].1 t (hS _ hs.1) ht cs h1
  rw [h2 (t, 1) ht] at hsh
  simp only [Generator.U] at hsh
  rw [hsh, chi, h2 (t, 1) ht, h3]
  simp only [Generator.U, one_mul]
  have hu : Complex.exp (Complex.I * (2 * Real.pi * y.q / y.per : ℝ))
      * (starRingEnd ℂ) (Complex.exp (Complex.I * (2 * Real.pi * y.q / y.per : ℝ))) = 1 := by
    exact unit_exp _
  linear_combination (-(y.sgn t : ℂ) * (startCoef ys l[k].2 * projection ys l[k].1 t) * v k) * hu

theorem symmetric_word (h : Acts (· < NsFull) ys) (w : Nat → ℂ) (hw : Symmetric NsFull ys w)
    {zs : List Generator} (hz : ∀ z ∈ zs, z ∈ ys) (cs : List Nat) (t : Nat) (ht : t < NsFull) :
    ((word zs cs (t, 1)).2 : ℂ) * w t = character zs cs * w (word zs cs (t, 1)).1 := by
  induction zs generalizing cs with
  | nil => simp [word, character, angle]
  | cons y zs ih =>
    cases cs with
    | nil => simp [word, character, angle]
    | cons c cs =>
      have hz' : ∀ z ∈ zs, z ∈ ys := fun z h => hz z (by simp [h])
      have hy : y ∈ ys := hz y (by simp)
      have ih := ih hz' cs
      have e : character (y :: zs) (c :: cs)
          = Complex.exp (Complex.I * (2 * Real.pi * y.q / y.per : ℝ)) ^ c * character zs cs := by
        unfold character
        rw [← Complex.exp_nat_mul, ← Complex.exp_add]
        congr 1
        simp only [angle]
        push_cast
        ring
      rw [word, e]
      have ha := word_closed h hz' cs (x := (t, 1)) ht
      revert ih ha
      generalize word zs cs (t, 1) = a
      intro ih ha
      clear e
      induction c with
      | zero => simpa using ih
      | succ c ihc =>
        rw [Function.iterate_succ_apply']
        have hxa := iter_closed h hy c (x := a) ha
        revert ihc hxa
        generalize y.U^[c] a = x
        intro ihc hxa
        have := hw y hy x.1 hxa
        simp only [Generator.U]
        rw [pow_succ, Int.cast_mul]
        linear_combination (y.sgn x.1 : ℂ) * ihc
          + Complex.exp (Complex.I * (2 * Real.pi * y.q / y.per : ℝ)) ^ c * character zs cs * this

/-- The expansion is onto the symmetric vectors: with the basis of all configurations, projecting a
symmetric vector and expanding it again gives it back. -/
theorem C42_onto_symmetric (NsFull : Nat) (ys : List Generator) (h : Acts (· < NsFull) ys)
    (l : List (Nat × Int)) (hl : ReducedBasis (· < NsFull) ys l) (hlen : ys.length ≤ 32) (w : Nat → ℂ)
    (hw : Symmetric NsFull ys fun t => w (NsFull - t - 1))
    (order : List Nat) (horder : order.Perm (List.range l.length)) (t : Nat) (ht : t < NsFull) :
    projectFromDense ys l NsFull (fun k => projectToDense ys l NsFull w k) order (fun _ => 0) (NsFull - t - 1)
      = w (NsFull - t - 1) := by
  set W : Nat → ℂ := fun t => w (NsFull - t - 1) with hW
  have hA := acts_range h
  rw [C42_project_from NsFull ys h _ (fun _ h => h) l hl _ order horder t ht]
  have hto : ∀ k : Fin l.length, projectToDense ys l NsFull w k
      = startCoef ys l[k].2 * ((exponents ys).length * W l[k].1) := by
    intro k
    have hg : l[k.1]? = some (l[k].1, l[k].2) := List.getElem?_eq_getElem k.2
    have hm := List.mem_of_getElem? hg
    have hs := (hl.mem _ _).1 hm
    unfold projectToDense
    rw [hg]
    simp only
    rw [gather_eq, zero_add, visits_pos h _ _ hs.1]
    congr 1
    have : ∀ cs ∈ exponents ys, (fun cs => w ((NsFull : Int) - (word ys cs (l[k].1, 1)).1 - 1).toNat
        * (starRingEnd ℂ) (chi ys l[k].1 cs)) cs = W l[k].1 := by
      intro cs hcs
      have hlt := word_closed h (fun _ h => h) cs (x := (l[k].1, 1)) hs.1
      have h1 := symmetric_word h W hw (fun _ h => h) cs l[k].1 hs.1
      simp only
      rw [show ((NsFull : Int) - (word ys cs (l[k].1, 1)).1 - 1).toNat = NsFull - (word ys cs (l[k].1, 1)).1 - 1 by omega]
      unfold chi
      rw [map_mul, Complex.conj_conj]
      have h2 : W (word ys cs (l[k].1, 1)).1 = w (NsFull - (word ys cs (l[k].1, 1)).1 - 1) := rfl
      rw [← h2]
      have hsg : ((word ys cs (l[k].1, 1)).2 : ℂ) * ((word ys cs (l[k].1, 1)).2 : ℂ) = 1 := by
        rcases word_sign h (fun _ h => h) cs l[k].1 hs.1 with e | e <;> rw [e] <;> norm_num
      have hcj : (starRingEnd ℂ) ((word ys cs (l[k].1, 1)).2 : ℂ) = ((word ys cs (l[k].1, 1)).2 : ℂ) := by simp
      rw [hcj]
      linear_combination W l[k].1 * hsg - ((word ys cs (l[k].1, 1)).2 : ℂ) * h1
    rw [List.map_congr_left this, List.map_const', List.sum_replicate, nsmul_eq_mul]
  -- representative of t
  obtain ⟨b, _, f2, f3, f4, f5⟩ := C07_representative _ ys h hlen t ht
  have hbmax : ∀ u, Related ys b.r u → u ≤ b.r := fun u hu => f3 u (f2.trans hu)
  have hb : b.r < NsFull := related_closed h ht f2
  obtain ⟨ds, hd, hdt⟩ := (related_iff h b.r t hb).1 (related_symm h ht f2)
  have hWt := symmetric_word h W hw (fun _ h => h) ds b.r hb
  rw [hdt] at hWt
  have hsg : ((word ys ds (b.r, 1)).2 : ℂ) * ((word ys ds (b.r, 1)).2 : ℂ) = 1 := by
    rcases word_sign h (fun _ h => h) ds b.r hb with e | e <;> rw [e] <;> norm_num
  have hchar : (starRingEnd ℂ) (character ys ds) * character ys ds = 1 := by
    unfold character
    rw [mul_comm]; exact unit_exp _
  have hWt' : chi ys b.r ds * W b.r = W t := by
    unfold chi
    linear_combination (starRingEnd ℂ) (character ys ds) * hWt + W t * hchar
  rcases projection_cases h b.r hb with ⟨_, hpp, hpos⟩ | h0
  · -- the representative is a basis state
    have hm : (b.r, ((stab ys b.r).length : Int)) ∈ l := by
      refine (hl.mem _ _).2 ⟨hb, hbmax, ⟨b.r, ?_⟩, by rw [hpp]; simp⟩
      rw [hpp]; exact_mod_cast (Nat.pos_iff_ne_zero.1 hpos)
    obtain ⟨k, hk, hke⟩ := List.getElem_of_mem hm
    rw [Finset.sum_eq_single ⟨k, hk⟩]
    · rw [hto ⟨k, hk⟩]
      have e1 : l[(⟨k, hk⟩ : Fin l.length)] = (b.r, ((stab ys b.r).length : Int)) := hke
      rw [e1]
      simp only
      rw [symState_eq h (fun _ h => h) hl hm]
      have hsh := projection_shift_right h b.r b.r hb hb ds hd
      rw [hdt, hpp] at hsh
      rw [hsh, startCoef_eq]
      set n : ℝ := (((stab ys b.r).length : Int) : ℝ) with hn
      have hnpos : 0 < n := by rw [hn]; exact_mod_cast hpos
      have hG : (0 : ℝ) < (exponents ys).length := by exact_mod_cast exponents_pos h
      have hsq : ((Real.sqrt ((exponents ys).length * n) : ℝ) : ℂ) * ((Real.sqrt ((exponents ys).length * n) : ℝ) : ℂ)
          = (exponents ys).length * (n : ℂ) := by
        rw [← Complex.ofReal_mul, Real.mul_self_sqrt (by positivity)]; push_cast; rfl
      have hne : ((Real.sqrt ((exponents ys).length * n) : ℝ) : ℂ) ≠ 0 := by
        exact_mod_cast (Real.sqrt_pos.2 (by positivity)).ne'
      have hnc : ((stab ys b.r).length : ℂ) = (n : ℂ) := by rw [hn]; push_cast; rfl
      rw [hnc, show w (NsFull - t - 1) = W t from rfl, ← hWt']
      field_simp
      linear_combination (-(chi ys b.r ds) * W b.r) * hsq
    · intro j _ hj
      have hg : l[j.1]? = some (l[j].1, l[j].2) := List.getElem?_eq_getElem j.2
      have hmj := List.mem_of_getElem? hg
      have hsj := (hl.mem _ _).1 hmj
      rw [symState_eq h (fun _ h => h) hl hmj, projection_unrelated h _ _ hsj.1]
      · simp
      · intro hr
        have r2 := hr.trans f2
        have h1 := hsj.2.1 _ r2
        have h2 := hbmax _ (related_symm h hsj.1 r2)
        apply hj
        have e : l[j].1 = b.r := by omega
        have g1 : (l.map (·.1))[j.1]? = some b.r := by simpa using e
        have g2 : (l.map (·.1))[k]? = some b.r := by simp [hk, hke]
        apply Fin.ext
        by_contra hne
        rcases Nat.lt_or_gt_of_ne hne with hlt | hlt
        · have := decreasing_get hl.sorted g1 g2 hlt; omega
        · have := decreasing_get hl.sorted g2 g1 hlt; omega
    · intro hn; exact absurd (Finset.mem_univ _) hn
  · -- nothing symmetric lives on this orbit
    have hex : ∃ cs, InRange ys cs ∧ (word ys cs (b.r, 1)).1 = b.r ∧ chi ys b.r cs ≠ 1 := by
      by_contra hno
      push Not at hno
      have hval : projection ys b.r b.r = ((stab ys b.r).length : ℂ) := by
        unfold projection stab
        generalize hL : exponents ys = L
        have hLr : ∀ cs ∈ L, InRange ys cs := fun cs hcs => (mem_exponents _ _).1 (hL ▸ hcs)
        clear hL
        induction L with
        | nil => simp
        | cons cs L ihL =>
          rw [List.map_cons, List.sum_cons, ihL fun c hc => hLr c (by simp [hc]), List.filter_cons]
          by_cases he : (word ys cs (b.r, 1)).1 = b.r
          · have := hno cs (hLr cs (by simp)) he
            unfold chi at this
            rw [if_pos he, this, if_pos (by simpa using he), List.length_cons]; push_cast; ring
          · simp [he]
      rw [h0] at hval
      have : (stab ys b.r).length = 0 := by exact_mod_cast hval.symm
      have hz : ys.map (fun _ => 0) ∈ stab ys b.r := by
        unfold stab
        rw [List.mem_filter]
        exact ⟨(mem_exponents _ _).2 (zero_inRange h fun _ h => h), by rw [word_zero]; simp⟩
      have := List.length_pos_of_mem hz
      omega
    obtain ⟨cs, hc, he, hne⟩ := hex
    have hWb : W b.r = 0 := by
      have h1 := symmetric_word h W hw (fun _ h => h) cs b.r hb
      rw [he] at h1
      have hchar' : (starRingEnd ℂ) (character ys cs) * character ys cs = 1 := by
        unfold character
        rw [mul_comm]; exact unit_exp _
      have h2 : (chi ys b.r cs - 1) * W b.r = 0 := by
        unfold chi
        linear_combination (starRingEnd ℂ) (character ys cs) * h1 + W b.r * hchar'
      rcases mul_eq_zero.1 h2 with h3 | h3
      · exact absurd (sub_eq_zero.1 h3) hne
      · exact h3
    have hWt0 : W t = 0 := by rw [← hWt', hWb, mul_zero]
    rw [show w (NsFull - t - 1) = W t from rfl, hWt0]
    apply Finset.sum_eq_zero
    intro j _
    have hg : l[j.1]? = some (l[j].1, l[j].2) := List.getElem?_eq_getElem j.2
    have hmj := List.mem_of_getElem? hg
    have hsj := (hl.mem _ _).1 hmj
    rw [symState_eq h (fun _ h => h) hl hmj, projection_unrelated h _ _ hsj.1]
    · simp
    · intro hr
      have r2 := hr.trans f2
      have h1 := hsj.2.1 _ r2
      have h2 := hbmax _ (related_symm h hsj.1 r2)
      have e : l[j].1 = b.r := by omega
      obtain ⟨u, hu⟩ := hsj.2.2.1
      rw [e] at hu
      exact hu (h0 u)

/-- `get_proj` has the projected states as columns. -/
theorem C42_get_proj (NsFull : Nat) (ys : List Generator) (h : Acts (· < NsFull) ys) (S : Nat → Prop)
    (hS : ∀ s, S s → s < NsFull) (l : List (Nat × Int)) (hl : ReducedBasis S ys l) (k : Fin l.length)
    (t : Nat) (ht : t < NsFull) :
    getProj ys l NsFull (NsFull - t - 1) k = symState (Finset.range NsFull) ys l[k].1 t := by
  have hg : l[k.1]? = some (l[k].1, l[k].2) := List.getElem?_eq_getElem k.2
  unfold getProj
  rw [hg]
  simp only
  rw [column_from h hS hl (List.mem_of_getElem? hg) _ _ _ ht]
  simp

/-- The default (sparse) variant of `project_to` is the transpose, not the adjoint. -/
theorem C42_sparse_is_transpose (NsFull : Nat) (ys : List Generator) (h : Acts (· < NsFull) ys) (S : Nat → Prop)
    (hS : ∀ s, S s → s < NsFull) (l : List (Nat × Int)) (hl : ReducedBasis S ys l) (v : Nat → ℂ)
    (k : Fin l.length) :
    projectToSparse ys l NsFull v k = ∑ t ∈ Finset.range NsFull,
      symState (Finset.range NsFull) ys l[k].1 t * v (NsFull - t - 1) := by
  unfold projectToSparse
  rw [← List.sum_toFinset _ List.nodup_range, List.toFinset_range,
    ← Finset.sum_range_reflect (fun row => getProj ys l NsFull row k * v row)]
  apply Finset.sum_congr rfl
  intro t ht
  have ht : t < NsFull := by simpa using ht
  rw [show NsFull - 1 - t = NsFull - t - 1 by omega, C42_get_proj NsFull ys h S hS l hl k t ht]

/-- With real characters (every quantum number 0 or half the period) the default variant does undo the
expansion.  Missing for the full claim: complex characters, for which it is false
(`C42_sparse_wrong`). -/
theorem C42_sparse_partial (NsFull : Nat) (ys : List Generator) (h : Acts (· < NsFull) ys) (S : Nat → Prop)
    (hS : ∀ s, S s → s < NsFull) (l : List (Nat × Int)) (hl : ReducedBasis S ys l)
    (hreal : ∀ y ∈ ys, (y.per : Int) ∣ 2 * y.q) (v : Nat → ℂ)
    (order : List Nat) (horder : order.Perm (List.range l.length)) (k : Fin l.length) :
    projectToSparse ys l NsFull (projectFromDense ys l NsFull v order fun _ => 0) k = v k := by
  rw [← C42_round_trip NsFull ys h S hS l hl v order horder k, C42_project_to NsFull ys h S hS l hl,
    C42_sparse_is_transpose NsFull ys h S hS l hl]
  apply Finset.sum_congr rfl
  intro t _
  congr 1
  have hg : l[k.1]? = some (l[k].1, l[k].2) := List.getElem?_eq_getElem k.2
  rw [symState_eq h hS hl (List.mem_of_getElem? hg), map_mul]
  have hc : (starRingEnd ℂ) (startCoef ys l[k].2) = startCoef ys l[k].2 := by
    unfold startCoef; rw [Complex.conj_ofReal]
  rw [hc]
  congr 1
  have hch : ∀ cs, (starRingEnd ℂ) (character ys cs) = character ys cs := by
    intro cs
    have hint : ∃ m : Int, 2 * angle ys cs = 2 * Real.pi * m := by
      clear hc hg h hl hS
      induction ys generalizing cs with
      | nil => exact ⟨0, by simp [angle]⟩
      | cons y ys ih =>
        cases cs with
        | nil => exact ⟨0, by simp [angle]⟩
        | cons c cs =>
          obtain ⟨m, hm⟩ := ih (fun z hz => hreal z (by simp [hz])) cs
          obtain ⟨d, hd⟩ := hreal y (by simp)
          rcases Nat.eq_zero_or_pos y.per with h0 | h0
          · exact ⟨m, by simp [angle, h0, hm]⟩
          · refine ⟨d * c + m, ?_⟩
            have hp : (y.per : ℝ) ≠ 0 := by positivity
            have hd' : 2 * (y.q : ℝ) = y.per * d := by exact_mod_cast hd
            simp only [angle]
            rw [mul_add, hm]
            push_cast
            field_simp
            linear_combination (c : ℝ) * hd'
    obtain ⟨m, hm⟩ := hint
    unfold character
    rw [← Complex.exp_conj, map_mul, Complex.conj_I, Complex.conj_ofReal]
    rw [show Complex.I * (angle ys cs : ℂ) = -Complex.I * (angle ys cs : ℂ) + m * (2 * Real.pi * Complex.I) by
      have : (2 : ℂ) * (angle ys cs : ℂ) = 2 * Real.pi * m := by exact_mod_cast hm
      linear_combination Complex.I * this, Complex.exp_add, Complex.exp_int_mul_two_pi_mul_I, mul_one]
  unfold projection
  rw [map_list_sum, List.map_map]
  congr 1
  apply List.map_congr_left
  intro cs _
  simp only [Function.comp]
  split
  · rw [map_mul, hch, hch]; simp
  · simp

/-! The failing case: one particle on a ring of four sites, momentum 1. -/

/-- translation of a ring of four sites, momentum 1 -/
def ring4 : List Generator :=
  [{ img := fun t => 2 * t % 16 + t / 8, sgn := fun _ => 1, per := 4, q := 1 }]

theorem ring4_acts : Acts (· < 16) ring4 where
  per_pos := by decide
  closed := by decide
  sign := by decide
  period := by decide
  commute := by decide

theorem ring4_character (c : Nat) : character ring4 [c] = Complex.I ^ c := by
  unfold character ring4
  simp only [angle]
  conv_rhs => rw [← Complex.exp_pi_div_two_mul_I, ← Complex.exp_nat_mul]
  congr 1
  push_cast
  ring

theorem ring4_exponents : exponents ring4 = [[0], [1], [2], [3]] := by decide

theorem ring4_projection (t : Nat) : projection ring4 8 t
    = (if 8 = t then 1 else 0) + ((if 1 = t then -Complex.I else 0) + ((if 2 = t then -1 else 0)
      + (if 4 = t then Complex.I else 0))) := by
  unfold projection
  rw [ring4_exponents]
  simp only [List.map_cons, List.map_nil, List.sum_cons, List.sum_nil, ring4_character, add_zero]
  have e0 : word ring4 [0] (8, 1) = (8, 1) := by decide
  have e1 : word ring4 [1] (8, 1) = (1, 1) := by decide
  have e2 : word ring4 [2] (8, 1) = (2, 1) := by decide
  have e3 : word ring4 [3] (8, 1) = (4, 1) := by decide
  rw [e0, e1, e2, e3]
  simp [pow_succ, Complex.I_mul_I]

theorem ring4_basis : ReducedBasis (fun s => s = 1 ∨ s = 2 ∨ s = 4 ∨ s = 8) ring4 [(8, 1)] where
  sorted := by decide
  mem := by
    have hstep : ∀ s, s = 1 ∨ s = 2 ∨ s = 4 → ∃ t, Related ring4 s t ∧ s < t := by
      have step : ∀ s, Related ring4 s (2 * s % 16 + s / 8) := fun s =>
        Relation.ReflTransGen.single ⟨_, List.mem_singleton.2 rfl, rfl⟩
      rintro s (rfl | rfl | rfl)
      · exact ⟨_, step 1, by decide⟩
      · exact ⟨_, step 2, by decide⟩
      · exact ⟨_, step 4, by decide⟩
    intro s n
    constructor
    · intro hm
      simp only [List.mem_cons, Prod.mk.injEq, List.not_mem_nil, or_false] at hm
      obtain ⟨rfl, rfl⟩ := hm
      refine ⟨by simp, ?_, ⟨8, by rw [ring4_projection]; simp⟩, by rw [ring4_projection]; simp⟩
      intro t ht
      obtain ⟨cs, hc, rfl⟩ := (related_iff ring4_acts 8 t (by decide)).1 ht
      rw [← mem_exponents, ring4_exponents] at hc
      clear ht
      revert cs
      decide
    · rintro ⟨h1, h2, _, h4⟩
      rcases h1 with rfl | rfl | rfl | rfl
      · obtain ⟨t, h5, h6⟩ := hstep 1 (by simp); exact absurd (h2 t h5) (by omega)
      · obtain ⟨t, h5, h6⟩ := hstep 2 (by simp); exact absurd (h2 t h5) (by omega)
      · obtain ⟨t, h5, h6⟩ := hstep 4 (by simp); exact absurd (h2 t h5) (by omega)
      · rw [ring4_projection] at h4
        simp at h4
        have : n = 1 := by exact_mod_cast h4.symm
        simp [this]

theorem ring4_S (s : Nat) (h : s = 1 ∨ s = 2 ∨ s = 4 ∨ s = 8) : s < 16 := by omega

theorem ring4_state (t : Nat) :
    symState (Finset.range 16) ring4 8 t = startCoef ring4 1 * projection ring4 8 t :=
  symState_eq ring4_acts ring4_S ring4_basis (by simp) t

/-- With the default options, expanding and projecting back annihilates every vector of this block. -/
theorem C42_sparse_wrong (v : Nat → ℂ) :
    projectToSparse ring4 [(8, 1)] 16 (projectFromDense ring4 [(8, 1)] 16 v [0] fun _ => 0) 0 = 0 := by
  have hd := C42_sparse_is_transpose 16 ring4 ring4_acts _ ring4_S _ ring4_basis
    (projectFromDense ring4 [(8, 1)] 16 v [0] fun _ => 0) ⟨0, by decide⟩
  simp only at hd
  rw [hd]
  have e : ∀ t ∈ Finset.range 16, symState (Finset.range 16) ring4 8 t
      * projectFromDense ring4 [(8, 1)] 16 v [0] (fun _ => 0) (16 - t - 1)
      = startCoef ring4 1 * startCoef ring4 1 * v 0 * (projection ring4 8 t * projection ring4 8 t) := by
    intro t ht
    rw [C42_project_from 16 ring4 ring4_acts _ ring4_S _ ring4_basis v [0] (by decide) t (by simpa using ht)]
    rw [show (∑ k : Fin [(8, (1 : Int))].length, symState (Finset.range 16) ring4 [(8, (1 : Int))][k].1 t * v k)
      = symState (Finset.range 16) ring4 8 t * v 0 from Fin.sum_univ_one _, ring4_state]
    ring
  refine (Finset.sum_congr rfl e).trans ?_
  rw [← Finset.mul_sum]
  simp only [ring4_projection, Finset.sum_range_succ, Finset.sum_range_zero]
  norm_num

/-- The particle-conserving variant has the same fault: the overlap of the state with itself comes out
as 0 instead of 1. -/
theorem C42_pcon_wrong (pos : Nat → Nat) (v : Nat → ℂ)
    (hv : ∀ t, (t = 1 ∨ t = 2 ∨ t = 4 ∨ t = 8) → v (pos t) = symState (Finset.range 16) ring4 8 t) :
    projectToPcon ring4 [(8, 1)] pos v 0 = some 0 := by
  unfold projectToPcon
  rw [if_neg (by decide)]
  simp only [List.getElem?_cons_zero]
  have key : ∀ (vs : List Visit) (a : ℂ),
      vs.foldl (fun a x => a + x.2.1 * x.2.2 * v (pos x.1)) a = a + vsum (fun t => v (pos t)) vs := by
    intro vs
    induction vs with
    | nil => intro a; simp [vsum]
    | cons x vs ih => intro a; rw [List.foldl_cons, ih]; simp [vsum]; ring
  rw [key, zero_add, visits_neg ring4_acts _ 8 (by decide), ring4_exponents]
  simp only [List.map_cons, List.map_nil, List.sum_cons, List.sum_nil, chi, ring4_character, add_zero]
  have e0 : word ring4 [0] (8, 1) = (8, 1) := by decide
  have e1 : word ring4 [1] (8, 1) = (1, 1) := by decide
  have e2 : word ring4 [2] (8, 1) = (2, 1) := by decide
  have e3 : word ring4 [3] (8, 1) = (4, 1) := by decide
  rw [e0, e1, e2, e3]
  simp only
  rw [hv 8 (by simp), hv 1 (by simp), hv 2 (by simp), hv 4 (by simp)]
  simp only [ring4_state, ring4_projection]
  congr 1
  simp [pow_succ]
  right
  linear_combination (startCoef ring4 1 * 2) * Complex.I_mul_I

/-! The hypotheses are met by the exchange of two fermionic sites (states `11` and `01-10`) and by the
ring of four sites, whose dense projectors do invert each other. -/

theorem exampleSigned_reduced : ReducedBasis (· < 4) exampleSigned [(3, 2), (2, 1)] := by
  have := exampleSigned_basis
  exact ⟨this.sorted, by simpa [Finset.mem_range] using this.mem⟩

example (v : Nat → ℂ) (k : Fin 2) := C42_round_trip 4 exampleSigned exampleSigned_acts _ (fun _ h => h) _
  exampleSigned_reduced v [1, 0] (by decide) k

example (v : Nat → ℂ) (k : Fin 2) := C42_sparse_partial 4 exampleSigned exampleSigned_acts _ (fun _ h => h) _
  exampleSigned_reduced (by decide) v [1, 0] (by decide) k

example (w : Nat → ℂ) := C42_onto_symmetric 4 exampleSigned exampleSigned_acts _
  exampleSigned_reduced (by decide) w

example (v : Nat → ℂ) :
    projectToDense ring4 [(8, 1)] 16 (projectFromDense ring4 [(8, 1)] 16 v [0] fun _ => 0) 0 = v 0 :=
  C42_round_trip 16 ring4 ring4_acts _ ring4_S _ ring4_basis v [0] (by decide) ⟨0, by decide⟩

end Props
