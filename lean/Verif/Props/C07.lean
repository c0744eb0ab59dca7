import Verif.Proof.Symmetry
/-!
C07  Symmetry representatives are canonical.

`Model.refState ys s g phase` is the library's search for the representative of `s`: it returns the
representative `r`, the sign `phase` and the exponents `g` of the symmetries that lead to it.  The
callers start with `g = 0, …, 0` and `phase = 1`, except `Op_bra_ket` (`C72_fails_stale`).  `Spec.Related ys s t`: `t` is reached from `s` by
symmetries.  `Spec.Acts S ys`: the maps act as commuting symmetries of the stated periods on the
configurations in `S`.
-/
namespace Props
open Model Spec Proof.Symmetry

/-- The representative is the largest related configuration and the reported exponents and sign
describe how to get there.  (32 is the library's limit on the number of maps.) -/
theorem C07_representative (S : Nat → Prop) (ys : List Generator) (h : Acts S ys) (hlen : ys.length ≤ 32)
    (s : Nat) (hs : S s) :
    ∃ b, refState ys s (ys.map fun _ => 0) 1 = some b ∧
      Related ys s b.r ∧ (∀ t, Related ys s t → t ≤ b.r) ∧
      b.g ∈ exponents ys ∧ word ys b.g (s, 1) = (b.r, b.phase) := by
  unfold refState
  by_cases h0 : ys.length = 0
  · have : ys = [] := List.length_eq_zero_iff.1 h0
    subst this
    refine ⟨⟨s, 1, []⟩, by simp, Relation.ReflTransGen.refl, ?_, by simp [exponents], rfl⟩
    intro t ht
    induction ht with
    | refl => exact Nat.le_refl _
    | tail _ hst _ => obtain ⟨y, hy, _⟩ := hst; simp at hy
  · rw [if_neg (by omega)]
    have hr := acts_reverse h
    have hne : ys.reverse ≠ [] := by
      intro he; apply h0; rw [List.reverse_eq_nil_iff] at he; rw [he]; rfl
    have htot : total ys.reverse = (ys.map (fun y => y.per)).prod := by
      unfold total; rw [List.map_reverse]; exact List.prod_reverse _
    have hsum : (ys.map (fun y => y.per - 1)).sum = (ys.reverse.map (fun y => y.per - 1)).sum := by
      rw [List.map_reverse, List.sum_reverse]
    have hz : ys.map (fun _ => 0) = ofVal ys.reverse 0 := by
      rw [ofVal_zero]; simp [List.map_const']
    have hw0 : ((s, 1) : Nat × Int) = word ys.reverse (ofVal ys.reverse 0) (s, 1) := by
      rw [ofVal_zero, word_zero]
    have hpos : 0 < total ys.reverse := by
      unfold total
      apply Nat.pos_of_ne_zero
      intro he
      rw [List.prod_eq_zero_iff, List.mem_map] at he
      obtain ⟨y, hy, he⟩ := he
      have := hr.per_pos y hy
      omega
    obtain ⟨b, b1, b2, b3, b4⟩ := refOuter_spec hr hne (s, 1) hs
      ⟨s, 1, ys.map fun _ => 0⟩ (total ys.reverse) 0 hpos (by omega) ⟨s, 1, ys.map fun _ => 0⟩
      (Or.inl rfl) (Nat.le_refl _)
    rw [← hw0] at b1
    refine ⟨b, ?_, ?_⟩
    · rw [← htot, hsum]
      convert b1 using 2
    have key : InRange ys b.g ∧ word ys b.g (s, 1) = (b.r, b.phase) := by
      rcases b2 with rfl | ⟨cs, c1, c2, c3⟩
      · exact ⟨zero_inRange h (fun _ h => h), word_zero _ _⟩
      · have c4 := inRange_reverse c1
        rw [List.reverse_reverse, ← c2] at c4
        refine ⟨c4, ?_⟩
        rw [← c3, ← word_reverse hr (fun _ h => h) cs (inRange_length c1) hs, List.reverse_reverse, c2]
    refine ⟨(related_iff h s b.r hs).2 ⟨b.g, key.1, by rw [key.2]⟩, ?_, (mem_exponents _ _).2 key.1, key.2⟩
    intro t ht
    obtain ⟨cs, hc, rfl⟩ := (related_iff h s t hs).1 ht
    obtain ⟨m, hm, he⟩ := exists_ofVal ys.reverse hr.per_pos cs.reverse (inRange_reverse hc)
    rw [← word_reverse h (fun _ h => h) cs (inRange_length hc) hs, he]
    exact b4 m (Nat.zero_le _) hm

/-- Two configurations have the same representative exactly when they are related by symmetry. -/
theorem C07_same_representative_iff (S : Nat → Prop) (ys : List Generator) (h : Acts S ys)
    (hlen : ys.length ≤ 32) (s t : Nat) (hs : S s) (ht : S t) (b c : Best)
    (hb : refState ys s (ys.map fun _ => 0) 1 = some b) (hc : refState ys t (ys.map fun _ => 0) 1 = some c) :
    b.r = c.r ↔ Related ys s t := by
  obtain ⟨b', b1, b2, b3, _⟩ := C07_representative S ys h hlen s hs
  obtain ⟨c', c1, c2, c3, _⟩ := C07_representative S ys h hlen t ht
  rw [b1] at hb; rw [c1] at hc
  injection hb with hb; injection hc with hc
  subst hb; subst hc
  constructor
  · intro he
    rw [he] at b2
    exact b2.trans (related_symm h ht c2)
  · intro hst
    exact Nat.le_antisymm (c3 _ ((related_symm h hs hst).trans b2)) (b3 _ (hst.trans c2))

/-- The representative of a representative is itself. -/
theorem C07_idempotent (S : Nat → Prop) (ys : List Generator) (h : Acts S ys)
    (hlen : ys.length ≤ 32) (s : Nat) (hs : S s) (b c : Best)
    (hb : refState ys s (ys.map fun _ => 0) 1 = some b)
    (hc : refState ys b.r (ys.map fun _ => 0) 1 = some c) : c.r = b.r := by
  obtain ⟨b', b1, b2, _⟩ := C07_representative S ys h hlen s hs
  rw [b1] at hb
  injection hb with hb
  subst hb
  exact ((C07_same_representative_iff S ys h hlen s b'.r hs (related_closed h hs b2) b' c b1 hc).2 b2).symm

/-- Two commuting symmetries of three sites: rotation (period 3, momentum 1) and inversion of all
occupations (period 2, odd). -/
def exampleSymmetries : List Generator :=
  [{ img := fun t => (t / 2 + t % 2 * 4), sgn := fun _ => 1, per := 3, q := 1 },
   { img := fun t => 7 - t, sgn := fun _ => 1, per := 2, q := 1 }]

theorem exampleSymmetries_act : Acts (· < 8) exampleSymmetries where
  per_pos := by decide
  closed := by decide
  sign := by decide
  period := by decide
  commute := by decide

example : refState exampleSymmetries 1 [0, 0] 1 = some ⟨6, 1, [0, 1]⟩ := by decide

/-- a signed example: exchange of two fermionic sites -/
def exampleSigned : List Generator :=
  [{ img := fun t => t / 2 + t % 2 * 2, sgn := fun t => if t = 3 then -1 else 1, per := 2, q := 1 }]

theorem exampleSigned_acts : Acts (· < 4) exampleSigned where
  per_pos := by decide
  closed := by decide
  sign := by decide
  period := by decide
  commute := by decide

end Props
