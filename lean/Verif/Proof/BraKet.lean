import Verif.Spec.BraKet
import Verif.Model.BraKet
import Verif.Props.C13
import Verif.Proof.AmpNorm
import Mathlib.Tactic.LinearCombination
/-!
Proofs about `Op_bra_ket` and `Op_shift_sector`.
-/
namespace Proof.BraKet
open Model Model.BraKet Spec Proof.Symmetry Props
open scoped BigOperators

variable {conf : Finset Nat} {S : Nat → Prop} {ys zs : List Generator}

/-- `ref_state` called with an array of exponents that contains anything -/
theorem ref_any (h : Acts S ys) (hlen : ys.length ≤ 32) (s : Nat) (hs : S s) (g : List Nat) (hg : g.length = ys.length) :
    ∃ b, refState ys s g 1 = some b ∧ Related ys s b.r ∧ (∀ t, Related ys s t → t ≤ b.r) ∧ b.g.length = ys.length ∧
      (b = ⟨s, 1, g⟩ ∨ (b.g ∈ exponents ys ∧ word ys b.g (s, 1) = (b.r, b.phase))) := by
  unfold refState
  by_cases h0 : ys.length = 0
  · have : ys = [] := List.length_eq_zero_iff.1 h0
    subst this
    have : g = [] := List.length_eq_zero_iff.1 hg
    subst this
    refine ⟨⟨s, 1, []⟩, by simp, Relation.ReflTransGen.refl, ?_, rfl, Or.inl rfl⟩
    intro t ht
    induction ht with
    | refl => exact Nat.le_refl _
    | tail _ hst _ => obtain ⟨y, hy, _⟩ := hst; simp at hy
  · rw [if_neg (by omega)]
    have hr := acts_reverse h
    have hne : ys.reverse ≠ [] := by
      intro he; apply h0; rw [List.reverse_eq_nil_iff] at he; rw [he]; rfl
    have htot : total ys.reverse = (ys.map (fun y => y.per)).prod := by
      unfold total; rw [List.map_reverse]; exact List.prod_reverse _
    have hsum : (ys.map (fun y => y.per - 1)).sum = (ys.reverse.map (fun y => y.per - 1)).sum := by
      rw [List.map_reverse, List.sum_reverse]
    have hz : ys.map (fun _ => 0) = ofVal ys.reverse 0 := by
      rw [ofVal_zero]; simp [List.map_const']
    have hw0 : ((s, 1) : Nat × Int) = word ys.reverse (ofVal ys.reverse 0) (s, 1) := by
      rw [ofVal_zero, word_zero]
    have hpos : 0 < total ys.reverse := by
      unfold total
      apply Nat.pos_of_ne_zero
      intro he
      rw [List.prod_eq_zero_iff, List.mem_map] at he
      obtain ⟨y, hy, he⟩ := he
      have := hr.per_pos y hy
      omega
    obtain ⟨b, b1, b2, b3, b4⟩ := refOuter_spec hr hne (s, 1) hs
      ⟨s, 1, g⟩ (total ys.reverse) 0 hpos (by omega) ⟨s, 1, g⟩
      (Or.inl rfl) (Nat.le_refl _)
    rw [← hw0] at b1
    have key : b = ⟨s, 1, g⟩ ∨ (b.g ∈ exponents ys ∧ word ys b.g (s, 1) = (b.r, b.phase)) := by
      rcases b2 with e | ⟨cs, c1, c2, c3⟩
      · exact Or.inl e
      · right
        have c4 := inRange_reverse c1
        rw [List.reverse_reverse, ← c2] at c4
        refine ⟨(mem_exponents _ _).2 c4, ?_⟩
        rw [← c3, ← word_reverse hr (fun _ h => h) cs (inRange_length c1) hs, List.reverse_reverse, c2]
    refine ⟨b, ?_, ?_, ?_, ?_, key⟩
    · rw [← htot, hsum]
      convert b1 using 2
    · rcases key with rfl | ⟨k1, k2⟩
      · exact Relation.ReflTransGen.refl
      · exact (related_iff h s b.r hs).2 ⟨b.g, (mem_exponents _ _).1 k1, by rw [k2]⟩
    · intro t ht
      obtain ⟨cs, hc, rfl⟩ := (related_iff h s t hs).1 ht
      obtain ⟨m, hm, he⟩ := exists_ofVal ys.reverse hr.per_pos cs.reverse (inRange_reverse hc)
      rw [← word_reverse h (fun _ h => h) cs (inRange_length hc) hs, he]
      exact b4 m (Nat.zero_le _) hm
    · rcases key with rfl | ⟨k1, _⟩
      · exact hg
      · exact (inRange_length ((mem_exponents _ _).1 k1)).symm

theorem phases_exp (ys : List Generator) (g : List Nat) : phases ys g = Complex.exp (-(Complex.I * phaseAngle ys g)) := by
  unfold phases phaseAngle
  induction ys generalizing g with
  | nil => simp
  | cons y ys ih =>
    cases g with
    | nil => simp
    | cons c g =>
      rw [List.zipWith_cons_cons, List.zipWith_cons_cons, List.prod_cons, List.sum_cons, ih, ← Complex.exp_add]
      congr 1
      push_cast
      ring

theorem phases_trivial (h : Acts S ys) (ht : TrivialSector ys) (g : List Nat) : phases ys g = 1 := by
  unfold phases
  have hp := h.per_pos
  clear h
  induction ys generalizing g with
  | nil => simp
  | cons y ys ih =>
    cases g with
    | nil => simp
    | cons c g =>
      rw [List.zipWith_cons_cons, List.prod_cons, ih (fun z hz => ht z (by simp [hz])) g (fun z hz => hp z (by simp [hz])), mul_one]
      obtain ⟨k, hk⟩ := ht y (by simp)
      have h0 : (y.per : ℂ) ≠ 0 := by
        have := hp y (by simp)
        exact_mod_cast (by omega : y.per ≠ 0)
      rw [Complex.exp_eq_one_iff]
      refine ⟨-(k * c), ?_⟩
      rw [hk]
      push_cast
      field_simp

theorem chi_phases (h : Acts S ys) (r : Nat) (hr : S r) (b : Best) (h1 : word ys b.g (r, 1) = (b.r, b.phase)) :
    chi ys r b.g = phases ys b.g * b.phase := by
  unfold chi character
  rw [h1, phases_exp, phaseAngle_eq, ← Complex.exp_conj]
  simp

/-- the projection of the image is the reported multiple of the projection of its representative -/
theorem projection_ref (h : Acts (· ∈ conf) ys) (r : Nat) (hr : r ∈ conf) (g : List Nat) (b : Best)
    (hb : b = ⟨r, 1, g⟩ ∨ (b.g ∈ exponents ys ∧ word ys b.g (r, 1) = (b.r, b.phase)))
    (ht : TrivialSector ys ∨ b.r ≠ r) (t : Nat) :
    projection ys r t = phases ys b.g * b.phase * projection ys b.r t := by
  rcases hb with rfl | ⟨h1, h2⟩
  · rcases ht with ht | ht
    · rw [phases_trivial h ht]; simp
    · exact absurd rfl ht
  · have := projection_shift h r t hr b.g ((mem_exponents _ _).1 h1)
    rw [h2] at this
    rw [this, chi_phases h r hr b h2]

/-- the element the cell stands for -/
noncomputable def value (c : Cell) (t : Nat) : ℂ := if c.2 = t then c.1.getD 0 else 0

variable {l : List (Nat × Int)}

/-- what an iteration writes -/
theorem step_spec (h : Acts (· ∈ conf) ys) (hlen : ys.length ≤ 32) (hS : ∀ s, S s → s ∈ conf)
    (hl : ReducedBasis S ys l) (pcon : Option (Nat → Bool))
    (hin : ∀ r ∈ conf, inside pcon r = true ↔ S r) (op : Nat → Option (Nat × ℂ)) (s : Nat) (ni : Int)
    (hm : (s, ni) ∈ l) (r : Nat) (m : ℂ) (hop : op s = some (r, m)) (hr : r ∈ conf) (g : List Nat)
    (hg : g.length = ys.length)
    (hf : TrivialSector ys ∨ (m ≠ 0 → (r ≠ s ∧ ¬ OrbitMax ys r) ∨ (r = s ∧ pcon = none))) :
    ∃ c g', step ys pcon op g s = some (c, g') ∧ g'.length = ys.length ∧
      (c.1.getD 0 ≠ 0 → ∃ n, (c.2, n) ∈ l) ∧
      ∀ sj nj, (sj, nj) ∈ l → value c sj
        = m * ((∑ t ∈ conf, (starRingEnd ℂ) (symState conf ys sj t) * projection ys r t)
          / (Real.sqrt ((exponents ys).length * (ni : ℝ)) : ℝ)) := by
  have hs := (hl.mem s ni).1 hm
  have hpi : (0 : ℝ) < ni := by exact_mod_cast reduced_pos h hS hl hm
  have hG : (0 : ℝ) < (exponents ys).length := by exact_mod_cast exponents_pos h
  unfold step
  simp only [hop]
  by_cases hrs : r = s
  · subst hrs
    rw [if_neg (by simp)]
    -- diagonal
    have main : ∀ x : ℂ, (x = m) → ∀ sj nj, (sj, nj) ∈ l → value (some x, r) sj
        = m * ((∑ t ∈ conf, (starRingEnd ℂ) (symState conf ys sj t) * projection ys r t)
          / (Real.sqrt ((exponents ys).length * (ni : ℝ)) : ℝ)) := by
      rintro x rfl sj nj hj
      have hsj := (hl.mem sj nj).1 hj
      rw [overlap h hS hl hj r hr]
      unfold value
      simp only [Option.getD_some]
      by_cases e : r = sj
      · subst e
        have e2 : (ni : ℂ) = nj := by rw [← hs.2.2.2, ← hsj.2.2.2]
        have e3 : ni = nj := by exact_mod_cast e2
        subst e3
        rw [if_pos rfl, hs.2.2.2]
        have := sqrt_ratio _ _ _ hG hpi hpi
        rw [div_self (ne_of_gt hpi), Real.sqrt_one] at this
        have h2 : ((exponents ys).length : ℂ) * (ni : ℂ) / (Real.sqrt ((exponents ys).length * (ni : ℝ)) : ℝ)
            / (Real.sqrt ((exponents ys).length * (ni : ℝ)) : ℝ) = 1 := by exact_mod_cast this
        rw [h2, mul_one]
      · rw [if_neg e, projection_unrelated h r sj hr (max_unrelated h hr hs.2.1 hsj.2.1 e)]
        simp
    cases pcon with
    | none => exact ⟨_, _, rfl, hg, fun _ => ⟨ni, hm⟩, main m rfl⟩
    | some p =>
      refine ⟨_, _, rfl, hg, fun _ => ⟨ni, hm⟩, main _ ?_⟩
      rcases hf with ht | hf
      · rw [phases_trivial h ht, mul_one]
      · by_cases h0 : m = 0
        · rw [h0, zero_mul]
        · rcases hf h0 with ⟨e, _⟩ | ⟨_, e⟩
          · exact absurd rfl e
          · simp at e
  · rw [if_pos (by simpa using hrs)]
    obtain ⟨b, b1, b2, b3, b4, b5⟩ := ref_any h hlen r hr g hg
    rw [b1]
    simp only
    refine ⟨_, _, rfl, b4, ?_⟩
    have hbc : b.r ∈ conf := related_closed h hr b2
    have hbmax : OrbitMax ys b.r := fun t ht => b3 t (b2.trans ht)
    -- the ket
    obtain ⟨ns, s1, s2, s3⟩ : ∃ ns : Nat, 0 < ns ∧ checkState ys s = some (some (ns : ℝ)) ∧ (ns : Int) = ni := by
      rcases Proof.Amp.max_cases h hlen s (hS s hs.1) hs.2.1 with ⟨n, n1, n2, n3, n4, n5⟩ | ⟨n1, n2⟩
      · refine ⟨n, n1, n3, ?_⟩
        rw [hs.2.2.2] at n4
        exact_mod_cast n4.symm
      · obtain ⟨t, ht⟩ := hs.2.2.1
        exact absurd (n2 t) ht
    have hns : ¬ ((ns : ℝ) = 0) := by exact_mod_cast s1.ne'
    -- the right-hand side vanishes unless the representative is in the basis
    have zero : (¬ ∃ n, (b.r, n) ∈ l) → ∀ sj nj, (sj, nj) ∈ l → projection ys r sj = 0 := by
      intro hn sj nj hj
      have hsj := (hl.mem sj nj).1 hj
      by_contra hne
      have hrel : Related ys r sj := by
        by_contra hn2
        exact hne (projection_unrelated h r sj hr hn2)
      have e : b.r = sj := Nat.le_antisymm (hsj.2.1 _ ((related_symm h hr hrel).trans b2)) (b3 _ hrel)
      exact hn ⟨nj, by rw [e]; exact hj⟩
    unfold offDiagonal
    by_cases hSb : S b.r
    · rw [if_pos ((hin _ hbc).2 hSb)]
      rcases Proof.Amp.max_cases h hlen b.r hbc hbmax with ⟨n, n1, n2, n3, n4, n5⟩ | ⟨n1, n2⟩
      · have hbl : (b.r, (n : Int)) ∈ l := (hl.mem _ _).2 ⟨hSb, hbmax, ⟨b.r, by rw [n4]; exact_mod_cast n1.ne'⟩, by rw [n4]; simp⟩
        rw [n3]
        simp only
        rw [if_pos (by rw [Int.floor_natCast]; exact_mod_cast n1), s2]
        simp only
        rw [if_neg hns]
        refine ⟨fun _ => ⟨_, hbl⟩, ?_⟩
        intro sj nj hj
        have hsj := (hl.mem sj nj).1 hj
        have hpj : (0 : ℝ) < nj := by exact_mod_cast reduced_pos h hS hl hj
        rw [overlap h hS hl hj r hr]
        unfold value
        simp only [Option.getD_some]
        by_cases h0 : m = 0
        · subst h0; simp
        have hrep : TrivialSector ys ∨ b.r ≠ r := by
          rcases hf with ht | hf
          · exact Or.inl ht
          · rcases hf h0 with ⟨_, e⟩ | ⟨e, _⟩
            · right
              intro e2
              exact e (e2 ▸ hbmax)
            · exact absurd e hrs
        rw [projection_ref h r hr g b b5 hrep sj]
        by_cases e : b.r = sj
        · rw [if_pos e]
          rw [← e, n4]
          have e2 : (nj : ℂ) = n := by rw [← hsj.2.2.2, ← n4, e]
          have e3 : nj = (n : Int) := by exact_mod_cast e2
          rw [← s3, e3]
          have hn' : (0 : ℝ) < n := by exact_mod_cast n1
          have hs' : (0 : ℝ) < ns := by exact_mod_cast s1
          have h2 : ((exponents ys).length : ℂ) * (n : ℂ) / (Real.sqrt ((exponents ys).length * (n : ℝ)) : ℝ)
            / (Real.sqrt ((exponents ys).length * (ns : ℝ)) : ℝ) = (Real.sqrt ((n : ℝ) / (ns : ℝ)) : ℝ) := by
            exact_mod_cast sqrt_ratio _ _ _ hG hn' hs'
          push_cast
          rw [← h2]
          ring
        · rw [if_neg e, projection_unrelated h b.r sj hbc (max_unrelated h hbc hbmax hsj.2.1 e)]
          simp
      · rw [n1]
        simp only
        rw [if_neg (by simp)]
        refine ⟨by simp, ?_⟩
        intro sj nj hj
        rw [overlap h hS hl hj r hr, zero ?_ sj nj hj]
        · simp [value]
        · rintro ⟨k, hk⟩
          obtain ⟨_, _, ⟨t, ht⟩, _⟩ := (hl.mem _ _).1 hk
          exact ht (n2 t)
    · rw [if_neg (by rw [hin _ hbc]; exact hSb)]
      refine ⟨by simp, ?_⟩
      intro sj nj hj
      rw [overlap h hS hl hj r hr, zero ?_ sj nj hj]
      · simp [value]
      · rintro ⟨k, hk⟩
        exact hSb ((hl.mem _ _).1 hk).1

/-! ### all kets -/

theorem thread_spec (ys : List Generator) (pcon : Option (Nat → Bool)) (op : Nat → Option (Nat × ℂ)) (P : Nat → Cell → Prop)
    (kets : List Nat)
    (hstep : ∀ s ∈ kets, ∀ g, g.length = ys.length → ∃ c g', step ys pcon op g s = some (c, g') ∧
      g'.length = ys.length ∧ P s c) (g : List Nat) (hg : g.length = ys.length) :
    ∃ cells, thread ys pcon op g kets = some cells ∧ List.Forall₂ P kets cells := by
  induction kets generalizing g with
  | nil => exact ⟨[], rfl, .nil⟩
  | cons s rest ih =>
    obtain ⟨c, g', h1, h2, h3⟩ := hstep s (by simp) g hg
    obtain ⟨cells, h4, h5⟩ := ih (fun s hs => hstep s (by simp [hs])) g' h2
    exact ⟨c :: cells, by simp [thread, h1, h4], .cons h3 h5⟩

theorem core_spec (ys : List Generator) (pcon : Option (Nat → Bool)) (op : Nat → Option (Nat × ℂ)) (P : Nat → Cell → Prop)
    (kets : List Nat)
    (hstep : ∀ s ∈ kets, ∀ g, g.length = ys.length → ∃ c g', step ys pcon op g s = some (c, g') ∧
      g'.length = ys.length ∧ P s c) (pieces : List (List Nat × List Nat)) (hp : Pieces ys kets pieces) :
    ∃ cells, core ys pcon op pieces = some cells ∧ List.Forall₂ P kets cells := by
  obtain ⟨h1, h2⟩ := hp
  subst h1
  unfold core
  induction pieces with
  | nil => exact ⟨[], by simp, by simp⟩
  | cons p rest ih =>
    obtain ⟨cells, c1, c2⟩ := ih (fun q hq => h2 q (by simp [hq]))
      (fun s hs => hstep s (by rw [List.map_cons, List.flatten_cons]; exact List.mem_append_right _ hs))
    obtain ⟨first, f1, f2⟩ := thread_spec ys pcon op P p.2 (fun s hs => hstep s (by simp [hs])) p.1 (h2 p (by simp))
    rw [Option.map_eq_some_iff] at c1
    obtain ⟨cs, c3, c4⟩ := c1
    refine ⟨first ++ cells, ?_, ?_⟩
    · rw [List.mapM_cons, f1, c3]
      simp [← c4]
    · rw [List.map_cons, List.flatten_cons]
      exact List.rel_append f2 c2

theorem part_add (isReal : Bool) (x y : ℂ) : storedPart isReal (x + y) = storedPart isReal x + storedPart isReal y := by
  cases isReal <;> simp [storedPart]

theorem part_zero (isReal : Bool) : storedPart isReal 0 = 0 := by cases isReal <;> simp [storedPart]

theorem part_sum (isReal : Bool) (l : List ℂ) : storedPart isReal l.sum = (l.map (storedPart isReal)).sum := by
  induction l with
  | nil => simp [part_zero]
  | cons a l ih => simp [part_add, ih]

theorem checkImag_part (isReal : Bool) (x : ℂ) : (Amp.checkImag isReal x).1 = storedPart isReal x := by
  cases isReal <;> simp [Amp.checkImag, storedPart]

theorem coefficient_cons (e : ℂ × Nat × Nat) (l : List (ℂ × Nat × Nat)) (t s : Nat) :
    coefficient (e :: l) t s = (if e.2.1 = t ∧ e.2.2 = s then e.1 else 0) + coefficient l t s := by
  simp [coefficient]

/-- the list returned for given cells -/
theorem listed (isReal red : Bool) (kets : List Nat) (hnd : kets.Nodup) (cells : List Cell) (P : Nat → Cell → Prop)
    (hc : List.Forall₂ P kets cells) (out : List (ℂ × Nat × Nat))
    (ho : out = open Classical in
      let all := List.zipWith (fun (c : Cell) s => (c.1.map fun m => (Amp.checkImag isReal m).1, c.2, s)) cells kets
      if red then all.filterMap fun e => e.1.bind fun m => if m = 0 then none else some (m, e.2)
      else all.map fun e => (e.1.getD 0, e.2)) :
    (∀ e ∈ out, ∃ c, P e.2.2 c ∧ e.2.2 ∈ kets ∧ c.2 = e.2.1 ∧ storedPart isReal (c.1.getD 0) = e.1) ∧
    (∀ s, s ∉ kets → ∀ t, coefficient out t s = 0) ∧
    ∀ s ∈ kets, ∃ c, P s c ∧ ∀ t, coefficient out t s = storedPart isReal (value c t) := by
  induction hc generalizing out with
  | nil =>
    subst ho
    cases red <;> simp [coefficient]
  | @cons s c kets cells hP hc ih =>
    obtain ⟨hn, hnd⟩ := List.nodup_cons.1 hnd
    simp only [List.zipWith_cons_cons] at ho
    -- the tail
    obtain ⟨i1, i2, i3⟩ := ih hnd _ rfl
    simp only at i1 i2 i3
    generalize hrest : (if red = true then
        (List.zipWith (fun (c : Cell) s => (c.1.map fun m => (Amp.checkImag isReal m).1, c.2, s)) cells kets).filterMap
          fun e => e.1.bind fun m => open Classical in if m = 0 then none else some (m, e.2)
      else (List.zipWith (fun (c : Cell) s => (c.1.map fun m => (Amp.checkImag isReal m).1, c.2, s)) cells kets).map
          fun e => (e.1.getD 0, e.2)) = rest at i1 i2 i3
    have hx : (c.1.map fun m => (Amp.checkImag isReal m).1).getD 0 = storedPart isReal (c.1.getD 0) := by
      cases c.1 with
      | none => simp [part_zero]
      | some m => simp [checkImag_part]
    -- the head
    have hout : (out = (storedPart isReal (c.1.getD 0), c.2, s) :: rest) ∨ (out = rest ∧ storedPart isReal (c.1.getD 0) = 0) := by
      cases red with
      | false =>
        left
        rw [ho, if_neg (by simp), List.map_cons, ← hrest, if_neg (by simp)]
        simp only [hx]
      | true =>
        rw [if_pos rfl] at hrest
        rw [ho, if_pos rfl, List.filterMap_cons]
        cases h1 : c.1 with
        | none => right; simp [hrest, part_zero]
        | some m =>
          simp only [Option.map_some, Option.bind_some]
          rw [checkImag_part]
          by_cases h0 : storedPart isReal m = 0
          · right; simp [h0, hrest]
          · left; simp [h0, hrest]
    have hcoef : ∀ t u, coefficient out t u
        = (if c.2 = t ∧ s = u then storedPart isReal (c.1.getD 0) else 0) + coefficient rest t u := by
      intro t u
      rcases hout with e | ⟨e, h0⟩
      · rw [e, coefficient_cons]
      · rw [e, h0]; simp
    refine ⟨?_, ?_, ?_⟩
    · intro e he
      have : e = (storedPart isReal (c.1.getD 0), c.2, s) ∨ e ∈ rest := by
        rcases hout with h | ⟨h, _⟩
        · rw [h] at he; exact List.mem_cons.1 he
        · rw [h] at he; exact Or.inr he
      rcases this with rfl | he
      · exact ⟨c, hP, by simp, rfl, rfl⟩
      · obtain ⟨c', a1, a2, a3, a4⟩ := i1 e he
        exact ⟨c', a1, by simp [a2], a3, a4⟩
    · intro u hu t
      rw [hcoef, i2 u (fun h => hu (by simp [h])) t, if_neg (fun h => hu (by simp [h.2]))]
      simp
    · intro u hu
      rcases List.mem_cons.1 hu with rfl | hu
      · refine ⟨c, hP, fun t => ?_⟩
        rw [hcoef, i2 u hn t]
        unfold value
        by_cases e : c.2 = t <;> simp [e, part_zero]
      · obtain ⟨c', a1, a2⟩ := i3 u hu
        refine ⟨c', a1, fun t => ?_⟩
        rw [hcoef, a2, if_neg, zero_add]
        rintro ⟨_, rfl⟩
        exact hn hu

/-! ### operators between two sectors -/

theorem same_word (hs : SameMaps ys zs) (cs : List Nat) (x : Nat × Int) : word ys cs x = word zs cs x := by
  induction hs generalizing cs with
  | nil => rfl
  | @cons y z ys zs h _ ih =>
    cases cs with
    | nil => rfl
    | cons c cs =>
      have : y.U = z.U := by
        funext x
        simp [Generator.U, h.1, h.2.1]
      rw [word, word, ih, this]

theorem same_exponents (hs : SameMaps ys zs) : exponents ys = exponents zs := by
  induction hs with
  | nil => rfl
  | @cons y z ys zs h _ ih => rw [exponents, exponents, ih, h.2.2]

theorem same_related (hs : SameMaps ys zs) (a b : Nat) : Related ys a b ↔ Related zs a b := by
  have key : ∀ a b, (∃ y ∈ ys, b = y.img a) ↔ (∃ z ∈ zs, b = z.img a) := by
    intro a b
    induction hs with
    | nil => simp
    | @cons y z ys zs h _ ih =>
      simp only [List.mem_cons, exists_eq_or_imp, ih, h.1]
  unfold Related
  constructor
  · exact (Relation.ReflTransGen.mono fun a b h => (key a b).1 h) a b
  · exact (Relation.ReflTransGen.mono fun a b h => (key a b).2 h) a b

theorem character_cons (y : Generator) (ys : List Generator) (c : Nat) (cs : List Nat) :
    character (y :: ys) (c :: cs) = Complex.exp (Complex.I * (2 * Real.pi * y.q / y.per)) ^ c * character ys cs := by
  unfold character
  rw [angle, ← Complex.exp_nat_mul, ← Complex.exp_add]
  congr 1
  push_cast
  ring

theorem character_conj (ys : List Generator) (cs : List Nat) : (starRingEnd ℂ) (character ys cs) * character ys cs = 1 := by
  unfold character
  rw [← Complex.exp_conj, ← Complex.exp_add]
  simp

theorem shifts_word (h : Acts S ys) (O : Nat → Nat → ℂ) (us vs : List Generator) (hO : Shifts S us vs O)
    (hsub : ∀ y ∈ us, y ∈ ys) (cs : List Nat) (s t : Nat) (hs : S s) (ht : S t) :
    character us cs * (((word us cs (t, 1)).2 : ℂ) * O t s)
      = character vs cs * (O (word us cs (t, 1)).1 (word us cs (s, 1)).1 * ((word us cs (s, 1)).2 : ℂ)) := by
  induction hO generalizing cs with
  | nil => cases cs <;> simp [word, character, angle]
  | @cons y z us vs hy _ ih =>
    cases cs with
    | nil => simp [word, character, angle]
    | cons c cs =>
      have hz' : ∀ z ∈ us, z ∈ ys := fun z h => hsub z (by simp [h])
      have ih := ih hz' cs
      have hyy : y ∈ ys := hsub y (by simp)
      rw [word, word, character_cons, character_cons]
      have ha := word_closed h hz' cs (x := (t, 1)) ht
      have hb := word_closed h hz' cs (x := (s, 1)) hs
      have e1 : Complex.exp (Complex.I * (2 * Real.pi * y.q / y.per)) ≠ 0 := Complex.exp_ne_zero _
      revert ih ha hb e1 hy
      generalize word us cs (t, 1) = a
      generalize word us cs (s, 1) = b
      generalize character us cs = x1
      generalize character vs cs = x2
      generalize Complex.exp (Complex.I * (2 * Real.pi * y.q / y.per)) = w1
      generalize Complex.exp (Complex.I * (2 * Real.pi * z.q / z.per)) = w2
      intro hy ih ha hb e1
      induction c with
      | zero => simpa using ih
      | succ c ihc =>
        rw [Function.iterate_succ_apply', Function.iterate_succ_apply']
        have hxa := iter_closed h hyy c (x := a) ha
        have hxb := iter_closed h hyy c (x := b) hb
        revert ihc hxa hxb
        generalize y.U^[c] a = x
        generalize y.U^[c] b = u
        intro ihc hxa hxb
        simp only [Generator.U]
        push_cast
        have := hy u.1 x.1 hxb hxa
        have h2 : w1 * ((y.sgn x.1 : ℂ) * O x.1 u.1) = w2 * (O (y.img x.1) (y.img u.1) * (y.sgn u.1 : ℂ)) := by
          rw [this]; field_simp
        rw [pow_succ, pow_succ]
        linear_combination (w1 * (y.sgn x.1 : ℂ)) * ihc + (w2 ^ c * x2 * (u.2 : ℂ)) * h2

/-- the operator takes the projection in one sector to projections in the other -/
theorem projection_between (h : Acts (· ∈ conf) ys) (hz : Acts (· ∈ conf) zs) (hm : SameMaps ys zs) (O : Nat → Nat → ℂ)
    (hO : Shifts (· ∈ conf) ys zs O) (s t : Nat) (hs : s ∈ conf) (ht : t ∈ conf) :
    ∑ u ∈ conf, O t u * projection ys s u = ∑ v ∈ conf, O v s * projection zs v t := by
  rw [sum_projection h s hs]
  unfold projection
  simp only [← List.sum_map_mul_left]
  rw [sum_exponents_comm, ← same_exponents hm]
  congr 1
  apply List.map_congr_left
  intro cs hcs
  have hc := (mem_exponents _ _).1 hcs
  obtain ⟨v, hv, hvt⟩ : ∃ v ∈ conf, (word ys cs (v, 1)).1 = t := by
    have := Finset.surj_on_of_inj_on_of_card_le (s := conf) (t := conf) (fun a _ => (word ys cs (a, 1)).1)
      (fun a ha => word_closed h (fun _ h => h) cs ha)
      (fun a b ha hb e => word_inj h cs hc ha hb e) (Nat.le_refl _) t ht
    obtain ⟨a, ha, e⟩ := this
    exact ⟨a, ha, e.symm⟩
  rw [Finset.sum_eq_single v]
  · rw [← same_word hm, if_pos hvt, chi]
    have := shifts_word h O ys zs hO (fun _ h => h) cs s v hs hv
    rw [hvt] at this
    have c1 := character_conj ys cs
    have c2 := character_conj zs cs
    linear_combination (-(starRingEnd ℂ) (character ys cs) * (starRingEnd ℂ) (character zs cs)) * this
      - (O t (word ys cs (s, 1)).1 * (starRingEnd ℂ) (character ys cs) * ((word ys cs (s, 1)).2 : ℂ)) * c2
      + (O v s * ((starRingEnd ℂ) (character zs cs)) * ((word ys cs (v, 1)).2 : ℂ)) * c1
  · intro b hb hbv
    rw [if_neg, mul_zero]
    intro e
    rw [← same_word hm] at e
    exact hbv (word_inj h cs hc hb hv (e.trans hvt.symm))
  · intro hn; exact absurd hv hn

/-- matrix element between normalised states of two sectors -/
theorem element_between (h : Acts (· ∈ conf) ys) (hz : Acts (· ∈ conf) zs) (hm : SameMaps ys zs) (O : Nat → Nat → ℂ)
    (hO : Shifts (· ∈ conf) ys zs O) (s sj : Nat) (hs : s ∈ conf) (ni : Int) (hn : projection ys s s = ni) :
    ∑ t ∈ conf, ∑ u ∈ conf, (starRingEnd ℂ) (symState conf zs sj t) * O t u * symState conf ys s u
      = ∑ v ∈ conf, O v s * ((∑ t ∈ conf, (starRingEnd ℂ) (symState conf zs sj t) * projection zs v t)
          / (Real.sqrt ((exponents ys).length * (ni : ℝ)) : ℝ)) := by
  have e1 : ∀ t ∈ conf, ∑ u ∈ conf, (starRingEnd ℂ) (symState conf zs sj t) * O t u * symState conf ys s u
      = ∑ v ∈ conf, O v s * ((starRingEnd ℂ) (symState conf zs sj t) * projection zs v t
          / (Real.sqrt ((exponents ys).length * (ni : ℝ)) : ℝ)) := by
    intro t ht
    have := projection_between h hz hm O hO s t hs ht
    have e2 : ∀ u, symState conf ys s u = projection ys s u / (Real.sqrt ((exponents ys).length * (ni : ℝ)) : ℝ) := by
      intro u
      unfold symState
      rw [norm_projection h s hs ni hn]
    simp only [e2]
    rw [show (∑ u ∈ conf, (starRingEnd ℂ) (symState conf zs sj t) * O t u *
        (projection ys s u / (Real.sqrt ((exponents ys).length * (ni : ℝ)) : ℝ)))
        = (starRingEnd ℂ) (symState conf zs sj t)
          / (Real.sqrt ((exponents ys).length * (ni : ℝ)) : ℝ) * ∑ u ∈ conf, O t u * projection ys s u by
        rw [Finset.mul_sum]; apply Finset.sum_congr rfl; intro u _; ring,
      this, Finset.mul_sum]
    apply Finset.sum_congr rfl; intro u _; ring
  rw [Finset.sum_congr rfl e1, Finset.sum_comm]
  simp only [← Finset.mul_sum, ← Finset.sum_div]

/-- the sum over the configurations is one term for every operator string -/
theorem terms_sum (fs : List (Nat → Option (Nat × ℂ))) (s : Nat) (X : Nat → ℂ)
    (hf : ∀ f ∈ fs, ∃ r ∈ conf, ∃ m, f s = some (r, m)) :
    ∑ v ∈ conf, operatorOf fs v s * X v
      = (fs.map fun f => match f s with | some (r, m) => m * X r | none => 0).sum := by
  induction fs with
  | nil => simp [operatorOf]
  | cons f fs ih =>
    obtain ⟨r, hr, m, hfm⟩ := hf f (by simp)
    rw [List.map_cons, List.sum_cons, ← ih fun g hg => hf g (by simp [hg]), hfm]
    have : ∀ v, operatorOf (f :: fs) v s = (if r = v then m else 0) + operatorOf fs v s := by
      intro v; simp [operatorOf, hfm]
    simp only [this, add_mul, Finset.sum_add_distrib, ite_mul, zero_mul]
    rw [Finset.sum_ite_eq, if_pos hr]

theorem shifts_invariant (O : Nat → Nat → ℂ) (us : List Generator) (hO : InvariantUnder S us O) : Shifts S us us O := by
  unfold Shifts
  rw [List.forall₂_same]
  intro y hy s t hs ht
  rw [div_self (Complex.exp_ne_zero _), one_mul]
  exact hO y hy s t hs ht

theorem same_refl (ys : List Generator) : SameMaps ys ys := by
  unfold SameMaps
  rw [List.forall₂_same]
  simp

/-! ### `general_op_shift_sectors` -/

/-- entry of a column -/
noncomputable def colValue (c : Option (Option (Nat × ℂ))) (j : Nat) : ℂ :=
  match c with
  | some (some (k, m)) => if k = j then m else 0
  | _ => 0

theorem column_spec (h : Acts (· ∈ conf) ys) (hz : Acts (· ∈ conf) zs) (hm : SameMaps ys zs) (hlen : zs.length ≤ 32)
    {S1 S2 : Nat → Prop} (hS1 : ∀ s, S1 s → s ∈ conf) (hS2 : ∀ s, S2 s → s ∈ conf)
    {l1 l2 : List (Nat × Int)} (hl1 : ReducedBasis S1 ys l1) (hl2 : ReducedBasis S2 zs l2)
    (op : Nat → Option (Nat × ℂ)) (s : Nat) (ni : Int) (hs : (s, ni) ∈ l1) (r : Nat) (m : ℂ) (hop : op s = some (r, m))
    (hr : r ∈ conf) (hret : m ≠ 0 → r ≠ s → ¬ Related zs s r) :
    (shiftColumn zs l2 op s ni).isSome ∧
    ∀ (j sj : Nat) (nj : Int), l2[j]? = some (sj, nj) → colValue (shiftColumn zs l2 op s ni) j
      = m * ((∑ t ∈ conf, (starRingEnd ℂ) (symState conf zs sj t) * projection zs r t)
          / (Real.sqrt ((exponents ys).length * (ni : ℝ)) : ℝ)) := by
  have hs1 := (hl1.mem s ni).1 hs
  have hpi : (0 : ℝ) < ni := by exact_mod_cast reduced_pos h hS1 hl1 hs
  have hG : (0 : ℝ) < (exponents zs).length := by exact_mod_cast exponents_pos hz
  have hmax : OrbitMax zs s := fun t ht => hs1.2.1 t ((same_related hm s t).2 ht)
  have hinj : ∀ (a b : Nat) (x y : Nat × Int), l2[a]? = some x → l2[b]? = some y → x.1 = y.1 → a = b := by
    intro a b x y ha hb he
    by_contra hne
    have h1 : (l2.map (·.1))[a]? = some x.1 := by simp [ha]
    have h2 : (l2.map (·.1))[b]? = some y.1 := by simp [hb]
    rcases Nat.lt_or_gt_of_ne hne with hlt | hlt
    · have := decreasing_get hl2.sorted h1 h2 hlt; omega
    · have := decreasing_get hl2.sorted h2 h1 hlt; omega
  rw [same_exponents hm]
  -- what the search for the representative gives
  obtain ⟨b, b1, b2, b3, b4⟩ : ∃ b : Best, (if r ≠ s then refState zs r (zs.map fun _ => 0) 1
        else some { r := r, phase := 1, g := [] }) = some b ∧ b.r ∈ conf ∧ OrbitMax zs b.r ∧
      (m ≠ 0 → ∀ t, projection zs r t = (if b.r ≠ s then (b.phase : ℂ) * Complex.exp (-(Complex.I * phaseAngle zs b.g)) else 1)
        * projection zs b.r t) := by
    by_cases hrs : r = s
    · subst hrs
      exact ⟨_, if_neg (by simp), hr, hmax, fun _ t => by simp⟩
    · rw [if_pos (by simpa using hrs)]
      obtain ⟨b, f1, f2, f3, f4, f5⟩ := C07_representative _ zs hz hlen r hr
      refine ⟨b, f1, related_closed hz hr f2, fun t ht => f3 t (f2.trans ht), fun h0 t => ?_⟩
      have hne : b.r ≠ s := by
        intro e
        rw [e] at f2
        exact hret h0 hrs (related_symm hz hr f2)
      rw [if_pos hne]
      have hshift := projection_shift hz r t hr b.g ((mem_exponents _ _).1 f4)
      rw [f5] at hshift
      rw [hshift, chi_phases hz r hr b f5, phases_exp]
      ring
  unfold shiftColumn
  simp only [hop, b1]
  have hsearch := C16_search (l2.map (·.1)) hl2.sorted b.r
  rcases hsearch with ⟨k, e1, e2⟩ | ⟨e1, e2⟩
  · rw [e1]
    simp only [ge_iff_le, Int.natCast_nonneg, if_true, Int.toNat_natCast]
    rw [List.getElem?_map, Option.map_eq_some_iff] at e2
    obtain ⟨⟨sk, nk⟩, hk1, hk2⟩ := e2
    simp only at hk2
    subst hk2
    rw [hk1]
    simp only
    refine ⟨rfl, ?_⟩
    intro j sj nj hj
    have hmj := List.mem_of_getElem? hj
    have hsj := (hl2.mem sj nj).1 hmj
    have hpj : (0 : ℝ) < nj := by exact_mod_cast reduced_pos hz hS2 hl2 hmj
    rw [overlap hz hS2 hl2 hmj r hr]
    unfold colValue
    simp only
    by_cases h0 : m = 0
    · subst h0; simp
    rw [b4 h0]
    by_cases hkj : k = j
    · subst hkj
      rw [hk1] at hj
      obtain ⟨e, rfl⟩ : b.r = sj ∧ nk = nj := by simpa using hj
      rw [if_pos rfl, ← e]
      have hpr : projection zs b.r b.r = nk := by rw [e]; exact hsj.2.2.2
      rw [hpr]
      have h2 : ((exponents zs).length : ℂ) * (nk : ℂ) / (Real.sqrt ((exponents zs).length * (nk : ℝ)) : ℝ)
        / (Real.sqrt ((exponents zs).length * (ni : ℝ)) : ℝ) = (Real.sqrt ((nk : ℝ) / (ni : ℝ)) : ℝ) := by
        exact_mod_cast sqrt_ratio _ _ _ hG hpj hpi
      rw [← h2]
      split <;> ring
    · rw [if_neg hkj, projection_unrelated hz b.r sj b2
        (max_unrelated hz b2 b3 hsj.2.1 fun e => hkj (hinj k j _ _ hk1 hj e))]
      simp
  · rw [e1]
    simp only [ge_iff_le, show ¬ ((0 : Int) ≤ -1) by decide, if_false]
    refine ⟨rfl, ?_⟩
    intro j sj nj hj
    have hmj := List.mem_of_getElem? hj
    have hsj := (hl2.mem sj nj).1 hmj
    rw [overlap hz hS2 hl2 hmj r hr]
    by_cases h0 : m = 0
    · subst h0; simp [colValue]
    have : projection zs b.r sj = 0 := by
      refine projection_unrelated hz b.r sj b2 (max_unrelated hz b2 b3 hsj.2.1 fun e => e2 ?_)
      rw [e]
      exact List.mem_map.2 ⟨_, hmj, rfl⟩
    rw [b4 h0, this]
    simp [colValue]

theorem shiftLoop_spec (zs : List Generator) (l2 l1 : List (Nat × Int)) (op : Nat → Option (Nat × ℂ)) (v : Nat → ℂ)
    (order : List Nat) (out : Nat → ℂ)
    (hcol : ∀ i ∈ order, ∃ s ni, l1[i]? = some (s, ni) ∧ (shiftColumn zs l2 op s ni).isSome) :
    ∃ out', shiftLoop zs l2 l1 op v order out = some out' ∧ ∀ k, out' k = out k + (order.map fun i =>
      v i * match l1[i]? with | some (s, ni) => colValue (shiftColumn zs l2 op s ni) k | none => 0).sum := by
  induction order generalizing out with
  | nil => exact ⟨out, rfl, fun k => by simp⟩
  | cons i order ih =>
    obtain ⟨s, ni, h1, h2⟩ := hcol i (by simp)
    have ih := fun out => ih out fun i hi => hcol i (by simp [hi])
    unfold shiftLoop
    rw [h1]
    simp only
    cases hc : shiftColumn zs l2 op s ni with
    | none => rw [hc] at h2; simp at h2
    | some c =>
      cases c with
      | none =>
        obtain ⟨out', o1, o2⟩ := ih out
        refine ⟨out', o1, fun k => ?_⟩
        rw [o2, List.map_cons, List.sum_cons, h1]
        simp [hc, colValue]
      | some e =>
        obtain ⟨j, m⟩ := e
        obtain ⟨out', o1, o2⟩ := ih (fun k => if k = j then out k + v i * m else out k)
        refine ⟨out', o1, fun k => ?_⟩
        rw [o2, List.map_cons, List.sum_cons, h1]
        simp only [hc, colValue]
        by_cases e : k = j
        · subst e; simp [add_assoc]
        · rw [if_neg e, if_neg (fun e2 => e e2.symm)]; simp

end Proof.BraKet
