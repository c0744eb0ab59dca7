import Verif.Proof.BraKet
import Mathlib.Algebra.BigOperators.Fin
/-!
C72  `Op_bra_ket` and `Op_shift_sector` give the matrix elements of the operator between symmetry-projected states.

`Spec.operatorOf terms t s` is `⟨t|O|s⟩` on the full configuration space, `Spec.symState conf ys s` the normalised
projection of configuration `s` onto the quantum numbers of `ys`.  `Spec.coefficient out t s` is the coefficient of
`|t⟩⟨s|` in a list of (matrix element, bra, ket).  `Spec.Shifts conf ys zs O`: `O` takes states with the quantum
numbers of `ys` to states with those of `zs`.
-/
namespace Props
open Model Model.BraKet Spec Proof.Symmetry Proof.BraKet
open scoped BigOperators

theorem inside_iff (pcon : Option (Nat → Bool)) (r : Nat) : inside pcon r = true ↔ ∀ f, pcon = some f → f r = true := by
  cases pcon with
  | none => simp [inside]
  | some p => simp [inside]

/-- `Op_bra_ket` called for every term of an operator that commutes with the symmetries, on kets of the reduced
basis: for every number of threads, distribution of the kets and content of uninitialised memory, the lists name
only states of the basis, and the coefficients of `|t⟩⟨s|` add up to the matrix element of the operator between the
normalised projected states (its real part for a real `dtype`), with and without `reduce_output`.  Partial: all
eigenvalues of the symmetries are 1, or the images of the kets are never the largest of their orbits and diagonal
terms occur only without particle-number sectors (`C72_fails_stale`, `C72_fails_diagonal`). -/
theorem C72_bra_ket_partial (conf : Finset Nat) (ys : List Generator) (h : Acts (· ∈ conf) ys) (hlen : ys.length ≤ 32)
    (S : Nat → Prop) (hS : ∀ s, S s → s ∈ conf) (l : List (Nat × Int)) (hl : ReducedBasis S ys l)
    (pcon : Option (Nat → Bool)) (hin : ∀ r ∈ conf, S r ↔ ∀ f, pcon = some f → f r = true)
    (kets : List Nat) (hk : ∀ s ∈ kets, ∃ n, (s, n) ∈ l) (hnd : kets.Nodup)
    (terms : List ((Nat → Option (Nat × ℂ)) × List (List Nat × List Nat)))
    (hp : ∀ t ∈ terms, Pieces ys kets t.2)
    (hterms : ∀ t ∈ terms, ∀ s ∈ conf, ∃ r ∈ conf, ∃ m, t.1 s = some (r, m))
    (hinv : InvariantUnder (· ∈ conf) ys (operatorOf (terms.map (·.1))))
    (hfresh : TrivialSector ys ∨ ∀ t ∈ terms, ∀ s ∈ kets, ∀ r m, t.1 s = some (r, m) → m ≠ 0 →
      (r ≠ s ∧ ¬ OrbitMax ys r) ∨ (r = s ∧ pcon = none))
    (isReal red : Bool) :
    ∃ outs, terms.mapM (fun t => opBraKet ys pcon t.1 isReal red kets t.2) = some outs ∧
      (∀ out ∈ outs, ∀ e ∈ out, e.2.2 ∈ kets ∧ (e.1 ≠ 0 → ∃ n, (e.2.1, n) ∈ l)) ∧
      ∀ s ∈ kets, ∀ sj nj, (sj, nj) ∈ l →
        (outs.map fun out => coefficient out sj s).sum = storedPart isReal (∑ t ∈ conf, ∑ u ∈ conf,
          (starRingEnd ℂ) (symState conf ys sj t) * operatorOf (terms.map (·.1)) t u * symState conf ys s u) := by
  have hmem : ∀ s ∈ kets, ∃ n, (s, n) ∈ l ∧ s ∈ conf ∧ projection ys s s = (n : ℂ) := by
    intro s hs
    obtain ⟨n, hn⟩ := hk s hs
    have := (hl.mem s n).1 hn
    exact ⟨n, hn, hS s this.1, this.2.2.2⟩
  have key : ∀ s ∈ kets, ∃ ni : Int, s ∈ conf ∧ projection ys s s = (ni : ℂ) ∧ ∀ sj nj, (sj, nj) ∈ l →
      ∑ t ∈ conf, ∑ u ∈ conf, (starRingEnd ℂ) (symState conf ys sj t) * operatorOf (terms.map (·.1)) t u * symState conf ys s u
      = ((terms.map (·.1)).map fun f => match f s with
          | some (r, m) => m * ((∑ t ∈ conf, (starRingEnd ℂ) (symState conf ys sj t) * projection ys r t)
            / (Real.sqrt ((exponents ys).length * (ni : ℝ)) : ℝ))
          | none => 0).sum := by
    intro s hs
    obtain ⟨ni, h1, h2, h3⟩ := hmem s hs
    refine ⟨ni, h2, h3, fun sj nj _ => ?_⟩
    rw [element_between h h (same_refl ys) _ (shifts_invariant _ _ hinv) s sj h2 ni h3]
    exact terms_sum (conf := conf) _ s
      (fun v => (∑ t ∈ conf, (starRingEnd ℂ) (symState conf ys sj t) * projection ys v t)
        / (Real.sqrt ((exponents ys).length * (ni : ℝ)) : ℝ)) (by
        intro f hf
        obtain ⟨t, ht, rfl⟩ := List.mem_map.1 hf
        exact hterms t ht s h2)
  clear hinv
  -- the lists of the terms
  suffices hlists : ∃ outs, terms.mapM (fun t => opBraKet ys pcon t.1 isReal red kets t.2) = some outs ∧
      (∀ out ∈ outs, ∀ e ∈ out, e.2.2 ∈ kets ∧ (e.1 ≠ 0 → ∃ n, (e.2.1, n) ∈ l)) ∧
      ∀ s ∈ kets, ∀ ni : Int, projection ys s s = (ni : ℂ) → ∀ sj nj, (sj, nj) ∈ l →
        (outs.map fun out => coefficient out sj s).sum = storedPart isReal ((terms.map (·.1)).map fun f => match f s with
          | some (r, m) => m * ((∑ t ∈ conf, (starRingEnd ℂ) (symState conf ys sj t) * projection ys r t)
            / (Real.sqrt ((exponents ys).length * (ni : ℝ)) : ℝ))
          | none => 0).sum by
    obtain ⟨outs, o1, o2, o3⟩ := hlists
    refine ⟨outs, o1, o2, fun s hs sj nj hj => ?_⟩
    obtain ⟨ni, k1, k2, k3⟩ := key s hs
    rw [k3 sj nj hj]
    exact o3 s hs ni k2 sj nj hj
  clear key
  induction terms with
  | nil => exact ⟨[], rfl, by simp, fun s hs ni hn sj nj hj => by simp [part_zero]⟩
  | cons t terms ih =>
    obtain ⟨outs, o1, o2, o3⟩ := ih (fun t ht => hp t (by simp [ht])) (fun t ht => hterms t (by simp [ht]))
      (hfresh.imp id fun hf t ht => hf t (by simp [ht]))
    -- the first term
    obtain ⟨cells, c1, c2⟩ := core_spec ys pcon t.1 (fun s c =>
        (c.1.getD 0 ≠ 0 → ∃ n, (c.2, n) ∈ l) ∧ ∀ ni : Int, projection ys s s = (ni : ℂ) → ∀ sj nj, (sj, nj) ∈ l → value c sj
        = match t.1 s with
          | some (r, m) => m * ((∑ t ∈ conf, (starRingEnd ℂ) (symState conf ys sj t) * projection ys r t)
            / (Real.sqrt ((exponents ys).length * (ni : ℝ)) : ℝ))
          | none => 0) kets (by
      intro s hs g hg
      obtain ⟨ni, h1, h2, h3⟩ := hmem s hs
      obtain ⟨r, hr, m, hop⟩ := hterms t (by simp) s h2
      obtain ⟨c, g', s1, s2, s3, s4⟩ := step_spec h hlen hS hl pcon (fun r hr => (inside_iff pcon r).trans (hin r hr).symm) t.1 s ni h1 r m hop hr g hg
        (hfresh.imp id fun hf => hf t (by simp) s hs r m hop)
      refine ⟨c, g', s1, s2, s3, fun ni' hni sj nj hj => ?_⟩
      have : ni' = ni := by
        have : (ni' : ℂ) = ni := by rw [← hni, h3]
        exact_mod_cast this
      subst this
      rw [hop]
      exact s4 sj nj hj) t.2 (hp t (by simp))
    have hout : ∃ out, opBraKet ys pcon t.1 isReal red kets t.2 = some out := by
      unfold opBraKet; rw [c1]; exact ⟨_, rfl⟩
    obtain ⟨out, ho⟩ := hout
    have ho2 := ho
    unfold opBraKet at ho2
    rw [c1, Option.map_some, Option.some.injEq] at ho2
    obtain ⟨l1, l2, l3⟩ := listed isReal red kets hnd cells _ c2 out ho2.symm
    refine ⟨out :: outs, ?_, ?_, ?_⟩
    · rw [List.mapM_cons, ho, o1]; rfl
    · intro out' hout' e he
      rcases List.mem_cons.1 hout' with rfl | hout'
      · obtain ⟨c, p1, p2, p3, p4⟩ := l1 e he
        refine ⟨p2, fun hne => ?_⟩
        rw [← p3]
        apply p1.1
        intro h0
        rw [h0, part_zero] at p4
        exact hne p4.symm
      · exact o2 out' hout' e he
    · intro s hs ni hn sj nj hj
      obtain ⟨c, p1, p2⟩ := l3 s hs
      rw [List.map_cons, List.sum_cons, List.map_cons, List.map_cons, List.sum_cons, part_add, ← o3 s hs ni hn sj nj hj, p2,
        p1.2 ni hn sj nj hj]

/-- `Op_shift_sector` for one vector: for every order in which the parallel loops process the states (one order for
every term), `v_out` is increased by `P₂† O P₁ v_in`, with `P₁`, `P₂` the embeddings of the two symmetry sectors.
Partial: complex numbers; no term takes a representative to another configuration of its own orbit
(`C72_fails_return`). -/
theorem C72_shift_sector_partial (conf : Finset Nat) (ys zs : List Generator) (h : Acts (· ∈ conf) ys)
    (hz : Acts (· ∈ conf) zs) (hm : SameMaps ys zs) (hlen : zs.length ≤ 32)
    (S1 S2 : Nat → Prop) (hS1 : ∀ s, S1 s → s ∈ conf) (hS2 : ∀ s, S2 s → s ∈ conf)
    (l1 l2 : List (Nat × Int)) (hl1 : ReducedBasis S1 ys l1) (hl2 : ReducedBasis S2 zs l2)
    (terms : List ((Nat → Option (Nat × ℂ)) × List Nat))
    (horder : ∀ t ∈ terms, t.2.Perm (List.range l1.length))
    (hterms : ∀ t ∈ terms, ∀ s ∈ conf, ∃ r ∈ conf, ∃ m, t.1 s = some (r, m))
    (hshift : Shifts (· ∈ conf) ys zs (operatorOf (terms.map (·.1))))
    (hret : ∀ t ∈ terms, ∀ s n, (s, n) ∈ l1 → ∀ r m, t.1 s = some (r, m) → m ≠ 0 → r ≠ s → ¬ Related zs s r)
    (v out : Nat → ℂ) :
    ∃ out', shiftSector zs l2 l1 v terms out = some out' ∧
      ∀ j : Fin l2.length, out' j = out j + ∑ i : Fin l1.length, v i * ∑ t ∈ conf, ∑ u ∈ conf,
        (starRingEnd ℂ) (symState conf zs l2[j].1 t) * operatorOf (terms.map (·.1)) t u * symState conf ys l1[i].1 u := by
  have hcol : ∀ i : Fin l1.length, l1[i.1]? = some (l1[i].1, l1[i].2) := fun i => List.getElem?_eq_getElem i.2
  have hcol2 : ∀ i : Fin l2.length, l2[i.1]? = some (l2[i].1, l2[i].2) := fun i => List.getElem?_eq_getElem i.2
  have key : ∀ (i : Fin l1.length) (sj : Nat),
      ∑ t ∈ conf, ∑ u ∈ conf, (starRingEnd ℂ) (symState conf zs sj t) * operatorOf (terms.map (·.1)) t u * symState conf ys l1[i].1 u
      = ((terms.map (·.1)).map fun f => match f l1[i].1 with
          | some (r, m) => m * ((∑ t ∈ conf, (starRingEnd ℂ) (symState conf zs sj t) * projection zs r t)
            / (Real.sqrt ((exponents ys).length * (l1[i].2 : ℝ)) : ℝ))
          | none => 0).sum := by
    intro i sj
    have hs := (hl1.mem _ _).1 (List.mem_of_getElem? (hcol i))
    rw [element_between h hz hm _ hshift _ sj (hS1 _ hs.1) _ hs.2.2.2]
    exact terms_sum (conf := conf) _ l1[i].1
      (fun v => (∑ t ∈ conf, (starRingEnd ℂ) (symState conf zs sj t) * projection zs v t)
        / (Real.sqrt ((exponents ys).length * (l1[i].2 : ℝ)) : ℝ)) (by
        intro f hf
        obtain ⟨t, ht, rfl⟩ := List.mem_map.1 hf
        exact hterms t ht _ (hS1 _ hs.1))
  simp only [key]
  clear hshift key
  induction terms generalizing out with
  | nil => exact ⟨out, rfl, fun j => by simp⟩
  | cons t terms ih =>
    have hspec : ∀ i : Fin l1.length, (shiftColumn zs l2 t.1 l1[i].1 l1[i].2).isSome ∧
        ∀ j : Fin l2.length, colValue (shiftColumn zs l2 t.1 l1[i].1 l1[i].2) j = match t.1 l1[i].1 with
          | some (r, m) => m * ((∑ t ∈ conf, (starRingEnd ℂ) (symState conf zs l2[j].1 t) * projection zs r t)
            / (Real.sqrt ((exponents ys).length * (l1[i].2 : ℝ)) : ℝ))
          | none => 0 := by
      intro i
      have hmi := List.mem_of_getElem? (hcol i)
      have hs := (hl1.mem _ _).1 hmi
      obtain ⟨r, hr, m, hop⟩ := hterms t (by simp) _ (hS1 _ hs.1)
      obtain ⟨c1, c2⟩ := column_spec h hz hm hlen hS1 hS2 hl1 hl2 t.1 _ _ hmi r m hop hr
        (hret t (by simp) _ _ hmi r m hop)
      refine ⟨c1, fun j => ?_⟩
      rw [hop]
      exact c2 j _ _ (hcol2 j)
    obtain ⟨o1, p1, p2⟩ := shiftLoop_spec zs l2 l1 t.1 v t.2 out (by
      intro i hi
      have hi' : i < l1.length := List.mem_range.1 ((horder t (by simp)).mem_iff.1 hi)
      exact ⟨_, _, hcol ⟨i, hi'⟩, (hspec ⟨i, hi'⟩).1⟩)
    obtain ⟨o2, q1, q2⟩ := ih (fun t ht => horder t (by simp [ht])) (fun t ht => hterms t (by simp [ht]))
      (fun t ht => hret t (by simp [ht])) o1
    refine ⟨o2, ?_, ?_⟩
    · unfold shiftSector
      rw [p1]
      exact q1
    · intro j
      rw [q2, p2, add_assoc]
      congr 1
      have e1 : (t.2.map fun i => v i * match l1[i]? with
            | some (s, ni) => colValue (shiftColumn zs l2 t.1 s ni) j | none => 0).sum
          = ∑ i : Fin l1.length, v i * match t.1 l1[i].1 with
            | some (r, m) => m * ((∑ t ∈ conf, (starRingEnd ℂ) (symState conf zs l2[j].1 t) * projection zs r t)
              / (Real.sqrt ((exponents ys).length * (l1[i].2 : ℝ)) : ℝ))
            | none => 0 := by
        rw [((horder t (by simp)).map _).sum_eq]
        refine (Finset.sum_range (n := l1.length) fun i => v i * match l1[i]? with
            | some (s, ni) => colValue (shiftColumn zs l2 t.1 s ni) j | none => 0).trans ?_
        apply Finset.sum_congr rfl
        intro i _
        rw [hcol i]
        simp only
        rw [(hspec i).2 j]
      refine (congrArg (· + _) e1).trans ?_
      rw [← Finset.sum_add_distrib]
      apply Finset.sum_congr rfl
      intro i _
      rw [List.map_cons, List.map_cons, List.sum_cons, mul_add]

/-! Hypotheses met: two fermionic sites, odd under exchange, hopping as two terms; ket `|10⟩`, any memory content. -/

example (g : Nat) := C72_bra_ket_partial (Finset.range 4) exampleSigned exampleSigned_conf (by decide)
  (· ∈ Finset.range 4) (fun _ h => h) _ exampleSigned_basis none (by intro r hr; simpa using hr)
  [3, 2] (by simp) (by decide) [(hopTerm 1 2, [([g], [3, 2])]), (hopTerm 2 1, [([g], [3]), ([g], [2])])]
  (by simp [Pieces, exampleSigned]; rintro a b (⟨rfl, _⟩ | ⟨rfl, _⟩) <;> rfl)
  (by
    intro t ht s hs
    simp only [List.mem_cons, List.not_mem_nil, or_false] at ht
    rcases ht with rfl | rfl
    · by_cases h : s = 1
      · exact ⟨2, by decide, 1, by simp [hopTerm, h]⟩
      · exact ⟨s, hs, 0, by simp [hopTerm, h]⟩
    · by_cases h : s = 2
      · exact ⟨1, by decide, 1, by simp [hopTerm, h]⟩
      · exact ⟨s, hs, 0, by simp [hopTerm, h]⟩)
  hop_invariant
  (by
    right
    intro t ht s hs r m hm h0
    have h1 : ¬ OrbitMax exampleSigned 1 := by
      intro h
      have := h 2 (Relation.ReflTransGen.single ⟨_, List.mem_singleton.2 rfl, rfl⟩)
      omega
    simp only [List.mem_cons, List.not_mem_nil, or_false] at ht hs
    rcases ht with rfl | rfl <;> rcases hs with rfl | rfl <;> simp [hopTerm] at hm
    · exact absurd hm.2.symm h0
    · exact absurd hm.2.symm h0
    · exact absurd hm.2.symm h0
    · obtain ⟨rfl, rfl⟩ := hm
      exact .inl ⟨by decide, h1⟩)

/-- A reflection without signs, with quantum number `q`. -/
def mirror (f : Nat → Nat) (q : Int) : List Generator := [{ img := f, sgn := fun _ => 1, per := 2, q := q }]

section
variable {n : Nat} {f : Nat → Nat}

theorem mirror_acts (q : Int) (hc : ∀ s < n, f s < n) (hf : ∀ s < n, f (f s) = s) :
    Acts (· ∈ Finset.range n) (mirror f q) where
  per_pos := by simp [mirror]
  closed := by simpa [mirror] using hc
  sign := by simp [mirror]
  period := by simpa [mirror, Generator.U] using hf
  commute := by simp [mirror]

theorem mirror_exponents (q : Int) : exponents (mirror f q) = [[0], [1]] := by
  simp [exponents, mirror, List.range_succ]

theorem mirror_related (q : Int) (hc : ∀ s < n, f s < n) (hf : ∀ s < n, f (f s) = s) (s t : Nat) (hs : s < n) :
    Related (mirror f q) s t ↔ t = s ∨ t = f s := by
  rw [related_iff (mirror_acts q hc hf) s t (by simpa using hs)]
  constructor
  · rintro ⟨cs, hcs, rfl⟩
    rw [← mem_exponents, mirror_exponents] at hcs
    simp only [List.mem_cons, List.not_mem_nil, or_false] at hcs
    rcases hcs with rfl | rfl
    · left; rfl
    · right; rfl
  · rintro (rfl | rfl)
    · exact ⟨[0], (mem_exponents _ _).1 (by rw [mirror_exponents]; simp), rfl⟩
    · exact ⟨[1], (mem_exponents _ _).1 (by rw [mirror_exponents]; simp), rfl⟩

theorem mirror_even (s t : Nat) : projection (mirror f 0) s t = (if s = t then 1 else 0) + (if f s = t then 1 else 0) := by
  unfold projection
  rw [mirror_exponents]
  simp [character, mirror, angle, word, Generator.U]

theorem mirror_character : character (mirror f 1) [1] = -1 := by
  unfold character mirror
  simp only [angle]
  push_cast
  rw [show Complex.I * (2 * (Real.pi : ℂ) * 1 / 2 * 1 + 0) = Real.pi * Complex.I by ring]
  exact Complex.exp_pi_mul_I

theorem mirror_odd (s t : Nat) : projection (mirror f 1) s t = (if s = t then 1 else 0) - (if f s = t then 1 else 0) := by
  have h0 : character (mirror f 1) [0] = 1 := by simp [character, mirror, angle]
  unfold projection
  rw [mirror_exponents]
  simp only [List.map_cons, List.map_nil, List.sum_cons, List.sum_nil, mirror_character, h0]
  simp [word, mirror, Generator.U]
  split_ifs <;> ring
end

/-- Exchange of two sites. -/
def exchange2 (t : Nat) : Nat := t / 2 + t % 2 * 2

theorem exchange2_lt : ∀ s < 4, exchange2 s < 4 := by decide
theorem exchange2_twice : ∀ s < 4, exchange2 (exchange2 s) = s := by decide

theorem exchange2_even : ReducedBasis (· ∈ Finset.range 4) (mirror exchange2 0) [(3, 2), (2, 1), (0, 2)] where
  sorted := by decide
  mem := by
    have hr := mirror_related 0 exchange2_lt exchange2_twice
    intro s n
    simp only [mirror_even, Finset.mem_range]
    constructor
    · intro hm
      simp only [List.mem_cons, Prod.mk.injEq, List.not_mem_nil, or_false] at hm
      rcases hm with ⟨rfl, rfl⟩ | ⟨rfl, rfl⟩ | ⟨rfl, rfl⟩
      · refine ⟨by decide, fun t ht => ?_, ⟨3, by norm_num [exchange2]⟩, by norm_num [exchange2]⟩
        have := (hr 3 t (by decide)).1 ht; simp [exchange2] at this; omega
      · refine ⟨by decide, fun t ht => ?_, ⟨2, by norm_num [exchange2]⟩, by norm_num [exchange2]⟩
        have := (hr 2 t (by decide)).1 ht; simp [exchange2] at this; omega
      · refine ⟨by decide, fun t ht => ?_, ⟨0, by norm_num [exchange2]⟩, by norm_num [exchange2]⟩
        have := (hr 0 t (by decide)).1 ht; simp [exchange2] at this; omega
    · rintro ⟨h1, h2, ⟨t, ht⟩, h4⟩
      have h2 := h2 _ ((hr s _ h1).2 (.inr rfl))
      have : s = 0 ∨ s = 1 ∨ s = 2 ∨ s = 3 := by omega
      rcases this with rfl | rfl | rfl | rfl
      · norm_num [exchange2] at h4; rw [show n = 2 by exact_mod_cast h4.symm]; simp
      · simp [exchange2] at h2
      · norm_num [exchange2] at h4; rw [show n = 1 by exact_mod_cast h4.symm]; simp
      · norm_num [exchange2] at h4; rw [show n = 2 by exact_mod_cast h4.symm]; simp

theorem exchange2_odd : ReducedBasis (· ∈ Finset.range 4) (mirror exchange2 1) [(2, 1)] where
  sorted := by decide
  mem := by
    have hr := mirror_related 1 exchange2_lt exchange2_twice
    intro s n
    simp only [mirror_odd, Finset.mem_range]
    constructor
    · intro hm
      simp only [List.mem_cons, Prod.mk.injEq, List.not_mem_nil, or_false] at hm
      obtain ⟨rfl, rfl⟩ := hm
      refine ⟨by decide, fun t ht => ?_, ⟨2, by norm_num [exchange2]⟩, by norm_num [exchange2]⟩
      have := (hr 2 t (by decide)).1 ht; simp [exchange2] at this; omega
    · rintro ⟨h1, h2, ⟨t, ht⟩, h4⟩
      have h2 := h2 _ ((hr s _ h1).2 (.inr rfl))
      have : s = 0 ∨ s = 1 ∨ s = 2 ∨ s = 3 := by omega
      rcases this with rfl | rfl | rfl | rfl
      · exact absurd (by simp [exchange2]) ht
      · simp [exchange2] at h2
      · norm_num [exchange2] at h4; rw [show n = 1 by exact_mod_cast h4.symm]; simp
      · exact absurd (by simp [exchange2]) ht

theorem exchange2_shift (O : Nat → Nat → ℂ) (h : ∀ s < 4, ∀ t < 4, O (exchange2 t) (exchange2 s) = -O t s) :
    Shifts (· ∈ Finset.range 4) (mirror exchange2 0) (mirror exchange2 1) O := by
  refine List.Forall₂.cons ?_ List.Forall₂.nil
  intro s t hs ht
  simp only [Finset.mem_range] at hs ht
  have e : Complex.exp (Complex.I * (2 * Real.pi * (1 : Int) / (2 : Nat))) = -1 := by
    rw [show Complex.I * (2 * Real.pi * ((1 : Int) : ℂ) / ((2 : Nat) : ℂ)) = Real.pi * Complex.I by push_cast; ring]
    exact Complex.exp_pi_mul_I
  rw [e, h s hs t ht]
  simp

/-- `σᶻ₀ - σᶻ₁` as one term. -/
def differenceTerm : Nat → Option (Nat × ℂ) := fun s => some (s, if s = 2 then 2 else if s = 1 then -2 else 0)

/-! Hypotheses met: the difference of the two magnetisations takes even states to odd ones. -/
example := C72_shift_sector_partial (Finset.range 4) _ _ (mirror_acts 0 exchange2_lt exchange2_twice)
  (mirror_acts 1 exchange2_lt exchange2_twice) (List.Forall₂.cons (by simp) List.Forall₂.nil) (by decide)
  (· ∈ Finset.range 4) (· ∈ Finset.range 4) (fun _ h => h) (fun _ h => h) _ _ exchange2_even exchange2_odd
  [(differenceTerm, [1, 0, 2])] (by intro t ht; simp only [List.mem_singleton] at ht; subst ht; decide)
  (by
    intro t ht s hs
    simp only [List.mem_singleton] at ht; subst ht
    exact ⟨s, hs, _, rfl⟩)
  (by
    apply exchange2_shift
    intro s hs t ht
    have h1 : s = 0 ∨ s = 1 ∨ s = 2 ∨ s = 3 := by omega
    have h2 : t = 0 ∨ t = 1 ∨ t = 2 ∨ t = 3 := by omega
    rcases h1 with rfl | rfl | rfl | rfl <;> rcases h2 with rfl | rfl | rfl | rfl <;>
      simp [operatorOf, differenceTerm, exchange2])
  (by
    intro t ht s n _ r m hm _ hne
    simp only [List.mem_singleton] at ht; subst ht
    simp only [differenceTerm, Option.some.injEq, Prod.mk.injEq] at hm
    exact absurd hm.1.symm hne)

/-! ### Defects -/

/-- `a|b⟩⟨a|` with a coefficient, as `hopTerm`. -/
def hopWith (c : ℂ) (a b : Nat) : Nat → Option (Nat × ℂ) := fun s => if s = a then some (b, c) else some (s, 0)

theorem hop_antisymmetric : Shifts (· ∈ Finset.range 4) (mirror exchange2 0) (mirror exchange2 1)
    (operatorOf [hopWith 1 1 2, hopWith (-1) 2 1]) := by
  apply exchange2_shift
  intro s hs t ht
  have h1 : s = 0 ∨ s = 1 ∨ s = 2 ∨ s = 3 := by omega
  have h2 : t = 0 ∨ t = 1 ∨ t = 2 ∨ t = 3 := by omega
  rcases h1 with rfl | rfl | rfl | rfl <;> rcases h2 with rfl | rfl | rfl | rfl <;>
    simp [operatorOf, hopWith, exchange2]

theorem sqrt_two_sq : (Real.sqrt 2 : ℂ) * Real.sqrt 2 = 2 := by
  rw [← Complex.ofReal_mul, Real.mul_self_sqrt (by norm_num)]; norm_num

theorem sqrt_two_ne : (Real.sqrt 2 : ℂ) ≠ 0 := fun h => by
  have := sqrt_two_sq
  rw [h] at this; norm_num at this

/-- `Op_shift_sector` drops the phase of the target sector whenever a term takes a representative to another
configuration of its own orbit: two sites, the current `S⁺₀S⁻₁ - S⁺₁S⁻₀` (which takes even states to odd ones)
applied to the even state of `|10⟩` has amplitude 1, the function returns -1. -/
theorem C72_fails_return :
    Shifts (· ∈ Finset.range 4) (mirror exchange2 0) (mirror exchange2 1)
      (operatorOf [hopWith 1 1 2, hopWith (-1) 2 1]) ∧
    ∑ t ∈ Finset.range 4, ∑ u ∈ Finset.range 4, (starRingEnd ℂ) (symState (Finset.range 4) (mirror exchange2 1) 2 t)
        * operatorOf [hopWith 1 1 2, hopWith (-1) 2 1] t u * symState (Finset.range 4) (mirror exchange2 0) 2 u = 1 ∧
    ∃ out', shiftSector (mirror exchange2 1) [(2, 1)] [(3, 2), (2, 1), (0, 2)] (fun i => if i = 1 then 1 else 0)
      [(hopWith 1 1 2, [0, 1, 2]), (hopWith (-1) 2 1, [0, 1, 2])] (fun _ => 0) = some out' ∧ out' 0 = -1 := by
  refine ⟨hop_antisymmetric, ?_, ?_⟩
  · have e1 := sqrt_two_sq
    have e2 := sqrt_two_ne
    simp [symState, Finset.sum_range_succ, mirror_odd, mirror_even, exchange2, operatorOf, hopWith]
    norm_num
    field_simp
    linear_combination -e1
  · have r1 : refState (mirror exchange2 1) 1 [0] 1 = some { r := 2, phase := 1, g := [1] } := by decide
    have p3 : repPosition [2] 3 = some (-1) := by decide +kernel
    have p2 : repPosition [2] 2 = some 0 := by decide +kernel
    have p0 : repPosition [2] 0 = some (-1) := by decide +kernel
    have hr : (mirror exchange2 1).map (fun _ => 0) = [0] := rfl
    simp [shiftSector, shiftLoop, shiftColumn, hopWith, hr, r1, p3, p2, p0]

/-- The four sites of a chain mirrored. -/
def mirror4 (t : Nat) : Nat := t / 8 + t / 4 % 2 * 2 + t / 2 % 2 * 4 + t % 2 * 8

theorem mirror4_lt : ∀ s < 16, mirror4 s < 16 := by decide
theorem mirror4_twice : ∀ s < 16, mirror4 (mirror4 s) = s := by decide

/-- `σˣ₂σˣ₃` for `k = 3` and `σˣ₀σˣ₁` for `k = 12` on four sites. -/
def flipTerm (k : Nat) : Nat → Option (Nat × ℂ) := fun s => some (s ^^^ k, 1)

example (s : Nat) : hcbOp 32 4 [('x', 2), ('x', 3)] s 4 = flipTerm 3 s := by
  simp [hcbOp, opLoop, hcbStep, flipTerm, Word.shl]
  rw [Nat.xor_assoc]
  norm_num
  decide

theorem flip_invariant : InvariantUnder (· ∈ Finset.range 16) (mirror mirror4 1)
    (operatorOf [flipTerm 3, flipTerm 12]) := by
  intro y hy s t hs ht
  simp only [mirror, List.mem_singleton] at hy
  subst hy
  simp only [Finset.mem_range] at hs ht
  have h1 : ∀ s < 16, ∀ t < 16, (mirror4 s ^^^ 3 = mirror4 t ↔ s ^^^ 12 = t) := by decide
  have h2 : ∀ s < 16, ∀ t < 16, (mirror4 s ^^^ 12 = mirror4 t ↔ s ^^^ 3 = t) := by decide
  simp only [operatorOf, flipTerm, List.map_cons, List.map_nil, List.sum_cons, List.sum_nil, h1 s hs t ht, h2 s hs t ht]
  push_cast
  ring

theorem mirror4_state (s : Nat) (hs : s < 16) (hf : mirror4 s < s) :
    checkState (mirror mirror4 1) s = some (some 1) := by
  have hmax : OrbitMax (mirror mirror4 1) s := by
    intro t ht
    rcases (mirror_related 1 mirror4_lt mirror4_twice s t hs).1 ht with rfl | rfl <;> omega
  have hp : projection (mirror mirror4 1) s s = 1 := by rw [mirror_odd]; simp [hf.ne]
  rcases Proof.Amp.max_cases (mirror_acts 1 mirror4_lt mirror4_twice) (by decide) s (by simpa using hs) hmax with
    ⟨n, _, _, h1, h2, _⟩ | ⟨_, h0⟩
  · rw [hp] at h2
    rw [h1, show n = 1 by exact_mod_cast h2.symm]; simp
  · rw [h0] at hp; norm_num at hp

theorem mirror4_phases (g : Nat) : phases (mirror mirror4 1) [g] = (-1) ^ g := by
  unfold phases mirror
  simp only [List.zipWith_cons_cons, List.zipWith_nil_right, List.prod_cons, List.prod_nil, mul_one]
  rw [show -(Complex.I * ((2 * Real.pi * ((1 : Int) : ℝ) * g / ((2 : Nat) : ℝ) : ℝ) : ℂ)) = (g : ℂ) * -(Real.pi * Complex.I) by
    push_cast; ring, Complex.exp_nat_mul, Complex.exp_neg, Complex.exp_pi_mul_I]
  norm_num

/-- The array of exponents is not reset between kets: in the odd sector of a mirrored chain of four sites,
`⟨1110|(σˣ₂σˣ₃ + σˣ₀σˣ₁)|1101⟩ = 1`, but after the ket `1000` in the same thread `Op_bra_ket` gives -1, whatever the
memory contains; with one thread for every ket and memory that happens to be zero it gives 1. -/
theorem C72_fails_stale :
    InvariantUnder (· ∈ Finset.range 16) (mirror mirror4 1) (operatorOf [flipTerm 3, flipTerm 12]) ∧
    ∑ t ∈ Finset.range 16, ∑ u ∈ Finset.range 16, (starRingEnd ℂ) (symState (Finset.range 16) (mirror mirror4 1) 14 t)
        * operatorOf [flipTerm 3, flipTerm 12] t u * symState (Finset.range 16) (mirror mirror4 1) 13 u = 1 ∧
    (∀ g, opBraKet (mirror mirror4 1) none (flipTerm 3) false true [8, 13] [([g], [8, 13])]
      = some [(-1, 13, 8), (-1, 14, 13)]) ∧
    opBraKet (mirror mirror4 1) none (flipTerm 3) false true [8, 13] [([0], [8]), ([0], [13])]
      = some [(-1, 13, 8), (1, 14, 13)] := by
  have r1 : ∀ g, refState (mirror mirror4 1) 11 [g] 1 = some { r := 13, phase := 1, g := [1] } := fun g => rfl
  have r2 : ∀ g, refState (mirror mirror4 1) 14 [g] 1 = some { r := 14, phase := 1, g := [g] } := fun g => rfl
  have c8 := mirror4_state 8 (by decide) (by decide)
  have c13 := mirror4_state 13 (by decide) (by decide)
  have c14 := mirror4_state 14 (by decide) (by decide)
  refine ⟨flip_invariant, ?_, ?_, ?_⟩
  · have e1 := sqrt_two_sq
    have e2 := sqrt_two_ne
    have ha := mirror_acts 1 mirror4_lt mirror4_twice
    rw [element_between ha ha (same_refl _) _ (shifts_invariant _ _ flip_invariant) 13 14 (by decide) 1
      (by rw [mirror_odd]; simp [mirror4])]
    rw [terms_sum _ 13 (fun v => (∑ t ∈ Finset.range 16, (starRingEnd ℂ) (symState (Finset.range 16) (mirror mirror4 1) 14 t) * projection (mirror mirror4 1) v t)
        / (Real.sqrt ((exponents (mirror mirror4 1)).length * ((1 : Int) : ℝ)) : ℝ)) (by
          intro f hf
          simp only [List.mem_cons, List.not_mem_nil, or_false] at hf
          rcases hf with rfl | rfl
          · exact ⟨14, by decide, 1, rfl⟩
          · exact ⟨1, by decide, 1, rfl⟩)]
    simp [flipTerm, mirror_exponents, symState, Finset.sum_range_succ, mirror_odd, mirror4]
    norm_num
    field_simp
    linear_combination -e1
  · intro g
    simp [opBraKet, core, thread, step, flipTerm, r1, r2, offDiagonal, inside, c8, c13, c14, mirror4_phases, Amp.checkImag]
  · simp [opBraKet, core, thread, step, flipTerm, r1, r2, offDiagonal, inside, c8, c13, c14, mirror4_phases, Amp.checkImag]

/-- With particle-number sectors the diagonal branch multiplies the phases of the uninitialised array of exponents:
for a diagonal term with value `m` on the ket `1000` of the odd sector, the result is `m` or `-m` depending on the
memory. -/
theorem C72_fails_diagonal (m : ℂ) (hm : m ≠ 0) (g : Nat) :
    opBraKet (mirror mirror4 1) (some fun r => r == 8 || r == 1) (fun s => some (s, m)) false true [8] [([g], [8])]
      = some [(m * (-1) ^ g, 8, 8)] := by
  simp [opBraKet, core, thread, step, mirror4_phases, Amp.checkImag, hm]

/-- A complex coupling with a real `dtype`: no error, the imaginary part is dropped. -/
theorem C72_fails_imaginary :
    opBraKet [] none (fun s => hcbOp 32 1 [('z', 0)] s Complex.I) true false [1] [([], [1])] = some [(0, 1, 1)] := by
  simp [opBraKet, core, thread, step, hcbOp, opLoop, hcbStep, Amp.checkImag]

/-- For a basis with `pauli=1` the function uses spin operators: `⟨1|σᶻ|1⟩` is returned as 1/2. -/
theorem C72_fails_pauli :
    spinOp 1 32 1 [('z', 0)] 1 1 = some (1, 1) ∧
    spinBraKet 1 32 1 [] none [('z', 0)] 1 false true [1] [([], [1])] = some [(1 / 2, 1, 1)] := by
  constructor
  · simp [spinOp, hcbOp, opLoop, hcbStep, pauliFactor]
  · simp [spinBraKet, opBraKet, core, thread, step, hcbOp, opLoop, hcbStep, Amp.checkImag]

/-- `Op_shift_sector` raises `TypeError` for an initial basis in 4096-bit integers (1025 to 4096 bits), although the
target basis may have that type. -/
theorem C72_fails_wide (bits : Nat) : shiftDispatch 4096 bits = false ∧ shiftDispatch 1024 4096 = true := by
  constructor
  · simp [shiftDispatch]
  · decide

/-- `Op_shift_sector` of `spinful_fermion_basis_general` always raises `TypeError`: `self` is not passed on. -/
theorem C72_fails_spinful : spinfulShift = .typeError ∧ spinShift = .call := ⟨rfl, rfl⟩

end Props
