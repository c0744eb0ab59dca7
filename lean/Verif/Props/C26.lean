import Verif.Props.C25
import Verif.Proof.OpIndependent

/-!
C26  The hermiticity check accepts exactly Hermitian operator lists.

`acceptsHerm B app t static dynamic`: `check_hermitian` raises nothing; `app f t` is the value of the drive `f` at the fixed time `t`
at which the code evaluates the drives.  `Spec.listOp`, `Spec.drivenOp`, `Spec.spinfulListOp` are the operators of the lists.

The property fails in both directions: lists with repeated terms are accepted (`C26_fails_repeated`), Hermitian lists are rejected
(`C26_fails_split`, `C26_fails_tensor`), and drives are compared at one time only (`C26_fails_times`).  What holds: an accepted list
without repeated terms (after sorting) is Hermitian, for spins and bosons, fermions, and spinful fermions (`C26_*_partial`); and for
spins and bosons with terms of `z` (or `n`), `+`, `-` on distinct sites, no string twice on the same sites, the check is exact
(`C26_exact_partial`).
-/

namespace Props
open Model.OpStr Spec Proof.OpStr Proof.Lattice

/-- No two terms of the static list are the same after sorting. -/
def DistinctStatic (B : Basis) (static : OpList) : Prop := ∀ s, localList B static = some s → s.Nodup

/-- No two terms of the dynamic list, evaluated at the time of the check, are the same after sorting. -/
def DistinctDynamic {F : Type} (B : Basis) (app : F → ℂ → ℂ) (t : ℂ) (dynamic : List (List Char × List (ℂ × List Nat) × F)) : Prop :=
  ∀ d de, localDynamic B dynamic = some d → (d.map fun p => timesDrive p.1 (app p.2 t)).mapM B.sort = some de → de.Nodup

theorem letters_flatten {G : Char → Prop} {l : OpList} (h : ∀ e ∈ l, ∀ c ∈ e.1, G c) : ∀ op ∈ flatten l, ∀ c ∈ op.str, G c := by
  intro op hop
  obtain ⟨e, he, hop⟩ := List.mem_flatMap.1 hop
  obtain ⟨bd, hbd, rfl⟩ := List.mem_map.1 hop
  exact h e he

theorem letters_flattenD {F : Type} {G : Char → Prop} {l : List (List Char × List (ℂ × List Nat) × F)} (h : ∀ e ∈ l, ∀ c ∈ e.1, G c) :
    ∀ p ∈ flattenD l, ∀ c ∈ p.1.str, G c := by
  intro p hp
  obtain ⟨e, he, hp⟩ := List.mem_flatMap.1 hp
  obtain ⟨bd, hbd, rfl⟩ := List.mem_map.1 hp
  exact h e he

/-- Spins and bosons: an accepted list without repeated terms is Hermitian (the dynamic list at the time of the check).
Missing: lists with repeated or split terms, other times, tensor bases (`C26_fails_repeated`, `C26_fails_split`, `C26_fails_times`, `C26_fails_tensor`). -/
theorem C26_sites_partial {F : Type} (b N : Nat) (u : Char → Nat → Nat → ℂ) (hu : AdjointPairs b u) (B : Basis)
    (hB : B = bosonBasis b ∨ ∃ p, B = spinBasis b p) (app : F → ℂ → ℂ) (t : ℂ) (static : OpList)
    (dynamic : List (List Char × List (ℂ × List Nat) × F)) (hs : ∀ e ∈ static, '%' ∉ e.1) (hd : ∀ e ∈ dynamic, '%' ∉ e.1)
    (h1 : DistinctStatic B static) (h2 : DistinctDynamic B app t dynamic) (h : acceptsHerm B app t static dynamic) :
    (listOp (siteOp b N u) static).conjTranspose = listOp (siteOp b N u) static ∧
      (drivenOp (siteOp b N u) (fun f => app f t) dynamic).conjTranspose = drivenOp (siteOp b N u) (fun f => app f t) dynamic := by
  obtain ⟨s, sh, d, de, dh, k1, k2, k3, k4, k5, k6, k7⟩ := h
  have e1 : B.sort = sortSite := by rcases hB with rfl | ⟨p, rfl⟩ <;> rfl
  have e2 : B.hc = hcSite := by rcases hB with rfl | ⟨p, rfl⟩ <;> rfl
  have hsort : ∀ op : Op, (∀ c ∈ op.str, c ≠ '%') → ∀ r, B.sort op = some r → val (siteOp b N u) r = val (siteOp b N u) op ∧ ∀ c ∈ r.str, c ≠ '%' := by
    intro op hop r hr
    rw [e1] at hr
    refine ⟨sortSite_val (fun o q _ _ hij => siteOp_commute _ o q hij) hr, fun c hc => hop c ?_⟩
    obtain ⟨p1, p2, p3⟩ := sortSite_perm hr
    exact ((perm_parts p1 p2 p3).1.mem_iff).1 hc
  have hhc : ∀ op : Op, (∀ c ∈ op.str, c ≠ '%') → ∀ r, B.hc op = some r → val (siteOp b N u) r = star (val (siteOp b N u) op) := by
    intro op hop r hr
    rw [e2] at hr
    exact hcSite_val (fun o q _ _ hij => siteOp_commute _ o q hij) (siteOp_adj hu) (fun h => hop _ h rfl) hr
  refine ⟨?_, ?_⟩
  · rw [← flatten_sum]
    exact herm_static (letters_flatten (G := fun c => c ≠ '%') fun e he c hc h => hs e he (h ▸ hc)) hsort hhc k1 (h1 s k1) k2 k6
  · rw [← flattenD_total]
    exact herm_dynamic (fun f => app f t) (val_timesDrive _) (letters_flattenD (G := fun c => c ≠ '%') fun e he c hc h => hd e he (h ▸ hc))
      (fun op y h => h) hsort hhc k3 k4 (h2 d de k3 k4) k5 k7

/-- The hypotheses hold for `i(+- - -+)`. -/
example : DistinctStatic (spinBasis 2 0) [(['+', '-'], [(Complex.I, [0, 1])]), (['-', '+'], [(-Complex.I, [0, 1])])] ∧
    acceptsHerm (F := Unit) (spinBasis 2 0) (fun _ _ => 1) 0 [(['+', '-'], [(Complex.I, [0, 1])]), (['-', '+'], [(-Complex.I, [0, 1])])] [] := by
  have h1 : localList (spinBasis 2 0) [(['+', '-'], [(Complex.I, [0, 1])]), (['-', '+'], [(-Complex.I, [0, 1])])] =
      some [⟨['+', '-'], [0, 1], Complex.I⟩, ⟨['-', '+'], [0, 1], -Complex.I⟩] := by
    simp [localList, flatten, spinBasis, sortSite, List.insertionSort]
  refine ⟨fun s hs => ?_, _, [⟨['-', '+'], [0, 1], -Complex.I⟩, ⟨['+', '-'], [0, 1], Complex.I⟩], [], [], [], h1, ?_, rfl, rfl, rfl, ?_, ?_⟩
  · rw [h1] at hs
    cases hs
    simp
  · simp [spinBasis, hcSite, reversed, hcChar, sortSite, List.insertionSort]
  · simp
  · simp

/-- Spins and bosons, for static lists with terms of one diagonal operator `D` (`z` or `n`) and `+`, `-` on distinct sites of the lattice,
non-zero couplings, and no string twice on the same sites (after sorting): the check accepts the list exactly if the operator is
Hermitian.
Missing: lists with repeated or split terms, other times, tensor bases (`C26_fails_repeated`, `C26_fails_split`, `C26_fails_times`, `C26_fails_tensor`). -/
theorem C26_exact_partial {F : Type} (b N : Nat) (hb : 2 ≤ b) (u : Char → Nat → Nat → ℂ) (hu : AdjointPairs b u) (hl : Ladder u) (D : Char)
    (hD : D ≠ '+' ∧ D ≠ '-' ∧ D ≠ 'x' ∧ D ≠ 'y' ∧ D ≠ '%' ∧ D ≠ '|') (hD' : u D 1 1 ≠ u D 0 0) (hp : u '+' 1 0 ≠ 0) (hm : u '-' 0 1 ≠ 0)
    (B : Basis) (hB : B = bosonBasis b ∨ ∃ p, B = spinBasis b p) (app : F → ℂ → ℂ) (t : ℂ) (static : OpList)
    (hs : ∀ e ∈ static, (∀ c ∈ e.1, c = D ∨ c = '+' ∨ c = '-') ∧
      ∀ bd ∈ e.2, bd.1 ≠ 0 ∧ e.1.length = bd.2.length ∧ bd.2.Nodup ∧ ∀ i ∈ bd.2, i < N)
    (hk : ∀ s, localList B static = some s → (s.map fun o => (o.str, o.indx)).Nodup) :
    acceptsHerm B app t static [] ↔ (listOp (siteOp b N u) static).conjTranspose = listOp (siteOp b N u) static := by
  have e1 : B.sort = sortSite := by rcases hB with rfl | ⟨p, rfl⟩ <;> rfl
  have e2 : B.hc = hcSite := by rcases hB with rfl | ⟨p, rfl⟩ <;> rfl
  constructor
  · intro h
    refine (C26_sites_partial b N u hu B hB app t static [] ?_ (by simp) ?_ ?_ h).1
    · intro e he hc
      rcases (hs e he).1 _ hc with h | h | h
      · exact hD.2.2.2.2.1 h.symm
      · exact absurd h (by decide)
      · exact absurd h (by decide)
    · exact fun s hs => List.Nodup.of_map _ (hk s hs)
    · intro d de h1 h2
      have : d = [] := (Option.some.inj h1).symm
      subst this
      have : de = [] := (Option.some.inj h2).symm
      subst this
      exact List.nodup_nil
  · intro hH
    have hflat : ∀ op ∈ flatten static, (∀ c ∈ op.str, c = D ∨ c = '+' ∨ c = '-') ∧ op.J ≠ 0 ∧ op.str.length = op.indx.length ∧ op.indx.Nodup ∧
        ∀ i ∈ op.indx, i < N := by
      intro op hop
      obtain ⟨e, he, hop⟩ := List.mem_flatMap.1 hop
      obtain ⟨bd, hbd, rfl⟩ := List.mem_map.1 hop
      exact ⟨(hs e he).1, (hs e he).2 bd hbd⟩
    have hbar : ∀ op ∈ flatten static, '|' ∉ op.str := by
      intro op hop hc
      rcases (hflat op hop).1 _ hc with h | h | h
      · exact hD.2.2.2.2.2 h.symm
      · exact absurd h (by decide)
      · exact absurd h (by decide)
    obtain ⟨s, hs1⟩ : ∃ s, localList B static = some s := by
      refine mapM_exists fun op hop => ?_
      rw [e1, ← Option.ne_none_iff_exists', Ne, sortSite_none]
      push Not
      exact ⟨hbar op hop, (hflat op hop).2.2.1⟩
    have hf := mapM_forall₂ hs1
    have hcan : ∀ o ∈ s, Canon N D o ∧ o.J ≠ 0 := by
      intro o ho
      obtain ⟨a, ha, hab⟩ := forall₂_mem hf ho
      rw [e1] at hab
      obtain ⟨a1, a2, a3, a4, a5⟩ := hflat a ha
      refine ⟨canon_sort hab a4 a5 a1, ?_⟩
      obtain ⟨-, -, rfl⟩ := sortSite_some hab
      exact a2
    have hDD : D ≠ '%' ∧ D ≠ '|' := hD.2.2.2.2
    obtain ⟨sh, hsh⟩ : ∃ sh, s.mapM B.hc = some sh := by
      refine mapM_exists fun o ho => ?_
      rw [e2]
      obtain ⟨r, hr, -⟩ := canon_hc hDD (hcan o ho).1
      exact ⟨r, hr⟩
    have hf2 : List.Forall₂ (fun a b => a ∈ s ∧ B.hc a = some b) s sh := by
      rw [List.forall₂_and_left]
      exact ⟨fun a ha => ha, mapM_forall₂ hsh⟩
    have hcanh : ∀ o ∈ sh, Canon N D o := by
      intro o ho
      obtain ⟨a, ha, hab⟩ := forall₂_mem hf2 ho
      obtain ⟨r, hr, hc, -⟩ := canon_hc hDD (hcan a ha).1
      rw [e2] at hab
      rw [hr] at hab
      rw [← Option.some.inj hab.2]
      exact hc
    have hnr : (sh.map fun o => (o.str, o.indx)).Nodup := by
      refine forall₂_nodup (f := fun o => (o.str, o.indx)) hf2 ?_ (hk s hs1)
      rintro a - a' - b b' ⟨ha, hb⟩ ⟨ha', hb'⟩ he
      rw [e2] at hb hb'
      obtain ⟨r, hr, hc, hp1⟩ := canon_hc hDD (hcan a ha).1
      obtain ⟨r', hr', hc', hp2⟩ := canon_hc hDD (hcan a' ha').1
      obtain rfl : r = b := Option.some.inj (hr.symm.trans hb)
      obtain rfl : r' = b' := Option.some.inj (hr'.symm.trans hb')
      have h1 := congrArg Prod.fst he
      have h2 := congrArg Prod.snd he
      simp only at h1 h2
      rw [h1, h2] at hp1
      have hp3 := (hp1.symm.trans hp2).map fun p : Char × Nat => (hcChar p.1, p.2)
      have hinv : ∀ o, Canon N D o → (((o.str.zip o.indx).map fun p : Char × Nat => (hcChar p.1, p.2)).map fun p : Char × Nat => (hcChar p.1, p.2)) =
          o.str.zip o.indx := by
        intro o ho
        rw [List.map_map]
        conv_rhs => rw [← List.map_id (o.str.zip o.indx)]
        refine List.map_congr_left fun p hp => ?_
        have : p.1 ≠ '%' := by
          rcases ho.chars _ (List.of_mem_zip hp).1 with h | h | h
          · rw [h]; exact hDD.1
          · rw [h]; decide
          · rw [h]; decide
        simp [hcChar_invol this]
      rw [hinv a (hcan a ha).1, hinv a' (hcan a' ha').1] at hp3
      have := canon_ext (hcan a ha).1 (hcan a' ha').1 hp3
      exact Prod.ext this.1 this.2
    have hsum1 : (s.map (val (siteOp b N u))).sum = listOp (siteOp b N u) static :=
      localList_sum (fun op _ r hr => by rw [e1] at hr; exact sortSite_val (fun o q _ _ hij => siteOp_commute _ o q hij) hr) hs1
    have hsum2 : (sh.map (val (siteOp b N u))).sum = (s.map fun o => star (val (siteOp b N u) o)).sum := by
      refine forall₂_sum (fun a b hab => ?_) hf2
      rw [e2] at hab
      refine hcSite_val (fun o q _ _ hij => siteOp_commute _ o q hij) (siteOp_adj hu) (fun h => ?_) hab.2
      rcases (hcan a hab.1).1.chars _ h with h | h | h
      · exact hDD.1 h.symm
      · exact absurd h (by decide)
      · exact absurd h (by decide)
    have hsum3 : (s.map fun o => star (val (siteOp b N u) o)).sum = star ((s.map (val (siteOp b N u))).sum) := by
      clear hsum1 hsum2 hnr hcanh hf2 hsh hcan hf hs1
      induction s with
      | nil => simp
      | cons a s ih => simp [star_add, ih]
    have heq : (s.map (val (siteOp b N u))).sum = (sh.map (val (siteOp b N u))).sum := by
      rw [hsum2, hsum3, hsum1]
      exact hH.symm
    obtain ⟨d, hd⟩ := dual_exists hb hl D ⟨hD.1, hD.2.1, hD.2.2.1, hD.2.2.2.1⟩ hD' hp hm
    exact ⟨s, sh, [], [], [], hs1, hsh, rfl, rfl, rfl,
      fun x hx => canon_terms hd (fun o ho => (hcan o ho).1) hcanh (hk s hs1) hnr heq x hx (hcan x hx).2, by simp⟩

/-- The families meet the conditions: spins 1/2 and higher spins with `z`, bosons with `n`. -/
example : (pauliMatrix 0 'z' 1 1 ≠ pauliMatrix 0 'z' 0 0 ∧ pauliMatrix 0 '+' 1 0 ≠ 0 ∧ pauliMatrix 0 '-' 0 1 ≠ 0) ∧
    (spin 3 'z' 1 1 ≠ spin 3 'z' 0 0 ∧ spin 3 '+' 1 0 ≠ 0 ∧ spin 3 '-' 0 1 ≠ 0) ∧
    boson 4 'n' 1 1 ≠ boson 4 'n' 0 0 ∧ boson 4 '+' 1 0 ≠ 0 ∧ boson 4 '-' 0 1 ≠ 0 := by
  refine ⟨⟨?_, ?_, ?_⟩, ⟨?_, ?_, ?_⟩, ?_, ?_, ?_⟩
  · simp [pauliMatrix, spinHalf]; norm_num
  · simp [pauliMatrix, spinHalf]
  · simp [pauliMatrix, spinHalf]
  · simp [spin]
  · simp [spin]; norm_num
  · simp [spin]; norm_num
  · simp [boson]
  · simp [boson]
  · simp [boson]

/-- Spinless fermions.
Missing: lists with repeated or split terms, other times, tensor bases (`C26_fails_repeated`, `C26_fails_split`, `C26_fails_times`, `C26_fails_tensor`). -/
theorem C26_fermion_partial {F : Type} (N : Nat) (app : F → ℂ → ℂ) (t : ℂ) (static : OpList)
    (dynamic : List (List Char × List (ℂ × List Nat) × F)) (hs : ∀ e ∈ static, ∀ c ∈ e.1, c ≠ '%' ∧ c ≠ 'x' ∧ c ≠ 'y')
    (hd : ∀ e ∈ dynamic, ∀ c ∈ e.1, c ≠ '%' ∧ c ≠ 'x' ∧ c ≠ 'y')
    (h1 : DistinctStatic fermionBasis static) (h2 : DistinctDynamic fermionBasis app t dynamic) (h : acceptsHerm fermionBasis app t static dynamic) :
    (listOp (fermionOp N) static).conjTranspose = listOp (fermionOp N) static ∧
      (drivenOp (fermionOp N) (fun f => app f t) dynamic).conjTranspose = drivenOp (fermionOp N) (fun f => app f t) dynamic := by
  obtain ⟨s, sh, d, de, dh, k1, k2, k3, k4, k5, k6, k7⟩ := h
  have hsort : ∀ op : Op, (∀ c ∈ op.str, c ≠ '%' ∧ c ≠ 'x' ∧ c ≠ 'y') → ∀ r, fermionBasis.sort op = some r →
      val (fermionOp N) r = val (fermionOp N) op ∧ ∀ c ∈ r.str, c ≠ '%' ∧ c ≠ 'x' ∧ c ≠ 'y' := by
    intro op hop r hr
    refine ⟨sortFermion_val fermionOp_exch (fun c hc => (hop c hc).2) hr, fun c hc => hop c ?_⟩
    obtain ⟨p1, p2, p3⟩ := sortFermion_perm' hr
    exact ((perm_parts p1 p2 p3).1.mem_iff).1 hc
  have hhc : ∀ op : Op, (∀ c ∈ op.str, c ≠ '%' ∧ c ≠ 'x' ∧ c ≠ 'y') → ∀ r, fermionBasis.hc op = some r →
      val (fermionOp N) r = star (val (fermionOp N) op) := fun op hop r hr => (C25_hc_fermion N op hop r hr).1
  refine ⟨?_, ?_⟩
  · rw [← flatten_sum]
    exact herm_static (letters_flatten hs) hsort hhc k1 (h1 s k1) k2 k6
  · rw [← flattenD_total]
    exact herm_dynamic (fun f => app f t) (val_timesDrive _) (letters_flattenD hd) (fun op y h => h) hsort hhc k3 k4 (h2 d de k3 k4) k5 k7

/-- The hypotheses hold for the hopping on two sites. -/
example : DistinctStatic fermionBasis [(['+', '-'], [(1, [0, 1]), (1, [1, 0])])] ∧
    acceptsHerm (F := Unit) fermionBasis (fun _ _ => 1) 0 [(['+', '-'], [(1, [0, 1]), (1, [1, 0])])] [] := by
  have h1 : localList fermionBasis [(['+', '-'], [(1, [0, 1]), (1, [1, 0])])] = some [⟨['+', '-'], [0, 1], 1⟩, ⟨['-', '+'], [0, 1], -1⟩] := by
    simp [localList, flatten, fermionBasis, sortFermion, bubble, sweep, ladder]
  refine ⟨fun s hs => ?_, _, [⟨['-', '+'], [0, 1], -1⟩, ⟨['+', '-'], [0, 1], 1⟩], [], [], [], h1, ?_, rfl, rfl, rfl, ?_, ?_⟩
  · rw [h1] at hs
    cases hs
    simp
  · simp [fermionBasis, hcFermion, reversed, hcChar, sortFermion, bubble, sweep, ladder]
  · simp
  · simp

/-- A list of strings `up|down` as it is passed to the basis. -/
def rendered (l : List ((List Char × List Char) × List (ℂ × List Nat × List Nat))) : OpList :=
  l.map fun e => (e.1.1 ++ '|' :: e.1.2, e.2.map fun b => (b.1, b.2.1 ++ b.2.2))

theorem rendered_sum {A : Type} [Ring A] [Algebra ℂ A] (w : Char → Nat → A) (L : Nat) (l : List ((List Char × List Char) × List (ℂ × List Nat × List Nat)))
    (h : ∀ e ∈ l, '|' ∉ e.1.1 ∧ ∀ b ∈ e.2, e.1.1.length = b.2.1.length) :
    ((flatten (rendered l)).map (valSpinful w L)).sum = spinfulListOp w L l := by
  induction l with
  | nil => rfl
  | cons e l ih =>
    have := ih (fun e he => h e (by simp [he]))
    simp only [flatten, rendered, spinfulListOp, List.map_cons, List.flatMap_cons, List.map_append, List.sum_append, List.sum_cons] at this ⊢
    rw [this, List.map_map, List.map_map]
    congr 2
    refine List.map_congr_left fun b hb => ?_
    have := valSpinful_join w L ⟨e.1.1, b.2.1, b.1⟩ ⟨e.1.2, b.2.2, b.1⟩ b.1 (h e (by simp)).1 ((h e (by simp)).2 b hb)
    exact this

/-- Spinful fermions (static lists), `L` sites of each spin.
Missing: lists with repeated or split terms, other times, tensor bases (`C26_fails_repeated`, `C26_fails_split`, `C26_fails_times`, `C26_fails_tensor`). -/
theorem C26_spinful_partial {F : Type} (N L : Nat) (app : F → ℂ → ℂ) (t : ℂ) (l : List ((List Char × List Char) × List (ℂ × List Nat × List Nat)))
    (hl : ∀ e ∈ l, '|' ∉ e.1.1 ∧ (∀ c ∈ e.1.1 ++ e.1.2, c ≠ '%' ∧ c ≠ 'x' ∧ c ≠ 'y') ∧
      ∀ b ∈ e.2, e.1.1.length = b.2.1.length ∧ ∀ i ∈ b.2.1, i < L)
    (h1 : DistinctStatic spinfulBasis (rendered l)) (h : acceptsHerm spinfulBasis app t (rendered l) []) :
    (spinfulListOp (fermionOp N) L l).conjTranspose = spinfulListOp (fermionOp N) L l := by
  obtain ⟨s, sh, d, de, dh, k1, k2, -, -, -, k6, -⟩ := h
  rw [← rendered_sum _ _ _ (fun e he => ⟨(hl e he).1, fun b hb => ((hl e he).2.2 b hb).1⟩)]
  refine herm_static (P := fun op => (∀ c ∈ op.str, c ≠ '%' ∧ c ≠ 'x' ∧ c ≠ 'y') ∧ ∀ i ∈ op.indx.take (splitBar op.str).1.length, i < L)
    ?_ ?_ ?_ k1 (h1 s k1) k2 k6
  · intro op hop
    obtain ⟨e', he', hop⟩ := List.mem_flatMap.1 hop
    obtain ⟨e, he, rfl⟩ := List.mem_map.1 he'
    obtain ⟨b', hb', rfl⟩ := List.mem_map.1 hop
    obtain ⟨b, hb, rfl⟩ := List.mem_map.1 hb'
    obtain ⟨j1, j2, j3⟩ := hl e he
    refine ⟨fun c hc => ?_, ?_⟩
    · simp only [List.mem_append, List.mem_cons] at hc
      rcases hc with hc | rfl | hc
      · exact j2 c (by simp [hc])
      · exact ⟨by decide, by decide, by decide⟩
      · exact j2 c (by simp [hc])
    · simp only [splitBar_join _ _ j1, (j3 b hb).1, List.take_left']
      exact (j3 b hb).2
  · rintro op ⟨hc, hi⟩ r hr
    refine ⟨sortSpinful_val fermionOp_exch L (fun c h => (hc c h).2) hr, ?_⟩
    obtain ⟨-, a, b, ha, hb, rfl⟩ := sortSpinful_some hr
    obtain ⟨a1, a2, a3⟩ := sortFermion_perm' ha
    obtain ⟨b1, b2, b3⟩ := sortFermion_perm' hb
    have hm := splitBar_mem op.str
    refine ⟨fun c h => ?_, ?_⟩
    · simp only [join, List.mem_append, List.mem_cons] at h
      rcases h with h | rfl | h
      · exact hc c (hm.1 c (((perm_parts a1 a2 a3).1.mem_iff).1 h))
      · exact ⟨by decide, by decide, by decide⟩
      · exact hc c (hm.2 c (((perm_parts b1 b2 b3).1.mem_iff).1 h))
    · simp only [join, splitBar_join _ _ (sortFermion_nobar ha), a2, List.take_left']
      intro i h
      exact hi i (((perm_parts a1 a2 a3).2.mem_iff).1 h)
  · rintro op ⟨hc, hi⟩ r hr
    exact hcSpinful_val fermionOp_exch fermionOp_adj L (fun h => (hc _ h).1 rfl) (fun c h => hcChar_good (hc c h).1 (hc c h).2)
      (fun c h => (hc c h).2) hi hr

/-- The hypotheses hold for `+|-` and its conjugate. -/
example : DistinctStatic spinfulBasis (rendered [((['+'], ['-']), [(1, [0], [1])]), ((['-'], ['+']), [(-1, [0], [1])])]) ∧
    acceptsHerm (F := Unit) spinfulBasis (fun _ _ => 1) 0 (rendered [((['+'], ['-']), [(1, [0], [1])]), ((['-'], ['+']), [(-1, [0], [1])])]) [] := by
  have h1 : localList spinfulBasis (rendered [((['+'], ['-']), [(1, [0], [1])]), ((['-'], ['+']), [(-1, [0], [1])])]) =
      some [⟨['+', '|', '-'], [0, 1], 1⟩, ⟨['-', '|', '+'], [0, 1], -1⟩] := by
    simp [rendered, localList, flatten, spinfulBasis, sortSpinful, barred, splitBar, leftPart, rightPart, join, sortFermion, bubble, sweep]
  refine ⟨fun s hs => ?_, _, [⟨['-', '|', '+'], [0, 1], -1⟩, ⟨['+', '|', '-'], [0, 1], 1⟩], [], [], [], h1, ?_, rfl, rfl, rfl, ?_, ?_⟩
  · rw [h1] at hs
    cases hs
    simp
  · simp [spinfulBasis, hcSpinful, hcFermion, ladders, reversed, hcChar, barred, splitBar, leftPart, rightPart, join, sortFermion, bubble, sweep]
  · simp
  · simp

/-! ### Failures -/

/-- `+` twice and `-` once on the same site is accepted; it is not Hermitian. -/
theorem C26_fails_repeated : acceptsHerm (F := Unit) (spinBasis 2 0) (fun _ _ => 1) 0 [(['+'], [(1, [0]), (1, [0])]), (['-'], [(1, [0])])] [] ∧
    (listOp (siteOp 2 1 (pauliMatrix 0)) [(['+'], [(1, [0]), (1, [0])]), (['-'], [(1, [0])])]).conjTranspose ≠
      listOp (siteOp 2 1 (pauliMatrix 0)) [(['+'], [(1, [0]), (1, [0])]), (['-'], [(1, [0])])] := by
  refine ⟨⟨[⟨['+'], [0], 1⟩, ⟨['+'], [0], 1⟩, ⟨['-'], [0], 1⟩], [⟨['-'], [0], 1⟩, ⟨['-'], [0], 1⟩, ⟨['+'], [0], 1⟩], [], [], [], ?_, ?_, rfl, rfl, rfl, ?_, ?_⟩, ?_⟩
  · simp [localList, flatten, spinBasis, sortSite]
  · simp [spinBasis, hcSite, reversed, hcChar, sortSite]
  · simp
  · simp
  · intro h
    have := congrFun (congrFun h ![1]) ![0]
    simp [listOp, term, opWord, siteOp, onSite, pauliMatrix, spinHalf, Matrix.conjTranspose_apply] at this

/-- `+` with the coupling 1 twice and `-` with the coupling 2 is rejected; it is Hermitian. -/
theorem C26_fails_split : ¬acceptsHerm (F := Unit) (spinBasis 2 0) (fun _ _ => 1) 0 [(['+'], [(1, [0]), (1, [0])]), (['-'], [(2, [0])])] [] ∧
    (listOp (siteOp 2 1 (pauliMatrix 0)) [(['+'], [(1, [0]), (1, [0])]), (['-'], [(2, [0])])]).conjTranspose =
      listOp (siteOp 2 1 (pauliMatrix 0)) [(['+'], [(1, [0]), (1, [0])]), (['-'], [(2, [0])])] := by
  refine ⟨?_, ?_⟩
  · rintro ⟨s, sh, d, de, dh, k1, k2, -, -, -, k6, -⟩
    have h1 : localList (spinBasis 2 0) [(['+'], [(1, [0]), (1, [0])]), (['-'], [(2, [0])])] = some [⟨['+'], [0], 1⟩, ⟨['+'], [0], 1⟩, ⟨['-'], [0], 2⟩] := by
      simp [localList, flatten, spinBasis, sortSite]
    rw [h1] at k1
    cases k1
    have h2 : [(⟨['+'], [0], 1⟩ : Op), ⟨['+'], [0], 1⟩, ⟨['-'], [0], 2⟩].mapM (spinBasis 2 0).hc =
        some [⟨['-'], [0], 1⟩, ⟨['-'], [0], 1⟩, ⟨['+'], [0], 2⟩] := by
      simp [spinBasis, hcSite, reversed, hcChar, sortSite]
    rw [h2] at k2
    cases k2
    have := k6 ⟨['+'], [0], 1⟩ (by simp)
    simp at this
  · ext t s
    rcases (by omega : t 0 = 0 ∨ t 0 = 1) with ht | ht <;> rcases (by omega : s 0 = 0 ∨ s 0 = 1) with hs | hs <;>
      simp [listOp, term, opWord, siteOp, onSite, pauliMatrix, spinHalf, Matrix.conjTranspose_apply, ht, hs] <;> norm_num

/-- Whatever the time `t` of the check: there are drives with which the list is accepted and not Hermitian at another time. -/
theorem C26_fails_times (t : ℂ) : ∃ app : Bool → ℂ → ℂ,
    acceptsHerm (spinBasis 2 0) app t [] [(['+'], [(1, [0])], true), (['-'], [(1, [0])], false)] ∧
    ∃ t', (drivenOp (siteOp 2 1 (pauliMatrix 0)) (fun f => app f t') [(['+'], [(1, [0])], true), (['-'], [(1, [0])], false)]).conjTranspose ≠
      drivenOp (siteOp 2 1 (pauliMatrix 0)) (fun f => app f t') [(['+'], [(1, [0])], true), (['-'], [(1, [0])], false)] := by
  refine ⟨fun f x => if f then 1 else 1 + (x - t), ⟨[], [], [(⟨['+'], [0], 1⟩, true), (⟨['-'], [0], 1⟩, false)], [⟨['+'], [0], 1⟩, ⟨['-'], [0], 1⟩],
    [⟨['-'], [0], 1⟩, ⟨['+'], [0], 1⟩], rfl, rfl, ?_, ?_, ?_, ?_, ?_⟩, t + 1, ?_⟩
  · simp [localDynamic, spinBasis, sortSite]
  · simp [timesDrive, spinBasis, sortSite]
  · simp [timesDrive, spinBasis, hcSite, reversed, hcChar, sortSite]
  · simp
  · simp
  · intro h
    have := congrFun (congrFun h ![1]) ![0]
    simp [drivenOp, term, opWord, siteOp, onSite, pauliMatrix, spinHalf, Matrix.conjTranspose_apply] at this

open scoped Kronecker in
/-- In a tensor basis the hopping of fermions is rejected; it is Hermitian. -/
theorem C26_fails_tensor :
    ¬acceptsHerm (F := Unit) (tensorBasis fermionBasis (bosonBasis 2)) (fun _ _ => 1) 0 [(['+', '-', '|'], [(1, [0, 1]), (1, [1, 0])])] [] ∧
    (listOp (fermionOp 2) [(['+', '-'], [(1, [0, 1]), (1, [1, 0])])] ⊗ₖ (1 : Matrix (Conf 2 1) (Conf 2 1) ℂ)).conjTranspose =
      listOp (fermionOp 2) [(['+', '-'], [(1, [0, 1]), (1, [1, 0])])] ⊗ₖ (1 : Matrix (Conf 2 1) (Conf 2 1) ℂ) := by
  refine ⟨?_, ?_⟩
  · rintro ⟨s, sh, d, de, dh, k1, k2, -, -, -, k6, -⟩
    have h1 : localList (tensorBasis fermionBasis (bosonBasis 2)) [(['+', '-', '|'], [(1, [0, 1]), (1, [1, 0])])] =
        some [⟨['+', '-', '|'], [0, 1], 1⟩, ⟨['-', '+', '|'], [0, 1], 1⟩] := by
      simp [localList, flatten, tensorBasis, barred, splitBar, leftPart, rightPart, join, fermionBasis, bosonBasis, sortFermion, sortSite, bubble, sweep, ladder]
    rw [h1] at k1
    cases k1
    have h2 : [(⟨['+', '-', '|'], [0, 1], 1⟩ : Op), ⟨['-', '+', '|'], [0, 1], 1⟩].mapM (tensorBasis fermionBasis (bosonBasis 2)).hc =
        some [⟨['-', '+', '|'], [0, 1], -1⟩, ⟨['+', '-', '|'], [0, 1], -1⟩] := by
      simp [tensorBasis, barred, splitBar, leftPart, rightPart, join, fermionBasis, bosonBasis, hcFermion, hcSite, reversed, hcChar, sortFermion, sortSite,
        bubble, sweep, ladder]
    rw [h2] at k2
    cases k2
    have := k6 ⟨['+', '-', '|'], [0, 1], 1⟩ (by simp)
    simp at this
    norm_num at this
  · rw [Matrix.conjTranspose_kronecker, Matrix.conjTranspose_one]
    congr 1
    simp only [listOp, term, opWord, List.zip_cons_cons, List.zip_nil_right, List.map_cons, List.map_nil, List.prod_cons, List.prod_nil, mul_one, one_smul,
      List.sum_cons, List.sum_nil, add_zero, Matrix.conjTranspose_add, Matrix.conjTranspose_mul]
    rw [(fermionOp_star (N := 2) 0).1, (fermionOp_star (N := 2) 0).2.1, (fermionOp_star (N := 2) 1).1, (fermionOp_star (N := 2) 1).2.1, add_comm]

end Props
