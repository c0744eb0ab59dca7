import Verif.Proof.CheckSymmExact
import Verif.Props.C26
import Verif.Props.C45
import Verif.Spec.Maps

/-!
C78  The symmetry check accepts only operator lists that have the symmetries of the basis.

`acceptsChain B L key static dynamic`, `acceptsSpinful`, `acceptsMaps`: `check_symm` of the chains, of the chain of spinful fermions and
of the general lattices raises nothing.  `Spec.moveSites b N σ flip` moves the level of site `i` to site `σ i` and inverts it if `flip i`;
`Spec.permuteFermions σ` moves fermions.

What holds: an accepted list without repeated terms (after sorting) commutes with every symmetry of the basis, at all values of the
drives (`C78_*_partial`); for terms of one diagonal operator and `+`, `-` on distinct sites the check of translations and reflections is
exact (`C78_exact_*_partial`).  What fails, in both directions, is collected at the end.
-/

namespace Props
open Model.OpStr Model.CheckSymm Spec Proof.OpStr Proof.Lattice Proof.CheckSymm

/-- The strings are made of the letters `S`, on sites `0..N-1`. -/
def Within (N : Nat) (S : Char → Prop) (l : OpList) : Prop := ∀ e ∈ l, (∀ c ∈ e.1, S c) ∧ ∀ bd ∈ e.2, ∀ i ∈ bd.2, i < N

/-- The same for dynamic lists. -/
def WithinD {F : Type} (N : Nat) (S : Char → Prop) (l : List (List Char × List (ℂ × List Nat) × F)) : Prop :=
  ∀ e ∈ l, (∀ c ∈ e.1, S c) ∧ ∀ bd ∈ e.2.1, ∀ i ∈ bd.2, i < N

/-- No two terms of the dynamic list are the same after sorting (string, sites, coupling and drive). -/
def DistinctDriven {F : Type} (B : Basis) (dynamic : List (List Char × List (ℂ × List Nat) × F)) : Prop :=
  ∀ d, localDynamic B dynamic = some d → d.Nodup

/-- `U` commutes with the operators of both lists, at all values `x f` of the drives `f`. -/
def HasSymmetry {F A : Type} [Ring A] [Module ℂ A] (U : A) (w : Char → Nat → A) (static : OpList)
    (dynamic : List (List Char × List (ℂ × List Nat) × F)) : Prop :=
  U * listOp w static = listOp w static * U ∧ ∀ x : F → ℂ, U * drivenOp w x dynamic = drivenOp w x dynamic * U

theorem within_flatten {N : Nat} {S : Char → Prop} {l : OpList} (h : Within N S l) : ∀ op ∈ flatten l, ∀ q ∈ letters op, S q.1 ∧ q.2 < N := by
  intro op hop q hq
  obtain ⟨e, he, hop⟩ := List.mem_flatMap.1 hop
  obtain ⟨bd, hbd, rfl⟩ := List.mem_map.1 hop
  exact ⟨(h e he).1 _ (List.of_mem_zip hq).1, (h e he).2 bd hbd _ (List.of_mem_zip hq).2⟩

theorem within_flattenD {F : Type} {N : Nat} {S : Char → Prop} {l : List (List Char × List (ℂ × List Nat) × F)} (h : WithinD N S l) :
    ∀ p ∈ flattenD l, ∀ q ∈ letters p.1, S q.1 ∧ q.2 < N := by
  intro p hp q hq
  obtain ⟨e, he, hp⟩ := List.mem_flatMap.1 hp
  obtain ⟨bd, hbd, rfl⟩ := List.mem_map.1 hp
  exact ⟨(h e he).1 _ (List.of_mem_zip hq).1, (h e he).2 bd hbd _ (List.of_mem_zip hq).2⟩

/-- From the terms found by the check to the symmetry of the lists. -/
theorem symmetry_of_found {F A : Type} [Ring A] [Algebra ℂ A] {B : Basis} {N : Nat} {S : Char → Prop} {P : Char × Nat → Prop} {G : Char → Prop}
    {g : Char × Nat → Char × Nat} {ε : Char × Nat → ℂ} {w : Char → Nat → A} {U : A} {sgn : List (Char × Nat) → ℂ} (hg : Moves P g ε)
    (hs : Stable B.sort sgn) (hU : ∀ p, P p → U * w p.1 p.2 = ε p • (w (g p).1 (g p).2 * U)) (hG : ∀ p, P p → G p.1 ∧ G (g p).1)
    (hval : ∀ op r, (∀ c ∈ op.str, G c) → B.sort op = some r → val w r = val w op)
    (hSP : ∀ q : Char × Nat, S q.1 → q.2 < N → P q) {static : OpList} {dynamic : List (List Char × List (ℂ × List Nat) × F)}
    (w1 : Within N S static) (w2 : WithinD N S dynamic) (n1 : DistinctStatic B static) (n2 : DistinctDriven B dynamic)
    {s : List Op} {d : List (Op × F)} (h1 : localList B static = some s) (h2 : localDynamic B dynamic = some d)
    (f1 : Tidy (fun q => S q.1 ∧ q.2 < N) (s.map fun o => (o, ())) → Found B.sort g ε (s.map fun o => (o, ())))
    (f2 : Tidy (fun q => S q.1 ∧ q.2 < N) d → Found B.sort g ε d) : HasSymmetry U w static dynamic := by
  have t1 := tidy_static hs (within_flatten w1) h1
  have t2 := tidy_dynamic hs (within_flattenD w2) h2
  have t1' : Tidy P (s.map fun o => (o, ())) := ⟨fun p hp q hq => hSP q (t1.letters p hp q hq).1 (t1.letters p hp q hq).2, t1.len, t1.sorted⟩
  have t2' : Tidy P d := ⟨fun p hp q hq => hSP q (t2.letters p hp q hq).1 (t2.letters p hp q hq).2, t2.len, t2.sorted⟩
  have hv : ∀ op : Op, (∀ q ∈ letters op, S q.1 ∧ q.2 < N) → ∀ r, B.sort op = some r → val w r = val w op := by
    intro op hop r hr
    refine hval op r (fun c hc => ?_) hr
    have hl := (hs.len _ _ hr).1
    have : c ∈ (letters op).map Prod.fst := by rw [letters, List.map_fst_zip (by omega)]; exact hc
    obtain ⟨q, hq, rfl⟩ := List.mem_map.1 this
    exact (hG q (hSP q (hop q hq).1 (hop q hq).2)).1
  refine ⟨?_, fun x => ?_⟩
  · rw [← localList_sum (fun op hop r hr => hv op (within_flatten w1 op hop) r hr) h1]
    have := tidy_commutes hg hs hU (fun p hp => (hG p hp).2) hval ((n1 s h1).map fun a b h => (Prod.ext_iff.1 h).1) t1' (f1 t1) fun _ => 1
    simpa only [List.map_map, Function.comp_def, one_smul] using this
  · rw [← flattenD_total]
    rw [total, ← localDynamic_sum x (fun p hp r hr => hv p.1 (within_flattenD w2 p hp) r hr) h2]
    exact tidy_commutes hg hs hU (fun p hp => (hG p hp).2) hval (n2 d h2) t2' (f2 t2) x

theorem found_of_closed {X : Type} {sort : Op → Option Op} {g : Char × Nat → Char × Nat} {ε : Char × Nat → ℂ} {move : Op → Op} {l : List (Op × X)}
    (hm : ∀ p ∈ l, Moved g ε p.1 (move p.1)) (h : closed sort move l) : Found sort g ε l := by
  intro p hp
  obtain ⟨r, h1, h2⟩ := h p hp
  exact ⟨_, r, hm p hp, h1, h2⟩

theorem nobar_of_found {l : List Char} (h : ∀ c ∈ l, SpinLetter c) : '|' ∉ l := by
  intro hb
  rcases h _ hb with h | h | h | h | h | h <;> exact absurd h (by decide)

/-- The index of the translation that moves by one unit cell. -/
theorem shift_index {L a j : Nat} (h : 0 < a) (hd : a ∣ L) (hj : j < L) : 1 % (L / a) < L / a ∧ (j + 1 % (L / a) * a) % L = (j + a) % L := by
  obtain ⟨n, rfl⟩ := hd
  rw [Nat.mul_div_cancel_left _ h]
  have hn : 0 < n := by
    rcases Nat.eq_zero_or_pos n with rfl | h
    · simp at hj
    · exact h
  refine ⟨Nat.mod_lt _ hn, ?_⟩
  by_cases h1 : n = 1
  · subst h1; simp
  · rw [Nat.mod_eq_of_lt (by omega : 1 < n), one_mul]

theorem found_T {X : Type} {S : Char → Prop} {sort : Op → Option Op} {L a : Nat} (hL : 0 < L) (ha : 0 < a ∧ a ∣ L) {σ : Equiv.Perm (Fin L)}
    (hσ : ∀ i, (σ i : Nat) = (i + a) % L) {l : List (Op × X)} (t : Tidy (fun q => S q.1 ∧ q.2 < L) l) (h : checkT sort L a l) :
    Found sort (moveLetter σ fun _ => false) (letterSign (N := L) fun _ => false) l := by
  refine found_of_closed (fun p hp => moved_T σ (fun j => ?_) p.1 fun q hq => (t.letters p hp q hq).2) (h _ (shift_index ha.1 ha.2 hL).1)
  rw [hσ, (shift_index ha.1 ha.2 j.2).2]

theorem found_P {X : Type} {S : Char → Prop} {sort : Op → Option Op} {L : Nat} {l : List (Op × X)} (t : Tidy (fun q => S q.1 ∧ q.2 < L) l)
    (h : checkP sort L l) : Found sort (moveLetter (Fin.revPerm (n := L)) fun _ => false) (letterSign (N := L) fun _ => false) l :=
  found_of_closed (fun p hp => moved_P p.1 fun q hq => (t.letters p hp q hq).2) h

theorem str_letters {op : Op} {S : Char → Prop} {N : Nat} (hl : op.str.length = op.indx.length) (h : ∀ q ∈ letters op, S q.1 ∧ q.2 < N) : ∀ c ∈ op.str, S c := by
  intro c hc
  have : c ∈ (letters op).map Prod.fst := by rw [letters, List.map_fst_zip (by omega)]; exact hc
  obtain ⟨q, hq, rfl⟩ := List.mem_map.1 this
  exact (h q hq).1

theorem found_Z {X : Type} {sort : Op → Option Op} {L : Nat} {l : List (Op × X)} (t : Tidy (fun q => SpinLetter q.1 ∧ q.2 < L) l)
    (h : checkZ sort l) : Found sort (moveLetter (Equiv.refl (Fin L)) fun _ => true) (letterSign (N := L) fun _ => true) l :=
  found_of_closed (fun p hp => moved_Z p.1 (t.len p hp) (nobar_of_found (str_letters (t.len p hp) (t.letters p hp)))
    (fun q hq => (t.letters p hp q hq).2) (h.1 p hp)) h.2

theorem found_PZ {X : Type} {sort : Op → Option Op} {L : Nat} {l : List (Op × X)} (t : Tidy (fun q => SpinLetter q.1 ∧ q.2 < L) l)
    (h : checkPZ sort L l) : Found sort (moveLetter (Fin.revPerm (n := L)) fun _ => true) (letterSign (N := L) fun _ => true) l :=
  found_of_closed (fun p hp => moved_PZ p.1 (t.len p hp) (nobar_of_found (str_letters (t.len p hp) (t.letters p hp)))
    (fun q hq => (t.letters p hp q hq).2)) h

theorem found_sub {X : Type} {sort : Op → Option Op} {L lat : Nat} {l : List (Op × X)} (t : Tidy (fun q => SpinLetter q.1 ∧ q.2 < L) l)
    (h : checkSub sort lat l) : Found sort (moveLetter (Equiv.refl (Fin L)) (sublattice L lat)) (letterSign (sublattice L lat)) l :=
  found_of_closed (fun p hp => moved_sub p.1 (t.len p hp) (nobar_of_found (str_letters (t.len p hp) (t.letters p hp)))
    (fun q hq => ⟨(t.letters p hp q hq).2, fun hc => by
      rcases (t.letters p hp q hq).1 with h | h | h | h | h | h <;> rw [hc] at h <;> exact absurd h (by decide)⟩) (h.1 p hp)) h.2

/-- Translations and reflections of chains of spins and bosons, for any matrices on the sites: an accepted list without repeated terms has
the symmetries.
Missing: lists with repeated or split terms and the letters and chains of `C78_fails_current`, `C78_fails_odd`, `C78_fails_number`, `C78_fails_spin_exchange`. -/
theorem C78_chain_partial {F : Type} (b L : Nat) (hL : 0 < L) (u : Char → Nat → Nat → ℂ) (B : Basis) (hB : B = bosonBasis b ∨ ∃ p, B = spinBasis b p)
    (key : Keys) (ha : 0 < key.a ∧ key.a ∣ L) (static : OpList) (dynamic : List (List Char × List (ℂ × List Nat) × F))
    (w1 : Within L (fun _ => True) static) (w2 : WithinD L (fun _ => True) dynamic) (n1 : DistinctStatic B static) (n2 : DistinctDriven B dynamic)
    (h : acceptsChain B L key static dynamic) :
    (key.k = true → ∀ σ : Equiv.Perm (Fin L), (∀ i, (σ i : Nat) = (i + key.a) % L) →
      HasSymmetry (moveSites b L σ fun _ => false) (siteOp b L u) static dynamic) ∧
    (key.p = true → HasSymmetry (moveSites b L Fin.revPerm fun _ => false) (siteOp b L u) static dynamic) := by
  have e1 : B.sort = sortSite := by rcases hB with rfl | ⟨p, rfl⟩ <;> rfl
  obtain ⟨s, d, h1, h2, ⟨c1, c2, -⟩, ⟨d1, d2, -⟩⟩ := h
  have hs : Stable B.sort fun _ => 1 := by rw [e1]; exact stable_site
  have hval : ∀ op r : Op, (∀ c ∈ op.str, True) → B.sort op = some r → val (siteOp b L u) r = val (siteOp b L u) op := by
    intro op r _ hr
    rw [e1] at hr
    exact sortSite_val (fun o q _ _ hij => siteOp_commute _ o q hij) hr
  refine ⟨fun hk σ hσ => ?_, fun hp => ?_⟩
  · exact symmetry_of_found (G := fun _ => True) (moves_sites σ fun _ => false) hs (moveSites_siteOp σ (fun _ => false) (by simp))
      (fun _ _ => ⟨trivial, trivial⟩) hval (fun q _ hq => ⟨hq, by simp⟩) w1 w2 n1 n2 h1 h2 (fun t => found_T (S := fun _ => True) hL ha hσ t (c1 hk)) (fun t => found_T (S := fun _ => True) hL ha hσ t (d1 hk))
  · exact symmetry_of_found (G := fun _ => True) (moves_sites _ fun _ => false) hs (moveSites_siteOp _ (fun _ => false) (by simp))
      (fun _ _ => ⟨trivial, trivial⟩) hval (fun q _ hq => ⟨hq, by simp⟩) w1 w2 n1 n2 h1 h2
      (fun t => found_P (S := fun _ => True) t (c2 hp)) (fun t => found_P (S := fun _ => True) t (d2 hp))

/-- Spin inversion on all sites, on the even sites, on the odd sites, and with the reflection: an accepted list of spin operators without
repeated terms has the symmetries.
Missing: lists with repeated or split terms and the letters and chains of `C78_fails_current`, `C78_fails_odd`, `C78_fails_number`, `C78_fails_spin_exchange`. -/
theorem C78_inversion_partial {F : Type} (b L : Nat) (u : Char → Nat → Nat → ℂ) (hu : InvertsSpins b u) (pauli : Int) (key : Keys) (static : OpList)
    (dynamic : List (List Char × List (ℂ × List Nat) × F)) (w1 : Within L SpinLetter static) (w2 : WithinD L SpinLetter dynamic)
    (n1 : DistinctStatic (spinBasis b pauli) static) (n2 : DistinctDriven (spinBasis b pauli) dynamic)
    (h : acceptsChain (spinBasis b pauli) L key static dynamic) :
    (key.z = true → HasSymmetry (moveSites b L (Equiv.refl _) fun _ => true) (siteOp b L u) static dynamic) ∧
    (key.zA = true → HasSymmetry (moveSites b L (Equiv.refl _) fun i => decide ((i : Nat) % 2 = 0)) (siteOp b L u) static dynamic) ∧
    (key.zB = true → HasSymmetry (moveSites b L (Equiv.refl _) fun i => decide ((i : Nat) % 2 = 1)) (siteOp b L u) static dynamic) ∧
    (key.pz = true → HasSymmetry (moveSites b L Fin.revPerm fun _ => true) (siteOp b L u) static dynamic) := by
  obtain ⟨s, d, h1, h2, ⟨-, -, c3, c4, c5, c6⟩, ⟨-, -, d3, d4, d5, d6⟩⟩ := h
  have hval : ∀ op r : Op, (∀ c ∈ op.str, True) → sortSite op = some r → val (siteOp b L u) r = val (siteOp b L u) op :=
    fun op r _ hr => sortSite_val (fun o q _ _ hij => siteOp_commute _ o q hij) hr
  refine ⟨fun hk => ?_, fun hk => ?_, fun hk => ?_, fun hk => ?_⟩
  · exact symmetry_of_found (B := spinBasis b pauli) (G := fun _ => True) (moves_sites _ fun _ => true) stable_site
      (moveSites_siteOp _ (fun _ => true) (fun _ => hu)) (fun _ _ => ⟨trivial, trivial⟩) hval (fun q hq hq' => ⟨hq', fun _ _ => hq⟩) w1 w2 n1 n2 h1 h2
      (fun t => found_Z t (c3 hk)) (fun t => found_Z t (d3 hk))
  · exact symmetry_of_found (B := spinBasis b pauli) (G := fun _ => True) (moves_sites _ (sublattice L 0)) stable_site
      (moveSites_siteOp _ (sublattice L 0) (fun _ => hu)) (fun _ _ => ⟨trivial, trivial⟩) hval (fun q hq hq' => ⟨hq', fun _ _ => hq⟩) w1 w2 n1 n2 h1 h2
      (fun t => found_sub t (c4 hk)) (fun t => found_sub t (d4 hk))
  · exact symmetry_of_found (B := spinBasis b pauli) (G := fun _ => True) (moves_sites _ (sublattice L 1)) stable_site
      (moveSites_siteOp _ (sublattice L 1) (fun _ => hu)) (fun _ _ => ⟨trivial, trivial⟩) hval (fun q hq hq' => ⟨hq', fun _ _ => hq⟩) w1 w2 n1 n2 h1 h2
      (fun t => found_sub t (c5 hk)) (fun t => found_sub t (d5 hk))
  · exact symmetry_of_found (B := spinBasis b pauli) (G := fun _ => True) (moves_sites _ fun _ => true) stable_site
      (moveSites_siteOp _ (fun _ => true) (fun _ => hu)) (fun _ _ => ⟨trivial, trivial⟩) hval (fun q hq hq' => ⟨hq', fun _ _ => hq⟩) w1 w2 n1 n2 h1 h2
      (fun t => found_PZ t (c6 hk)) (fun t => found_PZ t (d6 hk))

/-- The spin matrices of spins 1/2 in all conventions, and of higher spins, are inverted as required. -/
theorem C78_spin_matrices (pauli : Int) (b : Nat) : InvertsSpins 2 (pauliMatrix pauli) ∧ InvertsSpins b (spin b) := by
  refine ⟨?_, ?_⟩
  · intro a ha c hc
    interval_cases a <;> interval_cases c <;> by_cases hp : pauli = 0 <;> simp [pauliMatrix, spinHalf, hp] <;> ring_nf
  · intro a ha c hc
    have e : ((b - 1 - c : ℕ) : ℝ) = (b : ℝ) - 1 - c := by
      rw [Nat.cast_sub (by omega), Nat.cast_sub (by omega)]; simp
    have h0 : b - 1 - a = b - 1 - c ↔ a = c := by omega
    have h1 : b - 1 - a = b - 1 - c + 1 ↔ a + 1 = c := by omega
    refine ⟨?_, ?_, ?_, ?_, ?_⟩
    · simp only [spin, h1, e]
      refine if_congr Iff.rfl ?_ rfl
      congr 2
      ring
    · simp only [spin, h0, e]
      by_cases h : a = c
      · rw [if_pos h, if_pos h]; push_cast; ring
      · rw [if_neg h, if_neg h]; simp
    · simp [spin]
    · simp [spin]
    · simp only [spin, h0]

/-- The letters of fermions. -/
def FermionLetter (c : Char) : Prop := c ∈ ['+', '-', 'n', 'z', 'I']

theorem permute_op {N : Nat} (σ : Equiv.Perm (Fin N)) (p : Char × Nat) (hp : FermionLetter p.1 ∧ p.2 < N) :
    permuteFermions σ * fermionOp N p.1 p.2 = letterSign (N := N) (fun _ => false) p •
      (fermionOp N (moveLetter σ (fun _ => false) p).1 (moveLetter σ (fun _ => false) p).2 * permuteFermions σ) := by
  obtain ⟨c, i⟩ := p
  obtain ⟨hc, hi⟩ := hp
  simp only at hc hi
  simp only [fermionOp, moveLetter, letterSign, dif_pos hi, Fin.is_lt, dite_true]
  rw [C45_intertwines σ c hc]
  simp

/-- The chain of spinless fermions: an accepted list without repeated terms has the symmetries.
Missing: lists with repeated or split terms and the letters and chains of `C78_fails_current`, `C78_fails_odd`, `C78_fails_number`, `C78_fails_spin_exchange`. -/
theorem C78_fermions_partial {F : Type} (L : Nat) (hL : 0 < L) (key : Keys) (ha : 0 < key.a ∧ key.a ∣ L) (static : OpList)
    (dynamic : List (List Char × List (ℂ × List Nat) × F)) (w1 : Within L FermionLetter static) (w2 : WithinD L FermionLetter dynamic)
    (n1 : DistinctStatic fermionBasis static) (n2 : DistinctDriven fermionBasis dynamic) (h : acceptsChain fermionBasis L key static dynamic) :
    (key.k = true → ∀ σ : Equiv.Perm (Fin L), (∀ i, (σ i : Nat) = (i + key.a) % L) → HasSymmetry (permuteFermions σ) (fermionOp L) static dynamic) ∧
    (key.p = true → HasSymmetry (permuteFermions Fin.revPerm) (fermionOp L) static dynamic) := by
  obtain ⟨s, d, h1, h2, ⟨c1, c2, -⟩, ⟨d1, d2, -⟩⟩ := h
  have hval : ∀ op r : Op, (∀ c ∈ op.str, FermionLetter c) → sortFermion op = some r → val (fermionOp L) r = val (fermionOp L) op := by
    intro op r hop hr
    refine sortFermion_val fermionOp_exch (fun c hc => ?_) hr
    have := hop c hc
    constructor <;> rintro rfl <;> revert this <;> unfold FermionLetter <;> decide
  have hm : ∀ σ : Equiv.Perm (Fin L), Moves (fun p : Char × Nat => FermionLetter p.1 ∧ p.2 < L) (moveLetter σ fun _ => false) (letterSign (N := L) fun _ => false) := by
    intro σ
    have := moves_sites σ fun _ => false
    exact ⟨fun p q hp hq => this.inj p q ⟨hp.2, by simp⟩ ⟨hq.2, by simp⟩, fun p q hp hq => this.site p q ⟨hp.2, by simp⟩ ⟨hq.2, by simp⟩,
      fun p hp => this.ne p ⟨hp.2, by simp⟩⟩
  have hG : ∀ (σ : Equiv.Perm (Fin L)) (p : Char × Nat), FermionLetter p.1 ∧ p.2 < L →
      FermionLetter p.1 ∧ FermionLetter (moveLetter σ (fun _ => false) p).1 := by
    intro σ p hp
    refine ⟨hp.1, ?_⟩
    simp only [moveLetter, dif_pos hp.2]
    exact hp.1
  refine ⟨fun hk σ hσ => ?_, fun hp => ?_⟩
  · exact symmetry_of_found (B := fermionBasis) (hm σ) stable_fermion (permute_op σ) (hG σ) hval (fun q hq hq' => ⟨hq, hq'⟩) w1 w2 n1 n2 h1 h2
      (fun t => found_T hL ha hσ t (c1 hk)) (fun t => found_T hL ha hσ t (d1 hk))
  · exact symmetry_of_found (B := fermionBasis) (hm _) stable_fermion (permute_op _) (hG _) hval (fun q hq hq' => ⟨hq, hq'⟩) w1 w2 n1 n2 h1 h2
      (fun t => found_P t (c2 hp)) (fun t => found_P t (d2 hp))

theorem isMap_of {N : Nat} {map : List Int} {σ : Equiv.Perm (Fin N)} (hl : map.length = N) (hσ : ∀ i : Fin N, (σ i : Nat) = dest map i) :
    IsMap map σ fun i => inverts map i := by
  refine ⟨fun i => ⟨map[(i : Nat)]'(by rw [hl]; exact i.2), List.getElem?_eq_getElem _, ?_, ?_⟩⟩
  · simp [inverts, List.getD_eq_getElem?_getD, hl]
  · rw [hσ, dest, target]
    simp only [List.getD_eq_getElem?_getD, List.getElem?_eq_getElem (by rw [hl]; exact i.2 : (i : Nat) < map.length), Option.getD_some]
    split <;> rfl

/-- General lattices of spins and bosons: an accepted list without repeated terms has the symmetry of every map that inverts no site; and
of every map, for spin operators without `+` and `-`.
Missing: lists with repeated or split terms and the letters and chains of `C78_fails_current`, `C78_fails_odd`, `C78_fails_number`, `C78_fails_spin_exchange`. -/
theorem C78_maps_partial {F : Type} (b N : Nat) (u : Char → Nat → Nat → ℂ) (B : Basis) (hB : B = bosonBasis b ∨ ∃ p, B = spinBasis b p)
    (maps : List (List Int)) (static : OpList) (dynamic : List (List Char × List (ℂ × List Nat) × F))
    (n1 : DistinctStatic B static) (n2 : DistinctDriven B dynamic) (h : acceptsMaps B maps static dynamic) (map : List Int) (hm : map ∈ maps)
    (hlen : map.length = N) (σ : Equiv.Perm (Fin N)) (hσ : ∀ i : Fin N, (σ i : Nat) = dest map i)
    (hcase : ((∀ i < N, inverts map i = false) ∧ Within N (fun _ => True) static ∧ WithinD N (fun _ => True) dynamic) ∨
      InvertsSpins b u ∧ Within N (fun c => c = 'I' ∨ c = 'x' ∨ c = 'y' ∨ c = 'z') static ∧
        WithinD N (fun c => c = 'I' ∨ c = 'x' ∨ c = 'y' ∨ c = 'z') dynamic) :
    HasSymmetry (moveSites b N σ fun i => inverts map i) (siteOp b N u) static dynamic := by
  have e1 : B.sort = sortSite := by rcases hB with rfl | ⟨p, rfl⟩ <;> rfl
  obtain ⟨s, d, h1, h2, hc⟩ := h
  obtain ⟨c1, c2⟩ := hc map hm
  have hs : Stable B.sort fun _ => 1 := by rw [e1]; exact stable_site
  have hval : ∀ op r : Op, (∀ c ∈ op.str, True) → B.sort op = some r → val (siteOp b N u) r = val (siteOp b N u) op := by
    intro op r _ hr
    rw [e1] at hr
    exact sortSite_val (fun o q _ _ hij => siteOp_commute _ o q hij) hr
  have him := isMap_of hlen hσ
  rcases hcase with ⟨hf, w1, w2⟩ | ⟨hu, w1, w2⟩
  · have hff : ∀ i : Fin N, (fun i : Fin N => inverts map i) i = false := fun i => hf i i.2
    have hfound : ∀ {X : Type} (l : List (Op × X)), Tidy (fun q => True ∧ q.2 < N) l → checkMap B.sort map l →
        Found B.sort (moveLetter σ fun i => inverts map i) (letterSign fun i : Fin N => inverts map i) l := by
      intro X l t hl p hp
      obtain ⟨str, indx, J, r, k1, k2, k3⟩ := hl p hp
      exact ⟨_, r, moved_map him p.1 (t.len p hp) (fun q hq => (t.letters p hp q hq).2) (.inl hff) k1, k2, k3⟩
    refine symmetry_of_found (G := fun _ => True) (moves_sites σ fun i => inverts map i) hs (moveSites_siteOp σ _ (fun ⟨i, hi⟩ => ?_))
      (fun _ _ => ⟨trivial, trivial⟩) hval (fun q _ hq => ⟨hq, fun h hi => ?_⟩) w1 w2 n1 n2 h1 h2 (fun t => hfound _ t c1) (fun t => hfound _ t c2)
    · exact absurd (hi.symm.trans (hff i)) (by simp)
    · exact absurd (hi.symm.trans (hff ⟨q.2, h⟩)) (by simp)
  · have hfound : ∀ {X : Type} (l : List (Op × X)), Tidy (fun q => (q.1 = 'I' ∨ q.1 = 'x' ∨ q.1 = 'y' ∨ q.1 = 'z') ∧ q.2 < N) l → checkMap B.sort map l →
        Found B.sort (moveLetter σ fun i => inverts map i) (letterSign fun i : Fin N => inverts map i) l := by
      intro X l t hl p hp
      obtain ⟨str, indx, J, r, k1, k2, k3⟩ := hl p hp
      refine ⟨_, r, moved_map him p.1 (t.len p hp) (fun q hq => (t.letters p hp q hq).2) (.inr fun c hc => ?_) k1, k2, k3⟩
      have := str_letters (S := fun c => c = 'I' ∨ c = 'x' ∨ c = 'y' ∨ c = 'z') (t.len p hp) (t.letters p hp) c hc
      rcases this with rfl | rfl | rfl | rfl <;> decide
    refine symmetry_of_found (G := fun _ => True) (moves_sites σ fun i => inverts map i) hs (moveSites_siteOp σ _ fun _ => hu)
      (fun _ _ => ⟨trivial, trivial⟩) hval (fun q hq hq' => ⟨hq', fun _ _ => ?_⟩) w1 w2 n1 n2 h1 h2 (fun t => hfound _ t c1) (fun t => hfound _ t c2)
    rcases hq with h | h | h | h <;> simp [SpinLetter, h]

/-! ### Exactness -/

/-- Terms of one diagonal operator `D` (`z` or `n`) and `+`, `-` on distinct sites of the lattice, with non-zero couplings. -/
def PlainTerms (N : Nat) (D : Char) (static : OpList) : Prop :=
  ∀ e ∈ static, (∀ c ∈ e.1, c = D ∨ c = '+' ∨ c = '-') ∧ ∀ bd ∈ e.2, bd.1 ≠ 0 ∧ e.1.length = bd.2.length ∧ bd.2.Nodup ∧ ∀ i ∈ bd.2, i < N

/-- No string twice on the same sites, after sorting. -/
def DistinctStrings (B : Basis) (static : OpList) : Prop := ∀ s, localList B static = some s → (s.map fun o => (o.str, o.indx)).Nodup

theorem plain_sorted {N : Nat} {D : Char} (hD : D ≠ '|') {B : Basis} (hB : B.sort = sortSite) {static : OpList} (h : PlainTerms N D static) :
    ∃ s, localList B static = some s ∧ (∀ o ∈ s, Canon N D o ∧ o.J ≠ 0) ∧ (∀ o ∈ s, (letters o).Pairwise fun a b => a.2 ≤ b.2) ∧ ∀ o ∈ s, '|' ∉ o.str := by
  have hflat : ∀ op ∈ flatten static, (∀ c ∈ op.str, c = D ∨ c = '+' ∨ c = '-') ∧ op.J ≠ 0 ∧ op.str.length = op.indx.length ∧ op.indx.Nodup ∧
      ∀ i ∈ op.indx, i < N := by
    intro op hop
    obtain ⟨e, he, hop⟩ := List.mem_flatMap.1 hop
    obtain ⟨bd, hbd, rfl⟩ := List.mem_map.1 hop
    exact ⟨(h e he).1, (h e he).2 bd hbd⟩
  have hbar : ∀ s : List Char, (∀ c ∈ s, c = D ∨ c = '+' ∨ c = '-') → '|' ∉ s := by
    intro s hs hc
    rcases hs _ hc with h | h | h
    · exact hD h.symm
    · exact absurd h (by decide)
    · exact absurd h (by decide)
  obtain ⟨s, hs1⟩ : ∃ s, localList B static = some s := by
    refine mapM_exists fun op hop => ?_
    rw [hB]
    exact stable_site.total op (hflat op hop).2.2.1 (hbar _ (hflat op hop).1)
  have hc : ∀ o ∈ s, (Canon N D o ∧ o.J ≠ 0) ∧ (letters o).Pairwise fun a b => a.2 ≤ b.2 := by
    intro o ho
    obtain ⟨a, ha, hab⟩ := forall₂_mem (mapM_forall₂ hs1) ho
    rw [hB] at hab
    obtain ⟨a1, a2, a3, a4, a5⟩ := hflat a ha
    refine ⟨⟨canon_sort hab a4 a5 a1, ?_⟩, stable_site.sorted _ _ hab⟩
    rw [stable_site.coupling _ _ hab, mul_one]
    exact a2
  exact ⟨s, hs1, fun o ho => (hc o ho).1, fun o ho => (hc o ho).2, fun o ho => hbar _ (hc o ho).1.1.chars⟩

theorem plain_within {N : Nat} {D : Char} {S : Char → Prop} (hS : S D ∧ S '+' ∧ S '-') {static : OpList} (h : PlainTerms N D static) : Within N S static := by
  intro e he
  refine ⟨fun c hc => ?_, fun bd hbd => ((h e he).2 bd hbd).2.2.2⟩
  rcases (h e he).1 c hc with rfl | rfl | rfl
  · exact hS.1
  · exact hS.2.1
  · exact hS.2.2

/-- For such terms the check of translations, reflections, and reflections with spin inversion (spins only) accepts exactly the lists whose
operator has the symmetries.
Missing: lists with repeated or split terms and the letters and chains of `C78_fails_current`, `C78_fails_odd`, `C78_fails_number`, `C78_fails_spin_exchange`. -/
theorem C78_exact_chain_partial {F : Type} (b L : Nat) (hb : 2 ≤ b) (hL : 0 < L) (u : Char → Nat → Nat → ℂ) (hl : Ladder u) (D : Char)
    (hD : D ≠ '+' ∧ D ≠ '-' ∧ D ≠ 'x' ∧ D ≠ 'y' ∧ D ≠ '%' ∧ D ≠ '|') (hD' : u D 1 1 ≠ u D 0 0) (hp : u '+' 1 0 ≠ 0) (hm : u '-' 0 1 ≠ 0)
    (B : Basis) (hB : B = bosonBasis b ∨ ∃ p, B = spinBasis b p) (key : Keys) (ha : 0 < key.a ∧ key.a ∣ L)
    (hkey : key.z = false ∧ key.zA = false ∧ key.zB = false) (hpz : key.pz = true → InvertsSpins b u ∧ D = 'z') (static : OpList)
    (hs : PlainTerms L D static) (hk : DistinctStrings B static) :
    acceptsChain (F := F) B L key static [] ↔
      (key.k = true → ∀ σ : Equiv.Perm (Fin L), (∀ i, (σ i : Nat) = (i + key.a) % L) →
        moveSites b L σ (fun _ => false) * listOp (siteOp b L u) static = listOp (siteOp b L u) static * moveSites b L σ fun _ => false) ∧
      (key.p = true → moveSites b L Fin.revPerm (fun _ => false) * listOp (siteOp b L u) static =
        listOp (siteOp b L u) static * moveSites b L Fin.revPerm fun _ => false) ∧
      (key.pz = true → moveSites b L Fin.revPerm (fun _ => true) * listOp (siteOp b L u) static =
        listOp (siteOp b L u) static * moveSites b L Fin.revPerm fun _ => true) := by
  have e1 : B.sort = sortSite := by rcases hB with rfl | ⟨p, rfl⟩ <;> rfl
  obtain ⟨s, hs1, hcan, hso, hbar⟩ := plain_sorted hD.2.2.2.2.2 e1 hs
  have hn : DistinctStatic B static := fun s hs => List.Nodup.of_map _ (hk s hs)
  have hnd : DistinctDriven (F := F) B [] := by
    intro d hd
    obtain rfl : [] = d := Option.some.inj hd
    exact List.nodup_nil
  have hsum : (s.map (val (siteOp b L u))).sum = listOp (siteOp b L u) static :=
    localList_sum (fun op _ r hr => by rw [e1] at hr; exact sortSite_val (fun o q _ _ hij => siteOp_commute _ o q hij) hr) hs1
  constructor
  · intro h
    obtain ⟨h1, h2⟩ := C78_chain_partial b L hL u B hB key ha static [] (plain_within ⟨trivial, trivial, trivial⟩ hs) (fun e he => by simp at he) hn hnd h
    refine ⟨fun hk σ hσ => (h1 hk σ hσ).1, fun hp => (h2 hp).1, fun hz => ?_⟩
    obtain ⟨hu, rfl⟩ := hpz hz
    obtain ⟨s', d, h1, h2, ⟨-, -, -, -, -, c6⟩, ⟨-, -, -, -, -, d6⟩⟩ := h
    have hval : ∀ op r : Op, (∀ c ∈ op.str, True) → B.sort op = some r → val (siteOp b L u) r = val (siteOp b L u) op := by
      intro op r _ hr
      rw [e1] at hr
      exact sortSite_val (fun o q _ _ hij => siteOp_commute _ o q hij) hr
    have hst : Stable B.sort fun _ => 1 := by rw [e1]; exact stable_site
    exact (symmetry_of_found (G := fun _ => True) (moves_sites _ fun _ => true) hst
      (moveSites_siteOp _ (fun _ => true) (fun _ => hu)) (fun _ _ => ⟨trivial, trivial⟩) hval (fun q hq hq' => ⟨hq', fun _ _ => hq⟩)
      (plain_within (S := SpinLetter) ⟨by simp [SpinLetter], by simp [SpinLetter], by simp [SpinLetter]⟩ hs) (fun e he => by simp at he) hn hnd h1 h2
      (fun t => found_PZ t (c6 hz)) (fun t => found_PZ t (d6 hz))).1
  · rintro ⟨h1, h2, h3⟩
    have hback : ∀ move : Op → Op, (∀ o ∈ s, ∃ r, sortSite (move o) = some r ∧ r ∈ s) → closed B.sort move (s.map fun o => (o, ())) := by
      intro move h p hp
      obtain ⟨o, ho, rfl⟩ := List.mem_map.1 hp
      obtain ⟨r, hr, hrs⟩ := h o ho
      exact ⟨r, by rw [e1]; exact hr, List.mem_map.2 ⟨r, hrs, rfl⟩⟩
    refine ⟨s, [], hs1, rfl, ⟨fun hk' i hi => ?_, fun hp' => ?_, fun h => ?_, fun h => ?_, fun h => ?_, fun hz => ?_⟩,
      ⟨fun _ _ _ p hp => by simp at hp, fun _ p hp => by simp at hp, fun _ => ⟨fun p hp => by simp at hp, fun p hp => by simp at hp⟩,
        fun _ => ⟨fun p hp => by simp at hp, fun p hp => by simp at hp⟩, fun _ => ⟨fun p hp => by simp at hp, fun p hp => by simp at hp⟩,
        fun _ p hp => by simp at hp⟩⟩
    · have : NeZero L := ⟨by omega⟩
      let σ : Equiv.Perm (Fin L) := Equiv.addRight (Fin.ofNat L key.a)
      have hσ : ∀ j, (σ j : Nat) = (j + key.a) % L := by
        intro j
        show ((j + Fin.ofNat L key.a : Fin L) : Nat) = _
        rw [Fin.val_add, Fin.val_ofNat, Nat.add_mod_mod]
      have hU := h1 hk' σ hσ
      refine hback _ (exact_closed hb hl D hD hD' hp hm (σ ^ i) (fun _ => false) (by simp) _ hcan (hk s hs1) hso (fun o ho => ⟨moved_T (σ ^ i) (pow_shift hσ i) o (hcan o ho).1.sites, ?_⟩) ?_)
      · simpa [moveT] using (hcan o ho).1.len
      · rw [hsum, moveSites_pow]
        exact (Commute.pow_left hU i)
    · refine hback _ (exact_closed hb hl D hD hD' hp hm Fin.revPerm (fun _ => false) (by simp) _ hcan (hk s hs1) hso (fun o ho => ⟨moved_P o (hcan o ho).1.sites, ?_⟩) ?_)
      · simpa [moveP] using (hcan o ho).1.len
      · rw [hsum]; exact h2 hp'
    · rw [hkey.1] at h; simp at h
    · rw [hkey.2.1] at h; simp at h
    · rw [hkey.2.2] at h; simp at h
    · refine hback _ (exact_closed hb hl D hD hD' hp hm Fin.revPerm (fun _ => true) (fun _ => hpz hz) _ hcan (hk s hs1) hso
        (fun o ho => ⟨moved_PZ o (hcan o ho).1.len (hbar o ho) (hcan o ho).1.sites, ?_⟩) ?_)
      · simpa [movePZ, cut_plain (hbar o ho)] using (hcan o ho).1.len
      · rw [hsum]; exact h3 hz

/-- The same for general lattices with maps that invert no site.
Missing: lists with repeated or split terms and the letters and chains of `C78_fails_current`, `C78_fails_odd`, `C78_fails_number`, `C78_fails_spin_exchange`. -/
theorem C78_exact_maps_partial {F : Type} (b N : Nat) (hb : 2 ≤ b) (u : Char → Nat → Nat → ℂ) (hl : Ladder u) (D : Char)
    (hD : D ≠ '+' ∧ D ≠ '-' ∧ D ≠ 'x' ∧ D ≠ 'y' ∧ D ≠ '%' ∧ D ≠ '|') (hD' : u D 1 1 ≠ u D 0 0) (hp : u '+' 1 0 ≠ 0) (hm : u '-' 0 1 ≠ 0)
    (B : Basis) (hB : B = bosonBasis b ∨ ∃ p, B = spinBasis b p) (maps : List (List Int)) (perm : List Int → Equiv.Perm (Fin N))
    (hmaps : ∀ m ∈ maps, m.length = N ∧ (∀ i < N, inverts m i = false) ∧ ∀ i : Fin N, (perm m i : Nat) = dest m i) (static : OpList)
    (hs : PlainTerms N D static) (hk : DistinctStrings B static) :
    acceptsMaps (F := F) B maps static [] ↔
      ∀ m ∈ maps, moveSites b N (perm m) (fun _ => false) * listOp (siteOp b N u) static =
        listOp (siteOp b N u) static * moveSites b N (perm m) fun _ => false := by
  have e1 : B.sort = sortSite := by rcases hB with rfl | ⟨p, rfl⟩ <;> rfl
  obtain ⟨s, hs1, hcan, hso, hbar⟩ := plain_sorted hD.2.2.2.2.2 e1 hs
  have hn : DistinctStatic B static := fun s hs => List.Nodup.of_map _ (hk s hs)
  have hnd : DistinctDriven (F := F) B [] := by
    intro d hd
    obtain rfl : [] = d := Option.some.inj hd
    exact List.nodup_nil
  have hsum : (s.map (val (siteOp b N u))).sum = listOp (siteOp b N u) static :=
    localList_sum (fun op _ r hr => by rw [e1] at hr; exact sortSite_val (fun o q _ _ hij => siteOp_commute _ o q hij) hr) hs1
  have hfl : ∀ m ∈ maps, (fun i : Fin N => inverts m i) = fun _ => false := fun m hm => funext fun i => (hmaps m hm).2.1 i i.2
  constructor
  · intro h m hm'
    have := C78_maps_partial b N u B hB maps static [] hn hnd h m hm' (hmaps m hm').1 (perm m) (hmaps m hm').2.2
      (.inl ⟨(hmaps m hm').2.1, plain_within ⟨trivial, trivial, trivial⟩ hs, fun e he => by simp at he⟩)
    rw [hfl m hm'] at this
    exact this.1
  · intro h
    refine ⟨s, [], hs1, rfl, fun m hm' => ⟨fun p hp' => ?_, fun p hp => by simp at hp⟩⟩
    obtain ⟨o, ho, rfl⟩ := List.mem_map.1 hp'
    have him := isMap_of (hmaps m hm').1 (hmaps m hm').2.2
    rw [hfl m hm'] at him
    have hloop : mapLoop m 0 o.indx (o.str, [], o.J, false) = some (o.str, o.indx.map (fun i => dest m i), o.J, false) := by
      obtain ⟨odd, h', hodd⟩ := mapLoop_eq him o.str (.inl fun _ => rfl) 0 o.indx [] o.J false (site_lt (hcan o ho).1.len (hcan o ho).1.sites) (by rw [(hcan o ho).1.len]; omega)
      rw [hodd fun _ => rfl] at h'
      rw [h', List.drop_zero, sign_none, mul_one, List.nil_append]
      congr 3
      have e : o.indx = (letters o).map Prod.snd := by rw [letters, List.map_snd_zip (by rw [(hcan o ho).1.len])]
      conv_rhs => rw [e, List.map_map]
      refine List.map_congr_left fun q hq => ?_
      have := (hcan o ho).1.sites q hq
      simp only [moveLetter, dif_pos this, Function.comp]
      exact (hmaps m hm').2.2 ⟨q.2, this⟩
    obtain ⟨r, hr, hrs⟩ := exact_closed hb hl D hD hD' hp hm (perm m) (fun _ => false) (by simp) (fun o => { o with indx := o.indx.map fun i => dest m i })
      hcan (hk s hs1) hso (fun o ho => ⟨moved_sites (perm m) _ (fun i => ((hmaps m hm').2.2 i).symm) o (hcan o ho).1.sites, by simpa using (hcan o ho).1.len⟩)
      (by rw [hsum]; exact h m hm') o ho
    exact ⟨_, _, _, r, hloop, by rw [e1]; exact hr, List.mem_map.2 ⟨r, hrs, rfl⟩⟩

/-! ### The hypotheses hold -/

/-- The Heisenberg chain on two sites. -/
def heisenberg2 : OpList := [(['+', '-'], [(1, [0, 1]), (1, [1, 0])]), (['z', 'z'], [(1, [0, 1])])]

theorem heisenberg2_local (p : Int) : localList (spinBasis 2 p) heisenberg2 = some [⟨['+', '-'], [0, 1], 1⟩, ⟨['-', '+'], [0, 1], 1⟩, ⟨['z', 'z'], [0, 1], 1⟩] := by
  simp [localList, flatten, heisenberg2, spinBasis, sortSite, List.insertionSort]

/-- The Heisenberg chain with a driven interaction meets the hypotheses of `C78_chain_partial` and `C78_inversion_partial` with translation,
reflection, spin inversion and their product, and those of `C78_exact_chain_partial`. -/
example : acceptsChain (spinBasis 2 0) 2 ⟨true, true, true, false, false, true, 1⟩ heisenberg2 [(['z', 'z'], [(1, [0, 1])], ())] ∧
    DistinctStatic (spinBasis 2 0) heisenberg2 ∧ DistinctDriven (spinBasis 2 0) [(['z', 'z'], [(1, [0, 1])], ())] ∧ Within 2 SpinLetter heisenberg2 ∧
    PlainTerms 2 'z' heisenberg2 ∧ DistinctStrings (spinBasis 2 0) heisenberg2 := by
  have h2 : localDynamic (spinBasis 2 0) [(['z', 'z'], [(1, [0, 1])], ())] = some [(⟨['z', 'z'], [0, 1], 1⟩, ())] := by
    simp [localDynamic, spinBasis, sortSite, List.insertionSort]
  refine ⟨⟨_, _, heisenberg2_local 0, h2, ?_, ?_⟩, fun s hs => ?_, fun d hd => ?_, ?_, ?_, fun s hs => ?_⟩
  · refine ⟨fun _ i hi => ?_, fun _ => ?_, fun _ => ⟨?_, ?_⟩, by simp, by simp, fun _ => ?_⟩
    · simp only [Nat.div_one] at hi
      interval_cases i <;> simp [closed, spinBasis, moveT, sortSite, List.insertionSort]
    · simp [checkP, closed, spinBasis, moveP, sortSite, List.insertionSort]
    · simp [oddZ, cut]
    · simp [closed, spinBasis, moveZ, cut, swapChar, sortSite, List.insertionSort]
    · simp [checkPZ, closed, spinBasis, movePZ, cut, swapChar, sortSite, List.insertionSort]
  · refine ⟨fun _ i hi => ?_, fun _ => ?_, fun _ => ⟨?_, ?_⟩, by simp, by simp, fun _ => ?_⟩
    · simp only [Nat.div_one] at hi
      interval_cases i <;> simp [closed, spinBasis, moveT, sortSite, List.insertionSort]
    · simp [checkP, closed, spinBasis, moveP, sortSite, List.insertionSort]
    · simp [oddZ, cut]
    · simp [closed, spinBasis, moveZ, cut, swapChar, sortSite, List.insertionSort]
    · simp [checkPZ, closed, spinBasis, movePZ, cut, swapChar, sortSite, List.insertionSort]
  · rw [heisenberg2_local] at hs; cases hs; simp
  · rw [h2] at hd; cases hd; simp
  · simp only [Within, heisenberg2, SpinLetter]
    simp
    rintro a b (⟨rfl, rfl⟩ | ⟨rfl, rfl⟩) <;> simp
  · simp only [PlainTerms, heisenberg2]
    simp
    rintro a b (⟨rfl, rfl⟩ | ⟨rfl, rfl⟩) <;> simp
  · rw [heisenberg2_local] at hs; cases hs; simp

/-- `xx` has all the symmetries, those of the sublattices included. -/
example : acceptsChain (F := Unit) (spinBasis 2 0) 2 ⟨true, true, true, true, true, true, 1⟩ [(['x', 'x'], [(1, [0, 1])])] [] := by
  have h1 : localList (spinBasis 2 0) [(['x', 'x'], [(1, [0, 1])])] = some [⟨['x', 'x'], [0, 1], 1⟩] := by
    simp [localList, flatten, spinBasis, sortSite, List.insertionSort]
  refine ⟨_, [], h1, rfl, ⟨fun _ i hi => ?_, fun _ => ?_, fun _ => ⟨?_, ?_⟩, fun _ => ⟨?_, ?_⟩, fun _ => ⟨?_, ?_⟩, fun _ => ?_⟩, ?_⟩
  · simp only [Nat.div_one] at hi
    interval_cases i <;> simp [closed, spinBasis, moveT, sortSite, List.insertionSort]
  · simp [checkP, closed, spinBasis, moveP, sortSite, List.insertionSort]
  · simp [oddZ, cut]
  · simp [closed, spinBasis, moveZ, cut, swapChar, sortSite, List.insertionSort]
  · simp [oddSub, flipSublat, flipOne, cut]
  · simp [closed, spinBasis, moveSub, flipSublat, flipOne, cut, sortSite, List.insertionSort]
    rintro x y (⟨rfl, rfl⟩ | ⟨rfl, rfl⟩) <;> decide
  · simp [oddSub, flipSublat, flipOne, cut]
  · simp [closed, spinBasis, moveSub, flipSublat, flipOne, cut, sortSite, List.insertionSort]
    rintro x y (⟨rfl, rfl⟩ | ⟨rfl, rfl⟩) <;> decide
  · simp [checkPZ, closed, spinBasis, movePZ, cut, swapChar, sortSite, List.insertionSort]
  · simp [chainChecks, checkT, checkP, checkZ, checkSub, checkPZ, closed]

/-- The hopping of fermions on two sites. -/
example : acceptsChain (F := Unit) fermionBasis 2 ⟨true, true, false, false, false, false, 1⟩ [(['+', '-'], [(1, [0, 1]), (1, [1, 0])])] [] ∧
    DistinctStatic fermionBasis [(['+', '-'], [(1, [0, 1]), (1, [1, 0])])] ∧ Within 2 FermionLetter [(['+', '-'], [(1, [0, 1]), (1, [1, 0])])] := by
  have h1 : localList fermionBasis [(['+', '-'], [(1, [0, 1]), (1, [1, 0])])] = some [⟨['+', '-'], [0, 1], 1⟩, ⟨['-', '+'], [0, 1], -1⟩] := by
    simp [localList, flatten, fermionBasis, sortFermion, bubble, sweep, ladder]
  refine ⟨⟨_, [], h1, rfl, ⟨fun _ i hi => ?_, fun _ => ?_, by simp, by simp, by simp, by simp⟩, ?_⟩, fun s hs => ?_, ?_⟩
  · simp only [Nat.div_one] at hi
    interval_cases i <;> simp [closed, fermionBasis, moveT, sortFermion, bubble, sweep, ladder]
  · simp [checkP, closed, fermionBasis, moveP, sortFermion, bubble, sweep, ladder]
  · simp [chainChecks, checkT, checkP, checkZ, checkSub, checkPZ, closed]
  · rw [h1] at hs; cases hs; simp
  · simp [Within, FermionLetter]
    rintro a b (⟨rfl, rfl⟩ | ⟨rfl, rfl⟩) <;> simp

/-- The exchange of two sites with and without inversion, and `zz`. -/
example : acceptsMaps (F := Unit) (spinBasis 2 0) [[1, 0], [-2, -1]] [(['z', 'z'], [(1, [0, 1])])] [] ∧
    (∀ i : Fin 2, ((Equiv.swap 0 1 : Equiv.Perm (Fin 2)) i : Nat) = dest [-2, -1] i) ∧ (∀ i : Fin 2, ((Equiv.swap 0 1 : Equiv.Perm (Fin 2)) i : Nat) = dest [1, 0] i) := by
  have h1 : localList (spinBasis 2 0) [(['z', 'z'], [(1, [0, 1])])] = some [⟨['z', 'z'], [0, 1], 1⟩] := by
    simp [localList, flatten, spinBasis, sortSite, List.insertionSort]
  refine ⟨⟨_, [], h1, rfl, ?_⟩, by decide, by decide⟩
  simp [checkMap, mapLoop, swapChar, spinBasis, sortSite, List.insertionSort]

/-! ### Failures -/

/-- The matrix of two letters on two sites. -/
theorem pair_entry (b : Nat) (u : Char → Nat → Nat → ℂ) (c d : Char) (t s : Conf b 2) :
    opWord (siteOp b 2 u) [c, d] [0, 1] t s = u c (t 0) (s 0) * u d (t 1) (s 1) := by
  rw [word_eq]
  show wordL (siteOp b 2 u) [(c, 0), (d, 1)] t s = _
  rw [word_entry u [(c, 0), (d, 1)] (by simp) (by simp)]
  simp [Fin.prod_univ_two, at', siteMat]

/-- On a general lattice `+` and `-` of a string are exchanged once for every inverted site: the current `i(+-) - i(-+)` is accepted with the
spin inversion of both sites, which changes its sign. -/
theorem C78_fails_current : acceptsMaps (F := Unit) (spinBasis 2 0) [[-1, -2]] [(['+', '-'], [(Complex.I, [0, 1])]), (['-', '+'], [(-Complex.I, [0, 1])])] [] ∧
    ¬HasSymmetry (F := Unit) (moveSites 2 2 (Equiv.refl _) fun i => inverts [-1, -2] i) (siteOp 2 2 (pauliMatrix 0))
      [(['+', '-'], [(Complex.I, [0, 1])]), (['-', '+'], [(-Complex.I, [0, 1])])] [] := by
  have h1 : localList (spinBasis 2 0) [(['+', '-'], [(Complex.I, [0, 1])]), (['-', '+'], [(-Complex.I, [0, 1])])] =
      some [⟨['+', '-'], [0, 1], Complex.I⟩, ⟨['-', '+'], [0, 1], -Complex.I⟩] := by
    simp [localList, flatten, spinBasis, sortSite, List.insertionSort]
  refine ⟨⟨_, [], h1, rfl, ?_⟩, ?_⟩
  · simp [checkMap, mapLoop, swapChar, spinBasis, sortSite, List.insertionSort]
  · rintro ⟨h, -⟩
    have h2 := congrFun (congrFun h (moveConf (Equiv.refl _) (fun i => inverts [-1, -2] i) ![1, 0])) ![0, 1]
    rw [moveSites_mul, mul_moveSites] at h2
    have e1 : moveConf (b := 2) (Equiv.refl (Fin 2)) (fun i => inverts [-1, -2] i) ![1, 0] = ![0, 1] := by decide
    have e2 : moveConf (b := 2) (Equiv.refl (Fin 2)) (fun i => inverts [-1, -2] i) ![0, 1] = ![1, 0] := by decide
    rw [e1, e2] at h2
    simp [listOp, term, pair_entry, pauliMatrix, spinHalf, Complex.ext_iff] at h2
    norm_num at h2

/-- With the inversion of site 0 only, the invariant and Hermitian list `i(++) + i(-+) - i(+-) - i(--)`, i.e. `x` on site 0 times `i(σ⁺ - σ⁻)` on
site 1, is rejected. -/
theorem C78_fails_one_site :
    ¬acceptsMaps (F := Unit) (spinBasis 2 0) [[-1, 1]] [(['+', '+'], [(Complex.I, [0, 1])]), (['-', '+'], [(Complex.I, [0, 1])]),
      (['+', '-'], [(-Complex.I, [0, 1])]), (['-', '-'], [(-Complex.I, [0, 1])])] [] ∧
    HasSymmetry (F := Unit) (moveSites 2 2 (Equiv.refl _) fun i => inverts [-1, 1] i) (siteOp 2 2 (pauliMatrix 0)) [(['+', '+'], [(Complex.I, [0, 1])]),
      (['-', '+'], [(Complex.I, [0, 1])]), (['+', '-'], [(-Complex.I, [0, 1])]), (['-', '-'], [(-Complex.I, [0, 1])])] [] := by
  have h1 : localList (spinBasis 2 0) [(['+', '+'], [(Complex.I, [0, 1])]), (['-', '+'], [(Complex.I, [0, 1])]),
      (['+', '-'], [(-Complex.I, [0, 1])]), (['-', '-'], [(-Complex.I, [0, 1])])] =
      some [⟨['+', '+'], [0, 1], Complex.I⟩, ⟨['-', '+'], [0, 1], Complex.I⟩, ⟨['+', '-'], [0, 1], -Complex.I⟩, ⟨['-', '-'], [0, 1], -Complex.I⟩] := by
    simp [localList, flatten, spinBasis, sortSite, List.insertionSort]
  refine ⟨?_, ?_, fun x => by simp [drivenOp]⟩
  · rintro ⟨s, d, k1, -, k⟩
    rw [h1] at k1
    cases k1
    have := (k [-1, 1] (by simp)).1 (⟨['+', '+'], [0, 1], Complex.I⟩, ()) (by simp)
    simp [mapLoop, swapChar, spinBasis, sortSite, List.insertionSort, Complex.ext_iff] at this
    obtain ⟨J, ⟨-, h⟩, -, h'⟩ := this
    rw [h'] at h
    norm_num at h
  · ext t s
    obtain ⟨t, rfl⟩ := (moveConf (b := 2) (Equiv.refl (Fin 2)) fun i => inverts [-1, 1] i).surjective t
    rw [moveSites_mul, mul_moveSites]
    have e0 : ∀ r : Conf 2 2, moveConf (Equiv.refl (Fin 2)) (fun i => inverts [-1, 1] i) r 0 = (r 0).rev := fun r => rfl
    have e1 : ∀ r : Conf 2 2, moveConf (Equiv.refl (Fin 2)) (fun i => inverts [-1, 1] i) r 1 = r 1 := fun r => rfl
    simp only [listOp, term, List.map_cons, List.map_nil, List.sum_cons, List.sum_nil, add_zero, Matrix.add_apply, Matrix.smul_apply, pair_entry, e0, e1]
    generalize t 0 = a, t 1 = b, s 0 = c, s 1 = d
    revert a b c d
    simp [Fin.forall_fin_two, pauliMatrix, spinHalf]

/-- On a chain, terms with an odd number of `z` and `y` are rejected with spin inversion, also if `+` and `-` make up for the sign: the
invariant and Hermitian `i z(σ⁺ - σ⁻)` is rejected. -/
theorem C78_fails_odd : ¬acceptsChain (F := Unit) (spinBasis 2 0) 2 ⟨false, false, true, false, false, false, 1⟩
      [(['z', '+'], [(Complex.I, [0, 1])]), (['z', '-'], [(-Complex.I, [0, 1])])] [] ∧
    HasSymmetry (F := Unit) (moveSites 2 2 (Equiv.refl _) fun _ => true) (siteOp 2 2 (pauliMatrix 0))
      [(['z', '+'], [(Complex.I, [0, 1])]), (['z', '-'], [(-Complex.I, [0, 1])])] [] := by
  have h1 : localList (spinBasis 2 0) [(['z', '+'], [(Complex.I, [0, 1])]), (['z', '-'], [(-Complex.I, [0, 1])])] =
      some [⟨['z', '+'], [0, 1], Complex.I⟩, ⟨['z', '-'], [0, 1], -Complex.I⟩] := by
    simp [localList, flatten, spinBasis, sortSite, List.insertionSort]
  refine ⟨?_, ?_, fun x => by simp [drivenOp]⟩
  · rintro ⟨s, d, k1, -, k, -⟩
    rw [h1] at k1
    cases k1
    have := (k.2.2.1 rfl).1 (⟨['z', '+'], [0, 1], Complex.I⟩, ()) (by simp)
    simp [oddZ, cut] at this
  · ext t s
    obtain ⟨t, rfl⟩ := (moveConf (b := 2) (Equiv.refl (Fin 2)) fun _ => true).surjective t
    rw [moveSites_mul, mul_moveSites]
    have e0 : ∀ (r : Conf 2 2) (i : Fin 2), moveConf (Equiv.refl (Fin 2)) (fun _ => true) r i = (r i).rev := fun r i => rfl
    simp only [listOp, term, List.map_cons, List.map_nil, List.sum_cons, List.sum_nil, add_zero, Matrix.add_apply, Matrix.smul_apply, pair_entry, e0]
    generalize t 0 = a, t 1 = b, s 0 = c, s 1 = d
    revert a b c d
    simp [Fin.forall_fin_two, pauliMatrix, spinHalf]

/-- The check of the chains of hard-core bosons does not look at `n`: the number of bosons is accepted with the particle-hole symmetry. -/
theorem C78_fails_number : acceptsChain (F := Unit) (bosonBasis 2) 2 ⟨false, false, true, false, false, false, 1⟩ [(['n'], [(1, [0]), (1, [1])])] [] ∧
    ¬HasSymmetry (F := Unit) (moveSites 2 2 (Equiv.refl _) fun _ => true) (siteOp 2 2 (boson 2)) [(['n'], [(1, [0]), (1, [1])])] [] := by
  have h1 : localList (bosonBasis 2) [(['n'], [(1, [0]), (1, [1])])] = some [⟨['n'], [0], 1⟩, ⟨['n'], [1], 1⟩] := by
    simp [localList, flatten, bosonBasis, sortSite]
  refine ⟨⟨_, [], h1, rfl, ⟨by simp, by simp, fun _ => ⟨?_, ?_⟩, by simp, by simp, by simp⟩, ?_⟩, ?_⟩
  · simp [oddZ, cut]
  · simp [closed, bosonBasis, moveZ, cut, swapChar, sortSite]
  · simp [chainChecks, checkZ, closed]
  · rintro ⟨h, -⟩
    have h2 := congrFun (congrFun h (moveConf (Equiv.refl _) (fun _ => true) ![0, 0])) ![0, 0]
    rw [moveSites_mul, mul_moveSites] at h2
    have e1 : moveConf (b := 2) (Equiv.refl (Fin 2)) (fun _ => true) ![0, 0] = ![1, 1] := by decide
    rw [e1] at h2
    simp [listOp, term, opWord, siteOp, onSite, boson] at h2
    norm_num at h2

/-- A repeated term is not noticed: `z₀ + z₀ + z₁` is accepted with the reflection. -/
theorem C78_fails_repeated : acceptsChain (F := Unit) (spinBasis 2 0) 2 ⟨false, true, false, false, false, false, 1⟩ [(['z'], [(1, [0]), (1, [0]), (1, [1])])] [] ∧
    ¬HasSymmetry (F := Unit) (moveSites 2 2 Fin.revPerm fun _ => false) (siteOp 2 2 (pauliMatrix 0)) [(['z'], [(1, [0]), (1, [0]), (1, [1])])] [] := by
  have h1 : localList (spinBasis 2 0) [(['z'], [(1, [0]), (1, [0]), (1, [1])])] = some [⟨['z'], [0], 1⟩, ⟨['z'], [0], 1⟩, ⟨['z'], [1], 1⟩] := by
    simp [localList, flatten, spinBasis, sortSite]
  refine ⟨⟨_, [], h1, rfl, ⟨by simp, fun _ => ?_, by simp, by simp, by simp, by simp⟩, ?_⟩, ?_⟩
  · simp [checkP, closed, spinBasis, moveP, sortSite]
  · simp [chainChecks, checkP, closed]
  · rintro ⟨h, -⟩
    have h2 := congrFun (congrFun h (moveConf Fin.revPerm (fun _ => false) ![1, 0])) ![1, 0]
    rw [moveSites_mul, mul_moveSites] at h2
    have e1 : moveConf (b := 2) (Fin.revPerm (n := 2)) (fun _ => false) ![1, 0] = ![0, 1] := by decide
    rw [e1] at h2
    simp [listOp, term, opWord, siteOp, onSite, pauliMatrix, spinHalf] at h2
    norm_num at h2

/-- Couplings are not added up: `2 z₀ + z₁ + z₁` is rejected with the reflection. -/
theorem C78_fails_split : ¬acceptsChain (F := Unit) (spinBasis 2 0) 2 ⟨false, true, false, false, false, false, 1⟩ [(['z'], [(2, [0]), (1, [1]), (1, [1])])] [] ∧
    HasSymmetry (F := Unit) (moveSites 2 2 Fin.revPerm fun _ => false) (siteOp 2 2 (pauliMatrix 0)) [(['z'], [(2, [0]), (1, [1]), (1, [1])])] [] := by
  have h1 : localList (spinBasis 2 0) [(['z'], [(2, [0]), (1, [1]), (1, [1])])] = some [⟨['z'], [0], 2⟩, ⟨['z'], [1], 1⟩, ⟨['z'], [1], 1⟩] := by
    simp [localList, flatten, spinBasis, sortSite]
  refine ⟨?_, ?_, fun x => by simp [drivenOp]⟩
  · rintro ⟨s, d, k1, -, k, -⟩
    rw [h1] at k1
    cases k1
    have := (k.2.1 rfl) (⟨['z'], [0], 2⟩, ()) (by simp)
    simp [spinBasis, moveP, sortSite] at this
  · have h0 := moveSites_siteOp (b := 2) (u := pauliMatrix 0) (Fin.revPerm (n := 2)) (fun _ => false) (by simp) ('z', 0) ⟨by simp, by simp⟩
    have h1 := moveSites_siteOp (b := 2) (u := pauliMatrix 0) (Fin.revPerm (n := 2)) (fun _ => false) (by simp) ('z', 1) ⟨by simp, by simp⟩
    have g0 : moveLetter (Fin.revPerm (n := 2)) (fun _ => false) ('z', 0) = ('z', 1) := by decide
    have g1 : moveLetter (Fin.revPerm (n := 2)) (fun _ => false) ('z', 1) = ('z', 0) := by decide
    have s0 : letterSign (N := 2) (fun _ => false) ('z', 0) = 1 := by simp [letterSign]
    have s1 : letterSign (N := 2) (fun _ => false) ('z', 1) = 1 := by simp [letterSign]
    rw [g0, s0, one_smul] at h0
    rw [g1, s1, one_smul] at h1
    simp only [listOp, term, opWord, List.zip_cons_cons, List.zip_nil_right, List.map_cons, List.map_nil, List.prod_cons, List.prod_nil, mul_one, one_smul,
      List.sum_cons, List.sum_nil, add_zero]
    rw [mul_add, mul_add, mul_smul_comm, h0, h1, add_mul, add_mul, smul_mul_assoc, two_smul, two_smul]
    abel

theorem number_entry {N : Nat} (i : Nat) (h : i < N) (t s : Conf 2 N) : fermionOp N 'n' i t s = if t = s then (if s ⟨i, h⟩ = 1 then 1 else 0) else 0 := by
  unfold fermionOp
  rw [dif_pos h]
  show onSite (spinHalf 'n') ⟨i, h⟩ t s = _
  unfold onSite
  by_cases e : t = s
  · subst e
    simp only [if_true, implies_true, spinHalf]
    refine if_congr ?_ rfl rfl
    rw [Fin.ext_iff]; simp
  · rw [if_neg e]
    split
    · rename_i h'
      have : t ⟨i, h⟩ ≠ s ⟨i, h⟩ := by
        intro h2
        exact e (funext fun j => if hj : j = ⟨i, h⟩ then hj ▸ h2 else h' j hj)
      simp only [spinHalf]
      rw [if_neg fun h3 => this (Fin.ext h3)]
    · rfl

/-- The spin exchange of spinful fermions brings the sign of the exchanged fermions: the spin flip `J (c↑† c↓ + c↓† c↑)` on a site of a chain, which in the
order of the strings is `J c↑† c↓ - J c↑ c↓†`, is accepted; for `J ≠ 0` the list with the other sign, which changes into its negative, is rejected. -/
theorem C78_spin_flip (L i : Nat) (J : ℂ) :
    acceptsSpinful (F := Unit) L ⟨false, false, true, false, false, false, 1⟩ (rendered [((['+'], ['-']), [(J, [i], [i])]), ((['-'], ['+']), [(-J, [i], [i])])]) [] ∧
    (J ≠ 0 → ¬ acceptsSpinful (F := Unit) L ⟨false, false, true, false, false, false, 1⟩
      (rendered [((['+'], ['-']), [(J, [i], [i])]), ((['-'], ['+']), [(J, [i], [i])])]) []) := by
  have h1 : ∀ K : ℂ, localList spinfulBasis (rendered [((['+'], ['-']), [(J, [i], [i])]), ((['-'], ['+']), [(K, [i], [i])])]) =
      some [⟨['+', '|', '-'], [i, i], J⟩, ⟨['-', '|', '+'], [i, i], K⟩] := by
    intro K
    simp [rendered, localList, flatten, spinfulBasis, sortSpinful, barred, splitBar, leftPart, rightPart, join, sortFermion, bubble, sweep]
  refine ⟨⟨_, [], h1 _, rfl, by simp, by simp, fun _ => ⟨?_, fun p hp => by simp at hp⟩, by simp⟩, ?_⟩
  · simp [closed, moveSpin, fermions, sortSpinful, barred, splitBar, leftPart, rightPart, join, sortFermion, bubble, sweep]
  · rintro hJ ⟨s, d, hs, -, -, -, h, -⟩
    rw [h1] at hs
    cases hs
    have h2 := (h rfl).1
    simp [closed, moveSpin, fermions, sortSpinful, barred, splitBar, leftPart, rightPart, join, sortFermion, bubble, sweep] at h2
    exact hJ (by linear_combination (-1 / 2 : ℂ) * h2)

example : (1 : ℂ) ≠ 0 := one_ne_zero

/-- The check of the spin exchange of spinful fermions exchanges the strings but not the sites: `n₀↑ n₁↓` alone is accepted. -/
theorem C78_fails_spin_exchange :
    acceptsSpinful (F := Unit) 2 ⟨false, false, true, false, false, false, 1⟩ (rendered [((['n'], ['n']), [(1, [0], [1])])]) [] ∧
    permuteFermions (Equiv.addRight (2 : Fin 4)) * spinfulListOp (fermionOp 4) 2 [((['n'], ['n']), [(1, [0], [1])])] ≠
      spinfulListOp (fermionOp 4) 2 [((['n'], ['n']), [(1, [0], [1])])] * permuteFermions (Equiv.addRight (2 : Fin 4)) := by
  have h1 : localList spinfulBasis (rendered [((['n'], ['n']), [(1, [0], [1])])]) = some [⟨['n', '|', 'n'], [0, 1], 1⟩] := by
    simp [rendered, localList, flatten, spinfulBasis, sortSpinful, barred, splitBar, leftPart, rightPart, join, sortFermion, bubble, sweep]
  refine ⟨⟨_, [], h1, rfl, by simp, by simp, fun _ => ⟨?_, fun p hp => by simp at hp⟩, by simp⟩, ?_⟩
  · simp [closed, moveSpin, fermions, sortSpinful, barred, splitBar, leftPart, rightPart, join, sortFermion, bubble, sweep]
  · intro h
    have hH : spinfulListOp (fermionOp 4) 2 [((['n'], ['n']), [(1, [0], [1])])] = fermionOp 4 'n' 0 * fermionOp 4 'n' 3 := by
      simp [spinfulListOp, spinfulTerm, opWord]
    rw [hH] at h
    have hd : ∀ i (hi : i < 4), fermionOp 4 'n' i = Matrix.diagonal fun s : Conf 2 4 => if s ⟨i, hi⟩ = 1 then (1 : ℂ) else 0 := by
      intro i hi
      ext t s
      rw [number_entry i hi, Matrix.diagonal_apply]
      by_cases e : t = s
      · rw [if_pos e, if_pos e, e]
      · rw [if_neg e, if_neg e]
    rw [hd 0 (by omega), hd 3 (by omega), Matrix.diagonal_mul_diagonal] at h
    have h2 := congrFun (congrFun h ![0, 1, 1, 0]) ![1, 0, 0, 1]
    rw [Matrix.mul_diagonal, Matrix.diagonal_mul] at h2
    have hu : permuteFermions (Equiv.addRight (2 : Fin 4)) ![0, 1, 1, 0] ![1, 0, 0, 1] ≠ 0 := by
      unfold permuteFermions
      rw [if_pos (by decide)]
      have : reorderSign (Equiv.addRight (2 : Fin 4)) (Finset.univ.filter fun i => (![1, 0, 0, 1] : Conf 2 4) i = 1) ≠ 0 := by decide
      exact_mod_cast this
    simp at h2
    exact hu h2

/-- The check of the spin exchange with reflection does not reflect: a potential on site 0 is accepted. -/
theorem C78_fails_spin_reflection :
    acceptsSpinful (F := Unit) 2 ⟨false, false, false, false, false, true, 1⟩ (rendered [((['n'], []), [(1, [0], [])]), (([], ['n']), [(1, [], [0])])]) [] ∧
    permuteFermions (Fin.revPerm (n := 4)) * spinfulListOp (fermionOp 4) 2 [((['n'], []), [(1, [0], [])]), (([], ['n']), [(1, [], [0])])] ≠
      spinfulListOp (fermionOp 4) 2 [((['n'], []), [(1, [0], [])]), (([], ['n']), [(1, [], [0])])] * permuteFermions (Fin.revPerm (n := 4)) := by
  have h1 : localList spinfulBasis (rendered [((['n'], []), [(1, [0], [])]), (([], ['n']), [(1, [], [0])])]) = some [⟨['n', '|'], [0], 1⟩, ⟨['|', 'n'], [0], 1⟩] := by
    simp [rendered, localList, flatten, spinfulBasis, sortSpinful, barred, splitBar, leftPart, rightPart, join, sortFermion, bubble, sweep]
  refine ⟨⟨_, [], h1, rfl, by simp, by simp, by simp, fun _ => ⟨?_, fun p hp => by simp at hp⟩⟩, ?_⟩
  · simp [closed, movePSpin, moveSpin, fermions, sortSpinful, barred, splitBar, leftPart, rightPart, join, sortFermion, bubble, sweep]
  · intro h
    have hH : spinfulListOp (fermionOp 4) 2 [((['n'], []), [(1, [0], [])]), (([], ['n']), [(1, [], [0])])] = fermionOp 4 'n' 0 + fermionOp 4 'n' 2 := by
      simp [spinfulListOp, spinfulTerm, opWord]
    rw [hH] at h
    have hd : ∀ i (hi : i < 4), fermionOp 4 'n' i = Matrix.diagonal fun s : Conf 2 4 => if s ⟨i, hi⟩ = 1 then (1 : ℂ) else 0 := by
      intro i hi
      ext t s
      rw [number_entry i hi, Matrix.diagonal_apply]
      by_cases e : t = s
      · rw [if_pos e, if_pos e, e]
      · rw [if_neg e, if_neg e]
    rw [hd 0 (by omega), hd 2 (by omega), Matrix.diagonal_add] at h
    have h2 := congrFun (congrFun h ![0, 0, 0, 1]) ![1, 0, 0, 0]
    rw [Matrix.mul_diagonal, Matrix.diagonal_mul] at h2
    have hu : permuteFermions (Fin.revPerm (n := 4)) ![0, 0, 0, 1] ![1, 0, 0, 0] ≠ 0 := by
      unfold permuteFermions
      rw [if_pos (by decide)]
      have : reorderSign (Fin.revPerm (n := 4)) (Finset.univ.filter fun i => (![1, 0, 0, 0] : Conf 2 4) i = 1) ≠ 0 := by decide
      exact_mod_cast this
    simp at h2
    exact hu h2

end Props
