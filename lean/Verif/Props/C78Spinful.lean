import Verif.Props.C110

/-!
# C78 for the chain of spinful fermions

An accepted list has the translations, the reflection and, where the check exchanges the sites correctly, the exchange of the spins.
-/
namespace Props
open Model Spec Model.OpStr Model.CheckSymm Proof.OpStr Proof.CheckSymm

theorem closed_commutes {X A : Type} [Ring A] [Algebra ℂ A] {U : A} {v : Op → A} {sort : Op → Option Op} {move : Op → Op} {l : List (Op × X)} (hn : l.Nodup)
    (hinj : ∀ p ∈ l, ∀ q ∈ l, ∀ r, sort (move p.1) = some r → sort (move q.1) = some r → p.1 = q.1)
    (hval : ∀ p ∈ l, ∀ r, sort (move p.1) = some r → U * v p.1 = v r * U) (hc : closed sort move l) (x : X → ℂ) :
    U * (l.map fun p => x p.2 • v p.1).sum = (l.map fun p => x p.2 • v p.1).sum * U := by
  obtain ⟨r, hr⟩ := exists_image (R := fun (p q : Op × X) => p ∈ l ∧ q ∈ l ∧ p.2 = q.2 ∧ sort (move p.1) = some q.1) (l := l) (by
    intro p hp
    obtain ⟨r, h2, h3⟩ := hc p hp
    exact ⟨(r, p.2), hp, h3, rfl, h2⟩)
  have hrn : r.Nodup := by
    have := forall₂_nodup (f := fun p : Op × X => p) (g := fun p : Op × X => p) hr ?_ (by simpa using hn)
    · simpa using this
    rintro a - a' - b b' ⟨ha, -, e1, h1⟩ ⟨ha', -, e2, h1'⟩ rfl
    exact Prod.ext (hinj a ha a' ha' _ h1 h1') (e1.trans e2.symm)
  have hsub : ∀ q ∈ r, q ∈ l := by
    intro q hq
    obtain ⟨a, -, h⟩ := forall₂_mem hr hq
    exact h.2.1
  have e1 := subset_sum hrn hr.length_eq hsub fun p : Op × X => x p.2 • v p.1
  have e2 : (r.map fun p => x p.2 • v p.1 * U).sum = (l.map fun p => U * (x p.2 • v p.1)).sum := by
    refine forall₂_sum ?_ hr
    rintro a b ⟨ha, -, e, h2⟩
    rw [← e, mul_smul_comm, hval a ha b.1 h2, smul_mul_assoc]
  rw [← List.sum_map_mul_left, ← e2, List.sum_map_mul_right, e1]

/-- Sorting after moving the sites does not identify sorted terms. -/
theorem part_inj {L : Nat} {f : Nat → Nat} (hf : ∀ i < L, ∀ j < L, f i = f j → i = j) {us us' : List Char} {iu iu' : List Nat} (h1 : us.length = iu.length)
    (h1' : us'.length = iu'.length) (h2 : ∀ i ∈ iu, i < L) (h2' : ∀ i ∈ iu', i < L) (h3 : (us.zip iu).Pairwise fun a b => a.2 ≤ b.2)
    (h3' : (us'.zip iu').Pairwise fun a b => a.2 ≤ b.2) {a a' : Op} (ha : sortFermion ⟨us, iu.map f, 1⟩ = some a) (ha' : sortFermion ⟨us', iu'.map f, 1⟩ = some a')
    (e : letters a = letters a') : us = us' ∧ iu = iu' ∧ a.J = a'.J ∧ a.J ≠ 0 := by
  have hg : Moves (fun q : Char × Nat => q.2 < L) (fun q => (q.1, f q.2)) fun _ => 1 := by
    refine ⟨fun p q hp hq h => ?_, fun p q hp hq => ⟨fun h => hf _ hp _ hq h, fun h => by simp only [h]⟩, by simp⟩
    simp only [Prod.mk.injEq] at h
    exact Prod.ext h.1 (hf _ hp _ hq h.2)
  have hm : ∀ (us : List Char) (iu : List Nat), Moved (fun q : Char × Nat => (q.1, f q.2)) (fun _ => 1) ⟨us, iu, 1⟩ ⟨us, iu.map f, 1⟩ := by
    intro us iu
    refine ⟨?_, by simp⟩
    simp only [letters, List.zip_map_right]
    rfl
  have hz : ∀ (us : List Char) (iu : List Nat), (∀ i ∈ iu, i < L) → ∀ p ∈ letters ⟨us, iu, 1⟩, p.2 < L := fun us iu h p hp => h _ (List.of_mem_zip hp).2
  have := (moved_inj hg stable_fermion (o := ⟨us, iu, 1⟩) (o' := ⟨us', iu', 1⟩) (hz _ _ h2) (hz _ _ h2') h1 h1' h3 h3' (hm _ _) (hm _ _) ha ha' e).1
  have ho := op_ext (o := ⟨us, iu, 1⟩) (o' := ⟨us', iu', 1⟩) h1 h1' this rfl
  simp only [Op.mk.injEq, and_true] at ho
  obtain ⟨rfl, rfl⟩ := ho
  refine ⟨rfl, rfl, ?_, ?_⟩
  · rw [Option.some.inj (ha.symm.trans ha')]
  · rw [stable_fermion.coupling _ _ ha, one_mul]
    exact stable_fermion.sgn_ne _

theorem parts_of {us ds : List Char} {iu id : List Nat} {K : ℂ} (hu : '|' ∉ us) (hl : us.length = iu.length) {r : Op}
    (hr : sortSpinful ⟨us ++ '|' :: ds, iu ++ id, K⟩ = some r) :
    ∃ a b, sortFermion ⟨us, iu, 1⟩ = some a ∧ sortFermion ⟨ds, id, 1⟩ = some b ∧ r = join a b (K * (a.J * b.J)) := by
  obtain ⟨-, a, b, ha, hb, rfl⟩ := sortSpinful_some hr
  refine ⟨a, b, ?_, ?_, rfl⟩
  · simpa [leftPart, splitBar_join _ _ hu, hl] using ha
  · simpa [rightPart, splitBar_join _ _ hu, hl] using hb

theorem sortSpinful_inj {L : Nat} {f : Nat → Nat} (hf : ∀ i < L, ∀ j < L, f i = f j → i = j) {us ds us' ds' : List Char} {iu id iu' id' : List Nat}
    (h : SimpleString L us ds iu id) (h' : SimpleString L us' ds' iu' id') (s1 : (us.zip iu).Pairwise fun a b => a.2 ≤ b.2)
    (s2 : (ds.zip id).Pairwise fun a b => a.2 ≤ b.2) (s1' : (us'.zip iu').Pairwise fun a b => a.2 ≤ b.2) (s2' : (ds'.zip id').Pairwise fun a b => a.2 ≤ b.2)
    {K K' : ℂ} {r : Op} (hr : sortSpinful ⟨us ++ '|' :: ds, iu.map f ++ id.map f, K⟩ = some r)
    (hr' : sortSpinful ⟨us' ++ '|' :: ds', iu'.map f ++ id'.map f, K'⟩ = some r) : us = us' ∧ iu = iu' ∧ ds = ds' ∧ id = id' ∧ K = K' := by
  have hu : '|' ∉ us := nobar_of_letters fun c hc => h.letters c (by simp [hc])
  have hu' : '|' ∉ us' := nobar_of_letters fun c hc => h'.letters c (by simp [hc])
  obtain ⟨a, b, ha, hb, rfl⟩ := parts_of hu (by simpa using h.up) hr
  obtain ⟨a', b', ha', hb', e⟩ := parts_of hu' (by simpa using h'.up) hr'
  simp only [join, Op.mk.injEq] at e
  obtain ⟨e1, e2, e3⟩ := e
  have e4 := congrArg splitBar e1
  rw [splitBar_join _ _ (sortFermion_nobar ha), splitBar_join _ _ (sortFermion_nobar ha')] at e4
  obtain ⟨e5, e6⟩ := Prod.mk.injEq .. ▸ e4
  obtain ⟨e7, e8⟩ := List.append_inj e2 (by rw [← sortFermion_lengths ha, ← sortFermion_lengths ha', e5])
  obtain ⟨p1, p2, p3, p4⟩ := part_inj hf h.up h'.up (fun i hi => h.range i (by simp [hi])) (fun i hi => h'.range i (by simp [hi])) s1 s1' ha ha'
    (by rw [letters, letters, e5, e7])
  obtain ⟨q1, q2, q3, q4⟩ := part_inj hf h.down h'.down (fun i hi => h.range i (by simp [hi])) (fun i hi => h'.range i (by simp [hi])) s2 s2' hb hb'
    (by rw [letters, letters, e6, e8])
  refine ⟨p1, p2, q1, q2, ?_⟩
  rw [← p3, ← q3] at e3
  exact mul_right_cancel₀ (mul_ne_zero p4 q4) e3

theorem simple_good {L : Nat} {us ds : List Char} {iu id : List Nat} (hs : SimpleString L us ds iu id) : ∀ c ∈ us ++ '|' :: ds, c ≠ 'x' ∧ c ≠ 'y' := by
  intro c hc
  simp only [List.mem_append, List.mem_cons] at hc
  have : c = '|' ∨ c ∈ ['I', '+', '-', 'n', 'z'] := by
    rcases hc with hc | rfl | hc
    · exact .inr (hs.letters c (by simp [hc]))
    · exact .inl rfl
    · exact .inr (hs.letters c (by simp [hc]))
  constructor <;> rintro rfl <;> revert this <;> decide

/-- The word of one spin under a permutation of the orbitals. -/
theorem word_permuted {L : Nat} {f : Nat → Nat} (down spin : Bool) (σ : Equiv.Perm (Fin (2 * L)))
    (hσ : ∀ (i : Nat) (hi : i < L), (σ ⟨orbital L down i, orbital_lt down hi⟩ : Nat) = orbital L spin (f i)) (us : List Char) (iu : List Nat)
    (h1 : ∀ c ∈ us, FermionLetter c) (h2 : ∀ i ∈ iu, i < L) :
    permuteFermions σ * opWord (Spec.fermionOp (2 * L)) us (iu.map (orbital L down)) =
      opWord (Spec.fermionOp (2 * L)) us ((iu.map f).map (orbital L spin)) * permuteFermions σ := by
  induction us generalizing iu with
  | nil => simp [opWord]
  | cons c us ih =>
    cases iu with
    | nil => simp [opWord]
    | cons i iu =>
      have e : ∀ j k : List Nat, ∀ n, opWord (Spec.fermionOp (2 * L)) (c :: us) (n :: k) = Spec.fermionOp (2 * L) c n * opWord (Spec.fermionOp (2 * L)) us k := by
        intro j k n
        simp [opWord]
      rw [List.map_cons, List.map_cons, List.map_cons, e [], e [], ← mul_assoc]
      have hi := h2 i (by simp)
      have := permute_op σ (c, orbital L down i) ⟨h1 c (by simp), orbital_lt down hi⟩
      simp only [moveLetter, letterSign, dif_pos (orbital_lt down hi), hσ i hi] at this
      simp only [Bool.false_eq_true, if_false, false_and, one_smul] at this
      rw [this, mul_assoc, ih iu (fun c hc => h1 c (by simp [hc])) (fun i hi => h2 i (by simp [hi])), mul_assoc]

/-- A term `up|down` after the sites are moved by `f` and, with `swap`, the spins are exchanged. -/
def movedTerm (swap : Bool) (f : Nat → Nat) (us ds : List Char) (iu id : List Nat) (J : ℂ) : Op :=
  if swap then ⟨ds ++ '|' :: us, id.map f ++ iu.map f, J * (-1) ^ (ladders us * ladders ds)⟩ else ⟨us ++ '|' :: ds, iu.map f ++ id.map f, J⟩

theorem simple_moved {L : Nat} {f : Nat → Nat} (hf : ∀ i < L, f i < L) {us ds : List Char} {iu id : List Nat} (h : SimpleString L us ds iu id) :
    SimpleString L us ds (iu.map f) (id.map f) ∧ SimpleString L ds us (id.map f) (iu.map f) := by
  have hr : ∀ i ∈ iu ++ id, f i < L := fun i hi => hf i (h.range i hi)
  have hm : ∀ i, i ∈ iu.map f ∨ i ∈ id.map f → i < L := by
    rintro i (hi | hi) <;> obtain ⟨j, hj, rfl⟩ := List.mem_map.1 hi <;> exact hr j (by simp [hj])
  exact ⟨⟨h.letters, by simpa using h.up, by simpa using h.down, fun i hi => hm i (List.mem_append.1 hi)⟩,
    ⟨fun c hc => h.letters c (by simp at hc ⊢; tauto), by simpa using h.down, by simpa using h.up, fun i hi => hm i (List.mem_append.1 hi).symm⟩⟩

theorem spin_value {L : Nat} (swap : Bool) {f : Nat → Nat} (hf : ∀ i < L, f i < L) (σ : Equiv.Perm (Fin (2 * L)))
    (hσ : ∀ down, ∀ (i : Nat) (hi : i < L), (σ ⟨orbital L down i, orbital_lt down hi⟩ : Nat) = orbital L (xor down swap) (f i))
    {us ds : List Char} {iu id : List Nat} (J : ℂ) (h : SimpleString L us ds iu id) :
    permuteFermions σ * valSpinful (Spec.fermionOp (2 * L)) L ⟨us ++ '|' :: ds, iu ++ id, J⟩ =
      valSpinful (Spec.fermionOp (2 * L)) L (movedTerm swap f us ds iu id J) * permuteFermions σ := by
  have hv : ∀ (us ds : List Char) (iu id : List Nat) (J : ℂ), SimpleString L us ds iu id → valSpinful (Spec.fermionOp (2 * L)) L ⟨us ++ '|' :: ds, iu ++ id, J⟩ =
      J • (opWord (Spec.fermionOp (2 * L)) us (iu.map (orbital L false)) * opWord (Spec.fermionOp (2 * L)) ds (id.map (orbital L true))) := by
    intro us ds iu id J h
    have := valSpinful_join (Spec.fermionOp (2 * L)) L ⟨us, iu, J⟩ ⟨ds, id, J⟩ J (nobar_of_letters fun c hc => h.letters c (by simp [hc])) h.up
    simp only [join] at this
    rw [this, spinfulTerm]
    congr 3
    · rw [List.map_congr_left (g := fun i => i) (fun a _ => by simp [orbital])]; simp
    · exact List.map_congr_left fun a _ => by simp [orbital, Nat.add_comm]
  obtain ⟨m1, m2⟩ := simple_moved hf h
  have l1 : ∀ c ∈ us, FermionLetter c := fun c hc => (fermionLetter_iff c).2 (h.letters c (by simp [hc]))
  have l2 : ∀ c ∈ ds, FermionLetter c := fun c hc => (fermionLetter_iff c).2 (h.letters c (by simp [hc]))
  rw [hv _ _ _ _ _ h, mul_smul_comm, ← mul_assoc, word_permuted false (xor false swap) σ (hσ false) us iu l1 fun i hi => h.range i (by simp [hi]), mul_assoc,
    word_permuted true (xor true swap) σ (hσ true) ds id l2 fun i hi => h.range i (by simp [hi]), ← mul_assoc, ← smul_mul_assoc]
  congr 1
  cases swap with
  | false => rw [movedTerm, if_neg (by simp), hv _ _ _ _ _ m1]; rfl
  | true =>
    rw [movedTerm, if_pos rfl, hv _ _ _ _ _ m2]
    have hG : ∀ c, FermionLetter c → c ≠ 'x' ∧ c ≠ 'y' := by
      intro c hc
      constructor <;> rintro rfl <;> revert hc <;> unfold FermionLetter <;> decide
    have ex := words_exchange (fermionOp_exch (N := 2 * L)) (us.zip ((iu.map f).map (orbital L true))) (ds.zip ((id.map f).map (orbital L false)))
      (fun p hp => hG _ (l1 _ (List.of_mem_zip hp).1)) (fun p hp => hG _ (l2 _ (List.of_mem_zip hp).1)) (by
        intro p hp q hq e
        obtain ⟨i, hi, ei⟩ := List.mem_map.1 (List.of_mem_zip hp).2
        obtain ⟨j, hj, ej⟩ := List.mem_map.1 (List.of_mem_zip hq).2
        exact absurd (orbital_inj (m1.range i (List.mem_append.2 (.inl hi))) (m1.range j (List.mem_append.2 (.inr hj))) (ei.trans (e.trans ej.symm))).1 (by simp))
    rw [lad_zip _ _ (by simpa using h.up), lad_zip _ _ (by simpa using h.down), ← word_eq, ← word_eq] at ex
    simp only [Bool.xor_true, Bool.not_false, Bool.not_true]
    rw [ex, smul_smul]

/-- From the check to the symmetry, for one list. -/
theorem spin_commutes {X : Type} {L : Nat} (swap : Bool) {f : Nat → Nat} (hf : ∀ i < L, f i < L) (hinj : ∀ i < L, ∀ j < L, f i = f j → i = j)
    (σ : Equiv.Perm (Fin (2 * L))) (hσ : ∀ down, ∀ (i : Nat) (hi : i < L), (σ ⟨orbital L down i, orbital_lt down hi⟩ : Nat) = orbital L (xor down swap) (f i))
    {move : Op → Op} {l : List (Op × X)} (hs : ∀ p ∈ l, SortedTerm L p.1) (hn : l.Nodup)
    (hmove : ∀ p ∈ l, ∀ us ds iu id J, p.1 = ⟨us ++ '|' :: ds, iu ++ id, J⟩ → SimpleString L us ds iu id → move p.1 = movedTerm swap f us ds iu id J)
    (hc : closed sortSpinful move l) (x : X → ℂ) :
    permuteFermions σ * (l.map fun p => x p.2 • valSpinful (Spec.fermionOp (2 * L)) L p.1).sum =
      (l.map fun p => x p.2 • valSpinful (Spec.fermionOp (2 * L)) L p.1).sum * permuteFermions σ := by
  refine closed_commutes hn (fun p hp q hq r h1 h2 => ?_) (fun p hp r hr => ?_) hc x
  · obtain ⟨us, ds, iu, id, J, e, h, s1, s2⟩ := hs p hp
    obtain ⟨us', ds', iu', id', J', e', h', s1', s2'⟩ := hs q hq
    rw [hmove p hp _ _ _ _ _ e h] at h1
    rw [hmove q hq _ _ _ _ _ e' h'] at h2
    rw [e, e']
    cases swap with
    | false =>
      simp only [movedTerm, Bool.false_eq_true, if_false] at h1 h2
      obtain ⟨rfl, rfl, rfl, rfl, rfl⟩ := sortSpinful_inj hinj h h' s1 s2 s1' s2' h1 h2
      rfl
    | true =>
      simp only [movedTerm, if_true] at h1 h2
      have sw : ∀ {us ds : List Char} {iu id : List Nat}, SimpleString L us ds iu id → SimpleString L ds us id iu := fun h =>
        ⟨fun c hc => h.letters c (by simp at hc ⊢; tauto), h.down, h.up, fun c hc => h.range c (by simp at hc ⊢; tauto)⟩
      obtain ⟨rfl, rfl, rfl, rfl, e3⟩ := sortSpinful_inj hinj (sw h) (sw h') s2 s1 s2' s1' h1 h2
      rw [mul_right_cancel₀ (pow_ne_zero _ (by norm_num)) e3]
  · obtain ⟨us, ds, iu, id, J, e, h, -, -⟩ := hs p hp
    rw [hmove p hp _ _ _ _ _ e h] at hr
    rw [e, spin_value swap hf σ hσ J h]
    congr 1
    refine (sortSpinful_val fermionOp_exch L (fun c hc => ?_) hr).symm
    obtain ⟨m1, m2⟩ := simple_moved hf h
    cases swap with
    | false => exact simple_good m1 c (by simpa [movedTerm] using hc)
    | true => exact simple_good m2 c (by simpa [movedTerm] using hc)

/-- From the check to the symmetry, for both lists.  `Q` is what the exchange of the spins demands of the terms. -/
theorem spinful_symmetry {F : Type} {L : Nat} (swap : Bool) {f : Nat → Nat} (hf : ∀ i < L, f i < L) (hinj : ∀ i < L, ∀ j < L, f i = f j → i = j)
    (σ : Equiv.Perm (Fin (2 * L))) (hσ : ∀ down, ∀ (i : Nat) (hi : i < L), (σ ⟨orbital L down i, orbital_lt down hi⟩ : Nat) = orbital L (xor down swap) (f i))
    {static : List ((List Char × List Char) × List (ℂ × List Nat × List Nat))} {dynamic : List ((List Char × List Char) × List (ℂ × List Nat × List Nat) × F)}
    (w1 : ∀ e ∈ static, ∀ b ∈ e.2, SimpleString L e.1.1 e.1.2 b.2.1 b.2.2) (w2 : ∀ e ∈ dynamic, ∀ b ∈ e.2.1, SimpleString L e.1.1 e.1.2 b.2.1 b.2.2)
    (n1 : DistinctStatic spinfulBasis (rendered static)) (n2 : DistinctDriven spinfulBasis (renderedD dynamic))
    {s : List Op} {d : List (Op × F)} (h1 : localList spinfulBasis (rendered static) = some s) (h2 : localDynamic spinfulBasis (renderedD dynamic) = some d)
    (Q : List Char → List Char → List Nat → List Nat → Prop) (q1 : ∀ e ∈ static, ∀ b ∈ e.2, Q e.1.1 e.1.2 b.2.1 b.2.2)
    (q2 : ∀ e ∈ dynamic, ∀ b ∈ e.2.1, Q e.1.1 e.1.2 b.2.1 b.2.2) {move : Op → Op}
    (hmove : ∀ us ds iu id J, SimpleString L us ds iu id → Q us ds iu id → ∀ us' ds' iu' id' J', SimpleString L us' ds' iu' id' →
      sortSpinful ⟨us ++ '|' :: ds, iu ++ id, J⟩ = some ⟨us' ++ '|' :: ds', iu' ++ id', J'⟩ →
      move ⟨us' ++ '|' :: ds', iu' ++ id', J'⟩ = movedTerm swap f us' ds' iu' id' J')
    (c1 : closed sortSpinful move (s.map fun o => (o, ()))) (c2 : closed sortSpinful move d) :
    permuteFermions σ * spinfulListOp (Spec.fermionOp (2 * L)) L static = spinfulListOp (Spec.fermionOp (2 * L)) L static * permuteFermions σ ∧
      ∀ x : F → ℂ, permuteFermions σ * spinfulDrivenOp (Spec.fermionOp (2 * L)) L x dynamic =
        spinfulDrivenOp (Spec.fermionOp (2 * L)) L x dynamic * permuteFermions σ := by
  constructor
  · have hmem : ∀ op ∈ flatten (rendered static), ∃ e ∈ static, ∃ b ∈ e.2, op = ⟨e.1.1 ++ '|' :: e.1.2, b.2.1 ++ b.2.2, b.1⟩ := by
      intro op hop
      obtain ⟨e', he', hop⟩ := List.mem_flatMap.1 hop
      obtain ⟨e, he, rfl⟩ := List.mem_map.1 he'
      obtain ⟨b', hb', rfl⟩ := List.mem_map.1 hop
      obtain ⟨b, hb, rfl⟩ := List.mem_map.1 hb'
      exact ⟨e, he, b, hb, rfl⟩
    have hs : ∀ p ∈ s.map fun o => (o, ()), SortedTerm L p.1 := by
      intro p hp
      obtain ⟨o, ho, rfl⟩ := List.mem_map.1 hp
      obtain ⟨op, hop, e⟩ := forall₂_mem (mapM_forall₂ h1) ho
      obtain ⟨f, hf, b, hb, rfl⟩ := hmem op hop
      exact sorted_of (w1 f hf b hb) e
    have := spin_commutes swap hf hinj σ hσ hs ((n1 s h1).map fun a b h => (Prod.ext_iff.1 h).1) (move := move) (fun p hp us ds iu id J e h => by
      obtain ⟨o, ho, rfl⟩ := List.mem_map.1 hp
      obtain ⟨op, hop, e'⟩ := forall₂_mem (mapM_forall₂ h1) ho
      obtain ⟨g, hg, b, hb, rfl⟩ := hmem op hop
      simp only at e
      subst e
      exact hmove _ _ _ _ _ (w1 g hg b hb) (q1 g hg b hb) _ _ _ _ _ h e') c1 fun _ => 1
    simp only [List.map_map, Function.comp_def, one_smul] at this
    have e : (s.map fun o => valSpinful (Spec.fermionOp (2 * L)) L o).sum = spinfulListOp (Spec.fermionOp (2 * L)) L static := by
      rw [← rendered_simple _ _ _ w1]
      have : List.Forall₂ (fun a b => a ∈ flatten (rendered static) ∧ spinfulBasis.sort a = some b) (flatten (rendered static)) s := by
        rw [List.forall₂_and_left]
        exact ⟨fun a ha => ha, mapM_forall₂ h1⟩
      refine forall₂_sum (fun a b hab => ?_) this
      obtain ⟨f, hf, c, hc, rfl⟩ := hmem a hab.1
      exact sortSpinful_val fermionOp_exch L (simple_good (w1 f hf c hc)) hab.2
    rw [← e]
    exact this
  · intro x
    have hs : ∀ p ∈ d, SortedTerm L p.1 := by
      intro p hp
      obtain ⟨q, hq, e, -⟩ := localDynamic_mem h2 p hp
      obtain ⟨f, hf, b, hb, rfl⟩ := renderedD_mem hq
      exact sorted_of (w2 f hf b hb) e
    have := spin_commutes swap hf hinj σ hσ hs (n2 d h2) (move := move) (fun p hp us ds iu id J e h => by
      obtain ⟨q, hq, e', -⟩ := localDynamic_mem h2 p hp
      obtain ⟨g, hg, b, hb, rfl⟩ := renderedD_mem hq
      rw [e] at e' ⊢
      exact hmove _ _ _ _ _ (w2 g hg b hb) (q2 g hg b hb) _ _ _ _ _ h e') c2 x
    rw [localDynamic_sum (v := valSpinful (Spec.fermionOp (2 * L)) L) x (fun p hp r hr => ?_) h2, renderedD_sum _ _ _ _ w2] at this
    · exact this
    · obtain ⟨f, hf, b, hb, rfl⟩ := renderedD_mem hp
      exact sortSpinful_val fermionOp_exch L (simple_good (w2 f hf b hb)) hr

/-- What the exchange of the spins demands of a string `up|down`: no identities, which the check counts as fermions (`C78_fails_identity`), and the letters of one spin only or the same
sites for both spins, because the check does not exchange the sites (`C78_fails_spin_exchange`). -/
def Exchangeable (us ds : List Char) (iu id : List Nat) : Prop := 'I' ∉ us ++ ds ∧ (iu = [] ∨ id = [] ∨ iu.Perm id)

/-- Sorting keeps this, and makes the lists of sites equal. -/
theorem exchangeable_sorted {L : Nat} {us ds us' ds' : List Char} {iu id iu' id' : List Nat} {J J' : ℂ} (h : SimpleString L us ds iu id)
    (hq : Exchangeable us ds iu id) (h' : SimpleString L us' ds' iu' id')
    (e : sortSpinful ⟨us ++ '|' :: ds, iu ++ id, J⟩ = some ⟨us' ++ '|' :: ds', iu' ++ id', J'⟩) : 'I' ∉ us' ++ ds' ∧ iu' ++ id' = id' ++ iu' := by
  obtain ⟨a, b, ha, hb, e'⟩ := parts_of (nobar_of_letters fun c hc => h.letters c (by simp [hc])) h.up e
  simp only [join, Op.mk.injEq] at e'
  obtain ⟨e1, e2, -⟩ := e'
  have e4 := congrArg splitBar e1
  rw [splitBar_join _ _ (nobar_of_letters fun c hc => h'.letters c (by simp [hc])), splitBar_join _ _ (sortFermion_nobar ha)] at e4
  obtain ⟨rfl, rfl⟩ := Prod.mk.injEq .. ▸ e4
  obtain ⟨rfl, rfl⟩ := List.append_inj e2 (by rw [← sortFermion_lengths ha, h'.up])
  have perm : ∀ {s : List Char} {i : List Nat} {a : Op}, s.length = i.length → sortFermion ⟨s, i, 1⟩ = some a →
      a.str.Perm s ∧ a.indx.Perm i ∧ a.indx.Pairwise (· ≤ ·) := by
    intro s i a hl ha
    have hp := stable_fermion.perm _ _ ha
    have hs := stable_fermion.sorted _ _ ha
    have hl' := sortFermion_lengths ha
    have k1 := hp.map Prod.fst
    have k2 := hp.map Prod.snd
    simp only [letters] at k1 k2
    rw [List.map_fst_zip (by omega), List.map_fst_zip (by omega)] at k1
    rw [List.map_snd_zip (by omega), List.map_snd_zip (by omega)] at k2
    refine ⟨k1, k2, ?_⟩
    have : a.indx = (letters a).map Prod.snd := by rw [letters, List.map_snd_zip (by omega)]
    rw [this, List.pairwise_map]
    exact hs
  obtain ⟨a1, a2, a3⟩ := perm h.up ha
  obtain ⟨b1, b2, b3⟩ := perm h.down hb
  refine ⟨fun hI => hq.1 ?_, ?_⟩
  · rcases List.mem_append.1 hI with hI | hI
    · exact List.mem_append.2 (.inl (a1.mem_iff.1 hI))
    · exact List.mem_append.2 (.inr (b1.mem_iff.1 hI))
  · rcases hq.2 with k | k | k
    · rw [k] at a2; rw [a2.eq_nil]; simp
    · rw [k] at b2; rw [b2.eq_nil]; simp
    · rw [List.Perm.eq_of_pairwise (le := (· ≤ ·)) (fun x y _ _ hx hy => le_antisymm hx hy) a3 b3 (a2.trans (k.trans b2.symm))]

theorem fermions_eq {s : List Char} (h : ∀ c ∈ s, c ∈ ['I', '+', '-', 'n', 'z']) (hI : 'I' ∉ s) : fermions s = ladders s := by
  induction s with
  | nil => rfl
  | cons c s ih =>
    have := ih (fun c hc => h c (by simp [hc])) (fun hc => hI (by simp [hc]))
    have hc := h c (by simp)
    have hn : c ≠ 'I' := fun e => hI (by simp [e])
    simp only [List.mem_cons, List.not_mem_nil, or_false] at hc
    unfold fermions ladders at this ⊢
    rcases hc with rfl | rfl | rfl | rfl | rfl
    · exact absurd rfl hn
    · simp at this ⊢; omega
    · simp at this ⊢; omega
    · simp at this ⊢; omega
    · simp at this ⊢; omega

/-- The chain of spinful fermions: an accepted list without repeated terms has the translation by the unit cell and the reflection, which keep the spins, and the
exchange of the spins if the terms are `Exchangeable`; at all values of the drives.
Missing: lists with repeated or split terms, the exchange of the spins of other terms, where the check is wrong (`C78_fails_spin_exchange`, `C78_fails_identity`), and the exchange of the
spins with reflection, where the check is wrong (`C78_fails_spin_reflection`). -/
theorem C78_spinful_partial {F : Type} (L : Nat) (hL : 0 < L) (key : Keys) (ha : 0 < key.a ∧ key.a ∣ L)
    (static : List ((List Char × List Char) × List (ℂ × List Nat × List Nat))) (dynamic : List ((List Char × List Char) × List (ℂ × List Nat × List Nat) × F))
    (w1 : ∀ e ∈ static, ∀ b ∈ e.2, SimpleString L e.1.1 e.1.2 b.2.1 b.2.2) (w2 : ∀ e ∈ dynamic, ∀ b ∈ e.2.1, SimpleString L e.1.1 e.1.2 b.2.1 b.2.2)
    (n1 : DistinctStatic spinfulBasis (rendered static)) (n2 : DistinctDriven spinfulBasis (renderedD dynamic))
    (h : acceptsSpinful L key (rendered static) (renderedD dynamic)) (σ : Equiv.Perm (Fin (2 * L)))
    (hσ : (key.k = true ∧ ∀ down, ∀ (i : Nat) (hi : i < L), (σ ⟨orbital L down i, orbital_lt down hi⟩ : Nat) = orbital L down ((i + key.a) % L)) ∨
      (key.p = true ∧ ∀ down, ∀ (i : Nat) (hi : i < L), (σ ⟨orbital L down i, orbital_lt down hi⟩ : Nat) = orbital L down (L - 1 - i)) ∨
      (key.z = true ∧ (∀ down, ∀ (i : Nat) (hi : i < L), (σ ⟨orbital L down i, orbital_lt down hi⟩ : Nat) = orbital L (!down) i) ∧
        (∀ e ∈ static, ∀ b ∈ e.2, Exchangeable e.1.1 e.1.2 b.2.1 b.2.2) ∧ ∀ e ∈ dynamic, ∀ b ∈ e.2.1, Exchangeable e.1.1 e.1.2 b.2.1 b.2.2)) :
    permuteFermions σ * spinfulListOp (Spec.fermionOp (2 * L)) L static = spinfulListOp (Spec.fermionOp (2 * L)) L static * permuteFermions σ ∧
      ∀ x : F → ℂ, permuteFermions σ * spinfulDrivenOp (Spec.fermionOp (2 * L)) L x dynamic =
        spinfulDrivenOp (Spec.fermionOp (2 * L)) L x dynamic * permuteFermions σ := by
  obtain ⟨s, d, h1, h2, ct, cp, cz, -⟩ := h
  rcases hσ with ⟨hk, hσ⟩ | ⟨hk, hσ⟩ | ⟨hk, hσ, q1, q2⟩
  · obtain ⟨m, hm⟩ := ha.2
    have hm0 : 0 < m := by rcases Nat.eq_zero_or_pos m with rfl | h <;> [simp at hm; exact h]; omega
    have hd : L / key.a = m := by rw [hm]; exact Nat.mul_div_cancel_left m ha.1
    have hi : 1 % m < L / key.a := by rw [hd]; exact Nat.mod_lt _ hm0
    have hstep : ∀ j, (j + 1 % m * key.a) % L = (j + key.a) % L := by
      intro j
      rcases Nat.lt_or_ge 1 m with h | h
      · rw [Nat.mod_eq_of_lt h, one_mul]
      · obtain rfl : m = 1 := by omega
        rw [Nat.mod_self, hm]
        simp
    refine spinful_symmetry false (f := fun j => (j + key.a) % L) (fun i _ => Nat.mod_lt _ hL) (fun i hi j hj e => ?_) σ (by simpa using hσ) w1 w2 n1 n2 h1 h2
      (fun _ _ _ _ => True) (by simp) (by simp) ?_ (ct _ hi hk).1 (ct _ hi hk).2
    · have := Nat.ModEq.add_right_cancel' key.a (show i + key.a ≡ j + key.a [MOD L] from e)
      rwa [Nat.ModEq, Nat.mod_eq_of_lt hi, Nat.mod_eq_of_lt hj] at this
    · intro us ds iu id J _ _ us' ds' iu' id' J' _ _
      simp only [moveT, movedTerm, hstep, Bool.false_eq_true, if_false, List.map_append]
  · refine spinful_symmetry false (f := fun j => L - 1 - j) (fun i _ => by omega) (fun i hi j hj e => by omega) σ (by simpa using hσ) w1 w2 n1 n2 h1 h2
      (fun _ _ _ _ => True) (by simp) (by simp) ?_ (cp hk).1 (cp hk).2
    intro us ds iu id J _ _ us' ds' iu' id' J' h' _
    simp only [moveP, movedTerm, Bool.false_eq_true, if_false, ← List.map_append]
    congr 1
    refine List.map_congr_left fun j hj => ?_
    have := h'.range j hj
    rw [Int.emod_eq_of_lt (by omega) (by omega)]
    omega
  · refine spinful_symmetry true (f := fun j => j) (fun i hi => hi) (fun i hi j hj e => e) σ (by simpa using hσ) w1 w2 n1 n2 h1 h2 Exchangeable q1 q2 ?_ (cz hk).1 (cz hk).2
    intro us ds iu id J h hq us' ds' iu' id' J' h' e
    obtain ⟨hI, hi⟩ := exchangeable_sorted h hq h' e
    have hu : '|' ∉ us' := nobar_of_letters fun c hc => h'.letters c (by simp [hc])
    simp only [moveSpin, movedTerm, if_true, splitBar_join _ _ hu, List.map_id', hi]
    rw [fermions_eq (fun c hc => h'.letters c (by simp [hc])) (fun hc => hI (by simp [hc])),
      fermions_eq (fun c hc => h'.letters c (by simp [hc])) (fun hc => hI (by simp [hc])), Nat.mul_comm]

/-- Repulsion, a spin flip and a potential for both spins on two sites are accepted with translation, reflection and exchange of the spins. -/
example :
    let static : List ((List Char × List Char) × List (ℂ × List Nat × List Nat)) := [((['n'], ['n']), [(1, [0], [0]), (1, [1], [1])]),
      ((['+'], ['-']), [(2, [0], [0]), (2, [1], [1])]), ((['-'], ['+']), [(-2, [0], [0]), (-2, [1], [1])]),
      ((['n'], []), [(3, [0], []), (3, [1], [])]), (([], ['n']), [(3, [], [0]), (3, [], [1])])]
    acceptsSpinful (F := Unit) 2 ⟨true, true, true, false, false, false, 1⟩ (rendered static) (renderedD []) ∧ DistinctStatic spinfulBasis (rendered static) ∧
    (∀ e ∈ static, ∀ b ∈ e.2, SimpleString 2 e.1.1 e.1.2 b.2.1 b.2.2) ∧ ∀ e ∈ static, ∀ b ∈ e.2, Exchangeable e.1.1 e.1.2 b.2.1 b.2.2 := by
  intro static
  have h1 : localList spinfulBasis (rendered static) = some [⟨['n', '|', 'n'], [0, 0], 1⟩, ⟨['n', '|', 'n'], [1, 1], 1⟩, ⟨['+', '|', '-'], [0, 0], 2⟩,
      ⟨['+', '|', '-'], [1, 1], 2⟩, ⟨['-', '|', '+'], [0, 0], -2⟩, ⟨['-', '|', '+'], [1, 1], -2⟩, ⟨['n', '|'], [0], 3⟩, ⟨['n', '|'], [1], 3⟩,
      ⟨['|', 'n'], [0], 3⟩, ⟨['|', 'n'], [1], 3⟩] := by
    simp [static, localList, rendered, flatten, spinfulBasis, sortSpinful, barred, splitBar, leftPart, rightPart, Model.OpStr.join, sortFermion, bubble, sweep]
  refine ⟨⟨_, [], h1, rfl, fun i hi _ => ⟨?_, by intro p hp; simp at hp⟩, fun _ => ⟨?_, by intro p hp; simp at hp⟩, fun _ => ⟨?_, by intro p hp; simp at hp⟩,
    by simp⟩, ?_, ?_, ?_⟩
  · have : i = 0 ∨ i = 1 := by simp at hi; omega
    rcases this with rfl | rfl <;>
      simp [closed, moveT, sortSpinful, barred, splitBar, leftPart, rightPart, Model.OpStr.join, sortFermion, bubble, sweep]
  · simp [closed, moveP, sortSpinful, barred, splitBar, leftPart, rightPart, Model.OpStr.join, sortFermion, bubble, sweep]
  · simp [closed, moveSpin, fermions, sortSpinful, barred, splitBar, leftPart, rightPart, Model.OpStr.join, sortFermion, bubble, sweep]
  · intro s hs
    rw [h1] at hs
    cases hs
    simp
  · intro e he b hb
    simp only [static, List.mem_cons, List.not_mem_nil, or_false] at he
    rcases he with rfl | rfl | rfl | rfl | rfl <;> simp only [List.mem_cons, List.not_mem_nil, or_false] at hb <;> rcases hb with rfl | rfl <;>
      exact ⟨by decide, rfl, rfl, by decide⟩
  · intro e he b hb
    simp only [static, List.mem_cons, List.not_mem_nil, or_false] at he
    rcases he with rfl | rfl | rfl | rfl | rfl <;> simp only [List.mem_cons, List.not_mem_nil, or_false] at hb <;> rcases hb with rfl | rfl <;>
      exact ⟨by decide, by decide⟩

theorem fermionOp_identity {N i : Nat} (h : i < N) : Spec.fermionOp N 'I' i = 1 := by
  unfold Spec.fermionOp
  rw [dif_pos h]
  ext t s
  show onSite (spinHalf 'I') ⟨i, h⟩ t s = _
  unfold onSite
  rw [Matrix.one_apply]
  by_cases e : t = s
  · subst e; simp [spinHalf]
  · rw [if_neg e]
    split
    · rename_i h'
      have : t ⟨i, h⟩ ≠ s ⟨i, h⟩ := by
        intro h2
        exact e (funext fun j => if hj : j = ⟨i, h⟩ then hj ▸ h2 else h' j hj)
      simp only [spinHalf]
      rw [if_neg fun h3 => this (Fin.ext h3)]
    · rfl

/-- The check of the spin exchange counts the letter `I` as a fermion: the spin flip on site 0 written with identities on site 1 has the symmetry, but is rejected. -/
theorem C78_fails_identity (J : ℂ) (hJ : J ≠ 0) :
    ¬acceptsSpinful (F := Unit) 2 ⟨false, false, true, false, false, false, 1⟩
      (rendered [((['+', 'I'], ['-', 'I']), [(J, [0, 1], [0, 1])]), ((['-', 'I'], ['+', 'I']), [(-J, [0, 1], [0, 1])])]) [] ∧
    permuteFermions (Equiv.addRight (2 : Fin (2 * 2))) *
        spinfulListOp (Spec.fermionOp (2 * 2)) 2 [((['+', 'I'], ['-', 'I']), [(J, [0, 1], [0, 1])]), ((['-', 'I'], ['+', 'I']), [(-J, [0, 1], [0, 1])])] =
      spinfulListOp (Spec.fermionOp (2 * 2)) 2 [((['+', 'I'], ['-', 'I']), [(J, [0, 1], [0, 1])]), ((['-', 'I'], ['+', 'I']), [(-J, [0, 1], [0, 1])])] *
        permuteFermions (Equiv.addRight (2 : Fin (2 * 2))) := by
  constructor
  · rintro ⟨s, d, hs, -, -, -, h, -⟩
    have h1 : localList spinfulBasis (rendered [((['+', 'I'], ['-', 'I']), [(J, [0, 1], [0, 1])]), ((['-', 'I'], ['+', 'I']), [(-J, [0, 1], [0, 1])])]) =
        some [⟨['+', 'I', '|', '-', 'I'], [0, 1, 0, 1], J⟩, ⟨['-', 'I', '|', '+', 'I'], [0, 1, 0, 1], -J⟩] := by
      simp [rendered, localList, flatten, spinfulBasis, sortSpinful, barred, splitBar, leftPart, rightPart, join, sortFermion, bubble, sweep]
    rw [h1] at hs
    cases hs
    have h2 := (h rfl).1
    simp [closed, moveSpin, fermions, sortSpinful, barred, splitBar, leftPart, rightPart, join, sortFermion, bubble, sweep] at h2
    exact hJ (by linear_combination (1 / 2 : ℂ) * h2.1)
  · have e : spinfulListOp (Spec.fermionOp (2 * 2)) 2 [((['+', 'I'], ['-', 'I']), [(J, [0, 1], [0, 1])]), ((['-', 'I'], ['+', 'I']), [(-J, [0, 1], [0, 1])])] =
        spinfulListOp (Spec.fermionOp (2 * 2)) 2 [((['+'], ['-']), [(J, [0], [0])]), ((['-'], ['+']), [(-J, [0], [0])])] := by
      have e1 : Spec.fermionOp 4 'I' 1 = 1 := fermionOp_identity (by omega)
      have e3 : Spec.fermionOp 4 'I' 3 = 1 := fermionOp_identity (by omega)
      simp [spinfulListOp, spinfulTerm, opWord, e1, e3]
    rw [e]
    have hl : localList spinfulBasis (rendered [((['+'], ['-']), [(J, [0], [0])]), ((['-'], ['+']), [(-J, [0], [0])])]) =
        some [⟨['+', '|', '-'], [0, 0], J⟩, ⟨['-', '|', '+'], [0, 0], -J⟩] := by
      simp [rendered, localList, flatten, spinfulBasis, sortSpinful, barred, splitBar, leftPart, rightPart, join, sortFermion, bubble, sweep]
    refine (C78_spinful_partial (F := Unit) 2 (by omega) ⟨false, false, true, false, false, false, 1⟩ ⟨by decide, by decide⟩ _ [] ?_ (by simp) ?_ ?_
      (C78_spin_flip 2 0 J).1 _ (Or.inr (Or.inr ⟨rfl, ?_, ?_, by simp⟩))).1
    · intro e he b hb
      simp only [List.mem_cons, List.not_mem_nil, or_false] at he
      rcases he with rfl | rfl <;> simp only [List.mem_cons, List.not_mem_nil, or_false] at hb <;> subst hb <;> exact ⟨by simp, rfl, rfl, by simp⟩
    · intro s hs
      rw [hl] at hs
      cases hs
      simp
    · intro s hs
      cases hs
      simp
    · decide
    · intro e he b hb
      simp only [List.mem_cons, List.not_mem_nil, or_false] at he
      rcases he with rfl | rfl <;> simp only [List.mem_cons, List.not_mem_nil, or_false] at hb <;> subst hb <;> exact ⟨by simp, by simp⟩

example : Complex.I ≠ 0 := Complex.I_ne_zero

end Props
