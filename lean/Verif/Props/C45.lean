import Verif.Proof.FermionMaps
import Verif.Proof.Fermion
import Verif.Model.Reduced
import Verif.Props.C05
import Verif.Props.C36
/-!
C45  Fermionic symmetry maps act as operators with the right sign.
C47  Accepted fermionic maps that commute form, with their signs, a symmetry group with the periods used.

`Model.fermionMapBits w N map s sign` is the image and the sign the library computes for the integer state
`s`.  `Spec.permuteFermions σ` is the operator that moves every fermion from site `i` to site `σ i`.
Spinful bases use the same code on `2N` sites.
-/
namespace Props
open Spec Model Proof.Maps Proof.Period Proof.FermionMaps Proof.Ops

/-- Every map: the integer is the image of the configuration, and the sign is the sign of moving the fermions
times `-1` for each occupied inverted site with odd index. -/
theorem C45_sign (w N : Nat) (hN : N ≤ w) (map : List Int) (h : IsSiteMap N map) (s : Nat) (sign : Int) :
    IsImage 2 N map s (fermionMapBits w N map s sign).1 ∧
      (fermionMapBits w N map s sign).2 = sign * fermionMapSign N map s := by
  rw [fermionMapBits_eq w N map h]
  exact ⟨C05_image_loop w N hN map h s, rfl⟩

/-! ### site permutations -/

/-- column `s` of `M` is `m` times configuration `r` -/
def ColC {N : Nat} (M : Matrix (Conf 2 N) (Conf 2 N) ℂ) (s r : Conf 2 N) (m : ℂ) : Prop := ∀ t, M t s = if t = r then m else 0

theorem ColC.mul {N : Nat} {M P : Matrix (Conf 2 N) (Conf 2 N) ℂ} {s r r' : Conf 2 N} {m c : ℂ}
    (hP : ColC P s r m) (hM : ColC M r r' c) : ColC (M * P) s r' (m * c) := by
  intro t
  rw [Matrix.mul_apply]
  simp only [hP _]
  simp only [mul_ite, mul_zero, Finset.sum_ite_eq', Finset.mem_univ, if_true]
  rw [hM t]; split <;> ring

theorem ColC.eq {N : Nat} {M P : Matrix (Conf 2 N) (Conf 2 N) ℂ} {s r r' : Conf 2 N} {m m' : ℂ}
    (hP : ColC P s r m) (hM : ColC M s r' m') (hr : m ≠ 0 → r = r') (hm : m = m') (t : Conf 2 N) : P t s = M t s := by
  rw [hP t, hM t, ← hm]
  by_cases h0 : m = 0
  · simp [h0]
  · rw [hr h0]

/-- occupied sites -/
def occ1 {N : Nat} (s : Conf 2 N) : Finset (Fin N) := Finset.univ.filter fun i => s i = 1

theorem col_permute {N : Nat} (σ : Equiv.Perm (Fin N)) (s : Conf 2 N) :
    ColC (permuteFermions σ) s (s ∘ σ.symm) (reorderSign σ (occ1 s)) := by
  intro t
  unfold permuteFermions
  have : (∀ i, t (σ i) = s i) ↔ t = s ∘ σ.symm := by
    constructor
    · intro h; funext j
      have := h (σ.symm j)
      simpa using this
    · rintro rfl i; simp
  by_cases h : t = s ∘ σ.symm
  · rw [if_pos (this.2 h), if_pos h]; rfl
  · rw [if_neg (fun hc => h (this.1 hc)), if_neg h]

theorem parity_occ {N : Nat} (s : Conf 2 N) (i : Fin N) :
    parityAfter s i = ∏ j ∈ occ1 s, if i < j then (-1 : Int) else 1 := by
  unfold parityAfter occ1
  rw [← List.ofFn_eq_map, List.prod_ofFn, Finset.prod_filter]
  apply Finset.prod_congr rfl
  intro j _
  by_cases h1 : i < j <;> by_cases h2 : s j = 1 <;> simp [h1, h2]

theorem fin2 (x : Fin 2) : x = 0 ∨ x = 1 := by revert x; decide

theorem col_create {N : Nat} (s : Conf 2 N) (i : Fin N) :
    ColC (fermion '+' i) s (Function.update s i 1) (if s i = 0 then (parityAfter s i : ℂ) else 0) := by
  intro t
  show (parityAfter s i : ℂ) * onSite (spinHalf '+') i t s = _
  unfold onSite
  by_cases h : t = Function.update s i 1
  · subst h
    rw [if_pos (by intro j hj; simp [hj]), if_pos rfl]
    rcases fin2 (s i) with h' | h' <;> simp [spinHalf, h']
  · rw [if_neg h]
    by_cases h2 : ∀ j, j ≠ i → t j = s j
    · rw [if_pos h2]
      have : t i ≠ 1 := by
        intro hc
        apply h
        funext j
        by_cases hj : j = i
        · subst hj; simp [hc]
        · rw [h2 j hj]; simp [hj]
      have h3 : t i = 0 := (fin2 (t i)).resolve_right this
      simp [spinHalf, h3]
    · rw [if_neg h2, mul_zero]

theorem col_destroy {N : Nat} (s : Conf 2 N) (i : Fin N) :
    ColC (fermion '-' i) s (Function.update s i 0) (if s i = 1 then (parityAfter s i : ℂ) else 0) := by
  intro t
  show (parityAfter s i : ℂ) * onSite (spinHalf '-') i t s = _
  unfold onSite
  by_cases h : t = Function.update s i 0
  · subst h
    rw [if_pos (by intro j hj; simp [hj]), if_pos rfl]
    rcases fin2 (s i) with h' | h' <;> simp [spinHalf, h']
  · rw [if_neg h]
    by_cases h2 : ∀ j, j ≠ i → t j = s j
    · rw [if_pos h2]
      have : t i ≠ 0 := by
        intro hc
        apply h
        funext j
        by_cases hj : j = i
        · subst hj; simp [hc]
        · rw [h2 j hj]; simp [hj]
      have h3 : t i = 1 := (fin2 (t i)).resolve_left this
      simp [spinHalf, h3]
    · rw [if_neg h2, mul_zero]

theorem col_diag {N : Nat} (o : Char) (ho : o = 'n' ∨ o = 'z' ∨ o = 'I') (s : Conf 2 N) (i : Fin N) :
    ColC (fermion o i) s s (spinHalf o (s i) (s i)) := by
  have hf : fermion o i = onSite (spinHalf o) i := by rcases ho with rfl | rfl | rfl <;> rfl
  have hd : ∀ a c : Nat, a ≠ c → spinHalf o a c = 0 := by
    intro a c hac
    rcases ho with rfl | rfl | rfl <;> simp [spinHalf, hac]
  intro t
  rw [hf]
  unfold onSite
  by_cases h : t = s
  · subst h; simp
  · rw [if_neg h]
    by_cases h2 : ∀ j, j ≠ i → t j = s j
    · rw [if_pos h2]
      apply hd
      intro hc
      apply h
      funext j
      by_cases hj : j = i
      · subst hj; exact Fin.ext hc
      · exact h2 j hj
    · rw [if_neg h2]

theorem occ1_update_one {N : Nat} (s : Conf 2 N) (i : Fin N) : occ1 (Function.update s i 1) = insert i (occ1 s) := by
  ext j
  unfold occ1
  by_cases hj : j = i
  · subst hj; simp
  · simp [hj]

theorem occ1_comp {N : Nat} (σ : Equiv.Perm (Fin N)) (s : Conf 2 N) : occ1 (s ∘ σ.symm) = (occ1 s).image σ := by
  ext j
  unfold occ1
  simp only [Finset.mem_filter, Finset.mem_univ, true_and, Finset.mem_image, Function.comp]
  constructor
  · intro h; exact ⟨σ.symm j, h, by simp⟩
  · rintro ⟨i, h, rfl⟩; simpa using h

/-- adding a fermion on an empty site: the two signs agree -/
theorem sign_step {N : Nat} (σ : Equiv.Perm (Fin N)) (s : Conf 2 N) (i : Fin N) (hi : s i = 0) :
    parityAfter s i * reorderSign σ (occ1 (Function.update s i 1)) =
      reorderSign σ (occ1 s) * parityAfter (s ∘ σ.symm) (σ i) := by
  have hni : i ∉ occ1 s := by simp [occ1, hi]
  rw [occ1_update_one, reorder_insert _ _ _ hni, parity_occ, parity_occ, occ1_comp,
    Finset.prod_image (fun a _ b _ h => σ.injective h)]
  have : ∏ j ∈ occ1 s, (if σ i < σ j then (-1 : Int) else 1)
      = (∏ j ∈ occ1 s, if i < j then (-1 : Int) else 1) * ∏ j ∈ occ1 s, pairSign σ i j := by
    rw [← Finset.prod_mul_distrib]
    apply Finset.prod_congr rfl
    intro j hj
    have hne : i ≠ j := fun h => hni (h ▸ hj)
    rw [pair_after σ i j hne (fun h => hne (σ.injective h))]
  rw [this]
  ring

/-- Moving the fermions intertwines the operators on site `i` with those on site `σ i`. -/
theorem C45_intertwines {N : Nat} (σ : Equiv.Perm (Fin N)) (o : Char) (ho : o ∈ ['+', '-', 'n', 'z', 'I']) (i : Fin N) :
    permuteFermions σ * fermion o i = fermion o (σ i) * permuteFermions σ := by
  have hup : ∀ (s : Conf 2 N) (c : Fin 2), Function.update s i c ∘ σ.symm = Function.update (s ∘ σ.symm) (σ i) c := by
    intro s c
    funext j
    by_cases hj : j = σ i
    · subst hj; simp
    · have : σ.symm j ≠ i := fun h => hj (by rw [← h]; simp)
      simp [this, hj]
  simp only [List.mem_cons, List.not_mem_nil, or_false] at ho
  have hdiag : (o = 'n' ∨ o = 'z' ∨ o = 'I') → permuteFermions σ * fermion o i = fermion o (σ i) * permuteFermions σ := by
    intro h
    ext t s
    refine ColC.eq ((col_diag o h s i).mul (col_permute σ s)) ((col_permute σ s).mul (col_diag o h _ (σ i))) (fun _ => rfl) ?_ t
    simp [mul_comm]
  rcases ho with rfl | rfl | h | h | h
  · ext t s
    refine ColC.eq ((col_create s i).mul (col_permute σ _)) ((col_permute σ s).mul (col_create _ (σ i))) (fun _ => hup s 1) ?_ t
    have : (s ∘ σ.symm) (σ i) = s i := by simp
    rw [this]
    by_cases h : s i = 0
    · rw [if_pos h, if_pos h]
      exact_mod_cast sign_step σ s i h
    · rw [if_neg h, if_neg h]; simp
  · ext t s
    refine ColC.eq ((col_destroy s i).mul (col_permute σ _)) ((col_permute σ s).mul (col_destroy _ (σ i))) (fun _ => hup s 0) ?_ t
    have : (s ∘ σ.symm) (σ i) = s i := by simp
    rw [this]
    by_cases h : s i = 1
    · rw [if_pos h, if_pos h]
      -- compare with adding the fermion back
      have hs : s = Function.update (Function.update s i 0) i 1 := by
        funext j
        by_cases hj : j = i
        · subst hj; simp [h]
        · simp [hj]
      have hp : ∀ (u : Conf 2 N) (k : Fin N) (c : Fin 2), parityAfter (Function.update u k c) k = parityAfter u k := by
        intro u k c
        unfold parityAfter
        congr 1
        apply List.map_congr_left
        intro j _
        by_cases hj : j = k
        · subst hj; simp
        · simp [hj]
      have key := sign_step σ (Function.update s i 0) i (by simp)
      rw [← hs, hp, hup, hp] at key
      have sq : ∀ (u : Conf 2 N) (k : Fin N), parityAfter u k * parityAfter u k = 1 := by
        intro u k
        rw [parity_occ, ← Finset.prod_mul_distrib]
        apply Finset.prod_eq_one
        intro j _
        split <;> simp
      have : parityAfter s i * reorderSign σ (occ1 (Function.update s i 0)) =
          reorderSign σ (occ1 s) * parityAfter (s ∘ σ.symm) (σ i) := by
        have h1 := congrArg (fun z => parityAfter s i * z * parityAfter (s ∘ σ.symm) (σ i)) key
        calc _ = parityAfter s i * (reorderSign σ (occ1 (Function.update s i 0)) * parityAfter (s ∘ σ.symm) (σ i)) * parityAfter (s ∘ σ.symm) (σ i) := by
              rw [mul_assoc, mul_assoc, sq, mul_one]
          _ = parityAfter s i * (parityAfter s i * reorderSign σ (occ1 s)) * parityAfter (s ∘ σ.symm) (σ i) := h1.symm
          _ = _ := by rw [← mul_assoc, sq, one_mul]
      exact_mod_cast this
    · rw [if_neg h, if_neg h]; simp
  · exact hdiag (.inl h)
  · exact hdiag (.inr (.inl h))
  · exact hdiag (.inr (.inr h))

/-- Hence whole operator strings are moved site by site. -/
theorem C45_intertwines_strings {N : Nat} (σ : Equiv.Perm (Fin N)) : ∀ (str : List (Char × Fin N)),
    (∀ p ∈ str, p.1 ∈ ['+', '-', 'n', 'z', 'I']) →
    permuteFermions σ * stringOp fermion str = stringOp fermion (str.map fun p => (p.1, σ p.2)) * permuteFermions σ
  | [], _ => by simp [stringOp]
  | p :: str, h => by
    have ih := C45_intertwines_strings σ str (fun q hq => h q (by simp [hq]))
    unfold stringOp at ih ⊢
    simp only [List.map_cons, List.prod_cons]
    rw [← Matrix.mul_assoc, C45_intertwines σ p.1 (h p (by simp)), Matrix.mul_assoc, ih, Matrix.mul_assoc]

/-- The vacuum is left alone. -/
theorem C45_vacuum {N : Nat} (σ : Equiv.Perm (Fin N)) (t : Conf 2 N) :
    permuteFermions σ t (fun _ => 0) = if t = fun _ => 0 then 1 else 0 := by
  have h := col_permute σ (fun _ => 0) t
  have h1 : occ1 (fun _ : Fin N => (0 : Fin 2)) = ∅ := by ext j; simp [occ1]
  rw [h, h1]
  simp [reorderSign, Function.comp_def]

/-- Products of permutations are products of operators. -/
theorem C45_product {N : Nat} (σ τ : Equiv.Perm (Fin N)) :
    permuteFermions (τ * σ) = permuteFermions τ * permuteFermions σ := by
  ext t s
  refine ColC.eq (col_permute (τ * σ) s) ((col_permute σ s).mul (col_permute τ _)) (fun _ => ?_) ?_ t
  · funext j
    simp [Equiv.Perm.mul_def]
  · rw [occ1_comp]
    have := reorder_comp σ τ (occ1 s) (fun a _ b _ h => σ.injective h) (fun a _ b _ h => τ.injective h)
    rw [mul_comm]
    exact_mod_cast this.symm

/-- transfer between sites as numbers and as `Fin N` -/
theorem reorder_fin {N : Nat} (σ : Fin N → Fin N) (d : Nat → Nat) (hd : ∀ i : Fin N, d i = σ i) (O : Finset (Fin N)) :
    reorderSign d (O.map Fin.valEmbedding) = reorderSign σ O := by
  unfold reorderSign
  rw [Finset.prod_map]
  apply Finset.prod_congr rfl
  intro j _
  rw [Finset.prod_map]
  apply Finset.prod_congr rfl
  intro k _
  simp only [Fin.valEmbedding_apply, hd, Fin.val_fin_lt]

theorem occupied_fin (N s : Nat) : occupied N s = (occ1 (conf 2 N s)).map Fin.valEmbedding := by
  ext j
  unfold occupied occ1 conf
  simp only [Finset.mem_filter, Finset.mem_range, Finset.mem_map, Finset.mem_univ, true_and, Fin.valEmbedding_apply]
  constructor
  · rintro ⟨h1, h2⟩; exact ⟨⟨j, h1⟩, by apply Fin.ext; simpa using h2, rfl⟩
  · rintro ⟨i, h1, rfl⟩
    refine ⟨i.2, ?_⟩
    have := congrArg Fin.val h1
    simpa using this

/-- A map without inversions: column `s` of the operator that moves the fermions is what the library computes. -/
theorem C45_permutation (w N : Nat) (hN : N ≤ w) (map : List Int) (h : IsSiteMap N map)
    (hpos : ∀ i < N, inverts map i = false) (σ : Equiv.Perm (Fin N)) (hσ : ∀ i : Fin N, (σ i : Nat) = dest map i)
    (s : Nat) (sign : Int) :
    ∀ t, (sign : ℂ) * permuteFermions σ t (conf 2 N s) =
      if t = conf 2 N (fermionMapBits w N map s sign).1 then ((fermionMapBits w N map s sign).2 : ℂ) else 0 := by
  intro t
  obtain ⟨hi, hs⟩ := C45_sign w N hN map h s sign
  have hconf : conf 2 N s ∘ σ.symm = conf 2 N (fermionMapBits w N map s sign).1 := by
    funext j
    have := hi.occ (σ.symm j) (σ.symm j).2
    rw [hpos _ (σ.symm j).2, ← hσ] at this
    apply Fin.ext
    simp only [conf, Function.comp]
    rw [Equiv.apply_symm_apply] at this
    rw [this]; rfl
  rw [col_permute σ (conf 2 N s) t, hconf, hs]
  have hsg : fermionMapSign N map s = reorderSign σ (occ1 (conf 2 N s)) := by
    unfold fermionMapSign
    rw [occupied_fin, reorder_fin σ (dest map) (fun i => (hσ i).symm), Finset.prod_eq_one, mul_one]
    intro i hi
    rw [Finset.mem_map] at hi
    obtain ⟨k, _, rfl⟩ := hi
    rw [Fin.valEmbedding_apply, hpos k k.2]; simp
  rw [hsg]
  split <;> simp

/-- Non-vacuity: every map of `N` sites has its permutation. -/
theorem C45_permutation_exists (N : Nat) (map : List Int) (h : IsSiteMap N map) :
    ∃ σ : Equiv.Perm (Fin N), ∀ i : Fin N, (σ i : Nat) = dest map i := by
  let f : Fin N → Fin N := fun i => ⟨dest map i, h.range i i.2⟩
  have hf : Function.Injective f := by
    intro i j he
    simp only [f, Fin.mk.injEq] at he
    exact Fin.ext (h.inj i i.2 j j.2 he)
  exact ⟨Equiv.ofBijective f (Finite.injective_iff_bijective.1 hf), fun i => rfl⟩

/-- The symmetry the fermionic bases make of an accepted map. -/
def fermionGenerator (w N : Nat) (map : List Int) (p : Nat) (q : Int) : Generator :=
  { img := fun s => (fermionMapBits w N map s 1).1, sgn := fun s => (fermionMapBits w N map s 1).2, per := p, q := q }

theorem occupied_image {N : Nat} {map : List Int} (h : IsSiteMap N map) (hpos : ∀ i < N, inverts map i = false) {s t : Nat}
    (ht : IsImage 2 N map s t) : occupied N t = (occupied N s).image (dest map) := by
  ext j
  unfold occupied
  simp only [Finset.mem_filter, Finset.mem_range, Finset.mem_image]
  constructor
  · rintro ⟨h1, h2⟩
    obtain ⟨i, hi, rfl⟩ := dest_surj h j h1
    refine ⟨i, ⟨hi, ?_⟩, rfl⟩
    rw [ht.occ i hi, hpos i hi] at h2
    simpa [flipIf] using h2
  · rintro ⟨i, ⟨hi, h2⟩, rfl⟩
    refine ⟨h.range i hi, ?_⟩
    rw [ht.occ i hi, hpos i hi]
    simpa [flipIf] using h2

theorem sign_perm {N : Nat} {map : List Int} (hpos : ∀ i < N, inverts map i = false) (s : Nat) :
    fermionMapSign N map s = reorderSign (dest map) (occupied N s) := by
  unfold fermionMapSign
  rw [Finset.prod_eq_one, mul_one]
  intro i hi
  have : i < N := by simp [occupied] at hi; exact hi.1
  rw [hpos i this]; simp

/-- Accepted maps without inversions that commute pairwise act, with their signs, as symmetries in the sense of
C07, C08, C09, C13 and C42.  Each item is (map, period, quantum number).  Full statement: all accepted maps;
with inversions it is false (`C47_particle_hole_square`, `C47_translation_particle_hole`). -/
theorem C47_acts_partial (w N : Nat) (hN : N ≤ w) (items : List (List Int × Nat × Int))
    (hlen : ∀ x ∈ items, x.1.length = N) (hpos : ∀ x ∈ items, ∀ i < N, inverts x.1 i = false)
    (hper : ∀ x ∈ items, ∃ fuel, processMap fuel x.1 = some (.ok x.2.1))
    (hcomm : ∀ x ∈ items, ∀ y ∈ items, MapsCommute 2 N x.1 y.1) :
    Acts (· < 2 ^ N) (items.map fun x => fermionGenerator w N x.1 x.2.1 x.2.2) := by
  have hmap : ∀ x ∈ items, IsSiteMap N x.1 := by
    intro x hx
    obtain ⟨fuel, hp⟩ := hper x hx
    by_contra hc
    rw [← hlen x hx] at hc
    rw [(C36_refused_iff fuel x.1).2 hc] at hp
    simp at hp
  have hordT : ∀ x ∈ items, 0 < x.2.1 ∧ Proof.Period.Trivial N x.1 x.2.1 := by
    intro x hx
    obtain ⟨fuel, hp⟩ := hper x hx
    have h := C36_period_is_order fuel x.1 x.2.1 2 (by omega) hp (bosonMapBits w 2 N x.1) (by
      rw [hlen x hx]; intro s _
      exact C06_image w 2 N (by omega) (Nat.pow_le_pow_right (by omega) hN) x.1 (hmap x hx) s)
    rw [hlen x hx] at h
    refine ⟨h.1, (iterate_id_iff (b := 2) (by omega) (bosonMapBits w 2 N x.1) ?_ (hmap x hx) _).1 h.2.1⟩
    intro s _
    exact C06_image w 2 N (by omega) (Nat.pow_le_pow_right (by omega) hN) x.1 (hmap x hx) s
  have himg : ∀ x ∈ items, ∀ s, IsImage 2 N x.1 s (fermionMapBits w N x.1 s 1).1 := fun x hx s =>
    (C45_sign w N hN x.1 (hmap x hx) s 1).1
  have hsgn : ∀ x ∈ items, ∀ s, (fermionMapBits w N x.1 s 1).2 = reorderSign (dest x.1) (occupied N s) := by
    intro x hx s
    rw [(C45_sign w N hN x.1 (hmap x hx) s 1).2, one_mul, sign_perm (hpos x hx)]
  have hinjO : ∀ x ∈ items, ∀ s, Set.InjOn (dest x.1) (occupied N s) := by
    intro x hx s a ha b hb he
    simp [occupied] at ha hb
    exact (hmap x hx).inj a ha.1 b hb.1 he
  -- two steps
  have htwo : ∀ x ∈ items, ∀ y ∈ items, ∀ s, 
      (fermionMapBits w N x.1 s 1).2 * (fermionMapBits w N y.1 (fermionMapBits w N x.1 s 1).1 1).2 =
        reorderSign (fun i => dest y.1 (dest x.1 i)) (occupied N s) := by
    intro x hx y hy s
    rw [hsgn x hx, hsgn y hy, occupied_image (hmap x hx) (hpos x hx) (himg x hx s), mul_comm]
    refine reorder_comp (dest x.1) (dest y.1) _ (hinjO x hx s) ?_
    rw [← occupied_image (hmap x hx) (hpos x hx) (himg x hx s)]
    exact hinjO y hy _
  constructor
  · intro y hy
    rw [List.mem_map] at hy
    obtain ⟨x, hx, rfl⟩ := hy
    exact (hordT x hx).1
  · intro y hy t ht
    rw [List.mem_map] at hy
    obtain ⟨x, hx, rfl⟩ := hy
    exact (himg x hx t).lt
  · intro y hy t ht
    rw [List.mem_map] at hy
    obtain ⟨x, hx, rfl⟩ := hy
    show (fermionMapBits w N x.1 t 1).2 = 1 ∨ _
    simp only [fermionGenerator, hsgn x hx]
    exact reorder_sq _ _
  · intro y hy t ht
    rw [List.mem_map] at hy
    obtain ⟨x, hx, rfl⟩ := hy
    have hit : ∀ n, ((fermionGenerator w N x.1 x.2.1 x.2.2).U^[n] (t, 1)).1 = (fermionGenerator w N x.1 x.2.1 x.2.2).img^[n] t ∧
        ((fermionGenerator w N x.1 x.2.1 x.2.2).U^[n] (t, 1)).2 = reorderSign ((dest x.1)^[n]) (occupied N t) ∧
        occupied N ((fermionGenerator w N x.1 x.2.1 x.2.2).img^[n] t) = (occupied N t).image ((dest x.1)^[n]) := by
      intro n
      induction n with
      | zero => refine ⟨rfl, ?_, by simp⟩; exact (reorder_id _).symm
      | succ n ih =>
        rw [Function.iterate_succ_apply', Function.iterate_succ_apply']
        obtain ⟨i1, i2, i3⟩ := ih
        refine ⟨?_, ?_, ?_⟩
        · show (fermionMapBits w N x.1 _ 1).1 = (fermionMapBits w N x.1 _ 1).1
          rw [i1]
        · show _ * (fermionMapBits w N x.1 _ 1).2 = _
          rw [i2, i1, hsgn x hx, i3, mul_comm]
          have hInj : Set.InjOn ((dest x.1)^[n]) (occupied N t) := by
            clear i1 i2 i3
            have : ∀ m a b, a < N → b < N → (dest x.1)^[m] a = (dest x.1)^[m] b → a = b := by
              intro m
              induction m with
              | zero => intro a b _ _ h; exact h
              | succ m ihm =>
                intro a b ha hb h
                rw [Function.iterate_succ_apply, Function.iterate_succ_apply] at h
                exact (hmap x hx).inj a ha b hb (ihm _ _ ((hmap x hx).range a ha) ((hmap x hx).range b hb) h)
            intro a ha b hb h
            simp [occupied] at ha hb
            exact this n a b ha.1 hb.1 h
          rw [reorder_comp ((dest x.1)^[n]) (dest x.1) _ hInj (by rw [← i3]; exact hinjO x hx _)]
          apply reorder_congr
          intro i _
          rw [Function.iterate_succ_apply']
        · show occupied N (fermionMapBits w N x.1 _ 1).1 = _
          rw [occupied_image (hmap x hx) (hpos x hx) (himg x hx _), i3, Finset.image_image]
          congr 1
          funext i
          simp only [Function.comp]
          rw [Function.iterate_succ_apply']
    obtain ⟨i1, i2, _⟩ := hit x.2.1
    refine Prod.ext ?_ ?_
    · show ((fermionGenerator w N x.1 x.2.1 x.2.2).U^[x.2.1] (t, 1)).1 = t
      rw [i1]
      exact (iterate_id_iff (b := 2) (by omega) _ (fun s _ => himg x hx s) (hmap x hx) x.2.1).2 (hordT x hx).2 t ht
    · show ((fermionGenerator w N x.1 x.2.1 x.2.2).U^[x.2.1] (t, 1)).2 = 1
      rw [i2, reorder_congr _ (fun i => i), reorder_id]
      intro i hi
      have : i < N := by simp [occupied] at hi; exact hi.1
      exact ((hordT x hx).2 i this).1
  · intro y hy z hz t ht
    rw [List.mem_map] at hy hz
    obtain ⟨x, hx, rfl⟩ := hy
    obtain ⟨x', hx', rfl⟩ := hz
    have hc := hcomm x' hx' x hx t _ _ _ _ ht
      (himg x' hx' t) (himg x hx _) (himg x hx t) (himg x' hx' _)
    refine Prod.ext hc ?_
    show (1 * (fermionMapBits w N x'.1 t 1).2) * (fermionMapBits w N x.1 _ 1).2 = (1 * (fermionMapBits w N x.1 t 1).2) * (fermionMapBits w N x'.1 _ 1).2
    rw [one_mul, one_mul]
    have e1 := htwo x' hx' x hx t
    have e2 := htwo x hx x' hx' t
    refine e1.trans (Eq.trans ?_ e2.symm)
    apply reorder_congr
    intro i hi
    have hi : i < N := by simp [occupied] at hi; exact hi.1
    exact (((mapsCommute_iff (by omega) (hmap x hx) (hmap x' hx')).1 (hcomm x hx x' hx')) i hi).1

/-- Translation and reflection-free example: the cyclic shift of four sites with its powers. -/
example : Acts (· < 2 ^ 4) [fermionGenerator 32 4 [1, 2, 3, 0] 4 1, fermionGenerator 32 4 [2, 3, 0, 1] 2 0] := by
  have h1 : IsSiteMap 4 [1, 2, 3, 0] := ⟨rfl, by decide, by decide⟩
  have h2 : IsSiteMap 4 [2, 3, 0, 1] := ⟨rfl, by decide, by decide⟩
  refine C47_acts_partial 32 4 (by decide) [([1, 2, 3, 0], 4, 1), ([2, 3, 0, 1], 2, 0)] (by simp) ?_ ?_ ?_
  · simp only [List.mem_cons, List.not_mem_nil, or_false]
    rintro x (rfl | rfl) <;> decide
  · simp only [List.mem_cons, List.not_mem_nil, or_false]
    rintro x (rfl | rfl) <;> exact ⟨10, by decide⟩
  · simp only [List.mem_cons, List.not_mem_nil, or_false]
    rintro x (rfl | rfl) y (rfl | rfl)
    · exact (mapsCommute_iff (by decide) h1 h1).2 (by unfold SitesCommute; decide)
    · exact (mapsCommute_iff (by decide) h1 h2).2 (by unfold SitesCommute; decide)
    · exact (mapsCommute_iff (by decide) h2 h1).2 (by unfold SitesCommute; decide)
    · exact (mapsCommute_iff (by decide) h2 h2).2 (by unfold SitesCommute; decide)

/-- Signs do occur: the cyclic shift of four sites on two fermions on sites 0 and 3. -/
example : fermionMapBits 32 4 [1, 2, 3, 0] 0b1001 1 = (0b1100, -1) := by
  rw [fermionMapBits_eq 32 4 [1, 2, 3, 0] ⟨rfl, by decide, by decide⟩]; decide

/-! ### maps with inversions -/

/-- The particle-hole map of `N` sites. -/
def particleHole (N : Nat) : List Int := (List.range N).map fun i : Nat => -((i : Int) + 1)

theorem particleHole_get (N i : Nat) (hi : i < N) : (particleHole N).getD i 0 = -((i : Int) + 1) := by
  unfold particleHole
  rw [List.getD_eq_getElem?_getD, List.getElem?_map, List.getElem?_range hi]
  rfl

theorem particleHole_ok (N : Nat) : IsSiteMap N (particleHole N) := by
  have hd : ∀ i < N, dest (particleHole N) i = i := by
    intro i hi
    unfold dest
    rw [particleHole_get N i hi]
    unfold Spec.target
    rw [if_pos (by omega)]
    omega
  refine ⟨by simp [particleHole], fun i hi => by rw [hd i hi]; exact hi, fun i hi j hj h => ?_⟩
  rwa [hd i hi, hd j hj] at h

theorem ph_sign (N s : Nat) : fermionMapSign N (particleHole N) s = ∏ i ∈ occupied N s, if i % 2 = 1 then (-1 : Int) else 1 := by
  have hm : ∀ i ∈ occupied N s, i < N := by intro i hi; simp [occupied] at hi; exact hi.1
  unfold fermionMapSign
  rw [reorder_congr _ (fun i => i), reorder_id, one_mul]
  · apply Finset.prod_congr rfl
    intro i hi
    have : inverts (particleHole N) i = true := by
      unfold inverts; rw [particleHole_get N i (hm i hi)]; simp; omega
    simp [this]
  · intro i hi
    unfold dest
    rw [particleHole_get N i (hm i hi)]
    unfold Spec.target
    rw [if_pos (by omega)]
    omega

/-- Defect: the library gives the particle-hole map period 2, but applied twice with its signs it multiplies every
configuration by `(-1)^⌊N/2⌋`. -/
theorem C47_particle_hole_square (w N : Nat) (hN : N ≤ w) (q : Int) (s : Nat) (hs : s < 2 ^ N) :
    (fermionGenerator w N (particleHole N) 2 q).U^[2] (s, 1) = (s, (-1) ^ (N / 2)) := by
  have h := particleHole_ok N
  obtain ⟨i1, g1⟩ := C45_sign w N hN _ h s 1
  obtain ⟨i2, g2⟩ := C45_sign w N hN _ h (fermionMapBits w N (particleHole N) s 1).1 1
  have hd : ∀ i < N, dest (particleHole N) i = i := by
    intro i hi
    unfold dest
    rw [particleHole_get N i hi]
    unfold Spec.target
    rw [if_pos (by omega)]
    omega
  have hinv : ∀ i < N, inverts (particleHole N) i = true := by
    intro i hi
    unfold inverts; rw [particleHole_get N i hi]; simp; omega
  have ho : ∀ i < N, occ 2 N (fermionMapBits w N (particleHole N) s 1).1 i = 1 - occ 2 N s i := by
    intro i hi
    have := i1.occ i hi
    rw [hd i hi, hinv i hi] at this
    rw [this]; rfl
  have hb : ∀ i, occ 2 N s i < 2 := fun i => occ_lt 2 N s i (by omega)
  refine Prod.ext ?_ ?_
  · show (fermionMapBits w N (particleHole N) (fermionMapBits w N (particleHole N) s 1).1 1).1 = s
    refine occ_ext 2 N _ _ i2.lt hs fun i hi => ?_
    have h2 := i2.occ i hi
    rw [hd i hi, hinv i hi, ho i hi] at h2
    rw [h2]
    have := hb i
    simp only [flipIf, if_true]
    omega
  · show 1 * (fermionMapBits w N (particleHole N) s 1).2 * (fermionMapBits w N (particleHole N) (fermionMapBits w N (particleHole N) s 1).1 1).2 = _
    rw [g1, g2, one_mul, one_mul, one_mul, ph_sign, ph_sign]
    have e : ∀ u, ∏ i ∈ occupied N u, (if i % 2 = 1 then (-1 : Int) else 1)
        = ∏ i ∈ Finset.range N, if occ 2 N u i = 1 ∧ i % 2 = 1 then (-1 : Int) else 1 := by
      intro u
      unfold occupied
      rw [Finset.prod_filter]
      apply Finset.prod_congr rfl
      intro i _
      by_cases h1 : occ 2 N u i = 1 <;> simp [h1]
    rw [e, e, ← Finset.prod_mul_distrib]
    have e2 : ∏ i ∈ Finset.range N, ((if occ 2 N s i = 1 ∧ i % 2 = 1 then (-1 : Int) else 1) *
        if occ 2 N (fermionMapBits w N (particleHole N) s 1).1 i = 1 ∧ i % 2 = 1 then (-1 : Int) else 1)
        = ∏ i ∈ Finset.range N, if i % 2 = 1 then (-1 : Int) else 1 := by
      apply Finset.prod_congr rfl
      intro i hi
      rw [Finset.mem_range] at hi
      rw [ho i hi]
      have := hb i
      rcases (show occ 2 N s i = 0 ∨ occ 2 N s i = 1 by omega) with h' | h' <;> simp [h']
    rw [e2]
    clear * -
    induction N with
    | zero => simp
    | succ n ih =>
      rw [Finset.prod_range_succ, ih]
      rcases Nat.even_or_odd' n with ⟨m, rfl | rfl⟩
      · rw [if_neg (by omega), mul_one, show 2 * m / 2 = m by omega, show (2 * m + 1) / 2 = m by omega]
      · rw [if_pos (by omega), show (2 * m + 1) / 2 = m by omega, show (2 * m + 1 + 1) / 2 = m + 1 by omega, pow_succ]

/-- The period found for it is 2, so on 2, 3, 6, 7, 10, … sites the map with its signs does not have the period
the library uses. -/
theorem C47_particle_hole_fails : processMap 5 (particleHole 2) = some (.ok 2) ∧
    ¬ Acts (· < 2 ^ 2) [fermionGenerator 32 2 (particleHole 2) 2 0] := by
  refine ⟨by decide, fun h => ?_⟩
  have h1 := h.period (fermionGenerator 32 2 (particleHole 2) 2 0) (by simp) 0 (by decide)
  rw [show (fermionGenerator 32 2 (particleHole 2) 2 0).per = 2 from rfl,
    C47_particle_hole_square 32 2 (by decide) 0 0 (by decide)] at h1
  exact absurd (congrArg Prod.snd h1) (by decide)

/-- Visible effect: spinless fermions on two sites, one particle, particle-hole block with quantum number 0.  The
basis is `{|10⟩}`.  The Hermitian operator `i c₀⁺c₁ - i c₁⁺c₀` commutes with the map, but its 1×1 matrix is `i`,
which is not Hermitian: the column of the second term is `i`, that of the first `0`. -/
theorem C47_particle_hole_matrix (n : Int) (hn : 0 < n) :
    let y := fermionGenerator 32 2 (particleHole 2) 2 0
    columnSym [y] (getIndexSym [y] [2]) [(2, n)] (fun s => fermionOp 32 2 [('+', 1), ('-', 0)] s (-Complex.I)) 0
      = some (some (0, Complex.I)) ∧
    columnSym [y] (getIndexSym [y] [2]) [(2, n)] (fun s => fermionOp 32 2 [('+', 0), ('-', 1)] s Complex.I) 0
      = some (some (0, 0)) := by
  have he : fermionGenerator 32 2 (particleHole 2) 2 0 =
      { img := mapBits 32 2 (particleHole 2), sgn := fermionMapSign 2 (particleHole 2), per := 2, q := 0 } := by
    unfold fermionGenerator
    simp only [fermionMapBits_eq 32 2 _ (particleHole_ok 2), one_mul]
  rw [he]
  intro y
  have hI : Complex.I ≠ 0 := Complex.I_ne_zero
  have hop1 : fermionOp 32 2 [('+', 1), ('-', 0)] 2 (-Complex.I) = some (1, -Complex.I) := by
    have s1 : fermionSign 32 2 1 = some 1 := by decide
    have s2 : fermionSign 32 0 0 = some 1 := by decide
    simp [fermionOp, opLoop, fermionStep, s1, s2, hI, Word.shl]
  have hop2 : fermionOp 32 2 [('+', 0), ('-', 1)] 2 Complex.I = some (2, 0) := by
    have s1 : fermionSign 32 2 0 = some 1 := by decide
    simp [fermionOp, opLoop, fermionStep, s1, Word.shl]
  have hlook : getIndexSym [y] [2] 1 = some (0, ⟨2, -1, [1]⟩) := by decide +kernel
  constructor
  · unfold columnSym
    simp only [List.getElem?_cons_zero, hop1, hlook]
    rw [if_pos (by decide), if_pos (by decide)]
    simp only [Int.toNat_zero, List.getElem?_cons_zero]
    have hsq : Real.sqrt ((n : ℝ) / n) = 1 := by
      rw [div_self (by exact_mod_cast hn.ne'), Real.sqrt_one]
    simp [scaleMatrixEle, phaseAngle, hsq, y]
  · unfold columnSym
    simp only [List.getElem?_cons_zero, hop2]
    rw [if_neg (by decide)]

/-- Defect: on four sites translation and particle-hole are accepted without a warning, commute on configurations,
and anticommute with their signs. -/
theorem C47_translation_particle_hole :
    warnsNonCommuting [1, 2, 3, 0] (particleHole 4) = false ∧ MapsCommute 2 4 [1, 2, 3, 0] (particleHole 4) ∧
    ∀ s < 2 ^ 4, let T := fermionGenerator 32 4 [1, 2, 3, 0] 4 0; let P := fermionGenerator 32 4 (particleHole 4) 2 0
      (T.U (P.U (s, 1))).1 = (P.U (T.U (s, 1))).1 ∧ (T.U (P.U (s, 1))).2 = - (P.U (T.U (s, 1))).2 := by
  have h1 : IsSiteMap 4 [1, 2, 3, 0] := ⟨rfl, by decide, by decide⟩
  refine ⟨by decide, (mapsCommute_iff (by decide) h1 (particleHole_ok 4)).2 (by unfold SitesCommute; decide), ?_⟩
  have e1 : ∀ q s x, (fermionGenerator 32 4 [1, 2, 3, 0] 4 q).U (s, x) = (mapBits 32 4 [1, 2, 3, 0] s, x * fermionMapSign 4 [1, 2, 3, 0] s) := by
    intro q s x
    show ((fermionMapBits 32 4 [1, 2, 3, 0] s 1).1, x * (fermionMapBits 32 4 [1, 2, 3, 0] s 1).2) = _
    rw [fermionMapBits_eq _ _ _ h1, one_mul]
  have e2 : ∀ q s x, (fermionGenerator 32 4 (particleHole 4) 2 q).U (s, x) = (mapBits 32 4 (particleHole 4) s, x * fermionMapSign 4 (particleHole 4) s) := by
    intro q s x
    show ((fermionMapBits 32 4 (particleHole 4) s 1).1, x * (fermionMapBits 32 4 (particleHole 4) s 1).2) = _
    rw [fermionMapBits_eq _ _ _ (particleHole_ok 4), one_mul]
  simp only [e1, e2]
  decide +kernel

end Props
