import Verif.Proof.ChainVecLoop
import Verif.Proof.ChainBlocks
import Verif.Spec.ChainVec
/-! From the loop to the projections. -/
namespace Proof.Chain
open Spec Model.Chain Proof.Symmetry Proof.Maps
open Spec.Chain (Fits HasFlip)
open scoped BigOperators

variable {S : ℕ → Prop}

/-! ### translating back -/

theorem shift_pure (c : Spec.Chain) (T : ℕ) (hT : T ≤ c.length) :
    IsSiteMap c.sites (c.shift T) ∧ ∀ i < c.sites, inverts (c.shift T) i = false := by
  cases c with
  | spinful L =>
    have hm := siteMap_translation L T hT
    exact ⟨siteMap_bothSpins L _ hm (inverts_translation L T), fun i hi => (dest_bothSpins L _ hm (inverts_translation L T) i hi).2⟩
  | twoLevel L => exact ⟨siteMap_translation L T hT, inverts_translation L T⟩
  | levels b L => exact ⟨siteMap_translation L T hT, inverts_translation L T⟩
  | spinless L => exact ⟨siteMap_translation L T hT, inverts_translation L T⟩

theorem shift_shift (c : Spec.Chain) (T T' : ℕ) (hT : T ≤ c.length) (hT' : T' ≤ c.length) (hs : (T' + T) % c.length = 0) (i : ℕ)
    (hi : i < c.sites) : dest (c.shift T) (dest (c.shift T') i) = i := by
  have base : ∀ L, T ≤ L → T' ≤ L → (T' + T) % L = 0 → ∀ i < L, dest (translation L T') i < L ∧
      dest (translation L T) (dest (translation L T') i) = i := fun L _ _ h i hi => by
    have h1 : (i + T') % L < L := Nat.mod_lt _ (by omega)
    rw [dest_translation L T' i hi, dest_translation L T _ h1]
    refine ⟨h1, ?_⟩
    rw [Nat.mod_add_mod, Nat.add_assoc, Nat.add_mod, h, Nat.add_zero, Nat.mod_mod, Nat.mod_eq_of_lt hi]
  cases c with
  | spinful L =>
    show dest (bothSpins L (translation L T)) (dest (bothSpins L (translation L T')) i) = i
    have hi' : i < 2 * L := hi
    rw [(dest_bothSpins L _ (siteMap_translation L T' hT') (inverts_translation L T') i hi').1]
    by_cases h0 : i < L
    · obtain ⟨b1, b2⟩ := base L hT hT' hs i h0
      rw [if_pos h0, (dest_bothSpins L _ (siteMap_translation L T hT) (inverts_translation L T) _ (by omega)).1, if_pos b1, b2]
    · obtain ⟨b1, b2⟩ := base L hT hT' hs (i - L) (by omega)
      rw [if_neg h0, (dest_bothSpins L _ (siteMap_translation L T hT) (inverts_translation L T) _ (by omega)).1, if_neg (by omega),
        Nat.add_sub_cancel, b2]
      omega
  | twoLevel L => exact (base L hT hT' hs i hi).2
  | levels b L => exact (base L hT hT' hs i hi).2
  | spinless L => exact (base L hT hT' hs i hi).2

theorem digitLoop_congr (b : ℕ) (g : ℕ → ℕ → ℕ) (j j' : ℕ → ℕ) (l : List ℕ) (h : ∀ i ∈ l, j i = j' i) (s v : ℕ) :
    digitLoop b g j l s v = digitLoop b g j' l s v := by
  induction l generalizing s v with
  | nil => rfl
  | cons i l ih =>
    unfold digitLoop
    rw [h i (by simp), ih fun i hi => h i (List.mem_cons_of_mem _ hi)]

theorem shift_zero (w : Option ℕ) (c : Spec.Chain) (hL : 1 ≤ c.length) : shiftOf w 0 c = shiftOf w c.length c := by
  have h : ∀ L : ℕ, shiftCount 0 L = shiftCount L L := fun L => by simp [shiftCount]
  cases c with
  | twoLevel L => show hcpShift w false L 0 = hcpShift w false L L; unfold hcpShift; rw [h L]
  | spinless L => unfold shiftOf hcpShift; simp only [Chain.length, h L]
  | spinful L => unfold shiftOf spfShift hcpShift; simp only [Chain.length, h L]
  | levels b L =>
    unfold shiftOf bosonShift
    funext s
    refine Prod.ext (digitLoop_congr _ _ _ _ _ ?_ _ _) rfl
    intro i hi
    rw [List.mem_range] at hi
    simp only [Chain.length]
    congr 1
    rw [show (i : Int) + -((0 : ℕ) : Int) + L = i + L by simp, show (i : Int) + -(L : Int) + L = i by ring]
    rw [Int.tmod_eq_emod_of_nonneg (by omega), Int.tmod_eq_emod_of_nonneg (by omega), Int.add_emod_right]

theorem back_step {w : Option ℕ} {c : Spec.Chain} (h : Fits w c) (T : ℕ) (hT : 0 < T) (hTL : T ≤ c.length) (t : ℕ) (ht : t < c.size) :
    step (shiftOf w T c) (step (shiftOf w (c.length - T) c) (t, 1)) = (t, 1) := by
  have key : ∀ T', 1 ≤ T' → T' ≤ c.length → (T' + T) % c.length = 0 → step (shiftOf w T c) (step (shiftOf w T' c) (t, 1)) = (t, 1) := by
    intro T' h1 h2 h3
    obtain ⟨m1, p1⟩ := shift_pure c T' h2
    obtain ⟨m2, p2⟩ := shift_pure c T hTL
    have a := sends_isSymmetry (shift_isSymmetry h T' h1 h2 1 0) (fun _ => p1) t ht
    have b := sends_isSymmetry (shift_isSymmetry h T hT hTL 1 0) (fun _ => p2) _ a.lt
    have e := Sends.comp (fits_base h) (fun hF => fermions_base hF) (siteFun_of m1 p1) (siteFun_of m2 p2) a b
    have := Sends.unique (τ := fun i => i) (κ := fun _ => false) ((siteFun_of m1 p1).comp (siteFun_of m2 p2))
      (fun i hi => shift_shift c T T' hTL h2 h3 i hi)
      (fun i hi => by rw [p1 i hi, p2 _ (m1.range i hi)]; rfl) e (Sends.id _ _ _ t ht)
    unfold step
    simp only [one_mul]
    exact this
  rcases Nat.lt_or_ge T c.length with h0 | h0
  · exact key _ (by omega) (by omega) (by rw [Nat.sub_add_cancel hTL, Nat.mod_self])
  · have e : T = c.length := by omega
    rw [e, Nat.sub_self, shift_zero w c (fits_length h)]
    have := key c.length (fits_length h) (le_refl _) (by rw [e, ← Nat.two_mul, Nat.mul_mod_left])
    rwa [e] at this

theorem back_tr {w : Option ℕ} {c : Spec.Chain} (h : Fits w c) (T n : ℕ) (hT : 0 < T) (hn : 0 < n) (hL : c.length = T * n)
    (t : ℕ) (ht : t < c.size) : step (shiftOf w (c.length - T) c) (t, 1) = tr (shiftOf w T c) t (n - 1) := by
  have hTL : T ≤ c.length := by rw [hL]; exact Nat.le_mul_of_pos_right _ hn
  have hcy : Cyclic (· < c.size) (shiftOf w T c) n :=
    Cyclic.of_acts (shift_acts h T n hT hn hL (shift_isSymmetry h T hT hTL n 0) rfl) (k := 0) (by simp)
  have hb := back_step h T hT hTL t ht
  set x := step (shiftOf w (c.length - T) c) (t, 1) with hx
  have hxS : x.1 < c.size := by
    rcases Nat.lt_or_ge T c.length with h0 | h0
    · obtain ⟨m1, p1⟩ := shift_pure c (c.length - T) (by omega)
      exact (sends_isSymmetry (shift_isSymmetry h (c.length - T) (by omega) (by omega) 1 0) (fun _ => p1) t ht).lt
    · have e : T = c.length := by omega
      rw [hx, e, Nat.sub_self, shift_zero w c (fits_length h)]
      obtain ⟨m1, p1⟩ := shift_pure c c.length (le_refl _)
      exact (sends_isSymmetry (shift_isSymmetry h c.length (fits_length h) (le_refl _) 1 0) (fun _ => p1) t ht).lt
  have e1 : (step (shiftOf w T c))^[n] x = x := by
    have := iter_step_scale (shiftOf w T c) n x.1 x.2
    rw [hcy.period x.1 hxS] at this
    rw [show (x.1, x.2) = x from rfl] at this
    rw [this]; simp
  obtain ⟨m, rfl⟩ : ∃ m, n = m + 1 := ⟨n - 1, by omega⟩
  rw [Function.iterate_succ_apply, hb] at e1
  exact e1.symm

theorem back_iter {Tr sh : BitOp} {n : ℕ} (hcy : Cyclic S Tr n) (hb : ∀ t, S t → step sh (t, 1) = tr Tr t (n - 1)) (r : ℕ) (t : ℕ) (ht : S t) :
    (step sh)^[r] (t, 1) = tr Tr t ((n - 1) * r) := by
  induction r with
  | zero => rfl
  | succ r ih =>
    rw [Function.iterate_succ_apply', ih, Nat.mul_succ, Nat.add_comm, tr_add]
    have := hb _ (hcy.closed_iter ht ((n - 1) * r))
    rw [← this]
    simp [step]

theorem back_moves {Tr sh : BitOp} {n : ℕ} (hcy : Cyclic S Tr n) (hb : ∀ t, S t → step sh (t, 1) = tr Tr t (n - 1)) : Moves S sh := by
  have hb1 : ∀ t, S t → (sh t).1 = (tr Tr t (n - 1)).1 := fun t ht => by
    show (step sh (t, 1)).1 = _
    rw [hb t ht]
  have hb2 : ∀ t, S t → (sh t).2 = (tr Tr t (n - 1)).2 := fun t ht => by
    have := congrArg Prod.snd (hb t ht)
    simpa [step] using this
  refine ⟨fun t ht => ?_, fun t ht => ?_, fun t u ht hu e => ?_⟩
  · rw [hb1 t ht]; exact hcy.closed_iter ht _
  · rw [hb2 t ht]; exact hcy.sign_iter ht _
  · rw [hb1 t ht, hb1 u hu] at e
    have e2 : ∀ t, S t → (Tr (tr Tr t (n - 1)).1).1 = t := fun t ht => by
      have := congrArg Prod.fst (hcy.period t ht)
      obtain ⟨m, rfl⟩ : ∃ m, n = m + 1 := ⟨n - 1, by have := hcy.pos; omega⟩
      rw [tr_succ] at this
      exact this
    rw [← e2 t ht, e, e2 u hu]

theorem back_period {Tr sh : BitOp} {n : ℕ} (hcy : Cyclic S Tr n) (hb : ∀ t, S t → step sh (t, 1) = tr Tr t (n - 1)) (t : ℕ) (ht : S t) :
    (step sh)^[n] (t, 1) = (t, 1) := by
  rw [back_iter hcy hb n t ht, Nat.mul_comm, tr_multiple (hcy.period t ht)]
  simp

/-- summing over the inverse translations -/
theorem sum_back {Tr : BitOp} {n : ℕ} (hcy : Cyclic S Tr n) (k : ℕ) (s : ℕ) (hs : S s) (F : ℕ × Int → ℂ) :
    ∑ r ∈ Finset.range n, root n k r * F (tr Tr s ((n - 1) * r))
      = ∑ r ∈ Finset.range n, (starRingEnd ℂ) (root n k r) * F (tr Tr s r) := by
  have hn := hcy.pos
  have hmod : ∀ r, tr Tr s r = tr Tr s (r % n) := fun r => by
    conv_lhs => rw [← Nat.mod_add_div r n, tr_add, tr_multiple (hcy.period s hs)]
    simp
  have hroot : ∀ r, root n k r = root n k (r % n) := fun r => by
    conv_lhs => rw [← Nat.mod_add_div r n, root_add, root_mul, (root_eq_one n hn k n).2 (Dvd.intro_left _ rfl)]
    simp
  have hconj : ∀ r, (starRingEnd ℂ) (root n k ((n - 1) * r % n)) = root n k r := fun r => by
    rw [← hroot]
    have h1 : root n k r * root n k ((n - 1) * r) = 1 := by
      rw [← root_add]
      have : r + (n - 1) * r = n * r := by
        obtain ⟨m, rfl⟩ : ∃ m, n = m + 1 := ⟨n - 1, by omega⟩
        rw [Nat.add_sub_cancel]; ring
      rw [this, root_mul, (root_eq_one n hn k n).2 (Dvd.intro_left _ rfl), one_pow]
    have h2 : (starRingEnd ℂ) (root n k ((n - 1) * r)) * root n k ((n - 1) * r) = 1 := by
      unfold root
      rw [← Complex.exp_conj, ← Complex.exp_add, map_mul, Complex.conj_I, Complex.conj_ofReal]
      simp
    exact mul_right_cancel₀ (root_ne_zero n k _) (h2.trans h1.symm)
  have hinv : ∀ r < n, (n - 1) * ((n - 1) * r % n) % n = r := fun r hr => by
    obtain ⟨m, rfl⟩ : ∃ m, n = m + 1 := ⟨n - 1, by omega⟩
    rw [Nat.add_sub_cancel, Nat.mul_mod, Nat.mod_mod, ← Nat.mul_mod, ← Nat.mul_assoc]
    have : m * m * r = r + (m + 1) * (r * m) - (m + 1) * r := by
      have : m * m * r + (m + 1) * r = r + (m + 1) * (r * m) := by ring
      omega
    have e : (m * m * r + (m + 1) * r) % (m + 1) = (r + (m + 1) * (r * m)) % (m + 1) := by congr 1; ring
    rw [Nat.add_mul_mod_self_left, Nat.add_mul_mod_self_left, Nat.mod_eq_of_lt hr] at e
    exact e
  refine Finset.sum_nbij' (fun r => (n - 1) * r % n) (fun r => (n - 1) * r % n) ?_ ?_ ?_ ?_ ?_
  · intro r _; exact Finset.mem_range.2 (Nat.mod_lt _ hn)
  · intro r _; exact Finset.mem_range.2 (Nat.mod_lt _ hn)
  · intro r hr; exact hinv r (Finset.mem_range.1 hr)
  · intro r hr; exact hinv r (Finset.mem_range.1 hr)
  · intro r _
    rw [hconj, ← hmod]

/-! ### the blocks -/

/-- sites of one step of the loop over the translations -/
def stepOf (B : Blocks) (c : Spec.Chain) : ℕ := if B.k.isSome then B.a else c.length

/-- the sections and the translation make up the projection onto the quantum numbers of `ys` -/
structure BlockSum (S : ℕ → Prop) (w : Option ℕ) (B : Blocks) (c : Spec.Chain) (ys : List Generator) : Prop where
  undone : ∀ sp, ∀ g ∈ sections sp B (bitopsOf w (stepOf B c) c), Undone S g
  moves : Moves S (shiftOf w (c.length - stepOf B c) c)
  back : ∀ t, S t → (step (shiftOf w (c.length - stepOf B c) c))^[rounds B c.length] (t, 1) = (t, 1)
  plain : ¬ (B.k.isSome ∧ (B.p.isSome ∨ B.pz.isSome))
  sums : ∀ sp s t, S s → ∑ r ∈ Finset.range (rounds B c.length), phaseC B c.length r false *
    ((sections sp B (bitopsOf w (stepOf B c) c)).map fun g => part (fun x => x) t g ((step (shiftOf w (c.length - stepOf B c) c))^[r] (s, 1))).sum
      = projection ys s t

theorem Moves.iter {sh : BitOp} (h : Moves S sh) (r t : ℕ) (ht : S t) : S ((step sh)^[r] (t, 1)).1 := by
  induction r with
  | zero => exact ht
  | succ r ih => rw [Function.iterate_succ_apply']; exact h.closed _ ih

theorem run_expand {w : Option ℕ} {B : Blocks} {c : Spec.Chain} {ys : List Generator} (hd : BlockSum S w B c ys)
    {add : (ℕ → ℂ) → List (ℕ × ℂ) → ℕ → ℂ} (ha : AddsUp add) {row : ℕ → ℕ} (hrow : ∀ t u, S t → S u → row t = row u → t = u) (sp : Bool)
    (basis : List (ℕ × Int × ℕ)) (v0 : List ℂ) (hl : v0.length = basis.length) (hS : ∀ x ∈ basis, S x.1) (hn : (basis.map (·.1)).Nodup)
    (hnorm : ∀ x ∈ basis, normSq B c.length x.2.1 x.2.2 = ∑ u ∈ Finset.range c.size, ‖projection ys x.1 u‖ ^ 2) :
    ((runRounds add row (sections sp B (bitopsOf w (stepOf B c) c)) (shiftOf w (c.length - stepOf B c) c) (phaseC B c.length)
      (rounds B c.length) (columnsOf B c.length basis v0, fun _ => 0)).1.map (·.x.1)) = basis.map (·.1) ∧
    ∀ t, S t → (runRounds add row (sections sp B (bitopsOf w (stepOf B c) c)) (shiftOf w (c.length - stepOf B c) c) (phaseC B c.length)
      (rounds B c.length) (columnsOf B c.length basis v0, fun _ => 0)).2 (row t)
      = (List.zipWith (fun s a => a * symState (Finset.range c.size) ys s t) (basis.map (·.1)) v0).sum := by
  have hcols : columnsOf B c.length basis v0
      = (basis.zip v0).map fun y => ⟨(y.1.1, 1), false, Real.sqrt (normSq B c.length y.1.2.1 y.1.2.2), y.2, 0⟩ := by
    unfold columnsOf
    have hp : ∀ N : Int, decide (B.k.isSome = true ∧ (B.p.isSome = true ∨ B.pz.isSome = true) ∧ N < 0) = false := fun N => by
      rw [decide_eq_false_iff_not]
      exact fun h => hd.plain ⟨h.1, h.2.1⟩
    simp only [hp]
    rw [← List.map_uncurry_zip_eq_zipWith]
    rfl
  have hfst : (basis.zip v0).map (·.1) = basis := List.map_fst_zip (by omega)
  have hmem : ∀ y ∈ basis.zip v0, y.1 ∈ basis := fun y hy => (List.of_mem_zip hy).1
  have hc : Cols S (columnsOf B c.length basis v0) := by
    rw [hcols]
    refine ⟨?_, ?_, ?_⟩
    · intro d hd
      rw [List.mem_map] at hd
      obtain ⟨y, hy, rfl⟩ := hd
      exact hS _ (hmem y hy)
    · intro d hd
      rw [List.mem_map] at hd
      obtain ⟨y, hy, rfl⟩ := hd
      exact Or.inl rfl
    · rw [List.pairwise_map]
      have : (basis.zip v0).Pairwise fun x y => x.1.1 ≠ y.1.1 := by
        rw [← hfst, List.map_map, List.nodup_iff_pairwise_ne, List.pairwise_map] at hn
        exact hn
      refine this.imp ?_
      intro a b h _
      exact h
  obtain ⟨f, h1, h2⟩ := runRounds_eq ha hrow (hd.undone sp) hd.moves (phaseC B c.length) hc (fun _ => 0) (rounds B c.length)
  rw [h2]
  constructor
  · rw [List.map_map, hcols, List.map_map]
    conv_rhs => rw [← hfst, List.map_map]
    apply List.map_congr_left
    intro y hy
    simp only [Function.comp_apply]
    rw [hd.back _ (hS _ (hmem y hy))]
  · intro t ht
    simp only [zero_add]
    have hz : List.zipWith (fun s a => a * symState (Finset.range c.size) ys s t) (basis.map (·.1)) v0
        = (basis.zip v0).map fun y => y.2 * symState (Finset.range c.size) ys y.1.1 t := by
      rw [List.zipWith_map_left, ← List.map_uncurry_zip_eq_zipWith]
      rfl
    rw [hcols, hz, List.map_map]
    congr 1
    apply List.map_congr_left
    intro y hy
    simp only [Function.comp_apply]
    have hy1 := hS _ (hmem y hy)
    have e : ∀ r, ((sections sp B (bitopsOf w (stepOf B c) c)).map fun g =>
        part row (row t) g ((step (shiftOf w (c.length - stepOf B c) c))^[r] (y.1.1, 1))).sum
        = ((sections sp B (bitopsOf w (stepOf B c) c)).map fun g =>
        part (fun x => x) t g ((step (shiftOf w (c.length - stepOf B c) c))^[r] (y.1.1, 1))).sum := by
      intro r
      congr 1
      apply List.map_congr_left
      intro g hg
      have hx := hd.moves.iter r y.1.1 hy1
      generalize (step (shiftOf w (c.length - stepOf B c) c))^[r] (y.1.1, 1) = x at hx ⊢
      have hgx : S (applyOps g.apply x).1 := by
        rw [show x = (x.1, x.2) from rfl, applyOps_scale]
        exact (hd.undone sp g hg).closed _ hx
      unfold part
      by_cases h0 : (applyOps g.apply x).1 = t
      · rw [if_pos h0, if_pos (by rw [h0])]
      · rw [if_neg h0, if_neg fun h => h0 (hrow _ _ hgx ht h)]
    simp only [e]
    rw [hd.sums sp _ _ hy1, hnorm _ (hmem y hy)]
    unfold symState
    ring

end Proof.Chain
