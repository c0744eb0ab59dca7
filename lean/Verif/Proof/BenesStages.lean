import Verif.Proof.BenesGen
import Mathlib.Data.Finset.Card
namespace Proof.Benes
open Model Model.Word

variable {L k : Nat} {src0 tgt0 : Nat → Option Nat}

/-- number of unhandled positions -/
def unmarked (L : Nat) (b : BenesState) : Nat := ((Finset.range (2 ^ L)).filter (fun x => b.srcSet.testBit x = false)).card

theorem unmarked_lt {b b' : BenesState} {p : Nat} (hp : p < 2 ^ L) (hn : b.srcSet.testBit p = false)
    (hm : ∀ x, b.srcSet.testBit x = true → b'.srcSet.testBit x = true) (hp' : b'.srcSet.testBit p = true) :
    unmarked L b' < unmarked L b := by
  apply Finset.card_lt_card
  rw [Finset.ssubset_iff_of_subset]
  · refine ⟨p, by simp [hp, hn], by simp [hp']⟩
  · intro x hx
    simp only [Finset.mem_filter] at hx ⊢
    refine ⟨hx.1, ?_⟩
    by_contra hc
    rw [Bool.not_eq_false] at hc
    rw [hm x hc] at hx
    simp at hx

theorem unmarked_le (b : BenesState) : unmarked L b ≤ 2 ^ L := by
  unfold unmarked
  exact (Finset.card_filter_le _ _).trans (by simp)

theorem walk_spec (hk : k < L) (st : Nat) : ∀ fuel b p, Walk L k src0 tgt0 b p st → unmarked L b ≤ fuel →
    ∃ b', benesWalk (2 ^ k) fuel p b = some b' ∧ Inv L k src0 tgt0 b' ∧ b'.srcSet.testBit p = true ∧
      (∀ x, b.srcSet.testBit x = true → b'.srcSet.testBit x = true) ∧ (∀ x, Done b x → Done b' x) ∧
      Half k b' (fun q => q = st ^^^ 2 ^ k)
  | 0, b, p, w, hf => by
    exfalso
    obtain ⟨v, hv⟩ := Option.ne_none_iff_exists'.1 w.occ
    have hp := w.bs p v hv
    have : 0 < unmarked L b := Finset.card_pos.2 ⟨p, by simp [hp, w.new]⟩
    omega
  | fuel + 1, b, p, w, hf => by
    obtain ⟨v, hv⟩ := Option.ne_none_iff_exists'.1 w.occ
    have hp := w.bs p v hv
    obtain ⟨b', o, he, hI, hm, hpm, hd, hstop, hgo⟩ := round_spec hk w
    have hlt := unmarked_lt (L := L) hp w.new hm hpm
    rw [benesWalk, he]
    cases o with
    | none => exact ⟨b', rfl, hI, hpm, hm, hd, hstop rfl⟩
    | some p' =>
      obtain ⟨b'', he', hI', _, hm', hd', hh⟩ := walk_spec hk st fuel b' p' (hgo p' rfl) (by omega)
      exact ⟨b'', he', hI', hm' _ hpm, fun x hx => hm' x (hm x hx), fun x hx => hd' x (hd x hx), hh⟩

theorem try_spec (hk : k < L) (p : Nat) (b : BenesState) (hI : Inv L k src0 tgt0 b) (hh : Half k b (fun q => q = p)) :
    ∃ b', benesTry (2 ^ k) (2 ^ L) p b = some b' ∧ Inv L k src0 tgt0 b' ∧ (∀ x, Done b x → Done b' x) ∧
      Done b' p ∧ Half k b' (fun q => q = p ^^^ 2 ^ k) := by
  unfold benesTry
  by_cases h1 : b.srcSet.testBit p = false
  · rw [if_pos ((shl_and p _).2 h1)]
    by_cases h2 : b.src p = none
    · rw [if_neg (by simp [h2])]
      refine ⟨b, rfl, hI, fun _ h => h, Or.inr h2, ?_⟩
      intro q hq hm hm'
      have := hh q hq hm hm'
      rw [this] at hq
      exact absurd h2 hq
    · rw [if_pos h2]
      obtain ⟨b', he, hI', hp, _, hd, hh'⟩ := walk_spec hk p (2 ^ L) b p
        ⟨hI, fun q hq hm hm' => Or.inl (hh q hq hm hm'), Or.inl rfl, rfl, h1, h2⟩ (unmarked_le b)
      exact ⟨b', he, hI', hd, Or.inl hp, hh'⟩
  · rw [if_neg (fun h => h1 ((shl_and p _).1 h))]
    rw [Bool.not_eq_false] at h1
    refine ⟨b, rfl, hI, fun _ h => h, Or.inl h1, ?_⟩
    intro q hq hm hm'
    have := hh q hq hm hm'
    rw [this, h1] at hm
    simp at hm

theorem half_done {b : BenesState} {p : Nat} (h : Half k b (fun q => q = p)) (hd : Done b p) : Half k b (fun _ => False) := by
  intro q hq hm hm'
  have := h q hq hm hm'
  subst this
  rcases hd with hd | hd
  · rw [hd] at hm; simp at hm
  · exact hq hd

theorem main_spec (hk : k < L) (main : Nat) (b : BenesState) (hI : Inv L k src0 tgt0 b) (hh : Half k b (fun _ => False))
    (hd : ∀ q, clr k q < main → Done b q) :
    ∃ b', benesMain k (2 ^ L) main b = some b' ∧ Inv L k src0 tgt0 b' ∧ Half k b' (fun _ => False) ∧
      ∀ q, clr k q < main + 1 → Done b' q := by
  unfold benesMain
  rw [Nat.one_shiftLeft]
  by_cases h : main.testBit k = false
  · rw [if_pos ((and_mask main).2 h), ← xor_two_pow k main h]
    obtain ⟨b1, e1, I1, d1, p1, h1⟩ := try_spec hk main b hI (fun q a b c => (hh q a b c).elim)
    obtain ⟨b2, e2, I2, d2, p2, h2⟩ := try_spec hk (main ^^^ 2 ^ k) b1 I1 h1
    rw [flip_flip] at h2
    refine ⟨b2, by simp [e1, e2], I2, half_done h2 (d2 _ p1), ?_⟩
    intro q hq
    rcases Nat.lt_or_ge (clr k q) main with hlt | hge
    · exact d2 _ (d1 _ (hd q hlt))
    · have : clr k q = clr k main := by rw [clr_of_false k main h]; omega
      rw [clr_eq_iff] at this
      rcases this with rfl | rfl
      · exact d2 _ p1
      · exact p2
  · rw [if_neg (fun he => h ((and_mask main).1 he))]
    refine ⟨b, rfl, hI, hh, ?_⟩
    intro q hq
    apply hd
    have : clr k q ≠ main := by
      intro he
      have := testBit_clr k q k
      rw [he] at this
      simp at this
      exact h this
    omega

theorem mains_spec (hk : k < L) : ∀ cnt main b, Inv L k src0 tgt0 b → Half k b (fun _ => False) →
    (∀ q, clr k q < main → Done b q) →
    ∃ b', benesMains k (2 ^ L) cnt main b = some b' ∧ Inv L k src0 tgt0 b' ∧ ∀ q, clr k q < main + cnt → Done b' q
  | 0, main, b, hI, _, hd => ⟨b, rfl, hI, hd⟩
  | cnt + 1, main, b, hI, hh, hd => by
    obtain ⟨b1, e1, I1, h1, d1⟩ := main_spec hk main b hI hh hd
    obtain ⟨b2, e2, I2, d2⟩ := mains_spec hk cnt (main + 1) b1 I1 h1 d1
    refine ⟨b2, by rw [benesMains, e1]; exact e2, I2, ?_⟩
    intro q hq
    exact d2 q (by omega)

/-- The arrays describe the same values and fit the word. -/
structure Consistent (L : Nat) (b : BenesState) : Prop where
  is : Inverse b.src b.invSrc
  it : Inverse b.tgt b.invTgt
  bs : ∀ x v, b.src x = some v → x < 2 ^ L
  bt : ∀ x v, b.tgt x = some v → x < 2 ^ L
  vals : ∀ v, (∃ x, b.src x = some v) ↔ ∃ x, b.tgt x = some v

theorem stage_spec (hk : k < L) (b : BenesState) (hc : Consistent L b) :
    ∃ b', benesMains k (2 ^ L) (2 ^ L) 0 { b with srcSet := 0, cfgSrc := 0, cfgTgt := 0 } = some b' ∧
      Inv L k b.src b.tgt b' ∧ ∀ q t v, b'.src q = some v → b'.tgt t = some v → q.testBit k = t.testBit k := by
  have hI : Inv L k b.src b.tgt { b with srcSet := 0, cfgSrc := 0, cfgTgt := 0 } := by
    refine ⟨hc.is, hc.it, ?_, ?_, ?_, ?_, hc.bs, hc.bt, hc.vals, ?_, ?_, ?_, ?_⟩
    · intro x; simp [sw]
    · intro x; simp [sw]
    · intro j hj; simp at hj
    · intro j hj; simp at hj
    · intro q t v hm; simp at hm
    · intro q t v q' v' _ _ _ _ hm; simp at hm
    · intro q t v _ _ hm; simp at hm
    · intro q hm; simp at hm
  obtain ⟨b', e, I, d⟩ := mains_spec hk (2 ^ L) 0 _ hI (by intro q _ _ hm; simp at hm) (by intro q hq; omega)
  refine ⟨b', e, I, ?_⟩
  intro q t v hq ht
  rcases d q (by have := clr_lt L k q hk (I.bs q v hq); omega) with h | h
  · exact I.agree q t v h hq ht
  · rw [hq] at h; simp at h

theorem stages_spec : ∀ k, k ≤ L → ∀ (b : BenesState) (c : (Nat → Nat) × (Nat → Nat)), Consistent L b →
    (∀ q t v, b.src q = some v → b.tgt t = some v → ∀ i, k ≤ i → q.testBit i = t.testBit i) →
    ∃ c', benesStages (2 ^ L) k b c = some c' ∧ (∀ i, k ≤ i → c'.1 i = c.1 i ∧ c'.2 i = c.2 i) ∧
      (∀ i < k, Good (2 ^ L) i (c'.1 i) ∧ Good (2 ^ L) i (c'.2 i)) ∧
      ∀ q, b.src (origin c'.1 k q) = b.tgt (origin c'.2 k q)
  | 0, _, b, c, hc, ha => by
    refine ⟨c, rfl, fun _ _ => ⟨rfl, rfl⟩, by omega, ?_⟩
    have he : ∀ q t v, b.src q = some v → b.tgt t = some v → q = t := fun q t v hq ht =>
      Nat.eq_of_testBit_eq (fun i => ha q t v hq ht i (by omega))
    intro q
    show b.src q = b.tgt q
    cases hq : b.src q with
    | some v =>
      obtain ⟨t, ht⟩ := (hc.vals v).1 ⟨q, hq⟩
      rw [he q t v hq ht, ht]
    | none =>
      cases ht : b.tgt q with
      | none => rfl
      | some v =>
        obtain ⟨p, hp⟩ := (hc.vals v).2 ⟨q, ht⟩
        have := he p q v hp ht
        rw [this, hq] at hp
        simp at hp
  | k + 1, hk, b, c, hc, ha => by
    obtain ⟨b', e, I, hag⟩ := stage_spec (k := k) (by omega) b hc
    have hc' : Consistent L b' := ⟨I.is, I.it, I.bs, I.bt, I.vals⟩
    obtain ⟨c', e', hkeep, hgood, hres⟩ := stages_spec k (by omega) b'
      (upd c.1 k b'.cfgSrc, upd c.2 k b'.cfgTgt) hc' (by
        intro q t v hq ht i hi
        rcases Nat.eq_or_lt_of_le hi with rfl | hlt
        · exact hag q t v hq ht
        · have := ha (sw k b'.cfgSrc q) (sw k b'.cfgTgt t) v (by rw [← I.rs]; exact hq) (by rw [← I.rt]; exact ht) i (by omega)
          rwa [testBit_sw k _ q i (by omega), testBit_sw k _ t i (by omega)] at this)
    have hk1 : c'.1 k = b'.cfgSrc := by rw [(hkeep k (Nat.le_refl _)).1]; simp [upd]
    have hk2 : c'.2 k = b'.cfgTgt := by rw [(hkeep k (Nat.le_refl _)).2]; simp [upd]
    refine ⟨c', by rw [benesStages, e]; exact e', ?_, ?_, ?_⟩
    · intro i hi
      have := hkeep i (by omega)
      rw [this.1, this.2]
      simp [upd, show i ≠ k by omega]
    · intro i hi
      rcases Nat.eq_or_lt_of_le (Nat.lt_succ_iff.1 hi) with rfl | hlt
      · rw [hk1, hk2]; exact ⟨I.gs, I.gt⟩
      · exact hgood i hlt
    · intro q
      show b.src (sw k (c'.1 k) (origin c'.1 k q)) = b.tgt (sw k (c'.2 k) (origin c'.2 k q))
      rw [hk1, hk2, ← I.rs, ← I.rt]
      exact hres q

/-! ### the arrays at the beginning -/

theorem fill_spec (f : Nat → Option Nat) (hf : ∀ p q x, f p = some x → f q = some x → p = q) :
    ∀ n x v, benesSrcInit f n x = some v ↔ v < n ∧ f v = some x
  | 0, x, v => by simp [benesSrcInit]
  | n + 1, x, v => by
    have ih := fill_spec f hf n x v
    unfold benesSrcInit
    cases hn : f n with
    | none =>
      simp only [setInv]
      rw [ih]
      constructor
      · rintro ⟨h1, h2⟩; exact ⟨by omega, h2⟩
      · rintro ⟨h1, h2⟩
        refine ⟨?_, h2⟩
        rcases Nat.eq_or_lt_of_le (Nat.lt_succ_iff.1 h1) with rfl | h
        · rw [hn] at h2; simp at h2
        · exact h
    | some y =>
      simp only [setInv, upd]
      by_cases hx : x = y
      · subst hx
        rw [if_pos rfl]
        constructor
        · intro h; injection h with h; rw [← h]; exact ⟨by omega, hn⟩
        · rintro ⟨_, h2⟩; rw [hf n v x hn h2]
      · rw [if_neg hx, ih]
        constructor
        · rintro ⟨h1, h2⟩; exact ⟨by omega, h2⟩
        · rintro ⟨h1, h2⟩
          refine ⟨?_, h2⟩
          rcases Nat.eq_or_lt_of_le (Nat.lt_succ_iff.1 h1) with rfl | h
          · rw [hn] at h2; injection h2 with h2; exact absurd h2.symm hx
          · exact h

theorem invertPerm_eq (f : Nat → Option Nat) : ∀ n, invertPerm f n = benesSrcInit f n
  | 0 => rfl
  | n + 1 => by rw [invertPerm, benesSrcInit, invertPerm_eq f n]

theorem tgtInit_spec (c : Nat → Option Nat) : ∀ n x v, benesTgtInit c n x = some v ↔ v < n ∧ x = v ∧ c v ≠ none
  | 0, x, v => by simp [benesTgtInit]
  | n + 1, x, v => by
    have ih := tgtInit_spec c n x v
    unfold benesTgtInit
    by_cases hn : c n = none
    · rw [if_neg (by simp [hn]), ih]
      constructor
      · rintro ⟨h1, h2⟩; exact ⟨by omega, h2⟩
      · rintro ⟨h1, h2, h3⟩
        refine ⟨?_, h2, h3⟩
        rcases Nat.eq_or_lt_of_le (Nat.lt_succ_iff.1 h1) with rfl | h
        · exact absurd hn h3
        · exact h
    · rw [if_pos hn]
      unfold upd
      by_cases hx : x = n
      · subst hx
        rw [if_pos rfl]
        constructor
        · intro h; injection h with h; subst h; exact ⟨by omega, rfl, hn⟩
        · rintro ⟨_, h2, _⟩; rw [h2]
      · rw [if_neg hx, ih]
        constructor
        · rintro ⟨h1, h2⟩; exact ⟨by omega, h2⟩
        · rintro ⟨h1, h2, h3⟩; exact ⟨by omega, h2, h3⟩

/-- **The generated network moves bit `v` of the input to bit `c v`, and every other output bit comes from
an input bit outside the domain of `c`.** -/
theorem genBenes_spec (L : Nat) (c : Nat → Option Nat) (hd : ∀ v x, c v = some x → v < 2 ^ L ∧ x < 2 ^ L)
    (hinj : ∀ p q x, c p = some x → c q = some x → p = q) :
    ∃ cfg, genBenes L c = some cfg ∧ ∀ x, x < 2 ^ 2 ^ L → benesBwd L cfg x < 2 ^ 2 ^ L ∧
      (∀ v p, c v = some p → (benesBwd L cfg x).testBit p = x.testBit v) ∧
      (∀ p < 2 ^ L, (∀ v, c v ≠ some p) → ∃ u < 2 ^ L, c u = none ∧ (benesBwd L cfg x).testBit p = x.testBit u) := by
  have hs : ∀ x v, benesSrcInit c (2 ^ L) x = some v ↔ c v = some x := by
    intro x v
    rw [fill_spec c hinj]
    exact ⟨fun h => h.2, fun h => ⟨(hd v x h).1, h⟩⟩
  have ht : ∀ x v, benesTgtInit c (2 ^ L) x = some v ↔ x = v ∧ c v ≠ none := by
    intro x v
    rw [tgtInit_spec]
    constructor
    · rintro ⟨_, h⟩; exact h
    · rintro ⟨h1, h2⟩
      obtain ⟨y, hy⟩ := Option.ne_none_iff_exists'.1 h2
      exact ⟨(hd v y hy).1, h1, h2⟩
  have hbs : ∀ x v, benesSrcInit c (2 ^ L) x = some v → x < 2 ^ L := fun x v h => (hd v x ((hs x v).1 h)).2
  have hbt : ∀ x v, benesTgtInit c (2 ^ L) x = some v → x < 2 ^ L := by
    intro x v h
    rw [ht] at h
    obtain ⟨y, hy⟩ := Option.ne_none_iff_exists'.1 h.2
    rw [h.1]; exact (hd v y hy).1
  have hc : Consistent L
      { src := benesSrcInit c (2 ^ L), invSrc := invertPerm (benesSrcInit c (2 ^ L)) (2 ^ L),
        tgt := benesTgtInit c (2 ^ L), invTgt := invertPerm (benesTgtInit c (2 ^ L)) (2 ^ L),
        srcSet := 0, cfgSrc := 0, cfgTgt := 0 } := by
    refine ⟨?_, ?_, hbs, hbt, ?_⟩
    · intro p x
      simp only []
      rw [invertPerm_eq, fill_spec (benesSrcInit c (2 ^ L))]
      · exact ⟨fun h => ⟨hbs p x h, h⟩, fun h => h.2⟩
      · intro p q x hp hq
        rw [hs] at hp hq
        rw [hp] at hq
        injection hq
    · intro p x
      simp only []
      rw [invertPerm_eq, fill_spec]
      · exact ⟨fun h => ⟨hbt p x h, h⟩, fun h => h.2⟩
      · intro p q x hp hq
        rw [ht] at hp hq
        rw [hp.1, hq.1]
    · intro v
      constructor
      · rintro ⟨x, hx⟩
        refine ⟨v, (ht v v).2 ⟨rfl, ?_⟩⟩
        rw [(hs x v).1 hx]; simp
      · rintro ⟨x, hx⟩
        obtain ⟨y, hy⟩ := Option.ne_none_iff_exists'.1 ((ht x v).1 hx).2
        exact ⟨y, (hs y v).2 hy⟩
  obtain ⟨cfg, he, _, hg, hr⟩ := stages_spec L (Nat.le_refl _) _ (fun _ => 0, fun _ => 0) hc (by
    intro q t v hq ht' i hi
    have h1 : q < 2 ^ i := Nat.lt_of_lt_of_le (hbs q v hq) (Nat.pow_le_pow_right (by omega) hi)
    have h2 : t < 2 ^ i := Nat.lt_of_lt_of_le (hbt t v ht') (Nat.pow_le_pow_right (by omega) hi)
    rw [Nat.testBit_lt_two_pow h1, Nat.testBit_lt_two_pow h2])
  refine ⟨cfg, he, ?_⟩
  intro x hx
  obtain ⟨hlt, hnet⟩ := network L cfg.1 cfg.2 (fun i hi => (hg i hi).1) (fun i hi => (hg i hi).2) x hx
  refine ⟨hlt, ?_, ?_⟩
  · intro v p hv
    have hp := (hd v p hv).2
    have h1 := hr (dest cfg.1 L p)
    simp only [origin_dest] at h1
    rw [(hs p v).2 hv, eq_comm, ht] at h1
    have := hnet p hp
    rw [h1.1] at this
    exact this
  · intro p hp hv
    have h1 := hr (dest cfg.1 L p)
    simp only [origin_dest] at h1
    have hn : benesSrcInit c (2 ^ L) p = none := by
      cases h : benesSrcInit c (2 ^ L) p with
      | none => rfl
      | some v => exact absurd ((hs p v).1 h) (hv v)
    rw [hn] at h1
    refine ⟨origin cfg.2 L (dest cfg.1 L p), origin_lt L _ L (Nat.le_refl _) _ (dest_lt L _ L (Nat.le_refl _) p hp), ?_, hnet p hp⟩
    by_contra hcn
    rw [(ht _ _).2 ⟨rfl, hcn⟩] at h1
    simp at h1

end Proof.Benes
