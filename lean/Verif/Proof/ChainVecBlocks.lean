import Verif.Proof.ChainVec
/-! The sections of each kind of block make up the projection. -/
namespace Proof.Chain
open Spec Model.Chain Proof.Symmetry Proof.Maps
open Spec.Chain (Fits HasFlip)
open scoped BigOperators

variable {S : ℕ → Prop}

theorem BlockSum.congr {w : Option ℕ} {B : Blocks} {c : Spec.Chain} {ys ys' : List Generator} (h : BlockSum S w B c ys)
    (hag : List.Forall₂ (Agree S) ys ys') (hc : ∀ y ∈ ys, ∀ t, S t → S (y.img t)) : BlockSum S w B c ys' :=
  ⟨h.undone, h.moves, h.back, h.plain, fun sp s t hs => by rw [h.sums sp s t hs, projection_congr hag hc s t hs]⟩

/-! ### phases -/

theorem phase_none (B : Blocks) (hk : B.k = none) (L r : ℕ) : phaseC B L r false = 1 := by
  unfold phaseC; simp [hk]

theorem phase_some (B : Blocks) (k T n : ℕ) (hT : 0 < T) (hn : 0 < n) (hk : B.k = some k) (ha : B.a = T)
    (hp : ¬ (B.k.isSome ∧ (B.p.isSome ∨ B.pz.isSome))) (r : ℕ) : phaseC B (T * n) r false = root n k r := by
  have h1 : (T : ℝ) ≠ 0 := by exact_mod_cast Nat.pos_iff_ne_zero.1 hT
  have h2 : (n : ℝ) ≠ 0 := by exact_mod_cast Nat.pos_iff_ne_zero.1 hn
  have e : wave k (T * n) T = 2 * Real.pi * (k : Int) / n := by
    unfold wave
    push_cast
    field_simp
  have er : root n k r = Complex.exp (Complex.I * (wave k (T * n) T : ℝ) * r) := by
    unfold root
    rw [e]
    push_cast
    ring_nf
  unfold phaseC
  rw [if_neg hp]
  simp only [hk, ha]
  rw [er]
  split_ifs with h3 h4
  · rw [h3]; simp
  · rw [h4, mul_comm Complex.I, mul_comm _ (r : ℂ), Complex.exp_nat_mul, Complex.exp_pi_mul_I]
  · rfl

/-! ### one section -/

theorem undone_id : Undone S ⟨[], [], 1⟩ := ⟨fun _ h => h, fun _ _ => Or.inl rfl, fun _ _ => rfl, Or.inl rfl⟩

theorem undone_one {f : BitOp} {q : Int} (h : Acts S [gen f 2 q]) {p : Int} (hp : p = 1 ∨ p = -1) : Undone S ⟨[f], [f], p⟩ := by
  refine ⟨fun t ht => h.closed (gen f 2 q) (by simp) t ht, fun t ht => ?_, fun t ht => h.period (gen f 2 q) (by simp) t ht, hp⟩
  show 1 * (f t).2 = 1 ∨ 1 * (f t).2 = -1
  rw [one_mul]
  exact h.sign (gen f 2 q) (by simp) t ht

theorem acts_left {y z : Generator} (h : Acts S [y, z]) : Acts S [y] :=
  ⟨fun x hx => h.per_pos x (by simp at hx; simp [hx]), fun x hx => h.closed x (by simp at hx; simp [hx]),
    fun x hx => h.sign x (by simp at hx; simp [hx]), fun x hx => h.period x (by simp at hx; simp [hx]),
    fun x hx x' hx' => h.commute x (by simp at hx; simp [hx]) x' (by simp at hx'; simp [hx'])⟩

theorem acts_right {y z : Generator} (h : Acts S [y, z]) : Acts S [z] :=
  ⟨fun x hx => h.per_pos x (by simp at hx; simp [hx]), fun x hx => h.closed x (by simp at hx; simp [hx]),
    fun x hx => h.sign x (by simp at hx; simp [hx]), fun x hx => h.period x (by simp at hx; simp [hx]),
    fun x hx x' hx' => h.commute x (by simp at hx; simp [hx]) x' (by simp at hx'; simp [hx'])⟩

theorem step_scale (f : BitOp) (x : ℕ × Int) : step f x = ((step f (x.1, 1)).1, x.2 * (step f (x.1, 1)).2) := by simp [step]

theorem step_comm {f g : BitOp} {p q : Int} (h : Acts S [gen f 2 p, gen g 2 q]) (x : ℕ × Int) (hx : S x.1) :
    step f (step g x) = step g (step f x) := by
  have := h.commute (gen f 2 p) (by simp) (gen g 2 q) (by simp) x.1 hx
  simp only [gen_U] at this
  have e1 := congrArg Prod.fst this
  have e2 := congrArg Prod.snd this
  simp only [step, one_mul] at e1 e2 ⊢
  refine Prod.ext e1 ?_
  simp only
  rw [mul_assoc, mul_assoc, e2]

/-- `f` then `g`, undone in the same order, or `g` then `f` -/
theorem undone_two {f g : BitOp} {a b : Int} (h : Acts S [gen f 2 a, gen g 2 b]) {p : Int} (hp : p = 1 ∨ p = -1) (sp : Bool) :
    Undone S ⟨if sp then [g, f] else [f, g], [f, g], p⟩ := by
  have hfc := h.closed (gen f 2 a) (by simp)
  have hgc := h.closed (gen g 2 b) (by simp)
  have hfp : ∀ t, S t → step f (step f (t, 1)) = (t, 1) := h.period (gen f 2 a) (by simp)
  have hgp : ∀ t, S t → step g (step g (t, 1)) = (t, 1) := h.period (gen g 2 b) (by simp)
  have hff : ∀ x : ℕ × Int, S x.1 → step f (step f x) = x := fun x hx => by
    have := hfp x.1 hx
    have e1 := congrArg Prod.fst this
    have e2 := congrArg Prod.snd this
    simp only [step, one_mul] at e1 e2 ⊢
    refine Prod.ext e1 ?_
    simp only
    rw [mul_assoc, e2, mul_one]
  have key : ∀ x : ℕ × Int, S x.1 → applyOps (if sp then [g, f] else [f, g]) x = step g (step f x) := fun x hx => by
    cases sp
    · rfl
    · exact step_comm h x hx
  refine ⟨fun t ht => ?_, fun t ht => ?_, fun t ht => ?_, hp⟩
  · show S (applyOps (if sp then [g, f] else [f, g]) (t, 1)).1
    rw [key _ ht]
    exact hgc _ (hfc t ht)
  · show (applyOps (if sp then [g, f] else [f, g]) (t, 1)).2 = 1 ∨ (applyOps (if sp then [g, f] else [f, g]) (t, 1)).2 = -1
    rw [key _ ht]
    have h1 := h.sign (gen f 2 a) (by simp) t ht
    have h2 := h.sign (gen g 2 b) (by simp) _ (hfc t ht)
    show 1 * (f t).2 * (g (f t).1).2 = 1 ∨ 1 * (f t).2 * (g (f t).1).2 = -1
    rw [one_mul]
    exact pm_mul h1 h2
  · show step g (step f (applyOps (if sp then [g, f] else [f, g]) (t, 1))) = (t, 1)
    have e : step f (step g (step f (t, 1))) = step g (step f (step f (t, 1))) := step_comm h (step f (t, 1)) (hfc t ht)
    rw [key _ ht, e, hff (t, 1) ht, hgp t ht]

/-! ### blocks without momentum -/

theorem block_static {w : Option ℕ} {B : Blocks} {c : Spec.Chain} (h : Fits w c) {ys : List Generator} (hS : ∀ t, S t → t < c.size)
    (hk : B.k = none) (hu : ∀ sp, ∀ g ∈ sections sp B (bitopsOf w c.length c), Undone S g)
    (hs : ∀ sp s t, S s → ((sections sp B (bitopsOf w c.length c)).map fun g => part (fun x => x) t g (s, 1)).sum = projection ys s t) :
    BlockSum S w B c ys := by
  have hstep : stepOf B c = c.length := by simp [stepOf, hk]
  have hr : rounds B c.length = 1 := by simp [rounds, hk, Nat.div_self (fits_length h)]
  have hid : ∀ t, S t → step (shiftOf w (c.length - c.length) c) (t, 1) = (t, 1) := fun t ht =>
    back_tr h c.length 1 (fits_length h) (by omega) (by omega) t (hS t ht)
  have h1 : ∀ t, S t → (shiftOf w (c.length - c.length) c t).1 = t := fun t ht => by
    have := congrArg Prod.fst (hid t ht)
    simpa [step] using this
  have h2 : ∀ t, S t → (shiftOf w (c.length - c.length) c t).2 = 1 := fun t ht => by
    have := congrArg Prod.snd (hid t ht)
    simpa [step] using this
  refine ⟨?_, ?_, ?_, ?_, ?_⟩
  · rw [hstep]; exact hu
  · rw [hstep]
    refine ⟨fun t ht => by rw [h1 t ht]; exact ht, fun t ht => Or.inl (h2 t ht), fun t u ht hu e => ?_⟩
    rwa [h1 t ht, h1 u hu] at e
  · intro t ht
    rw [hr, hstep]
    exact hid t ht
  · simp [hk]
  · intro sp s t hs'
    rw [hr, hstep]
    simp only [Finset.sum_range_one, phase_none B hk, one_mul]
    exact hs sp s t hs'

/-! ### blocks with momentum -/

theorem block_momentum {w : Option ℕ} {B : Blocks} {c : Spec.Chain} (h : Fits w c) {ys : List Generator} (hS : ∀ t, S t → t < c.size)
    (k T n : ℕ) (hT : 0 < T) (hn : 0 < n) (hL : c.length = T * n) (hk : B.k = some k) (ha : B.a = T) (hp : B.p = none) (hpz : B.pz = none)
    (hcl : ∀ t, S t → S (shiftOf w T c t).1)
    (hu : ∀ sp, ∀ g ∈ sections sp B (bitopsOf w T c), Undone S g)
    (hs : ∀ sp s t, S s → ∑ r ∈ Finset.range n, (starRingEnd ℂ) (root n k r) *
      ((sections sp B (bitopsOf w T c)).map fun g => part (fun x => x) t g (tr (shiftOf w T c) s r)).sum = projection ys s t) :
    BlockSum S w B c ys := by
  have hTL : T ≤ c.length := by rw [hL]; exact Nat.le_mul_of_pos_right _ hn
  have hstep : stepOf B c = T := by simp [stepOf, hk, ha]
  have hr : rounds B c.length = n := by simp [rounds, hk, ha, hL, Nat.mul_div_cancel_left _ hT]
  have hcy0 : Cyclic (· < c.size) (shiftOf w T c) n :=
    Cyclic.of_acts (shift_acts h T n hT hn hL (shift_isSymmetry h T hT hTL n 0) rfl) (k := 0) (by simp)
  have hcy : Cyclic S (shiftOf w T c) n :=
    ⟨hn, hcl, fun s hs => hcy0.sign s (hS s hs), fun s hs => hcy0.period s (hS s hs)⟩
  have hb : ∀ t, S t → step (shiftOf w (c.length - T) c) (t, 1) = tr (shiftOf w T c) t (n - 1) := fun t ht =>
    back_tr h T n hT hn hL t (hS t ht)
  have hplain : ¬ (B.k.isSome ∧ (B.p.isSome ∨ B.pz.isSome)) := by simp [hp, hpz]
  refine ⟨?_, ?_, ?_, hplain, ?_⟩
  · rw [hstep]; exact hu
  · rw [hstep]; exact back_moves hcy hb
  · intro t ht
    rw [hr, hstep]
    exact back_period hcy hb t ht
  · intro sp s t hs'
    rw [hr, hstep, ← hs sp s t hs', ← sum_back hcy k s hs' fun x => ((sections sp B (bitopsOf w T c)).map fun g => part (fun x => x) t g x).sum]
    refine Finset.sum_congr rfl fun r _ => ?_
    rw [hL, phase_some B k T n hT hn hk ha hplain r, ← hL, back_iter hcy hb r s hs']

/-! ### the projections written out -/

theorem proj_two (f : BitOp) (p : Int) (hp : p = 1 ∨ p = -1) (s t : ℕ) :
    projection [gen f 2 (parityQ p)] s t = (if s = t then 1 else 0) + (if (f s).1 = t then (p : ℂ) * (f s).2 else 0) := by
  unfold projection
  rw [exponents_two]
  simp only [List.map_cons, List.map_nil, List.sum_cons, List.sum_nil, add_zero]
  rw [character_zero_cons, character_nil, parity_one p hp, character_nil]
  have e0 : word [gen f 2 (parityQ p)] [0] (s, 1) = (s, 1) := rfl
  have e1 : word [gen f 2 (parityQ p)] [1] (s, 1) = ((f s).1, 1 * (f s).2) := rfl
  rw [e0, e1]
  simp

theorem proj_pair (f g : BitOp) (p q : Int) (hp : p = 1 ∨ p = -1) (hq : q = 1 ∨ q = -1) (s t : ℕ) :
    projection [gen f 2 (parityQ p), gen g 2 (parityQ q)] s t = (if s = t then 1 else 0) + (if (f s).1 = t then (p : ℂ) * (f s).2 else 0) +
      (if (g s).1 = t then (q : ℂ) * (g s).2 else 0) + (if (f (g s).1).1 = t then (p * q : ℂ) * ((g s).2 * (f (g s).1).2) else 0) := by
  unfold projection
  rw [exponents_pair]
  simp only [List.map_cons, List.map_nil, List.sum_cons, List.sum_nil, add_zero]
  rw [character_zero_cons, character_zero_cons, character_zero_cons, character_nil, parity_one p hp, parity_one p hp, character_zero_cons, parity_one q hq,
    character_nil]
  have e0 : word [gen f 2 (parityQ p), gen g 2 (parityQ q)] [0, 0] (s, 1) = (s, 1) := rfl
  have e1 : word [gen f 2 (parityQ p), gen g 2 (parityQ q)] [1, 0] (s, 1) = ((f s).1, 1 * (f s).2) := rfl
  have e2 : word [gen f 2 (parityQ p), gen g 2 (parityQ q)] [0, 1] (s, 1) = ((g s).1, 1 * (g s).2) := rfl
  have e3 : word [gen f 2 (parityQ p), gen g 2 (parityQ q)] [1, 1] (s, 1) = ((f (g s).1).1, 1 * (g s).2 * (f (g s).1).2) := rfl
  rw [e0, e1, e2, e3]
  simp [add_assoc]

theorem proj_tr (Tr : BitOp) (n : ℕ) (k : Int) (s t : ℕ) :
    projection [gen Tr n k] s t
      = ∑ r ∈ Finset.range n, (starRingEnd ℂ) (root n k r) * (if (tr Tr s r).1 = t then ((tr Tr s r).2 : ℂ) else 0) := by
  unfold projection
  rw [exponents_one, List.map_map, ← List.sum_toFinset _ List.nodup_range, List.toFinset_range]
  refine Finset.sum_congr rfl fun r _ => ?_
  simp only [Function.comp_apply]
  rw [word_one, root_gen, character_nil, mul_one]
  split <;> simp

theorem proj_tr_two (Tr Z : BitOp) (n : ℕ) (k : Int) (z : Int) (hz : z = 1 ∨ z = -1)
    (h : Acts S [gen Tr n k, gen Z 2 (parityQ z)]) (s t : ℕ) (hs : S s) :
    projection [gen Tr n k, gen Z 2 (parityQ z)] s t
      = ∑ r ∈ Finset.range n, (starRingEnd ℂ) (root n k r) * ((if (tr Tr s r).1 = t then ((tr Tr s r).2 : ℂ) else 0) +
        (if (Z (tr Tr s r).1).1 = t then (z : ℂ) * ((tr Tr s r).2 * (Z (tr Tr s r).1).2) else 0)) := by
  have hP := Pair.of_acts h
  unfold projection
  rw [exponents_tz, List.map_append, List.sum_append, List.map_map, List.map_map, ← List.sum_toFinset _ List.nodup_range,
    ← List.sum_toFinset _ List.nodup_range, List.toFinset_range, ← Finset.sum_add_distrib]
  refine Finset.sum_congr rfl fun r _ => ?_
  simp only [Function.comp_apply]
  have e0 : word [gen Tr n k, gen Z 2 (parityQ z)] [r, 0] (s, 1) = tr Tr s r := rfl
  have e1 : word [gen Tr n k, gen Z 2 (parityQ z)] [r, 1] (s, 1) = step Z (tr Tr s r) := hP.commute s hs r
  rw [e0, e1, root_gen Tr n k r [gen Z 2 (parityQ z)] [0], root_gen Tr n k r [gen Z 2 (parityQ z)] [1], character_zero_cons, parity_one z hz, character_nil]
  rw [mul_add]
  congr 1
  · split <;> simp
  · simp only [step, map_mul, map_intCast, map_one]
    split
    · push_cast; ring
    · simp

end Proof.Chain
