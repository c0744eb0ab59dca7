import Verif.Proof.ChainBlocks
/-! The functions that look for the representative of a state. -/
namespace Proof.Chain
open Spec Model.Chain Proof.Symmetry Proof.Maps
open Spec.Chain (Fits HasFlip)

variable {S : ℕ → Prop} {ys : List Generator}

theorem reference_of (h : Acts S ys) {s : ℕ} (hs : S s) {cs : List ℕ} {r : ℕ} {sign : Int} (he : cs ∈ exponents ys)
    (hw : word ys cs (s, 1) = (r, sign)) (hm : ∀ ds ∈ exponents ys, (word ys ds (s, 1)).1 ≤ r) :
    IsReference ys s cs r sign where
  exponents := he
  word := hw
  largest := by
    intro t ht
    obtain ⟨ds, h1, h2⟩ := (related_iff h s t hs).1 ht
    rw [← h2]
    exact hm ds ((mem_exponents _ _).2 h1)

theorem reference_congr {ys' : List Generator} (h : List.Forall₂ (Agree S) ys ys') (ha : Acts S ys) {s : ℕ} (hs : S s) {cs : List ℕ}
    {r : ℕ} {sign : Int} (hr : IsReference ys s cs r sign) : IsReference ys' s cs r sign where
  exponents := by rw [← exponents_congr h]; exact hr.exponents
  word := by rw [← (word_congr h ha.closed cs (s, 1) hs).1]; exact hr.word
  largest := fun t ht => hr.largest t ((related_congr h ha s t hs).2 ht)

/-- one operation of order two -/
theorem ref_two (f : BitOp) (q : Int) (h : Acts S [gen f 2 q]) (s : ℕ) (hs : S s) :
    IsReference [gen f 2 q] s [(refP f s).g] (refP f s).r (refP f s).sign := by
  have e0 : word [gen f 2 q] [0] (s, 1) = (s, 1) := rfl
  have e1 : word [gen f 2 q] [1] (s, 1) = step f (s, 1) := rfl
  have hall : ∀ r, s ≤ r → (step f (s, 1)).1 ≤ r → ∀ ds ∈ exponents [gen f 2 q], (word [gen f 2 q] ds (s, 1)).1 ≤ r := by
    intro r h1 h2 ds hd
    rw [exponents_two] at hd
    simp only [List.mem_cons, List.not_mem_nil, or_false] at hd
    rcases hd with rfl | rfl
    · exact h1
    · exact h2
  unfold refP
  simp only
  split_ifs with hc
  · exact reference_of h hs (by rw [exponents_two]; simp) e1 (hall _ (by simp only; omega) le_rfl)
  · exact reference_of h hs (by rw [exponents_two]; simp) e0 (hall _ le_rfl (by simp only; omega))

/-- two operations of order two, the first comparison being with `g` -/
theorem ref_pair (f g : BitOp) (p q : Int) (h : Acts S [gen f 2 p, gen g 2 q]) (s : ℕ) (hs : S s) :
    let b := better (step f (step g (s, 1))) 1 1 (better (step f (s, 1)) 0 1 (better (step g (s, 1)) 1 0 ⟨s, 1, 0, 0⟩))
    IsReference [gen f 2 p, gen g 2 q] s [b.g, b.l] b.r b.sign := by
  have e00 : word [gen f 2 p, gen g 2 q] [0, 0] (s, 1) = (s, 1) := rfl
  have e10 : word [gen f 2 p, gen g 2 q] [1, 0] (s, 1) = step f (s, 1) := rfl
  have e01 : word [gen f 2 p, gen g 2 q] [0, 1] (s, 1) = step g (s, 1) := rfl
  have e11 : word [gen f 2 p, gen g 2 q] [1, 1] (s, 1) = step f (step g (s, 1)) := rfl
  have hall : ∀ r, s ≤ r → (step f (s, 1)).1 ≤ r → (step g (s, 1)).1 ≤ r → (step f (step g (s, 1))).1 ≤ r →
      ∀ ds ∈ exponents [gen f 2 p, gen g 2 q], (word [gen f 2 p, gen g 2 q] ds (s, 1)).1 ≤ r := by
    intro r h1 h2 h3 h4 ds hd
    rw [exponents_pair] at hd
    simp only [List.mem_cons, List.not_mem_nil, or_false] at hd
    rcases hd with rfl | rfl | rfl | rfl
    · exact h1
    · exact h2
    · exact h3
    · exact h4
  have hx : ∀ cs, cs = [0, 0] ∨ cs = [1, 0] ∨ cs = [0, 1] ∨ cs = [1, 1] → cs ∈ exponents [gen f 2 p, gen g 2 q] := by
    intro cs hc; rw [exponents_pair]; simpa using hc
  unfold better
  simp only
  by_cases h1 : (step g (s, 1)).1 > s
  · rw [if_pos h1]
    simp only
    by_cases h2 : (step f (s, 1)).1 > (step g (s, 1)).1
    · rw [if_pos h2]
      simp only
      by_cases h3 : (step f (step g (s, 1))).1 > (step f (s, 1)).1
      · rw [if_pos h3]
        exact reference_of h hs (hx _ (by simp)) e11 (hall _ (by simp only; omega) (by simp only; omega) (by simp only; omega) (by simp only; omega))
      · rw [if_neg h3]
        exact reference_of h hs (hx _ (by simp)) e10 (hall _ (by simp only; omega) (by simp only; omega) (by simp only; omega) (by simp only; omega))
    · rw [if_neg h2]
      simp only
      by_cases h3 : (step f (step g (s, 1))).1 > (step g (s, 1)).1
      · rw [if_pos h3]
        exact reference_of h hs (hx _ (by simp)) e11 (hall _ (by simp only; omega) (by simp only; omega) (by simp only; omega) (by simp only; omega))
      · rw [if_neg h3]
        exact reference_of h hs (hx _ (by simp)) e01 (hall _ (by simp only; omega) (by simp only; omega) (by simp only; omega) (by simp only; omega))
  · rw [if_neg h1]
    simp only
    by_cases h2 : (step f (s, 1)).1 > s
    · rw [if_pos h2]
      simp only
      by_cases h3 : (step f (step g (s, 1))).1 > (step f (s, 1)).1
      · rw [if_pos h3]
        exact reference_of h hs (hx _ (by simp)) e11 (hall _ (by simp only; omega) (by simp only; omega) (by simp only; omega) (by simp only; omega))
      · rw [if_neg h3]
        exact reference_of h hs (hx _ (by simp)) e10 (hall _ (by simp only; omega) (by simp only; omega) (by simp only; omega) (by simp only; omega))
    · rw [if_neg h2]
      simp only
      by_cases h3 : (step f (step g (s, 1))).1 > s
      · rw [if_pos h3]
        exact reference_of h hs (hx _ (by simp)) e11 (hall _ (by simp only; omega) (by simp only; omega) (by simp only; omega) (by simp only; omega))
      · rw [if_neg h3]
        exact reference_of h hs (hx _ (by simp)) e00 (hall _ (by simp only; omega) (by simp only; omega) (by simp only; omega) (by simp only; omega))

/-- the loop over the translates of `x` -/
theorem refLoop_spec (Tr : BitOp) (g : ℕ) : ∀ (n i : ℕ) (x : ℕ × Int) (b : Ref),
    (refLoop Tr g n i x b = b ∨ ∃ j, j < n ∧
      refLoop Tr g n i x b = ⟨((step Tr)^[j + 1] x).1, ((step Tr)^[j + 1] x).2, i + j, g⟩) ∧
    b.r ≤ (refLoop Tr g n i x b).r ∧ ∀ j, j < n → ((step Tr)^[j + 1] x).1 ≤ (refLoop Tr g n i x b).r
  | 0, i, x, b => ⟨Or.inl rfl, le_rfl, fun j hj => absurd hj (Nat.not_lt_zero _)⟩
  | n + 1, i, x, b => by
    obtain ⟨h1, h2, h3⟩ := refLoop_spec Tr g n (i + 1) (step Tr x) (better (step Tr x) i g b)
    have hb : b.r ≤ (better (step Tr x) i g b).r ∧ (step Tr x).1 ≤ (better (step Tr x) i g b).r := by
      unfold better; split_ifs with hc
      · exact ⟨by simp only; omega, le_rfl⟩
      · exact ⟨le_rfl, by omega⟩
    simp only [refLoop]
    refine ⟨?_, hb.1.trans h2, ?_⟩
    · rcases h1 with h1 | ⟨j, hj, h1⟩
      · rw [h1]
        unfold better
        split_ifs with hc
        · exact Or.inr ⟨0, by omega, rfl⟩
        · exact Or.inl rfl
      · exact Or.inr ⟨j + 1, by omega, by rw [h1, Function.iterate_succ_apply, show i + 1 + j = i + (j + 1) by omega]; rfl⟩
    · intro j hj
      cases j with
      | zero => exact hb.2.trans h2
      | succ j => rw [Function.iterate_succ_apply]; exact h3 j (by omega)

/-- the same with the exponent modulo the order of the translations -/
theorem refLoop_cyclic {Tr : BitOp} {n : ℕ} (h : Cyclic S Tr n) (g : ℕ) (x : ℕ × Int) (hx : S x.1) (b : Ref) :
    (refLoop Tr g n 1 x b = b ∨ ((refLoop Tr g n 1 x b).g = g ∧
      (step Tr)^[(refLoop Tr g n 1 x b).l % n] x = ((refLoop Tr g n 1 x b).r, (refLoop Tr g n 1 x b).sign))) ∧
    b.r ≤ (refLoop Tr g n 1 x b).r ∧ ∀ c, c < n → ((step Tr)^[c] x).1 ≤ (refLoop Tr g n 1 x b).r := by
  have hper : (step Tr)^[n] x = x := by
    have := iter_step_scale Tr n x.1 x.2
    rw [show (x.1, x.2) = x from rfl, h.period x.1 hx] at this
    rw [this]; simp
  obtain ⟨h1, h2, h3⟩ := refLoop_spec Tr g n 1 x b
  refine ⟨?_, h2, ?_⟩
  · rcases h1 with h1 | ⟨j, hj, h1⟩
    · exact Or.inl h1
    · refine Or.inr ⟨by rw [h1], ?_⟩
      rw [h1]
      simp only
      by_cases hjn : j + 1 = n
      · rw [Nat.add_comm, hjn, Nat.mod_self, hper]; rfl
      · rw [Nat.add_comm, Nat.mod_eq_of_lt (by omega)]
  · intro c hc
    cases c with
    | zero =>
      have := h3 (n - 1) (by have := h.pos; omega)
      rw [Nat.sub_add_cancel h.pos, hper] at this
      exact this
    | succ c => exact h3 c (by omega)

/-- result of the search among the translates -/
theorem refT_spec {Tr : BitOp} {n : ℕ} (h : Cyclic S Tr n) {L T : ℕ} (hL : L / T = n) (s : ℕ) (hs : S s) :
    (refT Tr L T s).g = 0 ∧ tr Tr s ((refT Tr L T s).l % n) = ((refT Tr L T s).r, (refT Tr L T s).sign) ∧
    ∀ c, c < n → (tr Tr s c).1 ≤ (refT Tr L T s).r := by
  unfold refT
  rw [hL]
  obtain ⟨h1, _, h3⟩ := refLoop_cyclic h 0 (s, 1) hs ⟨s, 1, 0, 0⟩
  refine ⟨?_, ?_, h3⟩
  · rcases h1 with h1 | ⟨h1, _⟩
    · rw [h1]
    · exact h1
  · rcases h1 with h1 | ⟨_, h1⟩
    · rw [h1]; simp [tr]
    · exact h1

theorem ref_t {Tr : BitOp} {n : ℕ} {k : Int} (h : Acts S [gen Tr n k]) {L T : ℕ} (hL : L / T = n) (s : ℕ) (hs : S s) :
    IsReference [gen Tr n k] s [(refT Tr L T s).l % n] (refT Tr L T s).r (refT Tr L T s).sign := by
  have hc : Cyclic S Tr n := Cyclic.of_acts h (k := k) (by simp)
  obtain ⟨_, h2, h3⟩ := refT_spec hc hL s hs
  refine reference_of h hs ?_ ?_ ?_
  · rw [exponents_one]; simp [Nat.mod_lt _ hc.pos]
  · rw [word_one]; exact h2
  · intro ds hd
    rw [exponents_one, List.mem_map] at hd
    obtain ⟨c, hc, rfl⟩ := hd
    rw [word_one]
    exact h3 c (List.mem_range.1 hc)

theorem ref_tz {Tr Z : BitOp} {n : ℕ} {k q : Int} (h : Acts S [gen Tr n k, gen Z 2 q]) {L T : ℕ} (hL : L / T = n) (s : ℕ) (hs : S s) :
    IsReference [gen Tr n k, gen Z 2 q] s [(refT_Z Tr Z L T s).l % n, (refT_Z Tr Z L T s).g] (refT_Z Tr Z L T s).r
      (refT_Z Tr Z L T s).sign := by
  have hc : Cyclic S Tr n := Cyclic.of_acts h (k := k) (by simp)
  have w0 : ∀ c, word [gen Tr n k, gen Z 2 q] [c, 0] (s, 1) = tr Tr s c := fun c => rfl
  have w1 : ∀ c, word [gen Tr n k, gen Z 2 q] [c, 1] (s, 1) = (step Tr)^[c] (step Z (s, 1)) := fun c => rfl
  obtain ⟨g1, h2, h3⟩ := refT_spec hc hL s hs
  unfold refT_Z
  rw [hL]
  obtain ⟨f1, f2, f3⟩ := refLoop_cyclic hc 1 (step Z (s, 1)) (h.closed (gen Z 2 q) (by simp) s hs) (refT Tr L T s)
  generalize refLoop Tr 1 n 1 (step Z (s, 1)) (refT Tr L T s) = b at *
  have hall : ∀ ds ∈ exponents [gen Tr n k, gen Z 2 q], (word [gen Tr n k, gen Z 2 q] ds (s, 1)).1 ≤ b.r := by
    intro ds hd
    rw [exponents_tz, List.mem_append, List.mem_map, List.mem_map] at hd
    rcases hd with ⟨c, hc, rfl⟩ | ⟨c, hc, rfl⟩
    · rw [w0]; exact (h3 c (List.mem_range.1 hc)).trans f2
    · rw [w1]; exact f3 c (List.mem_range.1 hc)
  rcases f1 with f1 | ⟨e1, e2⟩
  · refine reference_of h hs ?_ ?_ hall
    · rw [f1, g1, exponents_tz]; simp [Nat.mod_lt _ hc.pos]
    · rw [f1, g1, w0]; exact h2
  · refine reference_of h hs ?_ ?_ hall
    · rw [e1, exponents_tz]; simp [Nat.mod_lt _ hc.pos]
    · rw [e1, w1]; exact e2

theorem exponents_three (f g h : BitOp) (n : ℕ) (k p q : Int) (cs : List ℕ) :
    cs ∈ exponents [gen f n k, gen g 2 p, gen h 2 q] ↔ ∃ c a b, c < n ∧ a < 2 ∧ b < 2 ∧ cs = [c, a, b] := by
  rw [mem_exponents]
  constructor
  · intro hc
    match cs, hc with
    | _, .cons h1 (.cons h2 (.cons h3 .nil)) => exact ⟨_, _, _, h1, h2, h3, rfl⟩
  · rintro ⟨c, a, b, h1, h2, h3, rfl⟩
    exact .cons h1 (.cons h2 (.cons h3 .nil))

theorem ref_tzz {Tr ZA ZB Z : BitOp} {n : ℕ} {k p q : Int} (h : Acts S [gen Tr n k, gen ZA 2 p, gen ZB 2 q]) {L T : ℕ} (hL : L / T = n)
    (s : ℕ) (hs : S s) (hZ : step Z (s, 1) = step ZA (step ZB (s, 1))) :
    let b := refT_ZA_ZB Tr ZA ZB Z L T s
    IsReference [gen Tr n k, gen ZA 2 p, gen ZB 2 q] s [b.l % n, b.g % 2, b.g / 2] b.r b.sign := by
  have hc : Cyclic S Tr n := Cyclic.of_acts h (k := k) (by simp)
  have hA : ∀ t, S t → S (ZA t).1 := fun t ht => h.closed (gen ZA 2 p) (by simp) t ht
  have hB : ∀ t, S t → S (ZB t).1 := fun t ht => h.closed (gen ZB 2 q) (by simp) t ht
  have w00 : ∀ c, word [gen Tr n k, gen ZA 2 p, gen ZB 2 q] [c, 0, 0] (s, 1) = tr Tr s c := fun c => rfl
  have w10 : ∀ c, word [gen Tr n k, gen ZA 2 p, gen ZB 2 q] [c, 1, 0] (s, 1) = (step Tr)^[c] (step ZA (s, 1)) := fun c => rfl
  have w01 : ∀ c, word [gen Tr n k, gen ZA 2 p, gen ZB 2 q] [c, 0, 1] (s, 1) = (step Tr)^[c] (step ZB (s, 1)) := fun c => rfl
  have w11 : ∀ c, word [gen Tr n k, gen ZA 2 p, gen ZB 2 q] [c, 1, 1] (s, 1) = (step Tr)^[c] (step Z (s, 1)) := fun c => by rw [hZ]; rfl
  obtain ⟨g1, h2, h3⟩ := refT_spec hc hL s hs
  unfold refT_ZA_ZB
  rw [hL]
  have hSZ : S (step Z (s, 1)).1 := by rw [hZ]; exact hA _ (hB _ hs)
  obtain ⟨a1, a2, a3⟩ := refLoop_cyclic hc 1 (step ZA (s, 1)) (hA _ hs) (refT Tr L T s)
  obtain ⟨b1, b2, b3⟩ := refLoop_cyclic hc 2 (step ZB (s, 1)) (hB _ hs) (refLoop Tr 1 n 1 (step ZA (s, 1)) (refT Tr L T s))
  obtain ⟨c1, c2, c3⟩ := refLoop_cyclic hc 3 (step Z (s, 1)) hSZ
    (refLoop Tr 2 n 1 (step ZB (s, 1)) (refLoop Tr 1 n 1 (step ZA (s, 1)) (refT Tr L T s)))
  generalize refLoop Tr 3 n 1 (step Z (s, 1)) (refLoop Tr 2 n 1 (step ZB (s, 1)) (refLoop Tr 1 n 1 (step ZA (s, 1)) (refT Tr L T s))) = z at *
  generalize refLoop Tr 2 n 1 (step ZB (s, 1)) (refLoop Tr 1 n 1 (step ZA (s, 1)) (refT Tr L T s)) = y at *
  generalize refLoop Tr 1 n 1 (step ZA (s, 1)) (refT Tr L T s) = x at *
  generalize refT Tr L T s = u at *
  have hall : ∀ ds ∈ exponents [gen Tr n k, gen ZA 2 p, gen ZB 2 q], (word [gen Tr n k, gen ZA 2 p, gen ZB 2 q] ds (s, 1)).1 ≤ z.r := by
    intro ds hd
    obtain ⟨c, a, b, h4, h5, h6, rfl⟩ := (exponents_three _ _ _ _ _ _ _ _).1 hd
    obtain rfl | rfl : a = 0 ∨ a = 1 := by omega
    · obtain rfl | rfl : b = 0 ∨ b = 1 := by omega
      · rw [w00]; exact (h3 c h4).trans (a2.trans (b2.trans c2))
      · rw [w01]; exact (b3 c h4).trans c2
    · obtain rfl | rfl : b = 0 ∨ b = 1 := by omega
      · rw [w10]; exact (a3 c h4).trans (b2.trans c2)
      · rw [w11]; exact c3 c h4
  have hmem : ∀ c a b, a < 2 → b < 2 → [c % n, a, b] ∈ exponents [gen Tr n k, gen ZA 2 p, gen ZB 2 q] := fun c a b h1 h2 =>
    (exponents_three _ _ _ _ _ _ _ _).2 ⟨c % n, a, b, Nat.mod_lt _ hc.pos, h1, h2, rfl⟩
  have hword : word [gen Tr n k, gen ZA 2 p, gen ZB 2 q] [z.l % n, z.g % 2, z.g / 2] (s, 1) = (z.r, z.sign) ∧ z.g / 2 < 2 := by
    rcases c1 with rfl | ⟨e1, e2⟩
    · rcases b1 with rfl | ⟨e1, e2⟩
      · rcases a1 with rfl | ⟨e1, e2⟩
        · rw [g1]; exact ⟨h2, by decide⟩
        · rw [e1]; exact ⟨e2, by decide⟩
      · rw [e1]; exact ⟨e2, by decide⟩
    · rw [e1]; exact ⟨(w11 _).trans e2, by decide⟩
  exact reference_of h hs (hmem _ _ _ (Nat.mod_lt _ (by decide)) hword.2) hword.1 hall

theorem reference_swap {f g : BitOp} {p q : Int} (h : Acts S [gen f 2 p, gen g 2 q]) {s : ℕ} (hs : S s) {a b r : ℕ} {sign : Int}
    (hr : IsReference [gen f 2 p, gen g 2 q] s [a, b] r sign) : IsReference [gen g 2 q, gen f 2 p] s [b, a] r sign where
  exponents := by
    have := hr.exponents
    rw [exponents_pair] at this ⊢
    simp only [List.mem_cons, List.cons.injEq, and_true, List.not_mem_nil, or_false] at this ⊢
    omega
  word := by
    rw [← hr.word]
    have := hr.exponents
    rw [exponents_pair] at this
    simp only [List.mem_cons, List.cons.injEq, and_true, List.not_mem_nil, or_false] at this
    rcases this with ⟨rfl, rfl⟩ | ⟨rfl, rfl⟩ | ⟨rfl, rfl⟩ | ⟨rfl, rfl⟩
    · rfl
    · rfl
    · rfl
    · exact h.commute (gen g 2 q) (by simp) (gen f 2 p) (by simp) s hs
  largest := fun t ht => hr.largest t (by
    unfold Related at ht ⊢
    refine Relation.ReflTransGen.mono (r := fun a b => ∃ y ∈ [gen g 2 q, gen f 2 p], b = y.img a) ?_ s t ht
    rintro a b ⟨y, hy, e⟩
    exact ⟨y, by simpa [or_comm] using hy, e⟩)

/-! ### for the symmetries of the chains -/

theorem order_two_ref {w : Option ℕ} {c : Spec.Chain} (h : Fits w c) {m : List Int} (hm : SiteSymm c m 2) (f : BitOp)
    (hf : ∀ q, c.IsSymmetry m (gen f 2 q)) {y : Generator} (hy : c.IsSymmetry m y) (hp : y.per = 2) (s : ℕ) (hs : s < c.size) :
    IsReference [y] s [(refP f s).g] (refP f s).r (refP f s).sign := by
  have ha : Acts (· < c.size) [gen f 2 y.q] := order_two_acts h hm (hf _) rfl
  exact reference_congr (.cons (isSymmetry_agree hm (hf _) hy hp.symm rfl) .nil) ha hs (ref_two f y.q ha s hs)

theorem pair_ref {w : Option ℕ} {c : Spec.Chain} (h : Fits w c) {m m' : List Int} (hm : SiteSymm c m 2) (hm' : SiteSymm c m' 2)
    (hc : SitesCommute c.sites m m') (f g : BitOp) (hf : ∀ q, c.IsSymmetry m (gen f 2 q)) (hg : ∀ q, c.IsSymmetry m' (gen g 2 q))
    {y z : Generator} (hy : c.IsSymmetry m y) (hz : c.IsSymmetry m' z) (hp : y.per = 2) (hq : z.per = 2) (s : ℕ) (hs : s < c.size) :
    let b := better (step f (step g (s, 1))) 1 1 (better (step f (s, 1)) 0 1 (better (step g (s, 1)) 1 0 ⟨s, 1, 0, 0⟩))
    IsReference [y, z] s [b.g, b.l] b.r b.sign := by
  have ha : Acts (· < c.size) [gen f 2 y.q, gen g 2 z.q] := pair_acts h hm hm' (hf _) (hg _) hc
  exact reference_congr (.cons (isSymmetry_agree hm (hf _) hy hp.symm rfl) (.cons (isSymmetry_agree hm' (hg _) hz hq.symm rfl) .nil)) ha hs
    (ref_pair f g _ _ ha s hs)

theorem sublattices_ref {w : Option ℕ} {c : Spec.Chain} (h : Fits w c) (hf : c.fermions = false) {yA yB : Generator}
    (hA : c.IsSymmetry (c.flipOf ((c.length + 1) % 2)) yA) (hB : c.IsSymmetry (c.flipOf (c.length % 2)) yB) (hpA : yA.per = 2) (hpB : yB.per = 2)
    (s : ℕ) (hs : s < c.size) :
    let b := refZA_ZB (flipAOf c) (flipBOf c) (flipAllOf w c) s
    IsReference [yA, yB] s [b.l, b.g] b.r b.sign := by
  have ha : Acts (· < c.size) [gen (flipBOf c) 2 yB.q, gen (flipAOf c) 2 yA.q] :=
    pair_acts h (sub_site c _ hf) (sub_site c _ hf) (subB_isSymmetry h hf 2 _) (subA_isSymmetry h hf 2 _) (sub_sub c _ _ hf)
  have ha' : Acts (· < c.size) [gen (flipAOf c) 2 yA.q, gen (flipBOf c) 2 yB.q] :=
    pair_acts h (sub_site c _ hf) (sub_site c _ hf) (subA_isSymmetry h hf 2 _) (subB_isSymmetry h hf 2 _) (sub_sub c _ _ hf)
  have key := reference_swap ha hs (ref_pair (flipBOf c) (flipAOf c) _ _ ha s hs)
  have e : step (flipBOf c) (step (flipAOf c) (s, 1)) = step (flipAllOf w c) (s, 1) := by
    rw [sublattices h hf s hs]
    exact (ha.commute (gen (flipBOf c) 2 yB.q) (by simp) (gen (flipAOf c) 2 yA.q) (by simp) s hs)
  rw [e] at key
  exact reference_congr (.cons (isSymmetry_agree (sub_site c _ hf) (subA_isSymmetry h hf 2 _) hA hpA.symm rfl)
    (.cons (isSymmetry_agree (sub_site c _ hf) (subB_isSymmetry h hf 2 _) hB hpB.symm rfl) .nil)) ha' hs key

theorem momentum_ref {w : Option ℕ} {c : Spec.Chain} (h : Fits w c) (T n : ℕ) (hT : 0 < T) (hn : 0 < n) (hL : c.length = T * n)
    {y : Generator} (hy : c.IsSymmetry (c.shift T) y) (hp : y.per = n) (s : ℕ) (hs : s < c.size) :
    let b := refT (shiftOf w T c) c.length T s
    IsReference [y] s [b.l % n] b.r b.sign := by
  have hTL : T ≤ c.length := by rw [hL]; exact Nat.le_mul_of_pos_right _ hn
  have hf := shift_isSymmetry h T hT hTL n y.q
  have ha : Acts (· < c.size) [gen (shiftOf w T c) n y.q] := shift_acts h T n hT hn hL hf rfl
  have hdiv : c.length / T = n := by rw [hL, Nat.mul_div_cancel_left _ hT]
  exact reference_congr (.cons (isSymmetry_agree (shift_site c T n hT hn hL) hf hy hp.symm rfl) .nil) ha hs (ref_t ha hdiv s hs)

theorem momentum_two_ref {w : Option ℕ} {c : Spec.Chain} (h : Fits w c) {m : List Int} (hm : SiteSymm c m 2) (T n : ℕ) (hT : 0 < T)
    (hn : 0 < n) (hL : c.length = T * n) (hc : SitesCommute c.sites (c.shift T) m) (g : BitOp) (hg : ∀ q, c.IsSymmetry m (gen g 2 q))
    {y z : Generator} (hy : c.IsSymmetry (c.shift T) y) (hyp : y.per = n) (hz : c.IsSymmetry m z) (hzp : z.per = 2)
    (s : ℕ) (hs : s < c.size) :
    let b := refT_Z (shiftOf w T c) g c.length T s
    IsReference [y, z] s [b.l % n, b.g] b.r b.sign := by
  have hTL : T ≤ c.length := by rw [hL]; exact Nat.le_mul_of_pos_right _ hn
  have hf := shift_isSymmetry h T hT hTL n y.q
  have ha : Acts (· < c.size) [gen (shiftOf w T c) n y.q, gen g 2 z.q] := pair_acts h (shift_site c T n hT hn hL) hm hf (hg _) hc
  have hdiv : c.length / T = n := by rw [hL, Nat.mul_div_cancel_left _ hT]
  exact reference_congr (.cons (isSymmetry_agree (shift_site c T n hT hn hL) hf hy hyp.symm rfl)
    (.cons (isSymmetry_agree hm (hg _) hz hzp.symm rfl) .nil)) ha hs (ref_tz ha hdiv s hs)

theorem three_acts {w : Option ℕ} {c : Spec.Chain} (h : Fits w c) {m m' m'' : List Int} {y y' y'' : Generator} (hm : SiteSymm c m y.per)
    (hm' : SiteSymm c m' y'.per) (hm'' : SiteSymm c m'' y''.per) (hy : c.IsSymmetry m y) (hy' : c.IsSymmetry m' y') (hy'' : c.IsSymmetry m'' y'')
    (hc : SitesCommute c.sites m m') (hc' : SitesCommute c.sites m m'') (hc'' : SitesCommute c.sites m' m'') :
    Acts (· < c.size) [y, y', y''] :=
  acts_of_maps (fits_base h) [(m, y), (m', y'), (m'', y'')] (by
    intro x hx
    simp only [List.mem_cons, List.not_mem_nil, or_false] at hx
    rcases hx with rfl | rfl | rfl
    · exact ⟨hm, hy⟩
    · exact ⟨hm', hy'⟩
    · exact ⟨hm'', hy''⟩) (by
    intro x hx x' hx'
    simp only [List.mem_cons, List.not_mem_nil, or_false] at hx hx'
    rcases hx with rfl | rfl | rfl <;> rcases hx' with rfl | rfl | rfl
    · exact SitesCommute.refl _ _
    · exact hc
    · exact hc'
    · exact hc.symm
    · exact SitesCommute.refl _ _
    · exact hc''
    · exact hc'.symm
    · exact hc''.symm
    · exact SitesCommute.refl _ _)

theorem momentum_sublattices_ref {w : Option ℕ} {c : Spec.Chain} (h : Fits w c) (hf : c.fermions = false) (T n : ℕ) (hT : 0 < T)
    (heven : T % 2 = 0) (hn : 0 < n) (hL : c.length = T * n) {yT yA yB : Generator} (hy : c.IsSymmetry (c.shift T) yT) (hyp : yT.per = n)
    (hA : c.IsSymmetry (c.flipOf ((c.length + 1) % 2)) yA) (hB : c.IsSymmetry (c.flipOf (c.length % 2)) yB) (hpA : yA.per = 2) (hpB : yB.per = 2)
    (s : ℕ) (hs : s < c.size) :
    let b := refT_ZA_ZB (shiftOf w T c) (flipAOf c) (flipBOf c) (flipAllOf w c) c.length T s
    IsReference [yT, yA, yB] s [b.l % n, b.g % 2, b.g / 2] b.r b.sign := by
  have hTL : T ≤ c.length := by rw [hL]; exact Nat.le_mul_of_pos_right _ hn
  have hft := shift_isSymmetry h T hT hTL n yT.q
  have ha : Acts (· < c.size) [gen (shiftOf w T c) n yT.q, gen (flipAOf c) 2 yA.q, gen (flipBOf c) 2 yB.q] :=
    three_acts h (shift_site c T n hT hn hL) (sub_site c _ hf) (sub_site c _ hf) hft (subA_isSymmetry h hf 2 _) (subB_isSymmetry h hf 2 _)
      (shift_sub c T n _ hf heven hn hL) (shift_sub c T n _ hf heven hn hL) (sub_sub c _ _ hf)
  have hdiv : c.length / T = n := by rw [hL, Nat.mul_div_cancel_left _ hT]
  exact reference_congr (.cons (isSymmetry_agree (shift_site c T n hT hn hL) hft hy hyp.symm rfl)
    (.cons (isSymmetry_agree (sub_site c _ hf) (subA_isSymmetry h hf 2 _) hA hpA.symm rfl)
    (.cons (isSymmetry_agree (sub_site c _ hf) (subB_isSymmetry h hf 2 _) hB hpB.symm rfl) .nil))) ha hs
    (ref_tzz ha hdiv s hs (sublattices h hf s hs))

/-- reflection times inversion without fermions -/
theorem product_ref {w : Option ℕ} {c : Spec.Chain} (h : Fits w c) (hf : c.fermions = false) {yP yZ : Generator}
    (hP : c.IsSymmetry c.parity yP) (hZ : c.IsSymmetry c.flip yZ) (hpP : yP.per = 2) (hpZ : yZ.per = 2) (q : Int) (s : ℕ) (hs : s < c.size) :
    let b := refPZ (flipLROf w c) (flipAllOf w c) s
    IsReference [both yZ yP q] s [b.g] b.r b.sign := by
  have hF : HasFlip c := by cases c <;> trivial
  have ha : Acts (· < c.size) [yP, yZ] := pair_acts h (hpP ▸ parity_site c) (hpZ ▸ flip_site c hF) hP hZ (parity_flip c)
  have hb := both_acts ha hpZ hpP q
  have aP' := isSymmetry_agree (parity_site c) hP (parity_isSymmetry h yP.per yP.q) rfl rfl
  have aZ' := isSymmetry_agree (flip_site c hF) hZ (flip_isSymmetry h hF yZ.per yZ.q) rfl rfl
  have hag : List.Forall₂ (Agree (· < c.size)) [both yZ yP q] [gen (fun s => step (flipAllOf w c) (step (flipLROf w c) (s, 1))) 2 q] := by
    refine .cons ⟨rfl, rfl, fun t ht => ?_, fun t ht => ?_⟩ .nil
    · have h1 := aP'.img t ht
      have h2 := aZ'.img _ (ha.closed yP (by simp) t ht)
      show yZ.img (yP.img t) = (flipAllOf w c ((flipLROf w c t).1)).1
      rw [h2, h1]; rfl
    · have h1 := aP'.img t ht
      have h1' := aP'.sgn t ht
      have h2 := aZ'.sgn _ (ha.closed yP (by simp) t ht)
      show yP.sgn t * yZ.sgn (yP.img t) = 1 * (flipLROf w c t).2 * (flipAllOf w c ((flipLROf w c t).1)).2
      rw [h2, h1, h1', one_mul]; rfl
  have hag' : List.Forall₂ (Agree (· < c.size)) [gen (fun s => step (flipAllOf w c) (step (flipLROf w c) (s, 1))) 2 q] [both yZ yP q] := by
    cases hag with
    | cons h1 _ => exact .cons ⟨h1.per.symm, h1.q.symm, fun t ht => (h1.img t ht).symm, fun t ht => (h1.sgn t ht).symm⟩ .nil
  have hg := acts_congr hag hb
  have key := ref_two _ q hg s hs
  have hsgn : (step (flipAllOf w c) (step (flipLROf w c) (s, 1))).2 = 1 := by
    have h1 := (parity_isSymmetry h 2 0).sgn s hs
    have h2 := (flip_isSymmetry h hF 2 0).sgn _ (by
      have := ha.closed yP (by simp) s hs
      rw [aP'.img s hs] at this
      exact this)
    rw [hf] at h1 h2
    show 1 * (flipLROf w c s).2 * (flipAllOf w c ((flipLROf w c s).1)).2 = 1
    have e1 : (flipLROf w c s).2 = 1 := h1
    have e2 : (flipAllOf w c ((flipLROf w c s).1)).2 = 1 := h2
    rw [e1, e2]; rfl
  have e : refPZ (flipLROf w c) (flipAllOf w c) s = refP (fun s => step (flipAllOf w c) (step (flipLROf w c) (s, 1))) s := by
    have e0 : step (fun s => step (flipAllOf w c) (step (flipLROf w c) (s, 1))) (s, 1) = step (flipAllOf w c) (step (flipLROf w c) (s, 1)) := by
      simp [step]
    unfold refPZ refP
    simp only [e0, hsgn]
  rw [← e] at key
  exact reference_congr hag' hg hs key

end Proof.Chain
