import Verif.Model.Tensor
import Verif.Spec.Kronecker
import Mathlib.Tactic.Ring
import Mathlib.Tactic.Linarith
import Mathlib.Algebra.BigOperators.Ring.List

namespace Proof.Tensor
open Model.Tensor Spec.Kronecker

/-! ### Stored numbers -/

theorem bmod_eq {x : ℤ} {w : ℕ} (h1 : -2 ^ w ≤ x) (h2 : x < 2 ^ w) : Int.bmod x (2 ^ (w + 1)) = x := by
  have e : (2 : ℤ) ^ (w + 1) = 2 * 2 ^ w := by rw [pow_succ]; ring
  apply Int.bmod_eq_of_le_mul_two <;> push_cast <;> omega

/-- Numbers that fit are stored unchanged. -/
theorem store_eq {Ns : ℕ} {x : ℤ} (h1 : -(Ns : ℤ) ≤ x) (h2 : x < Ns) : store Ns x = x := by
  unfold store width
  split_ifs with h3 h3 h3 h3
  · exact bmod_eq (w := 7) (by omega) (by omega)
  · exact bmod_eq (w := 15) (by omega) (by omega)
  · exact bmod_eq (w := 31) (by omega) (by omega)
  · exact bmod_eq (w := 63) (by omega) (by omega)
  · rfl

/-! ### Kronecker products -/

theorem entry_sum (l : List (ℂ × ℤ × ℤ)) (r c : ℤ) : entry l r c = (l.map fun t => if t.2.1 = r ∧ t.2.2 = c then t.1 else 0).sum := by
  unfold entry
  induction l with
  | nil => rfl
  | cons t l ih =>
    rw [List.map_cons, List.sum_cons, ← ih, List.filter_cons]
    by_cases h : t.2.1 = r ∧ t.2.2 = c
    · simp [h]
    · rw [if_neg h, if_neg (by simpa using h), zero_add]

theorem sum_flatMap {α β : Type} (l : List α) (g : α → List β) (f : β → ℂ) :
    ((l.flatMap g).map f).sum = (l.map fun x => ((g x).map f).sum).sum := by
  induction l with
  | nil => rfl
  | cons a l ih => rw [List.flatMap_cons, List.map_append, List.sum_append, ih, List.map_cons, List.sum_cons]

theorem sum_mul_sum (l m : List (ℂ × ℤ × ℤ)) (f g : ℂ × ℤ × ℤ → ℂ) :
    (l.map fun x => (m.map fun y => f x * g y).sum).sum = (l.map f).sum * (m.map g).sum := by
  induction l with
  | nil => simp
  | cons a l ih =>
    rw [List.map_cons, List.sum_cons, ih, List.map_cons, List.sum_cons, add_mul, List.sum_map_mul_left]

theorem pair_eq {n : ℕ} {x y a b : ℤ} (hy : 0 ≤ y ∧ y < n) (hb : 0 ≤ b ∧ b < n) : x * n + y = a * n + b ↔ x = a ∧ y = b := by
  constructor
  · intro h
    have hn : (0 : ℤ) < n := by omega
    have e1 : (x * n + y) / n = x := by
      rw [add_comm, Int.add_mul_ediv_right _ _ hn.ne', Int.ediv_eq_zero_of_lt hy.1 hy.2, zero_add]
    have e2 : (a * n + b) / n = a := by
      rw [add_comm, Int.add_mul_ediv_right _ _ hn.ne', Int.ediv_eq_zero_of_lt hb.1 hb.2, zero_add]
    have : x = a := by rw [← e1, ← e2, h]
    subst this
    exact ⟨rfl, by omega⟩
  · rintro ⟨rfl, rfl⟩; rfl

theorem pair_bounds {n m : ℕ} {x y : ℤ} (hx : 0 ≤ x ∧ x < n) (hy : 0 ≤ y ∧ y < m) : 0 ≤ x * m + y ∧ x * m + y < (n * m : ℕ) := by
  constructor
  · have := mul_nonneg hx.1 (show (0 : ℤ) ≤ m by omega)
    omega
  · have h1 : (x + 1) * m ≤ n * m := mul_le_mul_of_nonneg_right (by omega) (by omega)
    push_cast
    nlinarith

theorem stored_pair {n m : ℕ} {x y : ℤ} (hx : 0 ≤ x ∧ x < n) (hy : 0 ≤ y ∧ y < m) :
    store (n * m) (store (n * m) (store (n * m) x * m) + store (n * m) y) = x * m + y := by
  have hm : (0 : ℤ) < m := by omega
  have hn : (0 : ℤ) < n := by omega
  have b := pair_bounds hx hy
  have b0 := pair_bounds (m := m) hx (y := 0) ⟨le_rfl, hm⟩
  rw [add_zero] at b0
  have hxm : x ≤ x * m := le_mul_of_one_le_right hx.1 (by omega)
  have e1 : store (n * m) x = x := store_eq (by omega) (by omega)
  have e2 : store (n * m) (x * m) = x * m := store_eq (by omega) (by omega)
  have hy' : y < (n * m : ℕ) := by
    have : (m : ℤ) ≤ n * m := le_mul_of_one_le_left hm.le (by omega)
    push_cast
    omega
  have e3 : store (n * m) y = y := store_eq (by omega) hy'
  rw [e1, e2, e3]
  exact store_eq (by omega) b.2

theorem take_idx (a b : List Char) (h : '|' ∉ a) : (a ++ '|' :: b).idxOf '|' = a.length := by
  rw [List.idxOf_append_of_notMem h, List.idxOf_cons_self, add_zero]

theorem op_split (left right : Basis) (o1 o2 : List Char) (x1 x2 : List ℕ) (J : ℂ) (h : '|' ∉ o1) (h1 : x1.length = o1.length)
    (h2 : x2.length = o2.length - o2.count '|') :
    op left right (o1 ++ '|' :: o2) (x1 ++ x2) J =
      (left.op o1 x1 (if left.Ns < right.Ns then J else 1)).bind fun l => (right.op o2 x2 (if left.Ns < right.Ns then 1 else J)).map fun r =>
        let st := store (left.Ns * right.Ns)
        l.flatMap fun x => r.map fun y =>
          (x.1 * y.1, st (st (st x.2.1 * right.Ns) + st y.2.1), st (st (st x.2.2 * right.Ns) + st y.2.2)) := by
  have hc : o1.count '|' = 0 := List.count_eq_zero.mpr h
  have hle := List.count_le_length (a := '|') (l := o2)
  unfold op
  rw [if_neg, if_neg]
  · dsimp only
    rw [take_idx _ _ h, List.take_left, ← h1, List.take_left, List.drop_left, h1]
    have : (o1 ++ '|' :: o2).drop (o1.length + 1) = o2 := by
      rw [List.drop_append]
      simp
    rw [this]
  · simp
  · rw [not_not, List.count_append, hc, List.count_cons_self, List.length_append, List.length_append, List.length_cons]
    omega

theorem op_entries {left right : Basis} {l r : List (ℂ × ℤ × ℤ)} (hl : Inside left.Ns l) (hr : Inside right.Ns r) :
    let st := store (left.Ns * right.Ns)
    let m := l.flatMap fun x => r.map fun y =>
      (x.1 * y.1, st (st (st x.2.1 * right.Ns) + st y.2.1), st (st (st x.2.2 * right.Ns) + st y.2.2))
    Inside (left.Ns * right.Ns) m ∧ ∀ a c : ℤ, ∀ b d : ℕ, b < right.Ns → d < right.Ns →
      entry m (a * right.Ns + b) (c * right.Ns + d) = entry l a c * entry r b d := by
  intro st m
  constructor
  · intro t ht
    simp only [m, List.mem_flatMap, List.mem_map] at ht
    obtain ⟨x, hx, y, hy, rfl⟩ := ht
    obtain ⟨x1, x2⟩ := hl x hx
    obtain ⟨y1, y2⟩ := hr y hy
    simp only [st]
    rw [stored_pair x1 y1, stored_pair x2 y2]
    exact ⟨pair_bounds x1 y1, pair_bounds x2 y2⟩
  · intro a c b d hb hd
    simp only [entry_sum, m]
    rw [sum_flatMap, ← sum_mul_sum]
    refine congrArg List.sum (List.map_congr_left fun x hx => ?_)
    rw [List.map_map]
    refine congrArg List.sum (List.map_congr_left fun y hy => ?_)
    obtain ⟨x1, x2⟩ := hl x hx
    obtain ⟨y1, y2⟩ := hr y hy
    simp only [Function.comp_apply, st]
    rw [stored_pair x1 y1, stored_pair x2 y2]
    simp only [pair_eq y1 (⟨by omega, by omega⟩ : (0 : ℤ) ≤ (b : ℤ) ∧ (b : ℤ) < right.Ns),
      pair_eq y2 (⟨by omega, by omega⟩ : (0 : ℤ) ≤ (d : ℤ) ∧ (d : ℤ) < right.Ns)]
    by_cases e1 : x.2.1 = a ∧ x.2.2 = c
    · by_cases e2 : y.2.1 = (b : ℤ) ∧ y.2.2 = (d : ℤ)
      · rw [if_pos e1, if_pos e2, if_pos ⟨⟨e1.1, e2.1⟩, e1.2, e2.2⟩]
      · rw [if_neg e2, if_neg (fun h => e2 ⟨h.1.2, h.2.2⟩), mul_zero]
    · rw [if_neg e1, if_neg (fun h => e1 ⟨h.1.1, h.2.1⟩), zero_mul]

/-! ### The oscillator -/

open Spec.Oscillator (raise lower number string element)

theorem raise_single (n : ℕ) (z : ℂ) : raise (Finsupp.single n z) = Finsupp.single (n + 1) (z * (Real.sqrt (n + 1) : ℂ)) := by
  unfold raise
  rw [Finsupp.lsum_single, LinearMap.smul_apply, Finsupp.lsingle_apply, Finsupp.smul_single, smul_eq_mul, mul_comm]

theorem lower_single (n : ℕ) (z : ℂ) : lower (Finsupp.single n z) = Finsupp.single (n - 1) (z * (Real.sqrt n : ℂ)) := by
  unfold lower
  rw [Finsupp.lsum_single, LinearMap.smul_apply, Finsupp.lsingle_apply, Finsupp.smul_single, smul_eq_mul, mul_comm]

theorem number_single (n : ℕ) (z : ℂ) : number (Finsupp.single n z) = Finsupp.single n (z * (n : ℂ)) := by
  unfold number
  rw [Finsupp.lsum_single, LinearMap.smul_apply, Finsupp.lsingle_apply, Finsupp.smul_single, smul_eq_mul, mul_comm]

/-- The type of the levels has room for all levels a string can reach. -/
def Room (Np n : ℕ) : Prop := ∀ w, width (Np + 1) = some w → Np + n < 2 ^ (w - 1)

theorem store_room {Np n : ℕ} (h : Room Np n) {x : ℤ} (h1 : -((Np + n : ℕ) : ℤ) ≤ x) (h2 : x ≤ (Np + n : ℕ)) : store (Np + 1) x = x := by
  unfold Room at h
  have hw : width (Np + 1) = some 8 ∨ width (Np + 1) = some 16 ∨ width (Np + 1) = some 32 ∨ width (Np + 1) = some 64 ∨
      width (Np + 1) = none := by
    unfold width
    split_ifs <;> simp
  unfold store
  rcases hw with hw | hw | hw | hw | hw <;> rw [hw]
  · have := h 8 hw
    exact bmod_eq (w := 7) (by omega) (by omega)
  · have := h 16 hw
    exact bmod_eq (w := 15) (by omega) (by omega)
  · have := h 32 hw
    exact bmod_eq (w := 31) (by omega) (by omega)
  · have := h 64 hw
    exact bmod_eq (w := 63) (by omega) (by omega)
  · rfl

theorem Room.mono {Np n m : ℕ} (h : Room Np n) (hm : m ≤ n) : Room Np m := fun w hw => by have := h w hw; omega

theorem absolute_room {Np n : ℕ} (h : Room Np n) {x : ℤ} (h1 : -((Np + n : ℕ) : ℤ) ≤ x) (h2 : x ≤ (Np + n : ℕ)) : absolute (Np + 1) x = |x| := by
  unfold absolute
  have := abs_le.mpr ⟨h1, h2⟩
  exact store_room h (by have := abs_nonneg x; omega) this

theorem sqrt_nat (n : ℕ) : sqrt (n : ℤ) = (Real.sqrt n : ℂ) := by
  unfold sqrt
  rw [if_pos (by omega)]
  simp

theorem symbols_string {Np : ℕ} (opstr : List Char) (X : Spec.Oscillator.Vec →ₗ[ℂ] Spec.Oscillator.Vec) (hX : string opstr = some X)
    (hr : Room Np opstr.length) (c : ℕ) (hc : c ≤ Np) :
    ∃ z k, symbols (Np + 1) opstr (1, (c : ℤ)) = some (z, k) ∧ (c : ℤ) - opstr.length ≤ k ∧ k ≤ (c : ℤ) + opstr.length ∧
      (0 ≤ k → X (Finsupp.single c 1) = Finsupp.single k.toNat z) ∧ (k < 0 → X (Finsupp.single c 1) = 0 ∧ z = 0) := by
  induction opstr generalizing X with
  | nil =>
    obtain rfl := Option.some.inj hX
    exact ⟨1, c, rfl, by simp, by simp, fun _ => by simp, fun h => by omega⟩
  | cons o os ih =>
    unfold string at hX
    obtain ⟨x, hx, hX⟩ := Option.bind_eq_some_iff.mp hX
    obtain ⟨Y, hY, rfl⟩ := Option.map_eq_some_iff.mp hX
    rw [List.length_cons] at hr
    obtain ⟨z, k, hs, h1, h2, h3, h4⟩ := ih Y hY (hr.mono (by omega))
    have hstore {y : ℤ} (a : (c : ℤ) - (os.length + 1) ≤ y) (b : y ≤ (c : ℤ) + (os.length + 1)) : store (Np + 1) y = y :=
      store_room hr (by push_cast; omega) (by push_cast; omega)
    have habs {y : ℤ} (a : (c : ℤ) - (os.length + 1) ≤ y) (b : y ≤ (c : ℤ) + (os.length + 1)) : absolute (Np + 1) y = |y| :=
      absolute_room hr (by push_cast; omega) (by push_cast; omega)
    unfold symbols
    rw [hs, Option.bind_some]
    simp only [LinearMap.comp_apply, List.length_cons]
    push_cast
    unfold Spec.Oscillator.symbol at hx
    unfold symbol
    split at hx
    · obtain rfl := Option.some.inj hx
      rw [if_pos rfl]
      exact ⟨z, k, rfl, by omega, by omega, h3, h4⟩
    · obtain rfl := Option.some.inj hx
      rw [if_neg (by decide), if_pos rfl]
      refine ⟨_, _, rfl, by omega, by omega, ?_, ?_⟩
      · intro hk
        simp only at hk
        rw [h3 hk, number_single, habs (by omega) (by omega), abs_of_nonneg hk]
        congr 2
        exact_mod_cast (Int.toNat_of_nonneg hk)
      · intro hk
        simp only at hk
        obtain ⟨e1, rfl⟩ := h4 hk
        rw [e1]
        simp
    · obtain rfl := Option.some.inj hx
      rw [if_neg (by decide), if_neg (by decide), if_pos rfl]
      simp only
      rw [hstore (by omega) (by omega), habs (by omega) (by omega)]
      refine ⟨_, _, rfl, by omega, by omega, ?_, ?_⟩
      · intro hk
        rcases lt_or_ge k 0 with hneg | hneg
        · obtain ⟨e1, rfl⟩ := h4 hneg
          rw [e1]
          simp
        · rw [h3 hneg, raise_single]
          obtain ⟨j, rfl⟩ := Int.eq_ofNat_of_zero_le hneg
          have e : |((j : ℤ) + 1)| = ((j + 1 : ℕ) : ℤ) := by rw [abs_of_nonneg (by omega)]; push_cast; rfl
          rw [e, sqrt_nat]
          have e2 : ((j : ℤ) + 1).toNat = j + 1 := by omega
          rw [e2, Int.toNat_natCast]
          push_cast
          rfl
      · intro hk
        obtain ⟨e1, rfl⟩ := h4 (by omega)
        rw [e1]
        simp
    · obtain rfl := Option.some.inj hx
      rw [if_neg (by decide), if_neg (by decide), if_neg (by decide), if_pos rfl]
      simp only
      rw [hstore (by omega) (by omega), habs (by omega) (by omega)]
      refine ⟨_, _, rfl, by omega, by omega, ?_, ?_⟩
      · intro hk
        rw [h3 (by omega), lower_single]
        obtain ⟨j, rfl⟩ := Int.eq_ofNat_of_zero_le (show 0 ≤ k by omega)
        have e : |(j : ℤ)| = (j : ℤ) := abs_of_nonneg (by omega)
        rw [e, sqrt_nat]
        congr 1
        omega
      · intro hk
        rcases lt_or_ge k 0 with hneg | hneg
        · obtain ⟨e1, rfl⟩ := h4 hneg
          rw [e1]
          simp
        · obtain rfl : k = 0 := by omega
          rw [h3 le_rfl, lower_single]
          simp [sqrt]
    · exact absurd hx (by simp)

theorem mapM_some {α β : Type} (f : α → Option β) (l : List α) (g : α → β) (h : ∀ a ∈ l, f a = some (g a)) : l.mapM f = some (l.map g) := by
  induction l with
  | nil => rfl
  | cons a l ih =>
    rw [List.mapM_cons, h a List.mem_cons_self, ih fun b hb => h b (List.mem_cons_of_mem _ hb)]
    rfl

/-- One column: the element and its row. -/
theorem column_string {Np : ℕ} (opstr : List Char) (X : Spec.Oscillator.Vec →ₗ[ℂ] Spec.Oscillator.Vec) (hX : string opstr = some X)
    (hr : Room Np opstr.length) (J : ℂ) (c : ℕ) (hc : c ≤ Np) :
    ∃ me : ℂ, ∃ row : ℕ, column (Np + 1) opstr J c = some (me, (row : ℤ), (c : ℤ)) ∧ row ≤ Np ∧
      ∀ m ≤ Np, J * element X m c = if m = row then me else 0 := by
  obtain ⟨z, k, hs, h1, h2, h3, h4⟩ := symbols_string opstr X hX hr c hc
  have hst : store (Np + 1) (c : ℤ) = c := store_room hr (by push_cast; omega) (by push_cast; omega)
  unfold column
  rw [hst, hs, Option.map_some]
  simp only
  by_cases hk : k < 0 ∨ ((Np + 1 : ℕ) : ℤ) ≤ k
  · rw [if_pos hk]
    refine ⟨0, c, by rw [zero_mul], hc, fun m hm => ?_⟩
    rw [ite_self]
    unfold element
    rcases hk with hk | hk
    · rw [(h4 hk).1]
      simp
    · rw [h3 (by omega), Finsupp.single_eq_of_ne (by omega), mul_zero]
  · rw [if_neg hk]
    rw [not_or] at hk
    obtain ⟨j, rfl⟩ := Int.eq_ofNat_of_zero_le (show 0 ≤ k by omega)
    refine ⟨z * J, j, rfl, by omega, fun m hm => ?_⟩
    unfold element
    rw [h3 (by omega), Int.toNat_natCast, Finsupp.single_apply]
    by_cases e : m = j
    · rw [if_pos e, if_pos e.symm, mul_comm]
    · rw [if_neg e, if_neg (fun h => e h.symm), mul_zero]

end Proof.Tensor
